import Mathlib.Algebra.Order.Field.Basic
import Mathlib.Algebra.BigOperators.Group.List.Basic
import Mathlib.Data.List.Nodup

/-! # Matchings between two samples on the line -/

namespace POT.Spec

variable {R : Type*} [Field R] [LinearOrder R]

/-- `s` sorts the `n` values of `x`: a permutation of the indices along which `x` does not decrease (`np.argsort`, ties in any order) -/
structure IsArgsort (x : ℕ → R) (n : ℕ) (s : ℕ → ℕ) : Prop where
  lt : ∀ k, k < n → s k < n
  inj : ∀ k l, k < n → l < n → s k = s l → k = l
  sorted : ∀ k l, k ≤ l → l < n → x (s k) ≤ x (s l)

/-- pairs (index of a point of the first sample, index of a point of the second sample) in which no point is used twice -/
structure IsMatching (n m : ℕ) (l : List (ℕ × ℕ)) : Prop where
  fst : (l.map Prod.fst).Nodup
  snd : (l.map Prod.snd).Nodup
  bound : ∀ e ∈ l, e.1 < n ∧ e.2 < m

/-- `∑ |x_i - y_j|^p` over the pairs -/
def matchCost (x y : ℕ → R) (p : ℕ) (l : List (ℕ × ℕ)) : R := (l.map fun e => |x e.1 - y e.2| ^ p).sum

end POT.Spec
