import Mathlib.Algebra.Order.Floor.Ring
import Mathlib.Algebra.Order.Field.Basic
import Mathlib.Algebra.BigOperators.Fin
import Mathlib.Data.Fin.Tuple.Basic
import Mathlib.Data.Finset.Max
import Mathlib.Order.Interval.Finset.Fin
import Mathlib.Logic.Equiv.Basic

/-!
# Model of the closed-form solvers of `ot/lp/solver_circle.py`

One batch entry, exact arithmetic in an ordered field with a floor.  Weights are given (the default is `1/n`).  `argsort`/`sort2` are arbitrary permutations; the theorems assume
that they sort.
-/

set_option linter.unusedSectionVars false

namespace POT.Circle

open Finset

variable {K : Type*} [Field K] [LinearOrder K] [IsStrictOrderedRing K] [FloorRing K]

/-- `nx.argmin` of a vector in which the negative entries were replaced by infinity: the first position of the smallest non-negative entry, `0` if there is none
(ot/lp/solver_circle.py 529-530) -/
def argminNonneg {N : ℕ} (f : Fin (N + 1) → K) : Fin (N + 1) :=
  if h : (univ.filter fun l => 0 ≤ f l ∧ ∀ l', 0 ≤ f l' → f l ≤ f l').Nonempty then (univ.filter fun l => 0 ≤ f l ∧ ∀ l', 0 ≤ f l' → f l ≤ f l').min' h else 0

/-- `values_sorted` with the value `1` appended, and its increments (ot/lp/solver_circle.py 514, 524-525) -/
def deltas {N : ℕ} (z : Fin (N + 1) → K) : Fin (N + 1) → K := fun k => (if h : (k : ℕ) + 1 < N + 1 then z ⟨k + 1, h⟩ else 1) - z k

/-- `cdf_diff` (ot/lp/solver_circle.py 516-521) -/
def cdfs {N : ℕ} (w : Fin (N + 1) → K) : Fin (N + 1) → K := fun k => ∑ l ∈ Iic k, w l

/-- the level median and the integral (ot/lp/solver_circle.py 522-534) -/
def w1Sorted {N : ℕ} (z w : Fin (N + 1) → K) (sd : Equiv.Perm (Fin (N + 1))) : K :=
  let delta := deltas z
  let cdf := cdfs w
  let sumWeights := fun l => ∑ l' ∈ Iic l, delta (sd l') - 1 / 2
  let levMed := cdf (sd (argminNonneg sumWeights))
  ∑ k, delta k * |cdf k - levMed|

/-- `wasserstein1_circle` (ot/lp/solver_circle.py 488-534) for `n + 1` and `m + 1` samples; `su`, `sv`, `sz`, `sd` are the permutations found by the four sorts -/
def wasserstein1Circle {n m : ℕ} (u : Fin (n + 1) → K) (v : Fin (m + 1) → K) (uw : Fin (n + 1) → K) (vw : Fin (m + 1) → K) (su : Equiv.Perm (Fin (n + 1)))
    (sv : Equiv.Perm (Fin (m + 1))) (sz sd : Equiv.Perm (Fin (n + 1 + m + 1))) : K :=
  let values := Fin.append (fun i => Int.fract (u (su i))) (fun j => Int.fract (v (sv j)))
  let weights := Fin.append (fun i => uw (su i)) (fun j => -vw (sv j))
  w1Sorted (N := n + 1 + m) (fun k => values (sz k)) (fun k => weights (sz k)) sd

/-- `semidiscrete_wasserstein2_unif_circle` (ot/lp/solver_circle.py 681-705); `su` sorts the values, the weights stay in the given order -/
def semidiscrete {n : ℕ} (u w : Fin n → K) (su : Equiv.Perm (Fin n)) : K :=
  let x := fun i => Int.fract (u (su i))
  let cdf := fun i => ∑ l ∈ Iio i, w l
  let cpt1 := ∑ i, w i * x i ^ 2
  let mean := ∑ i, w i * x i
  let cpt2 := ∑ i, x i * w i * (1 - w i - 2 * cdf i)
  cpt1 - mean ^ 2 + cpt2 + 1 / 12

/-- `quantile_function` (ot/lp/solver_1d.py 23-58) with `n` values and `n + 1` cumulative weights, as it is called by `linear_circular_embedding` -/
def quantile {n : ℕ} (q : K) (cws : Fin (n + 2) → K) (xs : Fin (n + 1) → K) : K :=
  xs ⟨min ((univ.filter fun l => cws l < q).card) n, by omega⟩

/-- cumulative weights with a zero in front (ot/lp/solver_circle.py 754-755) -/
def paddedCdf {n : ℕ} (w : Fin (n + 1) → K) : Fin (n + 2) → K := fun l => ∑ i ∈ univ.filter (fun i : Fin (n + 1) => i.val < l.val), w i

/-- `linear_circular_embedding` at one point `x` (ot/lp/solver_circle.py 737-763) -/
def embedding {n : ℕ} (x : K) (u w : Fin (n + 1) → K) (su : Equiv.Perm (Fin (n + 1))) : K :=
  let xs := fun i => Int.fract (u (su i))
  let ws := fun i => w (su i)
  let q := x - ∑ i, xs i * ws i + 1 / 2
  Int.fract (quantile (Int.fract q) (paddedCdf ws) xs - x)

/-- the grid `linspace(0, 1, 101)[:-1]` (ot/lp/solver_circle.py 824) -/
def grid (g : Fin 100) : K := ((g : ℕ) : K) / 100

/-- `linear_circular_ot` between two measures (ot/lp/solver_circle.py 808-826, 831-846) -/
def linearCircularOt {n m : ℕ} (u : Fin (n + 1) → K) (v : Fin (m + 1) → K) (uw : Fin (n + 1) → K) (vw : Fin (m + 1) → K) (su : Equiv.Perm (Fin (n + 1)))
    (sv : Equiv.Perm (Fin (m + 1))) : K :=
  let d := fun g => |embedding (grid g) u uw su - embedding (grid g) v vw sv|
  (∑ g, min (d g) (1 - d g) ^ 2) / 100

/-- `linear_circular_ot` against the uniform measure (ot/lp/solver_circle.py 808-830) -/
def linearCircularOtUnif {n : ℕ} (u uw : Fin (n + 1) → K) (su : Equiv.Perm (Fin (n + 1))) : K :=
  let d := fun g => |embedding (grid g) u uw su|
  (∑ g, min (d g) (1 - d g) ^ 2) / 100

end POT.Circle
