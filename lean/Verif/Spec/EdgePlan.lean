import Mathlib.Algebra.BigOperators.Group.Finset.Basic
import Mathlib.Algebra.Order.Field.Basic
import Mathlib.Data.Fintype.Basic

/-! # Transport restricted to a list of edges -/

namespace POT.Spec

variable {R : Type*} [Ring R] [LinearOrder R] {n1 n2 K : ℕ}

/-- `F k` is the mass moved along edge `k`, from point `src k` to point `tgt k`: it is nonnegative, empties every source and fills every
target. -/
structure IsEdgePlan (src : Fin K → Fin n1) (tgt : Fin K → Fin n2) (a : Fin n1 → R) (b : Fin n2 → R) (F : Fin K → R) : Prop where
  nonneg : ∀ k, 0 ≤ F k
  row : ∀ i, (∑ k, if src k = i then F k else 0) = a i
  col : ∀ j, (∑ k, if tgt k = j then F k else 0) = b j

/-- cost of an edge plan -/
def edgeCost (c F : Fin K → R) : R := ∑ k, F k * c k

/-- entry `(i, j)` of the sparse matrix given by a list of triples (repeated positions add up) -/
def cooEntry (l : List (Fin n1 × Fin n2 × R)) (i : Fin n1) (j : Fin n2) : R :=
  (l.map fun t => if t.1 = i ∧ t.2.1 = j then t.2.2 else 0).sum

end POT.Spec
