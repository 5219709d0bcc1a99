import Mathlib.Algebra.Order.Field.Basic
import Mathlib.Algebra.BigOperators.Ring.Finset
import Mathlib.Data.Fintype.BigOperators

/-! # Specification: the scaled simplex, squared distance, sparsity (no reference to the code) -/

namespace POT.Spec

open Finset

variable {R : Type*} [Field R] [LinearOrder R] {n : ℕ}

/-- `y` belongs to the simplex of size `z`: non-negative entries of sum `z`. -/
structure InSimplex (z : R) (y : Fin n → R) : Prop where
  nonneg : ∀ i, 0 ≤ y i
  sum : ∑ i, y i = z

/-- Squared Euclidean distance. -/
def sqDist {d : ℕ} (x y : Fin d → R) : R := ∑ i, (x i - y i) ^ 2

/-- number of non-zero entries -/
def nnz (y : Fin n → R) : ℕ := (univ.filter fun i => y i ≠ 0).card

end POT.Spec
