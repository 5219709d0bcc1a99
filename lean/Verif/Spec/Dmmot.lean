import Mathlib.Algebra.BigOperators.Fin
import Mathlib.Algebra.Order.Field.Basic
import Mathlib.Data.Fintype.Pi
import Mathlib.Data.Finset.Lattice.Fold

/-! # Specification vocabulary: multi-marginal transport of histograms on a common grid -/

namespace POT.Spec

open Finset

variable {K : Type*} [Field K] [LinearOrder K] [IsStrictOrderedRing K] {d n : ℕ}

/-- The generalized earth mover's cost of a tuple of bins: largest minus smallest bin. -/
def spread (k : Fin (d + 1) → Fin n) : K :=
  ((univ.sup' univ_nonempty fun j => (k j : ℕ) : ℕ) : K) - ((univ.inf' univ_nonempty fun j => (k j : ℕ) : ℕ) : K)

/-- `Q` is a non-negative tensor whose `j`-th marginal is the histogram `A j`. -/
structure IsMultiCoupling (A : Fin (d + 1) → Fin n → K) (Q : (Fin (d + 1) → Fin n) → K) : Prop where
  nonneg : ∀ k, 0 ≤ Q k
  marginal : ∀ j b, ∑ k with k j = b, Q k = A j b

/-- total cost of a tensor -/
def multiCost (Q : (Fin (d + 1) → Fin n) → K) : K := ∑ k, spread k * Q k

/-- value of potentials `z` -/
def multiDual (A z : Fin (d + 1) → Fin n → K) : K := ∑ j, ∑ b, A j b * z j b

/-- feasibility in the dual linear program -/
def MultiFeasible (z : Fin (d + 1) → Fin n → K) : Prop := ∀ k : Fin (d + 1) → Fin n, ∑ j, z j (k j) ≤ spread k

end POT.Spec
