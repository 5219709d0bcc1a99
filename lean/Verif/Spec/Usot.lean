import Verif.Spec.Uot1d
import Mathlib.Algebra.BigOperators.Field
import Mathlib.Analysis.SpecialFunctions.Pow.Real

/-! # Specification vocabulary: unbalanced transport averaged over projections -/

namespace POT.Spec

open Finset

variable {I J D : Type*} [Fintype I] [Fintype J] [Fintype D] {L : ℕ}

/-- The cost of slice `k`: distances between projections, to the power `p`. -/
noncomputable def sliceCost (p : ℝ) (X : I → D → ℝ) (Y : J → D → ℝ) (θ : Fin L → D → ℝ) (k : Fin L) (i : I) (j : J) : ℝ :=
  |∑ d, X i d * θ k d - ∑ d, Y j d * θ k d| ^ p

/-- Average over the slices. -/
noncomputable def average (c : Fin L → ℝ) : ℝ := (∑ k, c k) / L

/-- Marginals that compete: an infinite parameter fixes them. -/
structure Competes (a : I → ℝ) (b : J → ℝ) (ρ₁ ρ₂ : Option ℝ) (x : I → ℝ) (y : J → ℝ) : Prop where
  nonneg₁ : ∀ i, 0 ≤ x i
  nonneg₂ : ∀ j, 0 ≤ y j
  fixed₁ : ρ₁ = none → x = a
  fixed₂ : ρ₂ = none → y = b

/-- Averaged cost of the plans plus the penalties of their common marginals. -/
noncomputable def usotObjective (a : I → ℝ) (b : J → ℝ) (M : Fin L → I → J → ℝ) (ρ₁ ρ₂ : Option ℝ) (x : I → ℝ) (y : J → ℝ) (P : Fin L → I → J → ℝ) : ℝ :=
  average (fun k => cost (M k) (P k)) + marginalTerm ρ₁ x a + marginalTerm ρ₂ y b

/-- Averages of pairs of potentials each feasible for its slice. -/
def AverageFeasible (M : Fin L → I → J → ℝ) (f : I → ℝ) (g : J → ℝ) : Prop :=
  ∃ (F : Fin L → I → ℝ) (G : Fin L → J → ℝ), (∀ k, DualFeasible (M k) (F k) (G k)) ∧ (∀ i, f i = average fun k => F k i) ∧ ∀ j, g j = average fun k => G k j

end POT.Spec
