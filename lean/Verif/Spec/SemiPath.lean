import Mathlib.Data.Real.Basic
import Mathlib.Algebra.BigOperators.Fin

/-! # Specification: semi-relaxed transport with a quadratic penalty -/

namespace POT.Spec

open Finset

variable {I J : Type*} [Fintype I] [Fintype J]

/-- `γ ⟨C, T⟩ + ½ ‖T 1 - a‖²` -/
noncomputable def semiRelaxedL2 (a : I → ℝ) (C : I → J → ℝ) (γ : ℝ) (T : I → J → ℝ) : ℝ := γ * (∑ i, ∑ j, C i j * T i j) + 1 / 2 * ∑ i, (∑ j, T i j - a i) ^ 2

/-- The plans of the semi-relaxed problem: nonnegative, with column sums `b`. -/
def IsColumnPlan (b : J → ℝ) (T : I → J → ℝ) : Prop := (∀ i j, 0 ≤ T i j) ∧ ∀ j, ∑ i, T i j = b j

/-- `T` is optimal for the semi-relaxed problem with penalty parameter `γ`. -/
def IsSemiL2Optimal (a : I → ℝ) (b : J → ℝ) (C : I → J → ℝ) (γ : ℝ) (T : I → J → ℝ) : Prop :=
  IsColumnPlan b T ∧ ∀ T', IsColumnPlan b T' → semiRelaxedL2 a C γ T ≤ semiRelaxedL2 a C γ T'

end POT.Spec
