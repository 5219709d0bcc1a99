import Mathlib.Data.Real.Basic
import Mathlib.Algebra.BigOperators.Group.Finset.Basic
import Mathlib.Data.Fintype.BigOperators

/-! # Specification vocabulary: quadratically penalised unbalanced transport -/

namespace POT.Spec

open Finset

variable {I J : Type*} [Fintype I] [Fintype J]

/-- `γ ⟨C, T⟩ + ½ ‖T 1 - a‖² + ½ ‖Tᵀ 1 - b‖²`. -/
noncomputable def l2Unbalanced (a : I → ℝ) (b : J → ℝ) (C : I → J → ℝ) (γ : ℝ) (T : I → J → ℝ) : ℝ :=
  γ * ∑ i, ∑ j, C i j * T i j + 1 / 2 * ∑ i, (∑ j, T i j - a i) ^ 2 + 1 / 2 * ∑ j, (∑ i, T i j - b j) ^ 2

/-- `T` is non-negative and minimises the penalised problem over the non-negative plans. -/
def IsL2Optimal (a : I → ℝ) (b : J → ℝ) (C : I → J → ℝ) (γ : ℝ) (T : I → J → ℝ) : Prop :=
  (∀ i j, 0 ≤ T i j) ∧ ∀ T' : I → J → ℝ, (∀ i j, 0 ≤ T' i j) → l2Unbalanced a b C γ T ≤ l2Unbalanced a b C γ T'

end POT.Spec
