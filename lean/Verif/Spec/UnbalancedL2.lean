import Verif.Spec.Unbalanced
import Verif.Spec.Divergence

/-! # Specification vocabulary: unbalanced transport with quadratic penalties -/

namespace POT.Spec

open Finset

variable {I J : Type*} [Fintype I] [Fintype J]

/-- `⟨P, M⟩ + ρ₁/2 ‖P 1 - a‖² + ρ₂/2 ‖Pᵀ 1 - b‖² + reg/2 ‖P - c‖²`. -/
noncomputable def unbObjectiveL2 (a : I → ℝ) (b : J → ℝ) (M : I → J → ℝ) (reg : ℝ) (c : I → J → ℝ) (ρ₁ ρ₂ : ℝ) (P : I → J → ℝ) : ℝ :=
  cost M P + ρ₁ * l2Divergence (fun i => ∑ j, P i j) a + ρ₂ * l2Divergence (fun j => ∑ i, P i j) b + reg * l2Divergence (fun x : I × J => P x.1 x.2) fun x => c x.1 x.2

end POT.Spec
