import Verif.Spec.Entropic

/-! # Specification vocabulary: joint estimation of class proportions -/

namespace POT.Spec

open Finset Classical

variable {Δ : Type*} {X : Δ → Type*} {C J : Type*} [Fintype Δ] [∀ d, Fintype (X d)] [Fintype C] [Fintype J]

/-- The proportions `h` spread over the samples of a domain: every class is divided evenly among its samples (`D₂ᵀ h`). -/
noncomputable def spreadProportions {X : Type*} [Fintype X] (ℓ : X → C) (h : C → ℝ) : X → ℝ :=
  fun i => h (ℓ i) / (univ.filter fun i' => ℓ i' = ℓ i).card

/-- `h` is a minimiser of the mean over the domains of the entropic transport cost between `h`, spread over the samples, and the target weights `a`: some plans attain a value that no other proportions undercut. -/
def IsProportions (ℓ : ∀ d, X d → C) (M : ∀ d, X d → J → ℝ) (a : J → ℝ) (reg : ℝ) (h : C → ℝ) : Prop :=
  ∃ P : ∀ d, X d → J → ℝ, (∀ d, IsCoupling (spreadProportions (ℓ d) h) a (P d)) ∧
    ∀ (q : C → ℝ) (Q : ∀ d, X d → J → ℝ), (∀ d, IsCoupling (spreadProportions (ℓ d) q) a (Q d)) →
      (∑ d, entropicObjective (M d) reg (P d)) / Fintype.card Δ ≤ (∑ d, entropicObjective (M d) reg (Q d)) / Fintype.card Δ

end POT.Spec
