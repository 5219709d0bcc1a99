import Verif.Spec.Entropic

/-! # Specification vocabulary: unbalanced optimal transport -/

namespace POT.Spec

open Finset

variable {I J : Type*} [Fintype I] [Fintype J]

/-- `ρ * KL(p | q)`; an infinite parameter (`none`) contributes nothing to the objective, it is a constraint. -/
noncomputable def marginalTerm {K : Type*} [Fintype K] (ρ : Option ℝ) (p q : K → ℝ) : ℝ :=
  match ρ with
  | some r => r * klDivergence p q
  | none => 0

/-- `⟨P, M⟩ + reg KL(P | c) + ρ₁ KL(P 1 | a) + ρ₂ KL(Pᵀ 1 | b)`. -/
noncomputable def unbObjective (a : I → ℝ) (b : J → ℝ) (M : I → J → ℝ) (reg : ℝ) (c : I → J → ℝ) (ρ₁ ρ₂ : Option ℝ) (P : I → J → ℝ) : ℝ :=
  cost M P + reg * klPlan P c + marginalTerm ρ₁ (fun i => ∑ j, P i j) a + marginalTerm ρ₂ (fun j => ∑ i, P i j) b

/-- Plans that compete: non-negative, with the given row (column) sums if the corresponding parameter is infinite. -/
structure IsAdmissible (a : I → ℝ) (b : J → ℝ) (ρ₁ ρ₂ : Option ℝ) (P : I → J → ℝ) : Prop where
  nonneg : ∀ i j, 0 ≤ P i j
  row : ρ₁ = none → ∀ i, ∑ j, P i j = a i
  col : ρ₂ = none → ∀ j, ∑ i, P i j = b j

/-- `P` is the unique minimiser of the unbalanced objective. -/
def IsUnbOptimal (a : I → ℝ) (b : J → ℝ) (M : I → J → ℝ) (reg : ℝ) (c : I → J → ℝ) (ρ₁ ρ₂ : Option ℝ) (P : I → J → ℝ) : Prop :=
  IsAdmissible a b ρ₁ ρ₂ P ∧ ∀ Q, IsAdmissible a b ρ₁ ρ₂ Q →
    unbObjective a b M reg c ρ₁ ρ₂ P ≤ unbObjective a b M reg c ρ₁ ρ₂ Q ∧
    (unbObjective a b M reg c ρ₁ ρ₂ Q ≤ unbObjective a b M reg c ρ₁ ρ₂ P → Q = P)

end POT.Spec
