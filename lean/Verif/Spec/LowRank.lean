import Verif.Spec.Entropic
import Verif.Spec.Barycenter

/-! # Specification vocabulary: couplings of low non-negative rank -/

namespace POT.Spec

open Finset

variable {I J K : Type*} [Fintype I] [Fintype J] [Fintype K]

/-- `Q` couples `a` with `g`, `R` couples `b` with `g`, and the inner weights `g` are at least `α`. -/
structure IsLowRank (a : I → ℝ) (b : J → ℝ) (α : ℝ) (Q : I → K → ℝ) (R : J → K → ℝ) (g : K → ℝ) : Prop where
  left : IsCoupling a g Q
  right : IsCoupling b g R
  lower : ∀ k, α ≤ g k

/-- `KL(Q | E₁) + KL(R | E₂) + KL(g | e)` -/
noncomputable def lrDivergence (E₁ : I → K → ℝ) (E₂ : J → K → ℝ) (e : K → ℝ) (Q : I → K → ℝ) (R : J → K → ℝ) (g : K → ℝ) : ℝ := klPlan Q E₁ + klPlan R E₂ + klDivergence g e

/-- `(Q, R, g)` is the only minimiser of the divergence among the low-rank factors. -/
def IsLrProjection (a : I → ℝ) (b : J → ℝ) (α : ℝ) (E₁ : I → K → ℝ) (E₂ : J → K → ℝ) (e : K → ℝ) (Q : I → K → ℝ) (R : J → K → ℝ) (g : K → ℝ) : Prop :=
  IsLowRank a b α Q R g ∧ ∀ Q' R' g', IsLowRank a b α Q' R' g' →
    lrDivergence E₁ E₂ e Q R g ≤ lrDivergence E₁ E₂ e Q' R' g' ∧ (lrDivergence E₁ E₂ e Q' R' g' ≤ lrDivergence E₁ E₂ e Q R g → Q' = Q ∧ R' = R ∧ g' = g)

/-- The plan `Q diag(1/g) Rᵀ`. -/
noncomputable def lrPlan (Q : I → K → ℝ) (R : J → K → ℝ) (g : K → ℝ) : I → J → ℝ := fun i j => ∑ k, Q i k * R j k / g k

/-- The objective of low-rank entropic transport: the cost of the plan plus `reg` times the negative entropies of the three factors. -/
noncomputable def lrObjective (C : I → J → ℝ) (reg : ℝ) (Q : I → K → ℝ) (R : J → K → ℝ) (g : K → ℝ) : ℝ :=
  cost C (lrPlan Q R g) + reg * (∑ i, ∑ k, Q i k * (Real.log (Q i k) - 1) + ∑ j, ∑ k, R j k * (Real.log (R j k) - 1) + ∑ k, g k * (Real.log (g k) - 1))

end POT.Spec
