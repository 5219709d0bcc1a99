import Verif.Spec.Transport
import Verif.Spec.Entropic

/-! # Specification vocabulary: unbalanced transport with general penalties -/

namespace POT.Spec

open Finset

variable {I J : Type*} [Fintype I] [Fintype J]

/-- the penalty on the marginals -/
inductive MargPenalty
  | kl | l2 | tv

/-- Kullback-Leibler, half squared Euclidean, or total variation -/
noncomputable def MargPenalty.div {L : Type*} [Fintype L] : MargPenalty → (L → ℝ) → (L → ℝ) → ℝ
  | .kl, p, q => klDivergence p q
  | .l2, p, q => l2Divergence p q
  | .tv, p, q => ∑ l, |p l - q l|

/-- the regularisation of the plan -/
inductive PlanPenalty (I J : Type*)
  | kl | l2 | entropy
  | custom (f : (I → J → ℝ) → ℝ)

/-- Kullback-Leibler or half squared Euclidean distance to `c`, `∑ G log G - G`, or a user function -/
noncomputable def PlanPenalty.eval : PlanPenalty I J → (I → J → ℝ) → (I → J → ℝ) → ℝ
  | .kl, c, G => klPlan G c
  | .l2, c, G => (∑ i, ∑ j, (G i j - c i j) ^ 2) / 2
  | .entropy, _, G => ∑ i, ∑ j, (G i j * Real.log (G i j) - G i j)
  | .custom f, _, G => f G

/-- `⟨G, M⟩ + m₁ D(G 1 | a) + m₂ D(Gᵀ 1 | b) + reg R(G)` -/
noncomputable def penObjective (M : I → J → ℝ) (a : I → ℝ) (b : J → ℝ) (c : I → J → ℝ) (reg m₁ m₂ : ℝ) (D : MargPenalty) (R : PlanPenalty I J) (G : I → J → ℝ) : ℝ :=
  cost M G + m₁ * D.div (fun i => ∑ j, G i j) a + m₂ * D.div (fun j => ∑ i, G i j) b + reg * R.eval c G

/-- First-order conditions for minimising over non-negative plans: the gradient is non-negative and vanishes where the plan is positive. -/
def IsKkt (grad G : I → J → ℝ) : Prop := (∀ i j, 0 ≤ G i j) ∧ (∀ i j, 0 ≤ grad i j) ∧ ∀ i j, G i j * grad i j = 0

/-- The logarithms in the gradient are those of positive numbers: positive marginals for the Kullback-Leibler marginal penalty, a positive plan for the logarithmic regularisations. -/
def SmoothAt (reg : ℝ) (D : MargPenalty) (R : PlanPenalty I J) (G : I → J → ℝ) : Prop :=
  (match D with | .kl => (∀ i, 0 < ∑ j, G i j) ∧ ∀ j, 0 < ∑ i, G i j | _ => True) ∧
  (0 < reg → match R with | .kl => ∀ i j, 0 < G i j | .entropy => ∀ i j, 0 < G i j | _ => True)

end POT.Spec
