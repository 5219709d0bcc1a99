import Verif.Spec.GwPartialEntropic

/-! # Specification vocabulary: the problems `ot.solve_gromov` chooses from -/

namespace POT.Spec

open Finset

variable {I J : Type*} [Fintype I] [Fintype J]

/-- Which marginal constraints the plan has to satisfy. -/
inductive GwKind where
  | balanced
  | semirelaxed
  | partialMass (m : ℝ)

/-- The plans allowed. -/
def GwKind.Feasible (p : I → ℝ) (q : J → ℝ) : GwKind → (I → J → ℝ) → Prop
  | .balanced, T => IsCoupling p q T
  | .semirelaxed, T => (∀ i j, 0 ≤ T i j) ∧ ∀ i, ∑ j, T i j = p i
  | .partialMass m, T => IsPartialOf p q m T

/-- The default start: the product of the weights, scaled to the mass of the problem; for the semi-relaxed problem the second weight is uniform. -/
noncomputable def GwKind.product (p : I → ℝ) (q : J → ℝ) : GwKind → I → J → ℝ
  | .balanced => fun i j => p i * q j
  | .semirelaxed => fun i _ => p i * (1 / Fintype.card J)
  | .partialMass m => fun i j => p i * q j * m / ((∑ i, p i) * ∑ j, q j)

/-- `∑ T log (T + guard)` -/
noncomputable def guardedEntropy (guard : ℝ) (T : I → J → ℝ) : ℝ := ∑ i, ∑ j, T i j * Real.log (T i j + guard)

end POT.Spec
