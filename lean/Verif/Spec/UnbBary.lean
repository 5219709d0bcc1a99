import Verif.Spec.Unbalanced

/-! # Specification vocabulary: barycenters of unbalanced entropic transport -/

namespace POT.Spec

open Finset

variable {I J H : Type*} [Fintype I] [Fintype J] [Fintype H]

/-- `Σ_h w_h ( ⟨P_h, M⟩ + reg KL(P_h | 1) + ρ KL(P_h 1 | A_h) + ρ KL(P_hᵀ 1 | q) )`: the weighted sum of the unbalanced entropic objectives between the histograms `A_h` (columns of `A`) and `q`. -/
noncomputable def unbBaryObjective (A : I → H → ℝ) (w : H → ℝ) (M : I → J → ℝ) (reg ρ : ℝ) (q : J → ℝ) (P : H → I → J → ℝ) : ℝ :=
  ∑ h, w h * unbObjective (fun i => A i h) q M reg (fun _ _ => 1) (some ρ) (some ρ) (P h)

/-- The candidates: a non-negative barycenter and non-negative plans with finite divergences (no mass where the histogram, or the barycenter, has none). -/
structure UnbBaryCandidate (A : I → H → ℝ) (q : J → ℝ) (P : H → I → J → ℝ) : Prop where
  bary : ∀ j, 0 ≤ q j
  nonneg : ∀ h i j, 0 ≤ P h i j
  row : ∀ h i, A i h = 0 → ∀ j, P h i j = 0
  col : ∀ j, q j = 0 → ∀ h i, P h i j = 0

/-- `(q, P)` is the only minimiser of the barycenter objective. -/
def IsUnbBary (A : I → H → ℝ) (w : H → ℝ) (M : I → J → ℝ) (reg ρ : ℝ) (q : J → ℝ) (P : H → I → J → ℝ) : Prop :=
  UnbBaryCandidate A q P ∧ ∀ q' P', UnbBaryCandidate A q' P' →
    unbBaryObjective A w M reg ρ q P ≤ unbBaryObjective A w M reg ρ q' P' ∧
    (unbBaryObjective A w M reg ρ q' P' ≤ unbBaryObjective A w M reg ρ q P → q' = q ∧ P' = P)

end POT.Spec
