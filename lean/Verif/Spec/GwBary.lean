import Verif.Spec.Gromov
import Mathlib.Data.Real.Basic

/-! # Vocabulary for Gromov-Wasserstein barycenters -/

namespace POT.Spec

open Finset

variable {S : Type*} [Fintype S] {I : S → Type*} [∀ s, Fintype (I s)] {J E : Type*} [Fintype J] [Fintype E]

/-- The fused Gromov-Wasserstein barycenter objective `∑_s λ_s ((1 - α) ∑_{ji} T_s,ji ‖X_j - Y_s,i‖² + α GW(Cb, C_s, T_s))` for features `X`, structure `Cb` and plans `T_s` from the barycenter to the inputs. -/
noncomputable def fgwBaryObjective (L : ℝ → ℝ → ℝ) (α : ℝ) (lam : S → ℝ) (C : (s : S) → I s → I s → ℝ) (Y : (s : S) → I s → E → ℝ) (X : J → E → ℝ) (Cb : J → J → ℝ) (T : (s : S) → J → I s → ℝ) : ℝ :=
  ∑ s, lam s * ((1 - α) * ∑ j, ∑ i, T s j i * ∑ e, (X j e - Y s i e) ^ 2 + α * gwEnergy L Cb (C s) (T s))

/-- The same with plans from the inputs to the barycenter (semi-relaxed barycenters). -/
noncomputable def srBaryObjective (L : ℝ → ℝ → ℝ) (α : ℝ) (lam : S → ℝ) (C : (s : S) → I s → I s → ℝ) (Y : (s : S) → I s → E → ℝ) (X : J → E → ℝ) (Cb : J → J → ℝ) (T : (s : S) → I s → J → ℝ) : ℝ :=
  ∑ s, lam s * ((1 - α) * ∑ i, ∑ j, T s i j * ∑ e, (Y s i e - X j e) ^ 2 + α * gwEnergy L (C s) Cb (T s))

end POT.Spec
