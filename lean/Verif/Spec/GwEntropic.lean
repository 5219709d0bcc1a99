import Verif.Spec.Gromov
import Verif.Spec.Entropic

/-! # Specification vocabulary: entropic (fused) Gromov-Wasserstein problems -/

namespace POT.Spec

open Finset

variable {I J : Type*} [Fintype I] [Fintype J]

/-- `(1 - α) ⟨M, T⟩ + α ∑_{ijkl} L(C1_ik, C2_jl) T_ij T_kl`. -/
noncomputable def fgwCost (L : ℝ → ℝ → ℝ) (C1 : I → I → ℝ) (C2 : J → J → ℝ) (M : I → J → ℝ) (α : ℝ) (T : I → J → ℝ) : ℝ :=
  (1 - α) * cost M T + α * gwEnergy L C1 C2 T

/-- The fused cost plus `ε ∑ T log T`. -/
noncomputable def fgwEntropic (L : ℝ → ℝ → ℝ) (C1 : I → I → ℝ) (C2 : J → J → ℝ) (M : I → J → ℝ) (α ε : ℝ) (T : I → J → ℝ) : ℝ :=
  fgwCost L C1 C2 M α T + ε * ∑ i, ∑ j, T i j * Real.log (T i j)

/-- Sum of the absolute values of the differences. -/
def l1dist (S T : I → J → ℝ) : ℝ := ∑ i, ∑ j, |S i j - T i j|

/-- Matrices that are differences of two plans with the same row sums. -/
def ZeroRows (Δ : I → J → ℝ) : Prop := ∀ i, ∑ j, Δ i j = 0

/-- Matrices that are differences of two plans with the same column sums. -/
def ZeroCols (Δ : I → J → ℝ) : Prop := ∀ j, ∑ i, Δ i j = 0

/-- Upper curvature of the Gromov-Wasserstein energy along differences of plans with the same marginals, in the 1-norm. -/
def CurvatureLe (L : ℝ → ℝ → ℝ) (C1 : I → I → ℝ) (C2 : J → J → ℝ) (κ : ℝ) : Prop :=
  ∀ Δ : I → J → ℝ, ZeroRows Δ → ZeroCols Δ → gwEnergy L C1 C2 Δ ≤ κ * (∑ i, ∑ j, |Δ i j|) ^ 2

/-- The same along differences of plans with the same row sums. -/
def RowCurvatureLe (L : ℝ → ℝ → ℝ) (C1 : I → I → ℝ) (C2 : J → J → ℝ) (κ : ℝ) : Prop :=
  ∀ Δ : I → J → ℝ, ZeroRows Δ → gwEnergy L C1 C2 Δ ≤ κ * (∑ i, ∑ j, |Δ i j|) ^ 2

/-- A solver that returns the solution of every entropic problem with marginals `p`, `q` and regularisation `ε`. -/
def SolvesEntropic (p : I → ℝ) (q : J → ℝ) (ε : ℝ) (sk : (I → J → ℝ) → I → J → ℝ) : Prop := ∀ N, IsEntropicOptimal p q N ε (sk N)

end POT.Spec
