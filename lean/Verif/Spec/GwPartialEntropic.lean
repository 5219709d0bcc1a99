import Verif.Spec.GwEntropic

/-! # Specification vocabulary: entropic partial Gromov-Wasserstein problems -/

namespace POT.Spec

open Finset

variable {I J : Type*} [Fintype I] [Fintype J]

/-- The plans that move exactly `m` units of mass without exceeding the marginals. -/
structure IsPartialOf (p : I → ℝ) (q : J → ℝ) (m : ℝ) (T : I → J → ℝ) : Prop where
  nonneg : ∀ i j, 0 ≤ T i j
  row : ∀ i, ∑ j, T i j ≤ p i
  col : ∀ j, ∑ i, T i j ≤ q j
  mass : ∑ i, ∑ j, T i j = m

/-- Upper curvature of the Gromov-Wasserstein energy along differences of plans with the same mass, in the 1-norm. -/
def MassCurvatureLe (L : ℝ → ℝ → ℝ) (C1 : I → I → ℝ) (C2 : J → J → ℝ) (κ : ℝ) : Prop :=
  ∀ Δ : I → J → ℝ, ∑ i, ∑ j, Δ i j = 0 → gwEnergy L C1 C2 Δ ≤ κ * (∑ i, ∑ j, |Δ i j|) ^ 2

/-- A solver that returns a solution of every entropic partial problem: minimise `⟨N, T⟩ + ε ∑ T log T` among the plans of mass `m`. -/
def SolvesEntropicPartial (p : I → ℝ) (q : J → ℝ) (ε m : ℝ) (sk : (I → J → ℝ) → I → J → ℝ) : Prop :=
  ∀ N, IsPartialOf p q m (sk N) ∧ ∀ H, IsPartialOf p q m H → entropicObjective N ε (sk N) ≤ entropicObjective N ε H

end POT.Spec
