import Verif.Spec.Unbalanced

/-! # Specification vocabulary: the dual of unbalanced transport without entropy -/

namespace POT.Spec

open Finset

variable {I J K : Type*} [Fintype I] [Fintype J] [Fintype K]

/-- Contribution of one potential to the dual objective: `∑ ρ a (1 - exp (-f / ρ))`, or `⟨f, a⟩` when the marginal is a constraint. -/
noncomputable def dualTerm (ρ : Option ℝ) (a f : K → ℝ) : ℝ :=
  match ρ with
  | some r => ∑ k, r * a k * (1 - Real.exp (-f k / r))
  | none => ∑ k, a k * f k

/-- Dual objective of `min ⟨P, M⟩ + ρ₁ KL(P 1 | a) + ρ₂ KL(Pᵀ 1 | b)`. -/
noncomputable def uotDual (a : I → ℝ) (b : J → ℝ) (ρ₁ ρ₂ : Option ℝ) (f : I → ℝ) (g : J → ℝ) : ℝ := dualTerm ρ₁ a f + dualTerm ρ₂ b g

/-- The marginal that corresponds to a potential: `a exp (-f / ρ)`, or `a` itself when the marginal is a constraint. -/
noncomputable def tilted (ρ : Option ℝ) (a f : K → ℝ) (k : K) : ℝ :=
  match ρ with
  | some r => a k * Real.exp (-f k / r)
  | none => a k

/-- `ρ ∑ a` for a finite parameter, `0` otherwise. -/
noncomputable def paramMass (ρ : Option ℝ) (a : K → ℝ) : ℝ :=
  match ρ with
  | some r => r * ∑ k, a k
  | none => 0

/-- Parameters are positive (or infinite). -/
def PosParam (ρ : Option ℝ) : Prop := ∀ r, ρ = some r → 0 < r

/-- No interior cumulative weight of the first vector is a cumulative weight of the second. -/
def NoTies {n m : ℕ} (u : Fin n → ℝ) (v : Fin m → ℝ) : Prop := ∀ (i : Fin n) (j : Fin m), (i : ℕ) + 1 < n → (j : ℕ) + 1 < m → ∑ k with k ≤ i, u k ≠ ∑ k with k ≤ j, v k

end POT.Spec
