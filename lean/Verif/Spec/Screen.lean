import Mathlib.Analysis.SpecialFunctions.Exp
import Mathlib.Algebra.BigOperators.Group.Finset.Basic

/-! # Specification vocabulary: the screened dual of entropic transport (docstring of `screenkhorn`) -/

namespace POT.Spec

open Finset

variable {I J : Type*} [Fintype I] [Fintype J]

/-- `1ᵀ diag(eˣ) K diag(eʸ) 1 - ⟨κ x, a⟩ - ⟨y / κ, b⟩` -/
noncomputable def screenDual (K : I → J → ℝ) (a : I → ℝ) (b : J → ℝ) (κ : ℝ) (x : I → ℝ) (y : J → ℝ) : ℝ :=
  ∑ i, ∑ j, Real.exp (x i) * K i j * Real.exp (y j) - κ * ∑ i, x i * a i - 1 / κ * ∑ j, y j * b j

/-- the constraints `e^{x_i} ≥ ε / κ` and `e^{y_j} ≥ ε κ` -/
def ScreenFeasible (ε κ : ℝ) (x : I → ℝ) (y : J → ℝ) : Prop := (∀ i, ε / κ ≤ Real.exp (x i)) ∧ ∀ j, ε * κ ≤ Real.exp (y j)

/-- `(x, y)` minimises the dual under the constraints. -/
def IsScreenOpt (K : I → J → ℝ) (a : I → ℝ) (b : J → ℝ) (ε κ : ℝ) (x : I → ℝ) (y : J → ℝ) : Prop :=
  ScreenFeasible ε κ x y ∧ ∀ x' y', ScreenFeasible ε κ x' y' → screenDual K a b κ x y ≤ screenDual K a b κ x' y'

/-- First-order condition at `x` for minimising over the set `X` a function with derivative `g` at `x`: `x ∈ X`, and moving towards any point of `X` does not decrease the linearisation. -/
def FirstOrder (X : Set ℝ) (g x : ℝ) : Prop := x ∈ X ∧ ∀ y ∈ X, 0 ≤ g * (y - x)

end POT.Spec
