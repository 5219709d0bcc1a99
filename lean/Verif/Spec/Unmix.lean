import Verif.Spec.Entropic

/-! # Specification vocabulary: unmixing an observation over a dictionary -/

namespace POT.Spec

open Finset

variable {I K : Type*} [Fintype I] [Fintype K]

/-- The mixture `D h` of the atoms (columns of `D`) with the weights `h`. -/
def mixture (D : I → K → ℝ) (h : K → ℝ) : I → ℝ := fun i => ∑ k, D i k * h k

/-- `D` is a dictionary: positive mass everywhere, and every atom is a histogram. -/
structure IsDictionary (D : I → K → ℝ) : Prop where
  nonneg : ∀ i k, 0 ≤ D i k
  mass : ∀ k, ∑ i, D i k = 1
  cover : ∀ i, ∃ k, 0 < D i k

/-- `h` is the unique minimiser of `w W_{M,reg}(D h, a) + w₀ W_{M₀,reg₀}(h, h₀)`, where `W` is the least entropic objective of a coupling. -/
def IsUnmixing (w w₀ : ℝ) (a : I → ℝ) (D : I → K → ℝ) (M : I → I → ℝ) (M₀ : K → K → ℝ) (h₀ : K → ℝ) (reg reg₀ : ℝ) (h : K → ℝ) : Prop :=
  ∃ P P₀, IsCoupling (mixture D h) a P ∧ IsCoupling h h₀ P₀ ∧
    ∀ q Q Q₀, IsCoupling (mixture D q) a Q → IsCoupling q h₀ Q₀ →
      w * entropicObjective M reg P + w₀ * entropicObjective M₀ reg₀ P₀ ≤ w * entropicObjective M reg Q + w₀ * entropicObjective M₀ reg₀ Q₀ ∧
      (w * entropicObjective M reg Q + w₀ * entropicObjective M₀ reg₀ Q₀ ≤ w * entropicObjective M reg P + w₀ * entropicObjective M₀ reg₀ P₀ → q = h)

/-- `b` spread over the rows: column `j` of the Gibbs kernel `exp(-M/reg)` normalised to mass `b j`, row sums. -/
noncomputable def gibbsSpread {I J : Type*} [Fintype I] [Fintype J] (M : I → J → ℝ) (reg : ℝ) (b : J → ℝ) : I → ℝ :=
  fun i => ∑ j, b j * Real.exp (-M i j / reg) / ∑ i', Real.exp (-M i' j / reg)

end POT.Spec
