import Verif.Spec.Entropic

/-! # Specification vocabulary: semi-dual and dual problems relative to the product of the marginals -/

namespace POT.Spec

open Finset

variable {I J : Type*} [Fintype I] [Fintype J]

/-- `⟨P, M⟩ + reg ∑ P log (P / (a ⊗ b))` -/
noncomputable def relObjective (a : I → ℝ) (b : J → ℝ) (M : I → J → ℝ) (reg : ℝ) (P : I → J → ℝ) : ℝ :=
  cost M P + reg * ∑ i, ∑ j, P i j * Real.log (P i j / (a i * b j))

/-- `⟨P, M⟩ + reg ∑ P² / (a ⊗ b)` -/
noncomputable def quadObjective (a : I → ℝ) (b : J → ℝ) (M : I → J → ℝ) (reg : ℝ) (P : I → J → ℝ) : ℝ :=
  cost M P + reg * ∑ i, ∑ j, P i j ^ 2 / (a i * b j)

/-- The semi-dual objective of entropic transport, as in the documentation of `coordinate_grad_semi_dual`. -/
noncomputable def semiDual (a : I → ℝ) (b : J → ℝ) (M : I → J → ℝ) (reg : ℝ) (v : J → ℝ) : ℝ :=
  ∑ i, a i * (∑ j, v j * b j - reg * Real.log (∑ j, b j * Real.exp ((v j - M i j) / reg)))

/-- Mean of `f` over `N` independent uniform draws from `I`. -/
noncomputable def mean {I : Type*} [Fintype I] (N : ℕ) (f : (Fin N → I) → ℝ) : ℝ := (∑ ω, f ω) / (Fintype.card I : ℝ) ^ N

end POT.Spec
