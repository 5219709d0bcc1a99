import Verif.Spec.Gromov
import Verif.Spec.Entropic
import Mathlib.Data.Fintype.BigOperators
import Mathlib.Data.Fintype.CardEmbedding

/-! # Specification vocabulary: expectations over random draws -/

namespace POT.Spec

open Finset

/-- Expectation of `f` over independent draws `ω x` with laws `w x`. -/
def indepMean {X Y : Type*} [Fintype X] [DecidableEq X] [Fintype Y] (w : X → Y → ℝ) (f : (X → Y) → ℝ) : ℝ := ∑ ω : X → Y, (∏ x, w x (ω x)) * f ω

/-- Mean of `f` over all the injective samples of size `s` from `Fin n`: uniform drawing without replacement. -/
noncomputable def sampleMean (n s : ℕ) (f : (Fin s ↪ Fin n) → ℝ) : ℝ := (∑ σ, f σ) / Fintype.card (Fin s ↪ Fin n)

/-- `IsUniform`: all weights are `1 / n`. -/
def IsUniform {n : ℕ} (p : Fin n → ℝ) : Prop := ∀ i, p i = 1 / n

end POT.Spec
