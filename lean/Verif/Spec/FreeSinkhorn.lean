import Verif.Spec.Entropic
import Mathlib.Order.Bounds.Defs

/-! # The entropic transport value -/

namespace POT.Spec

variable {I J : Type*} [Fintype I] [Fintype J]

/-- `v` is the smallest value of `⟨P, M⟩ + reg ∑ P log P` among the couplings of `a` and `b`. -/
def IsEntropicValue (a : I → ℝ) (b : J → ℝ) (M : I → J → ℝ) (reg v : ℝ) : Prop := IsLeast {v | ∃ P, IsCoupling a b P ∧ v = entropicObjective M reg P} v

end POT.Spec
