import Verif.Spec.UnbalancedL2

/-! # Specification vocabulary: the problems `ot.solve` documents -/

namespace POT.Spec

open Finset

variable {I J : Type*} [Fintype I] [Fintype J]

/-- `P` satisfies `adm` and has the least value of `obj` among all that do. -/
def IsMinimum {X : Type*} (adm : X → Prop) (obj : X → ℝ) (P : X) : Prop := adm P ∧ ∀ Q, adm Q → obj P ≤ obj Q

/-- `⟨P, M⟩ + reg KL(P | c)`. -/
noncomputable def klObjective (M : I → J → ℝ) (reg : ℝ) (c P : I → J → ℝ) : ℝ := cost M P + reg * klPlan P c

/-- `⟨P, M⟩ + reg ∑ P²`. -/
noncomputable def squareObjective (M : I → J → ℝ) (reg : ℝ) (P : I → J → ℝ) : ℝ := cost M P + reg * ∑ i, ∑ j, P i j ^ 2

end POT.Spec
