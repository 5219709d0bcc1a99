import Mathlib.Order.Monotone.Defs
import Mathlib.Logic.Equiv.Defs
import Mathlib.Data.Fin.Basic

/-!
# Vocabulary for the quantized Gromov-Wasserstein solvers
-/

namespace POT.Spec

/-- `e` lists the nodes partition by partition: labels increase, and the nodes of one partition keep their order. -/
def StableSort {n : ℕ} (part : Fin n → ℕ) (e : Fin n ≃ Fin n) : Prop :=
  ∀ r s, r < s → part (e r) < part (e s) ∨ (part (e r) = part (e s) ∧ e r < e s)

end POT.Spec
