import Verif.Spec.Transport
import Verif.Spec.Divergence
import Mathlib.Analysis.SpecialFunctions.Exp

/-! # Specification vocabulary: entropic optimal transport -/

namespace POT.Spec

open Finset

variable {I J : Type*} [Fintype I] [Fintype J]

/-- `⟨P, M⟩ + reg * ∑ P log P` (with `0 log 0 = 0`). -/
noncomputable def entropicObjective (M : I → J → ℝ) (reg : ℝ) (P : I → J → ℝ) : ℝ :=
  cost M P + reg * ∑ i, ∑ j, P i j * Real.log (P i j)

/-- `P` is the unique minimiser of the entropic objective among the couplings of `a` and `b`. -/
def IsEntropicOptimal (a : I → ℝ) (b : J → ℝ) (M : I → J → ℝ) (reg : ℝ) (P : I → J → ℝ) : Prop :=
  IsCoupling a b P ∧
  ∀ Q, IsCoupling a b Q → entropicObjective M reg P ≤ entropicObjective M reg Q ∧
    (entropicObjective M reg Q ≤ entropicObjective M reg P → Q = P)

/-- Dual objective of the entropic problem. -/
noncomputable def entropicDual (a : I → ℝ) (b : J → ℝ) (M : I → J → ℝ) (reg : ℝ) (f : I → ℝ) (g : J → ℝ) : ℝ :=
  ∑ i, f i * a i + ∑ j, g j * b j - reg * ∑ i, ∑ j, Real.exp ((f i + g j - M i j) / reg)

/-- KL divergence between two plans. -/
noncomputable def klPlan (Q P : I → J → ℝ) : ℝ :=
  klDivergence (fun x : I × J => Q x.1 x.2) (fun x => P x.1 x.2)

/-- Euclidean norm of a vector. -/
noncomputable def norm2 {K : Type*} [Fintype K] (x : K → ℝ) : ℝ := Real.sqrt (∑ k, x k ^ 2)

end POT.Spec
