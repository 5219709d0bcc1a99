import Verif.Spec.Entropic

/-! # Specification vocabulary: entropic barycenters of histograms -/

namespace POT.Spec

open Finset

variable {I J S : Type*} [Fintype I] [Fintype J] [Fintype S]

/-- Weighted sum of the entropic transport objectives of one plan per histogram. -/
noncomputable def entBaryObjective (w : S → ℝ) (M : I → J → ℝ) (reg : ℝ) (P : S → I → J → ℝ) : ℝ :=
  ∑ s, w s * entropicObjective M reg (P s)

/-- `q` with the plans `P s` from the histograms `a s` to `q` is the unique minimiser of the weighted sum of the entropic transport
objectives, among all histograms `q'` and all plans from the `a s` to `q'`. -/
def IsEntropicBarycenter (a : S → I → ℝ) (w : S → ℝ) (M : I → J → ℝ) (reg : ℝ) (q : J → ℝ) (P : S → I → J → ℝ) : Prop :=
  (∀ s, IsCoupling (a s) q (P s)) ∧
  ∀ q' Q, (∀ s, IsCoupling (a s) q' (Q s)) →
    entBaryObjective w M reg P ≤ entBaryObjective w M reg Q ∧ (entBaryObjective w M reg Q ≤ entBaryObjective w M reg P → q' = q ∧ Q = P)

end POT.Spec
