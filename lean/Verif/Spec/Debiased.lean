import Verif.Spec.EntBary

/-! # Specification vocabulary: Sinkhorn divergences and debiased barycenters (docstring of `ot.bregman.barycenter_debiased`) -/

namespace POT.Spec

open Finset

variable {I J S : Type*} [Fintype I] [Fintype J] [Fintype S]

/-- `v` is the minimum of the entropic objective among the couplings of `a` and `b`. -/
def IsEntropicCost (a : I → ℝ) (b : J → ℝ) (M : I → J → ℝ) (reg v : ℝ) : Prop := ∃ P, IsEntropicOptimal a b M reg P ∧ v = entropicObjective M reg P

/-- `v` is the Sinkhorn divergence `W(a, b) - (W(a, a) + W(b, b)) / 2`. -/
def IsSinkhornDivergence (a b : I → ℝ) (M : I → I → ℝ) (reg v : ℝ) : Prop :=
  ∃ x y z, IsEntropicCost a b M reg x ∧ IsEntropicCost a a M reg y ∧ IsEntropicCost b b M reg z ∧ v = x - (y + z) / 2

/-- `q` is a histogram. -/
def IsHistogram (q : I → ℝ) : Prop := (∀ i, 0 ≤ q i) ∧ ∑ i, q i = 1

/-- The histogram `q` minimises the weighted sum of the Sinkhorn divergences to the histograms `a s`. -/
def IsDebiasedBarycenter (a : S → I → ℝ) (w : S → ℝ) (M : I → I → ℝ) (reg : ℝ) (q : I → ℝ) : Prop :=
  IsHistogram q ∧ ∃ v : S → ℝ, (∀ s, IsSinkhornDivergence (a s) q M reg (v s)) ∧
    ∀ (q' : I → ℝ) (v' : S → ℝ), IsHistogram q' → (∀ s, IsSinkhornDivergence (a s) q' M reg (v' s)) → ∑ s, w s * v s ≤ ∑ s, w s * v' s

end POT.Spec
