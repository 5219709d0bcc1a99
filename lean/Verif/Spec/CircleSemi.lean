import Verif.Spec.Circle
import Mathlib.Algebra.Order.Floor.Ring
import Mathlib.MeasureTheory.Integral.IntervalIntegral.Periodic

/-!
# Transport from weighted atoms to the uniform measure of the circle

The circle is `ℝ / ℤ`; functions on it are the functions on `ℝ` of period `1`.  A plan whose second marginal is the uniform measure has, for each atom `i`, a density `p i`
with respect to that measure.
-/

namespace POT.Spec

open MeasureTheory

/-- a transport plan between the measure with weight `w i` on atom `i` and the uniform measure of the circle -/
structure IsSemiPlan {I : Type*} [Fintype I] (w : I → ℝ) (p : I → ℝ → ℝ) : Prop where
  nonneg : ∀ i y, 0 ≤ p i y
  periodic : ∀ i, Function.Periodic (p i) 1
  integrable : ∀ i, IntervalIntegrable (p i) volume 0 1
  /-- the second marginal is uniform -/
  sum_one : ∀ y, ∑ i, p i y = 1
  /-- the first marginal is `w` -/
  mass : ∀ i, ∫ y in (0 : ℝ)..1, p i y = w i

/-- cost of a plan for the squared circular distance -/
noncomputable def semiCost {I : Type*} [Fintype I] (x : I → ℝ) (p : I → ℝ → ℝ) : ℝ := ∑ i, ∫ y in (0 : ℝ)..1, circDist (x i) y ^ 2 * p i y

end POT.Spec
