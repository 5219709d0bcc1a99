import Mathlib.Analysis.SpecialFunctions.Pow.Real
import Mathlib.Analysis.Real.Sqrt

/-! # Ground costs between points -/

namespace POT.Spec

/-- the ground costs that are known by name -/
inductive PointMetric
  | sqeuclidean | euclidean | cityblock
  deriving DecidableEq

/-- cost between two points: `‖x - y‖₂²`, `‖x - y‖₂` or `‖x - y‖₁` -/
noncomputable def pointCost (μ : PointMetric) {d : ℕ} (x y : Fin d → ℝ) : ℝ :=
  match μ with
  | .sqeuclidean => ∑ k, (x k - y k) ^ 2
  | .euclidean => Real.sqrt (∑ k, (x k - y k) ^ 2)
  | .cityblock => ∑ k, |x k - y k|

end POT.Spec
