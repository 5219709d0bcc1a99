import Mathlib.Analysis.SpecialFunctions.Log.Basic
import Mathlib.Algebra.BigOperators.Ring.Finset
import Mathlib.Data.Fintype.BigOperators

/-! # Specification vocabulary: divergences between (unnormalised) measures on a finite set -/

namespace POT.Spec

open Finset

variable {K : Type*} [Fintype K]

/-- Generalised Kullback-Leibler divergence `∑ p log(p/q) - p + q` (with `0 log 0 = 0`). -/
noncomputable def klDivergence (p q : K → ℝ) : ℝ := ∑ k, (p k * Real.log (p k / q k) - p k + q k)

/-- Half squared Euclidean distance. -/
noncomputable def l2Divergence (p q : K → ℝ) : ℝ := (∑ k, (p k - q k) ^ 2) / 2

/-- Product measure. -/
def prodMeasure {K L : Type*} (p : K → ℝ) (q : L → ℝ) : K × L → ℝ := fun x => p x.1 * q x.2

end POT.Spec
