import Mathlib.Analysis.Complex.Basic
import Mathlib.Analysis.SpecialFunctions.Pow.Real
import Mathlib.Analysis.SpecialFunctions.Trigonometric.Inverse
import Mathlib.Analysis.SpecialFunctions.Sqrt

/-!
# Vocabulary for the spectral-Grassmann distance
-/

namespace POT.Spec

open Finset

variable {L : ℕ}

/-- Euclidean norm of a complex vector. -/
noncomputable def cnorm (x : Fin L → ℂ) : ℝ := Real.sqrt (∑ k, ‖x k‖ ^ 2)

/-- Cosine of the angle between the complex lines spanned by two vectors. -/
noncomputable def lineCos (x y : Fin L → ℂ) : ℝ := ‖∑ k, (starRingEnd ℂ) (x k) * y k‖ / (cnorm x * cnorm y)

/-- The Grassmann metrics. -/
inductive Grassmann
  | geodesic | chordal | procrustes | martin
  deriving DecidableEq

/-- The distance between two eigenspaces of similarity `s`; `ε` is the floor in the logarithm of the Martin metric. -/
noncomputable def grassDist (ε : ℝ) : Grassmann → ℝ → ℝ
  | .geodesic, s => Real.arccos s
  | .chordal, s => Real.sqrt (1 - s ^ 2)
  | .procrustes, s => Real.sqrt (2 * (1 - s))
  | .martin, s => Real.sqrt (-Real.log (max (s ^ 2) ε))

/-- Length of `z` once its real part is multiplied by `α` and its imaginary part by `β`. -/
noncomputable def scaledAbs (α β : ℝ) (z : ℂ) : ℝ := Real.sqrt ((α * z.re) ^ 2 + (β * z.im) ^ 2)

/-- The probability vector given by optional weights: uniform by default, otherwise divided by the sum. -/
noncomputable def probOf {n : ℕ} : Option (Fin n → ℝ) → Fin n → ℝ
  | none => fun _ => 1 / n
  | some w => fun i => w i / ∑ k, w k

/-- Weights that define a probability vector: none given for at least one point, or non-negative with a positive sum. -/
def GoodWeights {n : ℕ} : Option (Fin n → ℝ) → Prop
  | none => 0 < n
  | some w => (∀ i, 0 ≤ w i) ∧ 0 < ∑ k, w k

end POT.Spec
