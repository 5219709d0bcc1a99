import Verif.Spec.Debiased

/-! # Specification vocabulary: images as histograms on a pixel grid (docstrings of `ot.bregman.convolutional_barycenter2d`) -/

namespace POT.Spec

open Finset

variable {S : Type*} {w h : ℕ}

/-- Squared Euclidean distance of two pixels, when the image occupies the unit square: the pixel `(i, l)` is at `(i / (w - 1), l / (h - 1))`. -/
noncomputable def pixelCost (p q : Fin w × Fin h) : ℝ :=
  ((p.1 : ℝ) / (w - 1) - (q.1 : ℝ) / (w - 1)) ^ 2 + ((p.2 : ℝ) / (h - 1) - (q.2 : ℝ) / (h - 1)) ^ 2

/-- The image as a histogram on the pixels. -/
def pixels (img : Fin w → Fin h → ℝ) : Fin w × Fin h → ℝ := fun p => img p.1 p.2

/-- Every image is nonnegative and sums to one. -/
def IsImages (A : S → Fin w → Fin h → ℝ) : Prop := ∀ s, IsHistogram (pixels (A s))

/-- Positive barycentric weights. -/
def IsPosWeights [Fintype S] (wt : S → ℝ) : Prop := (∀ s, 0 < wt s) ∧ ∑ s, wt s = 1

end POT.Spec
