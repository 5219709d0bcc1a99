import Mathlib.Analysis.SpecialFunctions.Pow.Real
import Verif.Spec.Barycenter

/-! # Vocabulary for domain adaptation (C91-C93) -/

namespace POT.Spec

open Finset

variable {I J C D : Type*} [Fintype I] [Fintype J] [Fintype C] [Fintype D]

/-- `y` is a weighted mean of the points with weights proportional to `w`. -/
def IsWeightedMean (w : J → ℝ) (x : J → D → ℝ) (y : D → ℝ) : Prop := ∀ d, (∑ j, w j) * y d = ∑ j, w j * x j d

/-- `y` lies in the convex hull of the points: it is an average of them. -/
def InHull (x : J → D → ℝ) (y : D → ℝ) : Prop := ∃ w : J → ℝ, (∀ j, 0 ≤ w j) ∧ ∑ j, w j = 1 ∧ ∀ d, y d = ∑ j, w j * x j d

/-- Mass that the samples of class `c` send to the target sample `j`. -/
def classMass [DecidableEq C] (label : I → C) (P : I → J → ℝ) (c : C) (j : J) : ℝ := ∑ i, if label i = c then P i j else 0

/-- The group penalty of `sinkhorn_lpl1_mm`, smoothed by `ε`: square roots of the class masses of every target sample. -/
noncomputable def groupSqrt [DecidableEq C] (ε : ℝ) (label : I → C) (P : I → J → ℝ) : ℝ := ∑ j, ∑ c, Real.sqrt (classMass label P c j + ε)

/-- Half the weighted sum of the squared distances between all pairs of points. -/
noncomputable def dirichlet (S : I → I → ℝ) (y : I → D → ℝ) : ℝ := 1 / 2 * ∑ i, ∑ k, S i k * sqEuclid (y i) (y k)

/-- `∑_j P i j x_j`, the image of the points under the plan (not normalised). -/
def push (P : I → J → ℝ) (x : J → D → ℝ) : I → D → ℝ := fun i d => ∑ j, P i j * x j d

/-- The group lasso penalty: Euclidean norms of the parts of the columns that belong to one class. -/
noncomputable def groupNorm [DecidableEq C] (label : I → C) (P : I → J → ℝ) : ℝ := ∑ j, ∑ c, Real.sqrt (∑ i, if label i = c then P i j ^ 2 else 0)

end POT.Spec
