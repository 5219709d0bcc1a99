import Verif.Spec.Barycenter
import Mathlib.Analysis.SpecialFunctions.Exp

/-! # Vocabulary for mapping estimation (C96, C97) -/

namespace POT.Spec

open Finset

variable {I J D : Type*} [Fintype I] [Fintype J] [Fintype D]

/-- The part of the joint objective that only depends on the images `T i` of the source samples: squared distances of the images to `n ∑_j P i j y_j`
(for uniform weights the barycentric projection), and `μ` times the transport cost for `n` times the squared distances. -/
noncomputable def fitTerm (xs : I → D → ℝ) (xt : J → D → ℝ) (μ : ℝ) (T : I → D → ℝ) (P : I → J → ℝ) : ℝ :=
  ∑ i, sqEuclid (T i) (fun d => Fintype.card I * ∑ j, P i j * xt j d) + μ * ∑ i, ∑ j, P i j * (Fintype.card I * sqEuclid (xs i) (xt j))

/-- The image of `x` under the linear map with matrix `A` (acting on rows) and offset `c`. -/
def affineMap (A : D → D → ℝ) (c : D → ℝ) (x : D → ℝ) : D → ℝ := fun e => ∑ d, x d * A d e + c e

/-- Squared Frobenius distance of a matrix to the identity. -/
def distId [DecidableEq D] (A : D → D → ℝ) : ℝ := ∑ d, ∑ e, (A d e - if d = e then 1 else 0) ^ 2

/-- The Gaussian kernel. -/
noncomputable def gauss (σ : ℝ) (x y : D → ℝ) : ℝ := Real.exp (-sqEuclid x y / (2 * σ ^ 2))

/-- The kernel expansion with coefficients `w` and offset `c`. -/
noncomputable def kernelMap (σ : ℝ) (xs : I → D → ℝ) (w : I → D → ℝ) (c : D → ℝ) (x : D → ℝ) : D → ℝ := fun e => ∑ k, gauss σ x (xs k) * w k e + c e

/-- Its squared norm in the reproducing kernel Hilbert space (without the offset). -/
noncomputable def rkhsNorm (σ : ℝ) (xs : I → D → ℝ) (w : I → D → ℝ) : ℝ := ∑ e, ∑ i, ∑ k, w i e * gauss σ (xs i) (xs k) * w k e

/-- `φ` with gradient `g` is `ℓ`-strongly convex and `L`-smooth: it lies above its quadratic minorants and below its quadratic majorants. -/
def StronglyConvexSmooth (ℓ L : ℝ) (φ : (D → ℝ) → ℝ) (g : (D → ℝ) → D → ℝ) : Prop :=
  ∀ x y, φ x + ∑ d, g x d * (y d - x d) + ℓ / 2 * sqEuclid y x ≤ φ y ∧ φ y ≤ φ x + ∑ d, g x d * (y d - x d) + L / 2 * sqEuclid y x

/-- The transport cost of a plan between moved points `G` and targets `V` for the squared Euclidean distance. -/
noncomputable def moveCost (G : I → D → ℝ) (V : J → D → ℝ) (P : I → J → ℝ) : ℝ := ∑ i, ∑ j, P i j * sqEuclid (G i) (V j)

end POT.Spec
