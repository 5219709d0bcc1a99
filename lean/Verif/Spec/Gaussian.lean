import Verif.Spec.Barycenter
import Mathlib.LinearAlgebra.Matrix.PosDef
import Mathlib.Analysis.Matrix.PosDef
import Mathlib.Data.Matrix.Block

/-!
# Specification vocabulary: transport of second moments

Nothing in this file refers to the model of the code.  A pair of random vectors with means `ms`, `mt` and covariances `A`, `B` has a cross-covariance `K`, and the
matrices `K` that occur are those for which the joint covariance is positive semidefinite.  The mean squared distance of the pair depends on `K` only.
-/

namespace POT.Spec

open Finset Matrix

variable {D : Type*} [Fintype D]

/-- `K` is a cross-covariance of a pair with covariances `A` and `B`. -/
def IsJointCov {E : Type*} [Fintype E] (A : Matrix D D ℝ) (B : Matrix E E ℝ) (K : Matrix D E ℝ) : Prop := (fromBlocks A K Kᵀ B).PosSemidef

/-- Gromov-Wasserstein cost of a centred Gaussian pair `(X, Y)` with covariances `A`, `B` and cross-covariance `K`: the mean of `(|X - X'|² - |Y - Y'|²)²` for an independent copy
`(X', Y')`, written with the fourth moments of a Gaussian vector. -/
def ggwCost {E : Type*} [Fintype E] (A : Matrix D D ℝ) (B : Matrix E E ℝ) (K : Matrix D E ℝ) : ℝ :=
  4 * (trace A - trace B) ^ 2 + 8 * (∑ i, ∑ j, A i j ^ 2) + 8 * (∑ i, ∑ j, B i j ^ 2) - 16 * ∑ i, ∑ j, K i j ^ 2

/-- Mean squared distance of a centred pair with covariances `A`, `B` and cross-covariance `K`. -/
def covCost (A B K : Matrix D D ℝ) : ℝ := trace A + trace B - 2 * trace K

/-- `v` is the squared Bures distance: the infimum of the mean squared distance of a centred pair with covariances `A` and `B`. -/
def IsBures (A B : Matrix D D ℝ) (v : ℝ) : Prop := IsGLB {c | ∃ K, IsJointCov A B K ∧ c = covCost A B K} v

/-- `S` is the symmetric positive semidefinite square root of `C`. -/
def IsPsdSqrt (S C : Matrix D D ℝ) : Prop := S.PosSemidef ∧ S * S = C

/-- Mean of a weighted sample. -/
noncomputable def wMean {I : Type*} [Fintype I] (w : I → ℝ) (x : I → D → ℝ) : D → ℝ := fun d => (∑ i, w i * x i d) / ∑ i, w i

/-- Covariance of a weighted sample. -/
noncomputable def wCov {I : Type*} [Fintype I] (w : I → ℝ) (x : I → D → ℝ) : Matrix D D ℝ :=
  Matrix.of fun d e => (∑ i, w i * (x i d - wMean w x d) * (x i e - wMean w x e)) / ∑ i, w i

/-- `B` minimises the weighted sum of squared Bures distances to the `C i` among all positive semidefinite matrices. -/
def IsBuresBarycenter {S : Type*} [Fintype S] (w : S → ℝ) (C : S → Matrix D D ℝ) (B : Matrix D D ℝ) : Prop :=
  ∀ B' : Matrix D D ℝ, B'.PosSemidef → ∀ v v' : S → ℝ, (∀ s, IsBures B (C s) (v s)) → (∀ s, IsBures B' (C s) (v' s)) → ∑ s, w s * v s ≤ ∑ s, w s * v' s

/-- Mean of the mixture with weights `w` and component means `m`. -/
def mixMean {I : Type*} [Fintype I] (w : I → ℝ) (m : I → D → ℝ) : D → ℝ := fun d => ∑ i, w i * m i d

/-- Covariance of the mixture with weights `w`, component means `m` and component covariances `C`. -/
def mixCov {I : Type*} [Fintype I] (w : I → ℝ) (m : I → D → ℝ) (C : I → Matrix D D ℝ) : Matrix D D ℝ :=
  Matrix.of fun d e => ∑ i, w i * (C i d e + (m i d - mixMean w m d) * (m i e - mixMean w m e))

end POT.Spec
