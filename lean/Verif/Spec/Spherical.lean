import Verif.Spec.Sliced
import Verif.Spec.CircleSemi
import Mathlib.Analysis.SpecialFunctions.Trigonometric.Inverse

/-!
# Specification vocabulary: sliced distances on the sphere

Nothing in this file refers to the model of the code.
-/

namespace POT.Spec

open Finset

variable {I J D : Type*} [Fintype I] [Fintype J] [Fintype D]

/-- The point `Uᵀ x` of the plane, for a matrix `U` with two columns. -/
def planeImage (U : D → Fin 2 → ℝ) (x : D → ℝ) : Fin 2 → ℝ := fun c => ∑ d, U d c * x d

/-- Length of the shorter arc between the directions of two non-zero points of the plane, on the circle of length one: their angle divided by a full turn. -/
noncomputable def arcDist (z w : Fin 2 → ℝ) : ℝ :=
  Real.arccos ((z 0 * w 0 + z 1 * w 1) / (Real.sqrt (z 0 ^ 2 + z 1 ^ 2) * Real.sqrt (w 0 ^ 2 + w 1 ^ 2))) / (2 * Real.pi)

/-- `s` is the spherical sliced Wasserstein distance over the planes `θ`: the `p`-mean of the Wasserstein distances between the two samples projected on the circles of these planes, arcs being
measured on the circle of length one. -/
def IsSphericalSliced {L : ℕ} (p : ℝ) (X : I → D → ℝ) (Y : J → D → ℝ) (a : I → ℝ) (b : J → ℝ) (θ : Fin L → D → Fin 2 → ℝ) (s : ℝ) : Prop :=
  ∃ w : Fin L → ℝ, (∀ k, IsWasserstein p a b (fun i j => arcDist (planeImage (θ k) (X i)) (planeImage (θ k) (Y j))) (w k)) ∧ s = ((∑ k, w k ^ p) / L) ^ (1 / p)

/-- No sample is orthogonal to one of the planes, so that its projection on the circle exists. -/
def Visible {L : ℕ} (θ : Fin L → D → Fin 2 → ℝ) (X : I → D → ℝ) : Prop := ∀ k i, planeImage (θ k) (X i) ≠ 0

/-- The point of the unit circle after the fraction `t` of a turn. -/
noncomputable def circlePoint (t : ℝ) : Fin 2 → ℝ := ![Real.cos (2 * Real.pi * t), Real.sin (2 * Real.pi * t)]

/-- Cost of a plan between the directions of the points `z i` and the uniform measure of the circle, for the squared arc length. -/
noncomputable def arcSemiCost (z : I → Fin 2 → ℝ) (q : I → ℝ → ℝ) : ℝ := ∑ i, ∫ t in (0 : ℝ)..1, arcDist (z i) (circlePoint t) ^ 2 * q i t

/-- `s` is the spherical sliced Wasserstein distance of order two to the uniform measure over the planes `θ`. -/
def IsSphericalUnif {L : ℕ} (X : I → D → ℝ) (a : I → ℝ) (θ : Fin L → D → Fin 2 → ℝ) (s : ℝ) : Prop :=
  ∃ c : Fin L → ℝ, (∀ k, IsLeast {c | ∃ q, IsSemiPlan a q ∧ arcSemiCost (fun i => planeImage (θ k) (X i)) q = c} (c k)) ∧ s = ((∑ k, c k) / L) ^ ((1 : ℝ) / 2)

end POT.Spec
