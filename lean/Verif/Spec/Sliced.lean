import Verif.Spec.Barycenter
import Mathlib.Analysis.SpecialFunctions.Pow.Real

/-!
# Specification vocabulary: Wasserstein and sliced Wasserstein distances

Nothing in this file refers to the model of the code.
-/

namespace POT.Spec

open Finset

variable {I J D : Type*} [Fintype I] [Fintype J] [Fintype D]

/-- Scalar product. -/
def dotP (x θ : D → ℝ) : ℝ := ∑ d, x d * θ d

/-- `w` is the `p`-Wasserstein distance between `a` and `b` for the ground distances `ρ`: the `p`-th root of the least cost of a coupling,
mass being moved at cost `ρ^p`. -/
def IsWasserstein (p : ℝ) (a : I → ℝ) (b : J → ℝ) (ρ : I → J → ℝ) (w : ℝ) : Prop :=
  ∃ v, IsOtValue a b (fun i j => ρ i j ^ p) v ∧ w = v ^ (1 / p)

/-- `s` is the sliced Wasserstein distance over the directions `θ`: the `p`-mean of the Wasserstein distances between the two samples projected
on the lines. -/
def IsSliced {L : ℕ} (p : ℝ) (X : I → D → ℝ) (Y : J → D → ℝ) (a : I → ℝ) (b : J → ℝ) (θ : Fin L → D → ℝ) (s : ℝ) : Prop :=
  ∃ w : Fin L → ℝ, (∀ k, IsWasserstein p a b (fun i j => |dotP (X i) (θ k) - dotP (Y j) (θ k)|) (w k)) ∧ s = ((∑ k, w k ^ p) / L) ^ (1 / p)

/-- `s` is the max-sliced Wasserstein distance over the directions `θ`. -/
def IsMaxSliced {L : ℕ} (p : ℝ) (X : I → D → ℝ) (Y : J → D → ℝ) (a : I → ℝ) (b : J → ℝ) (θ : Fin L → D → ℝ) (s : ℝ) : Prop :=
  (∃ k, IsWasserstein p a b (fun i j => |dotP (X i) (θ k) - dotP (Y j) (θ k)|) s) ∧
    ∀ k w, IsWasserstein p a b (fun i j => |dotP (X i) (θ k) - dotP (Y j) (θ k)|) w → w ≤ s

/-- Euclidean distance. -/
noncomputable def euclid (x y : D → ℝ) : ℝ := Real.sqrt (∑ d, (x d - y d) ^ 2)

end POT.Spec
