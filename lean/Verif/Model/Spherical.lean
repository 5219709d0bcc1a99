import Verif.Model.CircleSearch
import Verif.Model.Sliced
import Mathlib.Analysis.SpecialFunctions.Complex.Arg

/-!
# Model of the spherical sliced solvers

`ot/sliced/_spherical_sliced.py` (`sliced_wasserstein_sphere`, `sliced_wasserstein_sphere_unif`, `linear_sliced_wasserstein_sphere`), `projection_sphere_to_circle` of `ot/sliced/_utils.py` and
`get_coordinate_circle` of `ot/utils.py`.  Samples are real and share their dimension (the test at 89-94 and 260-264 passes); the projections are given, as drawn or as passed.  A sample orthogonal to
a plane gives NaN in the code and an arbitrary coordinate here: the theorems exclude it.  The signed zeros of floating point are not modelled.  Every call to `argsort` is represented by the
permutation it returns.
-/

set_option linter.unusedSectionVars false

namespace POT.Spherical

open Finset POT.Circle POT.Sliced

variable {n m L : ℕ} {D : Type*} [Fintype D]

/-- why a call raises -/
inductive Err
  | sphere
  | reshape
  | order
  | attribute
  deriving DecidableEq

/-- `get_coordinate_circle` for one point (ot/utils.py 734-736) -/
noncomputable def coord (z : Fin 2 → ℝ) : ℝ := (Complex.arg ⟨-z 0, -z 1⟩ + Real.pi) / (2 * Real.pi)

/-- projection of one sample on one plane (ot/sliced/_utils.py 159) -/
def plane (U : D → Fin 2 → ℝ) (x : D → ℝ) : Fin 2 → ℝ := fun j => ∑ k, U k j * x k

/-- division by the norm (ot/sliced/_utils.py 162) -/
noncomputable def normalise (z : Fin 2 → ℝ) : Fin 2 → ℝ := fun j => z j / Real.sqrt (∑ j, z j ^ 2)

/-- the coordinates of all samples in one plane (ot/sliced/_utils.py 157-167) -/
noncomputable def coords (U : D → Fin 2 → ℝ) (X : Fin n → D → ℝ) : Fin n → ℝ := fun i => coord (normalise (plane U (X i)))

/-- `projection_sphere_to_circle` (ot/sliced/_utils.py 145-169): the result is reshaped to `(n_projections, n)` with the argument `nProj`, also when the `L` planes were given -/
noncomputable def sphereToCircle (nProj : ℕ) (θ : Fin L → D → Fin 2 → ℝ) (X : Fin n → D → ℝ) : Except Err (Fin L → Fin n → ℝ) :=
  if nProj = L then .ok fun k => coords (θ k) X else .error .reshape

/-- the test that the samples lie on the sphere (ot/sliced/_spherical_sliced.py 95-98, 175-176, 265-268) -/
def OnSphere (X : Fin n → D → ℝ) : Prop := ∀ i, |∑ d, X i d ^ 2 - 1| ≤ 1 / 10 ^ 4

/-- `wasserstein_circle` on all planes with its default parameters (ot/lp/solver_circle.py 537-634, called at ot/sliced/_spherical_sliced.py 113-115); `none` when `fuel` turns do not suffice -/
noncomputable def circleCosts (p : ℝ) (u : Fin L → Fin (n + 1) → ℝ) (v : Fin L → Fin (m + 1) → ℝ) (a : Fin (n + 1) → ℝ) (b : Fin (m + 1) → ℝ) (σ : Sorters (n + 1) (m + 1) L) (fuel : ℕ) :
    Option (Fin L → ℝ) :=
  if h : ∀ k, (binarySearch (fun x => |x| ^ p) (u k) a (v k) b (σ.permA k) (σ.permB k) 10 10 (-1) 1 (1 / 10 ^ 6) fuel).isSome then
    some fun k => ((binarySearch (fun x => |x| ^ p) (u k) a (v k) b (σ.permA k) (σ.permB k) 10 10 (-1) 1 (1 / 10 ^ 6) fuel).get (h k)).1
  else none

open Classical in
/-- `sliced_wasserstein_sphere` (ot/sliced/_spherical_sliced.py 85-120; the value is line 116), with the assertion of `wasserstein_circle` (ot/lp/solver_circle.py 620) -/
noncomputable def ssw (nProj : ℕ) (p : ℝ) (X : Fin (n + 1) → D → ℝ) (Y : Fin (m + 1) → D → ℝ) (a : Fin (n + 1) → ℝ) (b : Fin (m + 1) → ℝ) (θ : Fin L → D → Fin 2 → ℝ)
    (σ : Sorters (n + 1) (m + 1) L) (fuel : ℕ) : Except Err (Option ℝ) :=
  if OnSphere X ∧ OnSphere Y then
    match sphereToCircle nProj θ X, sphereToCircle nProj θ Y with
    | .ok u, .ok v => if 1 ≤ p then .ok ((circleCosts p u v a b σ fuel).map fun c => ((∑ k, c k) / L) ^ (1 / p)) else .error .order
    | .error e, _ => .error e
    | _, .error e => .error e
  else .error .sphere

open Classical in
/-- `sliced_wasserstein_sphere_unif` (ot/sliced/_spherical_sliced.py 169-195) -/
noncomputable def sswUnif (nProj : ℕ) (X : Fin (n + 1) → D → ℝ) (a : Fin (n + 1) → ℝ) (θ : Fin L → D → Fin 2 → ℝ) (σ : Fin L → Equiv.Perm (Fin (n + 1))) : Except Err ℝ :=
  if OnSphere X then
    match sphereToCircle nProj θ X with
    | .ok u => .ok (((∑ k, semidiscrete (u k) a (σ k)) / L) ^ ((1 : ℝ) / 2))
    | .error e => .error e
  else .error .sphere

open Classical in
/-- `linear_sliced_wasserstein_sphere` (ot/sliced/_spherical_sliced.py 256-303); `Y = none` is the documented default, on which line 260 reads `X_t.shape` -/
noncomputable def lssot (nProj : ℕ) (X : Fin (n + 1) → D → ℝ) (Y : Option (Fin (m + 1) → D → ℝ)) (a : Fin (n + 1) → ℝ) (b : Fin (m + 1) → ℝ) (θ : Fin L → D → Fin 2 → ℝ)
    (σ : Sorters (n + 1) (m + 1) L) : Except Err ℝ :=
  match Y with
  | none => .error .attribute
  | some Y =>
    if OnSphere X ∧ OnSphere Y then
      match sphereToCircle nProj θ X, sphereToCircle nProj θ Y with
      | .ok u, .ok v => .ok (((∑ k, linearCircularOt (u k) (v k) a b (σ.permA k) (σ.permB k)) / L) ^ ((1 : ℝ) / 2))
      | .error e, _ => .error e
      | _, .error e => .error e
    else .error .sphere

end POT.Spherical
