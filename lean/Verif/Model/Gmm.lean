import Verif.Model.Gaussian
import Mathlib.Analysis.SpecialFunctions.Log.Basic
import Mathlib.Analysis.SpecialFunctions.Trigonometric.Basic
import Mathlib.LinearAlgebra.Matrix.Determinant.Basic

/-!
# Model of the transport between Gaussian mixtures

`ot/gmm.py`.  A mixture is a family of means, covariances and weights.  The exact solver `emd` is a parameter (its properties are C01 and following); entries are
real.  `gmm_ot_plan_density` is not modelled.
-/

namespace POT.Gmm

open Finset Matrix POT.Gaussian

variable {D : Type*} [Fintype D] [DecidableEq D] {I J : Type*} [Fintype I] [Fintype J]

/-- `gaussian_logpdf` (ot/gmm.py 19-48); `slogdet` returns `log |det C|`. -/
noncomputable def logpdf (x m : D → ℝ) (C : Matrix D D ℝ) : ℝ :=
  let diff := x - m
  let z := ∑ d, diff d * (diff ᵥ* C⁻¹) d;
  -0.5 * (Fintype.card D * Real.log (2 * Real.pi) + Real.log (abs C.det) + z)

/-- `gaussian_pdf` (ot/gmm.py 51-71). -/
noncomputable def pdf (x m : D → ℝ) (C : Matrix D D ℝ) : ℝ := Real.exp (logpdf x m C)

/-- `gmm_pdf` (ot/gmm.py 74-103). -/
noncomputable def gmmPdf (x : D → ℝ) (m : I → D → ℝ) (C : I → Matrix D D ℝ) (w : I → ℝ) : ℝ := ∑ k, w k * pdf x (m k) (C k)

/-- `dist_bures_squared` (ot/gmm.py 106-157). -/
noncomputable def distBures2 (e : Eigh D) (ms : I → D → ℝ) (mt : J → D → ℝ) (Cs : I → Matrix D D ℝ) (Ct : J → Matrix D D ℝ) (i : I) (j : J) : ℝ :=
  let Dmeans := ∑ d, (ms i d - mt j d) ^ 2
  let Cs12 := sqrtm e (Cs i)
  let C := sqrtm e (Cs12 * Ct j * Cs12)
  let Dcovs := trace (Cs i) + trace (Ct j) - 2 * trace C
  max (Dmeans + Dcovs) 0

/-- `gmm_ot_plan` (ot/gmm.py 206-249). -/
noncomputable def otPlan (emd : (I → ℝ) → (J → ℝ) → (I → J → ℝ) → I → J → ℝ) (e : Eigh D) (ms : I → D → ℝ) (mt : J → D → ℝ) (Cs : I → Matrix D D ℝ)
    (Ct : J → Matrix D D ℝ) (ws : I → ℝ) (wt : J → ℝ) : I → J → ℝ :=
  emd ws wt (distBures2 e ms mt Cs Ct)

/-- `gmm_ot_loss` (ot/gmm.py 160-203): `emd2` returns the cost of the plan of `emd`. -/
noncomputable def otLoss (emd : (I → ℝ) → (J → ℝ) → (I → J → ℝ) → I → J → ℝ) (e : Eigh D) (ms : I → D → ℝ) (mt : J → D → ℝ) (Cs : I → Matrix D D ℝ)
    (Ct : J → Matrix D D ℝ) (ws : I → ℝ) (wt : J → ℝ) : ℝ :=
  let Dm := distBures2 e ms mt Cs Ct
  ∑ i, ∑ j, emd ws wt Dm i j * Dm i j

/-- The matrix `A` and vector `b` between two components (ot/gmm.py 316-321, 342-347). -/
noncomputable def compMap (e : Eigh D) (ms mt : D → ℝ) (Cs Ct : Matrix D D ℝ) : Matrix D D ℝ × (D → ℝ) :=
  let Cs12 := sqrtm e Cs
  let Cs12inv := Cs12⁻¹
  let M0 := sqrtm e (Cs12 * Ct * Cs12)
  let A := Cs12inv * M0 * Cs12inv
  (A, mt - A *ᵥ ms)

open Classical in
/-- `gmm_ot_apply_map` with `method="bary"` at one point (ot/gmm.py 308-330). -/
noncomputable def applyBary (e : Eigh D) (plan : I → J → ℝ) (ms : I → D → ℝ) (mt : J → D → ℝ) (Cs : I → Matrix D D ℝ) (Ct : J → Matrix D D ℝ) (ws : I → ℝ)
    (x : D → ℝ) : D → ℝ :=
  ∑ i, ∑ j, if 0 < plan i j then
    let T := compMap e (ms i) (mt j) (Cs i) (Ct j)
    let denom := ∑ k, ws k * Real.exp (logpdf x (ms k) (Cs k) - logpdf x (ms i) (Cs i))
    (1 / denom) • plan i j • (x ᵥ* T.1 + T.2)
  else 0

/-- The probabilities from which `method="rand"` draws a pair of components for one point (ot/gmm.py 355-362). -/
noncomputable def randP (plan : I → J → ℝ) (ms : I → D → ℝ) (Cs : I → Matrix D D ℝ) (ws : I → ℝ) (x : D → ℝ) (i : I) (j : J) : ℝ :=
  let denom := ∑ k, ws k * Real.exp (logpdf x (ms k) (Cs k) - logpdf x (ms i) (Cs i))
  plan i j / denom

open Classical in
/-- The arrays `A[i, j]`, `b[i, j]` of `method="rand"`: zero where the plan is zero (ot/gmm.py 337-347). -/
noncomputable def randMap (e : Eigh D) (plan : I → J → ℝ) (ms : I → D → ℝ) (mt : J → D → ℝ) (Cs : I → Matrix D D ℝ) (Ct : J → Matrix D D ℝ) (i : I) (j : J) :
    Matrix D D ℝ × (D → ℝ) :=
  if 0 < plan i j then compMap e (ms i) (mt j) (Cs i) (Ct j) else (0, 0)

/-- `gmm_ot_apply_map` with `method="rand"` at one point, when `rng.choice` returns the flat index `q`: `i = q // k_t`, `j = q % k_t` (ot/gmm.py 363-367). -/
noncomputable def applyRand {ks kt : ℕ} (e : Eigh D) (plan : Fin ks → Fin kt → ℝ) (ms : Fin ks → D → ℝ) (mt : Fin kt → D → ℝ) (Cs : Fin ks → Matrix D D ℝ)
    (Ct : Fin kt → Matrix D D ℝ) (x : D → ℝ) (q : Fin (ks * kt)) : D → ℝ :=
  let i : Fin ks := q.divNat
  let j : Fin kt := q.modNat
  let T := randMap e plan ms mt Cs Ct i j
  T.1 *ᵥ x + T.2

/-- `p = p_mat.reshape(k_s * k_t)`, line by line (ot/gmm.py 362). -/
noncomputable def randVec {ks kt : ℕ} (plan : Fin ks → Fin kt → ℝ) (ms : Fin ks → D → ℝ) (Cs : Fin ks → Matrix D D ℝ) (ws : Fin ks → ℝ) (x : D → ℝ) (q : Fin (ks * kt)) : ℝ :=
  randP plan ms Cs ws x q.divNat q.modNat

section Barycenter

variable {S : Type*} [Fintype S]

/-- The selected means and covariances of component `i` with `barycentric_proj_method="euclidean"` (ot/gmm.py 539-546): row `i` of the plan times the number `n` of components. -/
noncomputable def selEuclid (n : ℕ) (pi : J → ℝ) (m : J → D → ℝ) (C : J → Matrix D D ℝ) : (D → ℝ) × Matrix D D ℝ :=
  (∑ j, ((n : ℝ) * pi j) • m j, (n : ℝ) • ∑ j, pi j • C j)

/-- One iteration of `gmm_barycenter_fixed_point` with `barycentric_proj_method="euclidean"` (ot/gmm.py 526-579).  `plan s` is the plan to the mixture `s`; `bwBary` is
`bures_wasserstein_barycenter`, applied to the selected means and covariances and to `weights`. -/
noncomputable def baryStepE {n : ℕ} {J : S → Type*} [∀ s, Fintype (J s)] (bwBary : (S → D → ℝ) → (S → Matrix D D ℝ) → (S → ℝ) → (D → ℝ) × Matrix D D ℝ)
    (plan : ∀ s, Fin n → J s → ℝ) (m : ∀ s, J s → D → ℝ) (C : ∀ s, J s → Matrix D D ℝ) (weights : S → ℝ) (i : Fin n) : (D → ℝ) × Matrix D D ℝ :=
  let sel := fun s => selEuclid n (plan s i) (m s) (C s)
  bwBary (fun s => (sel s).1) (fun s => (sel s).2) weights

/-- One iteration with `barycentric_proj_method="bures"` (ot/gmm.py 565-579): the selections are Gaussian barycenters for the weights `(1 / w_bar[i]) * pi[i, :]`. -/
noncomputable def baryStepB {n : ℕ} {J : S → Type*} [∀ s, Fintype (J s)]
    (bwBaryJ : ∀ s, (J s → D → ℝ) → (J s → Matrix D D ℝ) → (J s → ℝ) → (D → ℝ) × Matrix D D ℝ) (bwBary : (S → D → ℝ) → (S → Matrix D D ℝ) → (S → ℝ) → (D → ℝ) × Matrix D D ℝ)
    (wbar : Fin n → ℝ) (plan : ∀ s, Fin n → J s → ℝ) (m : ∀ s, J s → D → ℝ) (C : ∀ s, J s → Matrix D D ℝ) (weights : S → ℝ) (i : Fin n) : (D → ℝ) × Matrix D D ℝ :=
  let sel := fun s => bwBaryJ s (m s) (C s) fun j => (1 / wbar i) * plan s i j
  bwBary (fun s => (sel s).1) (fun s => (sel s).2) weights

end Barycenter

end POT.Gmm
