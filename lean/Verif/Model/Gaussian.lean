import Mathlib.LinearAlgebra.Matrix.NonsingularInverse
import Mathlib.LinearAlgebra.Matrix.Trace
import Mathlib.LinearAlgebra.Matrix.Symmetric
import Mathlib.Data.Real.Sqrt
import Mathlib.Data.Sign.Defs

/-!
# Model of the Gaussian solvers

`ot/gaussian.py`: mappings, distances and barycenters of Gaussian distributions and of samples seen through their first two moments, and the Gaussian
Gromov-Wasserstein value and mapping.  Entries are real; `nx.eigh` is a parameter, of which only what LAPACK documents is assumed; `nx.inv` is the matrix inverse.
Batches of matrices are families.
-/

namespace POT.Gaussian

open Finset Matrix

variable {D : Type*} [Fintype D] [DecidableEq D]

/-- `nx.eigh`: eigenvalues and a matrix of eigenvectors. -/
structure Eigh (D : Type*) where
  vals : Matrix D D ℝ → D → ℝ
  vecs : Matrix D D ℝ → Matrix D D ℝ

/-- What `eigh` guarantees for a symmetric matrix: orthonormal eigenvectors that diagonalise it. -/
def Eigh.Ok (e : Eigh D) : Prop := ∀ C : Matrix D D ℝ, Cᵀ = C → (e.vecs C)ᵀ * e.vecs C = 1 ∧ e.vecs C * diagonal (e.vals C) * (e.vecs C)ᵀ = C

/-- `nx.sqrtm` (ot/backend.py 1531-1537): `(V * sqrt(L)) @ V.T` with `L, V = eigh(a)`. -/
noncomputable def sqrtm (e : Eigh D) (C : Matrix D D ℝ) : Matrix D D ℝ := e.vecs C * diagonal (fun d => Real.sqrt (e.vals C d)) * (e.vecs C)ᵀ

/-- The linear part of `bures_wasserstein_mapping` (ot/gaussian.py 78-83). -/
noncomputable def mapA (e : Eigh D) (Cs Ct : Matrix D D ℝ) : Matrix D D ℝ :=
  let Cs12 := sqrtm e Cs
  let Cs12inv := Cs12⁻¹
  let M0 := sqrtm e (Cs12 * Ct * Cs12)
  Cs12inv * M0 * Cs12inv

/-- `bures_wasserstein_mapping` (ot/gaussian.py 18-93): the pair `(A, b)`, applied to row vectors as `x A + b`. -/
noncomputable def mapping (e : Eigh D) (ms mt : D → ℝ) (Cs Ct : Matrix D D ℝ) : Matrix D D ℝ × (D → ℝ) :=
  let A := mapA e Cs Ct
  (A, mt - ms ᵥ* A)

/-- `mxs = nx.dot(ws.T, xs) / nx.sum(ws)`, or zero without `bias` (ot/gaussian.py 171-179, 423-431, 883-887). -/
noncomputable def empMean {I : Type*} [Fintype I] (bias : Bool) (w : I → ℝ) (x : I → D → ℝ) : D → ℝ :=
  if bias then fun d => (∑ i, w i * x i d) / ∑ i, w i else 0

/-- `Cs = nx.dot((xs * ws).T, xs) / nx.sum(ws) + reg * nx.eye(d)` after `xs = xs - mxs` (ot/gaussian.py 175-182, 427-434, 885-892). -/
noncomputable def empCov {I : Type*} [Fintype I] (bias : Bool) (reg : ℝ) (w : I → ℝ) (x : I → D → ℝ) : Matrix D D ℝ :=
  let x' : I → D → ℝ := fun i d => x i d - empMean bias w x d
  Matrix.of (fun d d' => (∑ i, (x' i d * w i) * x' i d') / ∑ i, w i) + reg • (1 : Matrix D D ℝ)

/-- Default weights `nx.ones((n, 1)) / n` (ot/gaussian.py 165-169, 417-421, 877-880). -/
noncomputable def uniformW (I : Type*) [Fintype I] : I → ℝ := fun _ => 1 / (Fintype.card I : ℝ)

/-- `empirical_bures_wasserstein_mapping` (ot/gaussian.py 96-200). -/
noncomputable def empMapping {I J : Type*} [Fintype I] [Fintype J] (e : Eigh D) (bias : Bool) (reg : ℝ) (ws : I → ℝ) (wt : J → ℝ) (xs : I → D → ℝ) (xt : J → D → ℝ) :
    Matrix D D ℝ × (D → ℝ) :=
  mapping e (empMean bias ws xs) (empMean bias wt xt) (empCov bias reg ws xs) (empCov bias reg wt xt)

/-- `bures_distance` for a pair of matrices (ot/gaussian.py 203-272; `bw2` 251, `W` 265). -/
noncomputable def buresDist (e : Eigh D) (Cs Ct : Matrix D D ℝ) : ℝ :=
  let Cs12 := sqrtm e Cs
  let bw2 := trace (Cs + Ct - (2 : ℝ) • sqrtm e (Cs12 * Ct * Cs12))
  Real.sqrt (max bw2 0)

/-- `nx.norm(ms - mt) ** 2` (ot/gaussian.py 342). -/
noncomputable def sqNorm (x : D → ℝ) : ℝ := Real.sqrt (∑ d, x d ^ 2) ^ 2

/-- `bures_wasserstein_distance` for a pair of Gaussians (ot/gaussian.py 275-361; value line 354). -/
noncomputable def bwDist (e : Eigh D) (ms mt : D → ℝ) (Cs Ct : Matrix D D ℝ) : ℝ := Real.sqrt (max (sqNorm (ms - mt) + buresDist e Cs Ct ^ 2) 0)

/-- `bures_wasserstein_distance` of a batch of `n > 1` Gaussians and a batch of one, with `paired=True`: the covariance part has shape `(n, 1)` because
`len(Cs) == len(Ct)` is false (ot/gaussian.py 256-263), the mean part has shape `(n,)` because the test compares `len(ms.shape)` (ot/gaussian.py 347-349), and the sum
broadcasts to `(n, n)` (ot/gaussian.py 354). -/
noncomputable def bwPairedOne {I : Type*} (e : Eigh D) (ms : I → D → ℝ) (mt : D → ℝ) (Cs : I → Matrix D D ℝ) (Ct : Matrix D D ℝ) (i j : I) : ℝ :=
  Real.sqrt (max (sqNorm (ms j - mt) + buresDist e (Cs i) Ct ^ 2) 0)

/-- `empirical_bures_wasserstein_distance` (ot/gaussian.py 364-447). -/
noncomputable def empDist {I J : Type*} [Fintype I] [Fintype J] (e : Eigh D) (bias : Bool) (reg : ℝ) (ws : I → ℝ) (wt : J → ℝ) (xs : I → D → ℝ) (xt : J → D → ℝ) : ℝ :=
  bwDist e (empMean bias ws xs) (empMean bias wt xt) (empCov bias reg ws xs) (empCov bias reg wt xt)

section Barycenter

variable {S : Type*} [Fintype S]

/-- `Cb = nx.mean(C * weights[:, None, None], axis=0)` (ot/gaussian.py 509, 612). -/
noncomputable def baryInit (w : S → ℝ) (C : S → Matrix D D ℝ) : Matrix D D ℝ := (1 / (Fintype.card S : ℝ)) • ∑ s, w s • C s

/-- `nx.norm` of a matrix: the Frobenius norm. -/
noncomputable def frob (X : Matrix D D ℝ) : ℝ := Real.sqrt (∑ d, ∑ d', X d d' ^ 2)

/-- The update of `bures_barycenter_fixpoint` (ot/gaussian.py 513-517). -/
noncomputable def fixStep (e : Eigh D) (w : S → ℝ) (C : S → Matrix D D ℝ) (Cb : Matrix D D ℝ) : Matrix D D ℝ :=
  let Cb12 := sqrtm e Cb
  ∑ s, w s • sqrtm e (Cb12 * C s * Cb12)

/-- The loop of `bures_barycenter_fixpoint` (ot/gaussian.py 511-523): the second component is `diff`. -/
noncomputable def fixLoop (e : Eigh D) (w : S → ℝ) (C : S → Matrix D D ℝ) (eps : ℝ) : ℕ → Matrix D D ℝ → ℝ → Matrix D D ℝ × ℝ
  | 0, Cb, diff => (Cb, diff)
  | n + 1, Cb, _ =>
    let Cnew := fixStep e w C Cb
    let diff := frob (Cb - Cnew)
    if diff ≤ eps then (Cb, diff) else fixLoop e w C eps n Cnew diff

/-- `bures_barycenter_fixpoint` (ot/gaussian.py 450-534) with `num_iter = n + 1`: the covariance and `final_diff`. -/
noncomputable def baryFix (e : Eigh D) (w : S → ℝ) (C : S → Matrix D D ℝ) (eps : ℝ) (n : ℕ) : Matrix D D ℝ × ℝ :=
  fixLoop e w C eps (n + 1) (baryInit w C) 0

/-- `exp_bures` (ot/utils.py 1534-1563). -/
def expBures (Sigma X : Matrix D D ℝ) : Matrix D D ℝ := (1 + X) * Sigma * (1 + X)

/-- The maps `ot_maps` (ot/gaussian.py 619-620, 630-631 and 637-638) from the current point to the measures. -/
noncomputable def otMap (e : Eigh D) (Cb C : Matrix D D ℝ) : Matrix D D ℝ :=
  let Cb12 := sqrtm e Cb
  let Cb12_ := Cb12⁻¹
  Cb12_ * sqrtm e (Cb12 * C * Cb12) * Cb12_

/-- `grad_bw` of the full gradient (ot/gaussian.py 639). -/
noncomputable def gradBw (e : Eigh D) (w : S → ℝ) (C : S → Matrix D D ℝ) (Cb : Matrix D D ℝ) : Matrix D D ℝ := 1 - ∑ s, w s • otMap e Cb (C s)

/-- `grad_bw` of a sampled batch `inds` (ot/gaussian.py 627-632). -/
noncomputable def gradBatch {b : ℕ} (e : Eigh D) (C : S → Matrix D D ℝ) (inds : Fin b → S) (Cb : Matrix D D ℝ) : Matrix D D ℝ :=
  1 - (1 / (b : ℝ)) • ∑ k, otMap e Cb (C (inds k))

/-- `step_size = 2 / (0.7 * (it + 2 / 0.7 + 1))` (ot/gaussian.py 635). -/
noncomputable def sgdStep (it : ℕ) : ℝ := 2 / (0.7 * (it + 2 / 0.7 + 1))

/-- One update `Cnew = exp_bures(Cb, -step_size * grad_bw)` (ot/gaussian.py 641) for the full gradient. -/
noncomputable def gdStep (e : Eigh D) (w : S → ℝ) (C : S → Matrix D D ℝ) (step : ℝ) (Cb : Matrix D D ℝ) : Matrix D D ℝ :=
  expBures Cb (-(step • gradBw e w C Cb))

/-- `np.mean(L_diff[-100:]) <= eps` (ot/gaussian.py 656); the list is kept with the newest entry first. -/
def stopTest (L : List ℝ) (eps : ℝ) : Prop := (L.take 100).sum / (L.take 100).length ≤ eps

open Classical in
/-- The loop of `bures_barycenter_gradient_descent` without batches and averaging (ot/gaussian.py 619-660). -/
noncomputable def gdLoop (e : Eigh D) (w : S → ℝ) (C : S → Matrix D D ℝ) (eps step : ℝ) : ℕ → Matrix D D ℝ → List ℝ → Matrix D D ℝ
  | 0, Cb, _ => Cb
  | n + 1, Cb, L =>
    let Cnew := gdStep e w C step Cb
    let L' := frob (Cb - Cnew) :: L
    if stopTest L' eps then Cb else gdLoop e w C eps step n Cnew L'

/-- `bures_barycenter_gradient_descent` (ot/gaussian.py 537-670) with `batch_size=None`, `averaged=False`. -/
noncomputable def baryGd (e : Eigh D) (w : S → ℝ) (C : S → Matrix D D ℝ) (eps step : ℝ) (n : ℕ) : Matrix D D ℝ := gdLoop e w C eps step n (baryInit w C) []

/-- The averaging update (ot/gaussian.py 643-650). -/
noncomputable def avgStep (e : Eigh D) (step : ℝ) (Cavg Cnew : Matrix D D ℝ) : Matrix D D ℝ :=
  let map := (step / (step + 1)) • (1 : Matrix D D ℝ) + (1 / (step + 1)) • otMap e Cavg Cnew
  map * Cavg * map

open Classical in
/-- The loop of `bures_barycenter_gradient_descent` with batches: `(Cb, Cb_averaged)` (ot/gaussian.py 619-660).  `inds it` is the batch drawn at iteration `it`. -/
noncomputable def sgdLoop {b : ℕ} (e : Eigh D) (C : S → Matrix D D ℝ) (inds : ℕ → Fin b → S) (eps : ℝ) : ℕ → ℕ → Matrix D D ℝ → Matrix D D ℝ → List ℝ → Matrix D D ℝ × Matrix D D ℝ
  | 0, _, Cb, Cavg, _ => (Cb, Cavg)
  | n + 1, it, Cb, Cavg, L =>
    let Cnew := expBures Cb (-(sgdStep it • gradBatch e C (inds it) Cb))
    let Cavg' := avgStep e (sgdStep it) Cavg Cnew
    let L' := frob (Cb - Cnew) :: L
    if stopTest L' eps then (Cb, Cavg') else sgdLoop e C inds eps n (it + 1) Cnew Cavg' L'

/-- `bures_barycenter_gradient_descent` with `batch_size = b < n` (ot/gaussian.py 537-670). -/
noncomputable def barySgd {b : ℕ} (e : Eigh D) (w : S → ℝ) (C : S → Matrix D D ℝ) (inds : ℕ → Fin b → S) (eps : ℝ) (averaged : Bool) (n : ℕ) : Matrix D D ℝ :=
  let r := sgdLoop e C inds eps n 0 (baryInit w C) (baryInit w C) []
  if averaged then r.2 else r.1

/-- `mb = nx.sum(m * weights[:, None], axis=0)` (ot/gaussian.py 762). -/
def baryMean (w : S → ℝ) (m : S → D → ℝ) : D → ℝ := fun d => ∑ s, m s d * w s

end Barycenter

section Gromov

/-- `nx.eigh` followed by sorting in decreasing order of the eigenvalues (ot/gaussian.py 940-943, 1073-1080). -/
structure EighDesc (n : ℕ) where
  vals : Matrix (Fin n) (Fin n) ℝ → Fin n → ℝ
  vecs : Matrix (Fin n) (Fin n) ℝ → Matrix (Fin n) (Fin n) ℝ

/-- What the sorted decomposition of a symmetric matrix satisfies. -/
def EighDesc.Ok {n : ℕ} (e : EighDesc n) : Prop :=
  ∀ C : Matrix (Fin n) (Fin n) ℝ, Cᵀ = C → (e.vecs C)ᵀ * e.vecs C = 1 ∧ e.vecs C * diagonal (e.vals C) * (e.vecs C)ᵀ = C ∧ Antitone (e.vals C)

/-- The value of `gaussian_gromov_wasserstein_distance` once `Cov_s` is the larger matrix, of size `m = n + k` (ot/gaussian.py 937-961). -/
noncomputable def ggwLarge {n k : ℕ} (es : EighDesc (n + k)) (et : EighDesc n) (Cs : Matrix (Fin (n + k)) (Fin (n + k)) ℝ) (Ct : Matrix (Fin n) (Fin n) ℝ) : ℝ :=
  let ds := es.vals Cs
  let dt := et.vals Ct
  Real.sqrt (4 * ((∑ i, ds i) - ∑ i, dt i) ^ 2 + 8 * (∑ i : Fin n, (ds (Fin.castAdd k i) - dt i) ^ 2) + 8 * ∑ i : Fin k, ds (Fin.natAdd n i) ^ 2)

/-- The block `[diag(sign * sqrt(d_t) / sqrt(d_s[:n])) ; 0]` for `m >= n` (ot/gaussian.py 1085-1092). -/
noncomputable def ggwBlock {n k : ℕ} (sign : Fin n → ℝ) (ds : Fin (n + k) → ℝ) (dt : Fin n → ℝ) : Matrix (Fin (n + k)) (Fin n) ℝ :=
  fun i j => Fin.addCases (fun i' => if i' = j then sign i' * Real.sqrt (dt i') / Real.sqrt (ds (Fin.castAdd k i')) else 0) (fun _ => 0) i

/-- `gaussian_gromov_wasserstein_mapping` for `m = n + k >= n` (ot/gaussian.py 1027-1115). -/
noncomputable def ggwMap {n k : ℕ} (es : EighDesc (n + k)) (et : EighDesc n) (sign : Fin n → ℝ) (mus : Fin (n + k) → ℝ) (mt' : Fin n → ℝ)
    (Cs : Matrix (Fin (n + k)) (Fin (n + k)) ℝ) (Ct : Matrix (Fin n) (Fin n) ℝ) : Matrix (Fin (n + k)) (Fin n) ℝ × (Fin n → ℝ) :=
  let A := es.vecs Cs * ggwBlock sign (es.vals Cs) (et.vals Ct) * (et.vecs Ct)ᵀ
  (A, mt' - mus ᵥ* A)

/-- `sign_eigs="skewness"` of `empirical_gaussian_gromov_wasserstein_mapping` for samples `xs`, `xt` centred already (ot/gaussian.py 1196-1200). -/
noncomputable def skewSign {I J : Type*} [Fintype I] [Fintype J] {n k : ℕ} (Us : Matrix (Fin (n + k)) (Fin (n + k)) ℝ) (Ut : Matrix (Fin n) (Fin n) ℝ) (ws : I → ℝ) (wt : J → ℝ)
    (xs : I → Fin (n + k) → ℝ) (xt : J → Fin n → ℝ) (c : Fin n) : ℝ :=
  let skewS := ∑ i, (∑ d, xs i d * Us d (Fin.castAdd k c)) ^ 3 * ws i
  let skewT := ∑ j, (∑ d, xt j d * Ut d c) ^ 3 * wt j
  (SignType.sign (skewT * skewS) : ℝ)

end Gromov

end POT.Gaussian
