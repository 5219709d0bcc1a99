import Verif.Model.Optim
import Verif.Spec.Da
import Mathlib.LinearAlgebra.Matrix.Trace
import Mathlib.Data.Matrix.Diagonal

/-! # Model of the regularised plans of `ot/da.py` that are computed with conditional gradients -/

set_option linter.unusedSectionVars false

namespace POT.DaReg

open Finset Optim Matrix

variable {I J D : Type*} [Fintype I] [Fintype J] [Fintype D] [DecidableEq I] [DecidableEq J]

/-! ### `emd_laplace` -/

/-- `laplacian(x)` (ot/utils.py 52-56). -/
def laplacian (S : Matrix I I ℝ) : Matrix I I ℝ := Matrix.diagonal (fun k => ∑ l, S l k) - S

/-- `kernel(x, x, method='gauss', sigma)` (ot/utils.py 42-49), the similarity for `sim = "gauss"` (ot/da.py 450-454). -/
noncomputable def gaussSim (x : I → D → ℝ) (sigma : ℝ) : Matrix I I ℝ := fun i k => Real.exp (-Spec.sqEuclid (x i) (x k) / (2 * sigma ^ 2))

/-- `(s + s.T) / 2` (ot/da.py 470, 475), the similarity for `sim = "knn"`; the graph `s` comes from scikit-learn. -/
noncomputable def knnSim (s : Matrix I I ℝ) : Matrix I I ℝ := fun i k => (s i k + s k i) / 2

/-- The arguments of `emd_laplace` that matter for the objective; `sS`, `sT` are the similarities. -/
structure Lap (I J D : Type*) where
  xs : Matrix I D ℝ
  xt : Matrix J D ℝ
  sS : Matrix I I ℝ
  sT : Matrix J J ℝ
  M : Matrix I J ℝ
  eta : ℝ
  alpha : ℝ
  disp : Bool

/-- `f` (ot/da.py 486-489). -/
def Lap.f (p : Lap I J D) (G : Matrix I J ℝ) : ℝ :=
  p.alpha * (p.xtᵀ * Gᵀ * laplacian p.sS * G * p.xt).trace + (1 - p.alpha) * (p.xsᵀ * G * laplacian p.sT * Gᵀ * p.xs).trace

/-- `df` (ot/da.py 491-493, 500-501). -/
def Lap.df (p : Lap I J D) (G : Matrix I J ℝ) : Matrix I J ℝ :=
  p.alpha • ((laplacian p.sS + (laplacian p.sS)ᵀ) * G * (p.xt * p.xtᵀ)) + (1 - p.alpha) • (p.xs * p.xsᵀ * G * (laplacian p.sT + (laplacian p.sT)ᵀ))

/-- The cost matrix passed on (ot/da.py 495-498). -/
noncomputable def Lap.cost (p : Lap I J D) : Matrix I J ℝ :=
  if p.disp then
    p.M + (-p.eta * p.alpha / Fintype.card I) • ((laplacian p.sS + (laplacian p.sS)ᵀ) * p.xs * p.xtᵀ)
      + (-p.eta * (1 - p.alpha) / Fintype.card J) • (p.xs * p.xtᵀ * (laplacian p.sT + (laplacian p.sT)ᵀ))
  else p.M

/-- `emd_laplace` (ot/da.py 503-517): the call of `cg`; `lp` is `emd`. -/
noncomputable def Lap.problem (p : Lap I J D) (lp : (I → J → ℝ) → I → J → ℝ) (search : (ℝ → ℝ) → ℝ → ℝ → Option (ℝ × ℝ)) (numItermax : ℕ) (stopThr stopThr2 : ℝ) : Problem ℝ I J :=
  cgProblem p.cost p.f p.df p.eta lp search numItermax stopThr stopThr2

/-! ### `gcg` and `sinkhorn_l1l2_gl` -/

/-- `gcg` (ot/optim.py 808-923): `sk` is the inner Sinkhorn solver with regularisation `reg1`; the entropy is not passed to `generic_conditional_gradient` (906-922: `reg2, None`). -/
noncomputable def gcgProblem (M : I → J → ℝ) (reg2 : ℝ) (f : (I → J → ℝ) → ℝ) (df : (I → J → ℝ) → I → J → ℝ) (sk : (I → J → ℝ) → I → J → ℝ)
    (search : (ℝ → ℝ) → ℝ → ℝ → Option (ℝ × ℝ)) (numItermax : ℕ) (stopThr stopThr2 : ℝ) : Problem ℝ I J where
  M := M
  f := f
  df := df
  reg1 := reg2
  lpSolver := sk
  lineSearch := fun G dG Mi costG _ => armijo search 0 none (fun G => ∑ i, ∑ j, M i j * G i j + reg2 * f G) G dG Mi costG
  numItermax := numItermax
  stopThr := stopThr
  stopThr2 := stopThr2

variable {L : ℕ}

/-- `f` of `sinkhorn_l1l2_gl` (ot/da.py 294-300): `idx` is `labels_idx`. -/
noncomputable def glF (idx : I → Fin L) (G : I → J → ℝ) : ℝ :=
  let unroll : I → Fin L → ℝ := fun i c => if c = idx i then 1 else 0
  ∑ j, ∑ c, Real.sqrt (∑ i, (G i j * unroll i c) ^ 2)

/-- `df` of `sinkhorn_l1l2_gl` (ot/da.py 302-306). -/
noncomputable def glDf (idx : I → Fin L) (eps : ℝ) (G : I → J → ℝ) : I → J → ℝ :=
  let unroll : I → Fin L → ℝ := fun i c => if c = idx i then 1 else 0
  let W : J → Fin L → ℝ := fun j c => Real.sqrt (∑ i, (G i j * unroll i c * unroll i c) ^ 2)
  fun i j => ∑ c, G i j * unroll i c / max (W j c) eps

/-- `sinkhorn_l1l2_gl` (ot/da.py 308-322). -/
noncomputable def glProblem (idx : I → Fin L) (eps : ℝ) (M : I → J → ℝ) (eta : ℝ) (sk : (I → J → ℝ) → I → J → ℝ) (search : (ℝ → ℝ) → ℝ → ℝ → Option (ℝ × ℝ))
    (numItermax : ℕ) (stopThr stopThr2 : ℝ) : Problem ℝ I J :=
  gcgProblem M eta (glF idx) (glDf idx eps) sk search numItermax stopThr stopThr2

end POT.DaReg
