import Verif.Spec.Dr

/-! # Model of `ewca` (ot/dr.py 426-594)

Parameters of the model: the `Q` factor `qr` of `np.linalg.qr`, `np.linalg.eigh` for the features and for the samples, the inner solver `sink` (`ot.bregman.sinkhorn`, with its warm start threaded through), the distance `crit` between
subspaces used by the stopping test, and scikit-learn's `PCA` (components and largest variance).  Simplified: real arithmetic, no printing. -/

set_option linter.unusedSectionVars false

namespace POT.Ewca

open Finset Matrix Spec

variable {n d k : ℕ}

/-- Values (ascending) and vectors of a symmetric matrix, as `np.linalg.eigh` returns them. -/
structure Eigh (n : ℕ) where
  vals : Matrix (Fin n) (Fin n) ℝ → Fin n → ℝ
  vecs : Matrix (Fin n) (Fin n) ℝ → Matrix (Fin n) (Fin n) ℝ

/-- What `np.linalg.eigh` promises. -/
def Eigh.Ok (e : Eigh n) : Prop :=
  ∀ S, Sᵀ = S → (e.vecs S)ᵀ * e.vecs S = 1 ∧ S = e.vecs S * diagonal (e.vals S) * (e.vecs S)ᵀ ∧ Monotone (e.vals S)

/-- What the function calls. -/
structure Ext (n d k : ℕ) (W : Type*) where
  qr : Matrix (Fin d) (Fin k) ℝ → Matrix (Fin d) (Fin k) ℝ
  eighD : Eigh d
  eighN : Eigh n
  sink : Option W → (Fin n → Fin n → ℝ) → Matrix (Fin n) (Fin n) ℝ × Option W
  crit : Matrix (Fin d) (Fin k) ℝ → Matrix (Fin d) (Fin k) ℝ → ℝ
  pca : Matrix (Fin n) (Fin d) ℝ → Matrix (Fin d) (Fin k) ℝ × ℝ

inductive Method | bcd | mm

variable {W : Type*}

/-- `X - X.mean(0)` (ot/dr.py 495). -/
noncomputable def center (X : Matrix (Fin n) (Fin d) ℝ) : Matrix (Fin n) (Fin d) ℝ := of fun i e => X i e - (∑ l, X l e) / n

/-- `dist_utils(X, (X @ U) @ U.T)` (ot/dr.py 535): squared euclidean distances between the rows. -/
def costM (X : Matrix (Fin n) (Fin d) ℝ) (U : Matrix (Fin d) (Fin k) ℝ) : Fin n → Fin n → ℝ :=
  fun i j => ∑ e, (X i e - ((X * U) * Uᵀ) j e) ^ 2

/-- `pi_sym` (ot/dr.py 556). -/
noncomputable def piSym (P : Matrix (Fin n) (Fin n) ℝ) : Matrix (Fin n) (Fin n) ℝ := (1 / 2 : ℝ) • (P + Pᵀ)

/-- `S` (ot/dr.py 560). -/
noncomputable def bcdS (X : Matrix (Fin n) (Fin d) ℝ) (P : Matrix (Fin n) (Fin n) ℝ) : Matrix (Fin d) (Fin d) ℝ :=
  Xᵀ * ((2 : ℝ) • piSym P - (1 / (n : ℝ)) • 1) * X

/-- `U[:, ::-1][:, :k]` (ot/dr.py 561-562). -/
def topCols (h : k ≤ d) (V : Matrix (Fin d) (Fin d) ℝ) : Matrix (Fin d) (Fin k) ℝ := V.submatrix id fun c => Fin.rev (Fin.castLE h c)

/-- Smallest eigenvalue of `pi_sym` (ot/dr.py 566-567). -/
noncomputable def lambdaPi (e : Eigh n) (hn : 0 < n) (P : Matrix (Fin n) (Fin n) ℝ) : ℝ := e.vals (piSym P) ⟨0, hn⟩

/-- `R` (ot/dr.py 570-580), when `lambda_scm` is bound to `lam`. -/
noncomputable def mmR (X : Matrix (Fin n) (Fin d) ℝ) (P : Matrix (Fin n) (Fin n) ℝ) (lamPi lam : ℝ) (U : Matrix (Fin d) (Fin k) ℝ) : Matrix (Fin d) (Fin k) ℝ :=
  let XtXU := Xᵀ * (X * U)
  let alpha := 1 - 2 * n * lamPi
  let R := (1 / (n : ℝ)) • XtXU
  (if 0 < alpha then alpha • (R - lam • U) else alpha • R) - (2 : ℝ) • (Xᵀ * (piSym P * (X * U))) + (2 * lamPi) • XtXU

/-- The inner loop of the majorisation-minimisation method (ot/dr.py 569-581).  `none` is the error raised by reading the unbound `lambda_scm`. -/
noncomputable def mmLoop (E : Ext n d k W) (X : Matrix (Fin n) (Fin d) ℝ) (P : Matrix (Fin n) (Fin n) ℝ) (lamPi : ℝ) (lam : Option ℝ) : ℕ → Matrix (Fin d) (Fin k) ℝ → Option (Matrix (Fin d) (Fin k) ℝ)
  | 0, U => some U
  | t + 1, U =>
    if lam = none ∧ 0 < 1 - 2 * n * lamPi then none
    else mmLoop E X P lamPi lam t (E.qr (mmR X P lamPi (lam.getD 0) U))

/-- Variables of the loop; `pi` is not bound before the first iteration.  `crit` starts at infinity (`none`). -/
structure St (n d k : ℕ) (W : Type*) where
  U : Matrix (Fin d) (Fin k) ℝ
  pi : Option (Matrix (Fin n) (Fin n) ℝ)
  warm : Option W
  crit : Option ℝ

/-- Update of the projection given the plan (ot/dr.py 556-584). -/
noncomputable def updateU (E : Ext n d k W) (hn : 0 < n) (hk : k ≤ d) (X : Matrix (Fin n) (Fin d) ℝ) (P : Matrix (Fin n) (Fin n) ℝ) (lam : Option ℝ) (maxiterMM : ℕ) (U : Matrix (Fin d) (Fin k) ℝ) : Method → Option (Matrix (Fin d) (Fin k) ℝ)
  | .bcd => some (topCols hk (E.eighD.vecs (bcdS X P)))
  | .mm => mmLoop E X P (lambdaPi E.eighN hn P) lam maxiterMM U

/-- One iteration (ot/dr.py 532-588). -/
noncomputable def step (E : Ext n d k W) (hn : 0 < n) (hk : k ≤ d) (X : Matrix (Fin n) (Fin d) ℝ) (lam : Option ℝ) (maxiterMM : ℕ) (m : Method) (s : St n d k W) : Option (St n d k W) :=
  let r := E.sink s.warm (costM X s.U)
  (updateU E hn hk X r.1 lam maxiterMM s.U m).map fun U => { U := U, pi := some r.1, warm := r.2 <|> s.warm, crit := some (E.crit s.U U) }

open Classical in
/-- The loop `while (it < maxiter) and (crit > stopThr)` (ot/dr.py 531). -/
noncomputable def loop (f : St n d k W → Option (St n d k W)) (stopThr : ℝ) : ℕ → St n d k W → Option (St n d k W)
  | 0, s => some s
  | t + 1, s => if ∀ c, s.crit = some c → stopThr < c then (f s).bind (loop f stopThr t) else some s

/-- The start (ot/dr.py 497-503): with `U0` given, `lambda_scm` is never bound; it is bound by the `PCA` branch for `method="MM"`. -/
noncomputable def start (E : Ext n d k W) (X : Matrix (Fin n) (Fin d) ℝ) (U0 : Option (Matrix (Fin d) (Fin k) ℝ)) : Method → Matrix (Fin d) (Fin k) ℝ × Option ℝ := fun m =>
  match U0, m with
  | some U, _ => (U, none)
  | none, .mm => ((E.pca X).1, some (E.pca X).2)
  | none, .bcd => ((E.pca X).1, none)

/-- `ewca` (ot/dr.py 426-594); `none` is an error. -/
noncomputable def ewca (E : Ext n d k W) (hn : 0 < n) (hk : k ≤ d) (X : Matrix (Fin n) (Fin d) ℝ) (U0 : Option (Matrix (Fin d) (Fin k) ℝ)) (m : Method) (stopThr : ℝ) (maxiter maxiterMM : ℕ) : Option (Matrix (Fin n) (Fin n) ℝ × Matrix (Fin d) (Fin k) ℝ) :=
  let Xc := center X
  let st := start E Xc U0 m
  (loop (step E hn hk Xc st.2 maxiterMM m) stopThr maxiter { U := st.1, pi := none, warm := none, crit := none }).bind fun s =>
    s.pi.map fun P => (P, s.U)

end POT.Ewca
