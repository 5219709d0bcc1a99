import Verif.Spec.Entropic

/-!
# Model of the Sinkhorn solvers (`ot/bregman/_sinkhorn.py`, `ot/bregman/_empirical.py`, `ot/solvers.py`, `ot/batch/_utils.py`)

Arrays over the source (target) points are functions on a finite type `I` (`J`).  Real arithmetic is exact; `nan`/`inf` tests are modelled by the
divisions by zero that cause them.
-/

set_option linter.unusedSectionVars false

namespace POT.Sinkhorn

open Finset Spec

/-- How an iteration loop ends: `break` on the tolerance, `for … else` (iteration limit), or roll-back after a numerical error. -/
inductive Exit where
  | converged
  | exhausted
  | numerical
deriving DecidableEq

/-- Result of a loop: final state, the value of the loop counter that the code reports, and how it ended. -/
structure Run (S : Type*) where
  s : S
  niter : ℕ
  exit : Exit

open Classical in
/-- The iteration loop shared by `sinkhorn_knopp` (ot/bregman/_sinkhorn.py 626-670), `sinkhorn_log` (880-906), `greenkhorn` (1059-1092), the lazy branch of
`empirical_sinkhorn` (ot/bregman/_empirical.py 218-263) and the batch solvers (ot/batch/_utils.py 141-149, 268-278).  `bad s` says that updating `s` meets a
numerical error (the code then returns to `s` and breaks); `stop ii old new` is the test that ends the loop in iteration `ii`.  With an iteration limit of `0`
the code never binds its loop counter and fails if the log is requested; the counter is `0` here. -/
noncomputable def loop {S : Type*} (step : S → S) (bad : S → Prop) (stop : ℕ → S → S → Prop) : ℕ → ℕ → S → Run S
  | 0, ii, s => ⟨s, ii - 1, .exhausted⟩
  | k + 1, ii, s =>
    if bad s then ⟨s, ii, .numerical⟩
    else if stop ii s (step s) then ⟨step s, ii, .converged⟩
    else loop step bad stop k (ii + 1) (step s)

variable {I J : Type*} [Fintype I] [Fintype J]

/-- `K = nx.exp(M / (-reg))` (ot/bregman/_sinkhorn.py 621, 1042). -/
noncomputable def kernel (M : I → J → ℝ) (reg : ℝ) : I → J → ℝ := fun i j => Real.exp (M i j / (-reg))

/-- The pair of scaling vectors. -/
@[ext] structure UV (I J : Type*) where
  u : I → ℝ
  v : J → ℝ

/-- `u.reshape((-1, 1)) * K * v.reshape((1, -1))` (ot/bregman/_sinkhorn.py 685-687). -/
def plan (K : I → J → ℝ) (s : UV I J) : I → J → ℝ := fun i j => s.u i * K i j * s.v j

/-- `KtransposeU = nx.dot(K.T, u)` (ot/bregman/_sinkhorn.py 629). -/
def ktu (K : I → J → ℝ) (u : I → ℝ) : J → ℝ := fun j => ∑ i, K i j * u i

/-- `nx.dot(Kp, v)` with `Kp = (1 / a).reshape(-1, 1) * K` (ot/bregman/_sinkhorn.py 623, 631). -/
noncomputable def kpv (a : I → ℝ) (K : I → J → ℝ) (v : J → ℝ) : I → ℝ := fun i => ∑ j, 1 / a i * K i j * v j

open Classical in
/-- One iteration of `sinkhorn_knopp` (ot/bregman/_sinkhorn.py 629-631). For `a i = 0` the entry `1 / a i` is infinite, so is `nx.dot(Kp, v)` (when `v` is
positive), and `u i = 1 / inf = 0`. -/
noncomputable def knoppStep (a : I → ℝ) (b : J → ℝ) (K : I → J → ℝ) (s : UV I J) : UV I J :=
  let v := fun j => b j / ktu K s.u j
  { u := fun i => if a i = 0 then 0 else 1 / kpv a K v i, v := v }

/-- The test of lines 633-639: `KtransposeU` has a zero, `u` is infinite because `nx.dot(Kp, v)` has a zero, or `u` is `nan` because
`nx.dot(Kp, v)` contains `inf * 0` (a zero weight in `a` and a zero weight in `b`). -/
def knoppBad (a : I → ℝ) (b : J → ℝ) (K : I → J → ℝ) (s : UV I J) : Prop :=
  (∃ j, ktu K s.u j = 0) ∨ (∃ i, a i ≠ 0 ∧ kpv a K (fun j => b j / ktu K s.u j) i = 0) ∨ ∃ i j, a i = 0 ∧ b j = 0

/-- `err = nx.norm(tmp2 - b)` with `tmp2 = nx.einsum("i,ij,j->j", u, K, v)` (ot/bregman/_sinkhorn.py 653-654). -/
noncomputable def colErr (b : J → ℝ) (K : I → J → ℝ) (s : UV I J) : ℝ :=
  norm2 fun j => ∑ i, s.u i * K i j * s.v j - b j

/-- Initial scalings of `sinkhorn_knopp` (ot/bregman/_sinkhorn.py 611-619). -/
noncomputable def knoppInit (warm : Option ((I → ℝ) × (J → ℝ))) : UV I J :=
  match warm with
  | none => { u := fun _ => 1 / (Fintype.card I : ℝ), v := fun _ => 1 / (Fintype.card J : ℝ) }
  | some w => { u := fun i => Real.exp (w.1 i), v := fun j => Real.exp (w.2 j) }

/-- `sinkhorn_knopp` for one histogram (ot/bregman/_sinkhorn.py 588-687); the returned matrix is `plan (kernel M reg) run.s`, the logged scalings
are `run.s.u`, `run.s.v`. -/
noncomputable def sinkhornKnopp (a : I → ℝ) (b : J → ℝ) (M : I → J → ℝ) (reg : ℝ) (numItermax : ℕ) (stopThr : ℝ)
    (warm : Option ((I → ℝ) × (J → ℝ))) : Run (UV I J) :=
  let K := kernel M reg
  loop (knoppStep a b K) (knoppBad a b K) (fun ii _ s => ii % 10 = 0 ∧ colErr b K s < stopThr) numItermax 0 (knoppInit warm)

/-! ## Log domain -/

/-- `nx.logsumexp`. Simplification: the shift by the maximum that the back ends use is not modelled. -/
noncomputable def logsumexp {L : Type*} [Fintype L] (x : L → ℝ) : ℝ := Real.log (∑ l, Real.exp (x l))

/-- `get_logT(u, v)` with `Mr = -M / reg` (ot/bregman/_sinkhorn.py 860, 874). -/
noncomputable def logT (M : I → J → ℝ) (reg : ℝ) (s : UV I J) : I → J → ℝ := fun i j => -M i j / reg + s.u i + s.v j

/-- One iteration of `sinkhorn_log` (ot/bregman/_sinkhorn.py 881-882). -/
noncomputable def logStep (a : I → ℝ) (b : J → ℝ) (M : I → J → ℝ) (reg : ℝ) (s : UV I J) : UV I J :=
  let v := fun j => Real.log (b j) - logsumexp fun i => -M i j / reg + s.u i
  { u := fun i => Real.log (a i) - logsumexp fun j => -M i j / reg + v j, v := v }

/-- Error of `sinkhorn_log` (ot/bregman/_sinkhorn.py 889-890). -/
noncomputable def logErr (b : J → ℝ) (M : I → J → ℝ) (reg : ℝ) (s : UV I J) : ℝ :=
  norm2 fun j => ∑ i, Real.exp (logT M reg s i j) - b j

/-- Initial potentials (ot/bregman/_sinkhorn.py 864-868). -/
noncomputable def logInit (warm : Option ((I → ℝ) × (J → ℝ))) : UV I J :=
  match warm with
  | none => { u := fun _ => 0, v := fun _ => 0 }
  | some w => { u := w.1, v := w.2 }

/-- `sinkhorn_log` for one histogram (ot/bregman/_sinkhorn.py 856-918); the returned matrix is `exp (logT M reg run.s)`. -/
noncomputable def sinkhornLog (a : I → ℝ) (b : J → ℝ) (M : I → J → ℝ) (reg : ℝ) (numItermax : ℕ) (stopThr : ℝ)
    (warm : Option ((I → ℝ) × (J → ℝ))) : Run (UV I J) :=
  loop (logStep a b M reg) (fun _ => False) (fun ii _ s => ii % 10 = 0 ∧ logErr b M reg s < stopThr) numItermax 0 (logInit warm)

/-- The matrix returned by `sinkhorn_log` (ot/bregman/_sinkhorn.py 915, 918). -/
noncomputable def logPlan (M : I → J → ℝ) (reg : ℝ) (s : UV I J) : I → J → ℝ := fun i j => Real.exp (logT M reg s i j)

/-- The extra update of `ot.solve(..., grad="last_step")` (ot/solvers.py 463-469): both potentials are computed from the *old* ones. -/
noncomputable def lastStep (a : I → ℝ) (b : J → ℝ) (M : I → J → ℝ) (reg : ℝ) (s : UV I J) : UV I J :=
  { v := fun j => Real.log (b j) - logsumexp fun i => -M i j / reg + s.u i
    u := fun i => Real.log (a i) - logsumexp fun j => -M i j / reg + s.v j }

/-! ## Several histograms -/

/-- Scalings for several histograms, `u` of shape `(dim_a, n_hists)`. -/
@[ext] structure UVH (I J H : Type*) where
  u : I → H → ℝ
  v : J → H → ℝ

variable {H : Type*} [Fintype H]

open Classical in
/-- One iteration of `sinkhorn_knopp` with `b` of shape `(dim_b, n_hists)` (ot/bregman/_sinkhorn.py 629-631). -/
noncomputable def knoppStepH (a : I → ℝ) (b : J → H → ℝ) (K : I → J → ℝ) (s : UVH I J H) : UVH I J H :=
  let v : J → H → ℝ := fun j h => b j h / ∑ i, K i j * s.u i h
  { u := fun i h => if a i = 0 then 0 else 1 / ∑ j, 1 / a i * K i j * v j h, v := v }

/-- The numerical test for several histograms (ot/bregman/_sinkhorn.py 633-639). -/
def knoppBadH (a : I → ℝ) (b : J → H → ℝ) (K : I → J → ℝ) (s : UVH I J H) : Prop :=
  (∃ j h, ∑ i, K i j * s.u i h = 0) ∨ (∃ i h, a i ≠ 0 ∧ ∑ j, 1 / a i * K i j * (b j h / ∑ i, K i j * s.u i h) = 0) ∨
    ∃ i j h, a i = 0 ∧ b j h = 0

/-- Joint error (ot/bregman/_sinkhorn.py 650, 654): the Euclidean norm over all histograms. -/
noncomputable def colErrH (b : J → H → ℝ) (K : I → J → ℝ) (s : UVH I J H) : ℝ :=
  norm2 fun x : J × H => ∑ i, s.u i x.2 * K i x.1 * s.v x.1 x.2 - b x.1 x.2

/-- `sinkhorn_knopp` with several histograms, without warm start (ot/bregman/_sinkhorn.py 601-687). -/
noncomputable def sinkhornKnoppH (a : I → ℝ) (b : J → H → ℝ) (M : I → J → ℝ) (reg : ℝ) (numItermax : ℕ) (stopThr : ℝ) :
    Run (UVH I J H) :=
  let K := kernel M reg
  loop (knoppStepH a b K) (knoppBadH a b K) (fun ii _ s => ii % 10 = 0 ∧ colErrH b K s < stopThr) numItermax 0
    { u := fun _ _ => 1 / (Fintype.card I : ℝ), v := fun _ _ => 1 / (Fintype.card J : ℝ) }

/-- The returned losses `nx.einsum("ik,ij,jk,ij->k", u, K, v, M)` (ot/bregman/_sinkhorn.py 677). -/
noncomputable def lossH (K M : I → J → ℝ) (s : UVH I J H) (h : H) : ℝ := ∑ i, ∑ j, s.u i h * K i j * s.v j h * M i j

/-- Multi-histogram branch of `sinkhorn_log` without warm start (ot/bregman/_sinkhorn.py 815-854): `warmstart = [None] * n_hists` is only prepared for
`n_hists > 1`, and line 834 indexes it. `none` models the exception (`None[0]`). The list of histograms is `bs`. -/
noncomputable def sinkhornLogH (a : I → ℝ) (bs : List (J → ℝ)) (M : I → J → ℝ) (reg : ℝ) (numItermax : ℕ) (stopThr : ℝ) :
    Option (List ℝ) :=
  let warmstart : Option (List (Option ((I → ℝ) × (J → ℝ)))) :=
    if bs.length > 1 then some (List.replicate bs.length none) else none
  match warmstart with
  | none => none
  | some w => some (List.zipWith (fun b wk => cost M (logPlan M reg (sinkhornLog a b M reg numItermax stopThr wk).s)) bs w)

/-! ## Greenkhorn -/

/-- State of `greenkhorn` (ot/bregman/_sinkhorn.py 1044-1052). -/
structure Green (I J : Type*) where
  u : I → ℝ
  v : J → ℝ
  G : I → J → ℝ
  viol : I → ℝ
  viol2 : J → ℝ

/-- Initial state (ot/bregman/_sinkhorn.py 1044-1052). -/
noncomputable def greenInit (a : I → ℝ) (b : J → ℝ) (K : I → J → ℝ) (warm : Option ((I → ℝ) × (J → ℝ))) : Green I J :=
  let s := knoppInit warm
  let G : I → J → ℝ := fun i j => s.u i * K i j * s.v j
  { u := s.u, v := s.v, G := G, viol := fun i => ∑ j, G i j - a i, viol2 := fun j => ∑ i, G i j - b j }

/-- Update of row `i₁` (ot/bregman/_sinkhorn.py 1067-1073). -/
noncomputable def greenRow [DecidableEq I] (a : I → ℝ) (K : I → J → ℝ) (i₁ : I) (s : Green I J) : Green I J :=
  let old_u := s.u i₁
  let new_u := a i₁ / ∑ j, K i₁ j * s.v j
  { u := Function.update s.u i₁ new_u
    v := s.v
    G := Function.update s.G i₁ fun j => new_u * K i₁ j * s.v j
    viol := Function.update s.viol i₁ (∑ j, new_u * K i₁ j * s.v j - a i₁)
    viol2 := fun j => s.viol2 j + K i₁ j * (new_u - old_u) * s.v j }

/-- Update of column `i₂` (ot/bregman/_sinkhorn.py 1075-1082). -/
noncomputable def greenCol [DecidableEq J] (b : J → ℝ) (K : I → J → ℝ) (i₂ : J) (s : Green I J) : Green I J :=
  let old_v := s.v i₂
  let new_v := b i₂ / ∑ i, K i i₂ * s.u i
  { u := s.u
    v := Function.update s.v i₂ new_v
    G := fun i => Function.update (s.G i) i₂ (s.u i * K i i₂ * new_v)
    viol := fun i => s.viol i + (-old_v + new_v) * K i i₂ * s.u i
    viol2 := Function.update s.viol2 i₂ (new_v * ∑ i, K i i₂ * s.u i - b i₂) }

open Classical in
/-- One iteration of `greenkhorn` (ot/bregman/_sinkhorn.py 1060-1082); `pick₁`, `pick₂` are `argmax`. -/
noncomputable def greenStep (a : I → ℝ) (b : J → ℝ) (K : I → J → ℝ) (pick₁ : (I → ℝ) → I) (pick₂ : (J → ℝ) → J)
    (s : Green I J) : Green I J :=
  let i₁ := pick₁ fun i => |s.viol i|
  let i₂ := pick₂ fun j => |s.viol2 j|
  if |s.viol i₁| > |s.viol2 i₂| then greenRow a K i₁ s else greenCol b K i₂ s

/-- `stopThr_val` of an iteration (ot/bregman/_sinkhorn.py 1062-1064), computed before the update. -/
noncomputable def greenVal (pick₁ : (I → ℝ) → I) (pick₂ : (J → ℝ) → J) (s : Green I J) : ℝ :=
  max |s.viol (pick₁ fun i => |s.viol i|)| |s.viol2 (pick₂ fun j => |s.viol2 j|)|

/-- `greenkhorn` (ot/bregman/_sinkhorn.py 1025-1102); the returned matrix is `run.s.G`; the stopping
value is the one before the update of the same iteration. -/
noncomputable def greenkhorn (a : I → ℝ) (b : J → ℝ) (M : I → J → ℝ) (reg : ℝ) (pick₁ : (I → ℝ) → I) (pick₂ : (J → ℝ) → J)
    (numItermax : ℕ) (stopThr : ℝ) (warm : Option ((I → ℝ) × (J → ℝ))) : Run (Green I J) :=
  loop (greenStep a b (kernel M reg) pick₁ pick₂) (fun _ => False) (fun _ old _ => greenVal pick₁ pick₂ old ≤ stopThr) numItermax 0
    (greenInit a b (kernel M reg) warm)

/-! ## Stabilised Sinkhorn and epsilon scaling -/

/-- State of `sinkhorn_stabilized` (one histogram). `K` is not stored: it is `getK` of the current `alpha`, `beta` (lines 1270, 1296). -/
structure Stab (I J : Type*) where
  alpha : I → ℝ
  beta : J → ℝ
  u : I → ℝ
  v : J → ℝ

/-- `get_K(alpha, beta)` (ot/bregman/_sinkhorn.py 1258-1260). -/
noncomputable def getK (M : I → J → ℝ) (reg : ℝ) (alpha : I → ℝ) (beta : J → ℝ) : I → J → ℝ :=
  fun i j => Real.exp (-(M i j - alpha i - beta j) / reg)

/-- `get_Gamma(alpha, beta, u, v)` (ot/bregman/_sinkhorn.py 1262-1268), the returned plan. -/
noncomputable def getGamma (M : I → J → ℝ) (reg : ℝ) (s : Stab I J) : I → J → ℝ :=
  fun i j => Real.exp (-(M i j - s.alpha i - s.beta j) / reg + Real.log (s.u i) + Real.log (s.v j))

/-- The Sinkhorn update of `sinkhorn_stabilized` (ot/bregman/_sinkhorn.py 1278-1279). -/
noncomputable def stabUpdate (a : I → ℝ) (b : J → ℝ) (M : I → J → ℝ) (reg : ℝ) (s : Stab I J) : Stab I J :=
  let K := getK M reg s.alpha s.beta
  let v := fun j => b j / ∑ i, K i j * s.u i
  { s with v := v, u := fun i => a i / ∑ j, K i j * v j }

/-- The absorption (ot/bregman/_sinkhorn.py 1289-1296, one histogram): `u`, `v` restart at `1/dim_a`, `1/dim_b`. -/
noncomputable def absorb (reg : ℝ) (s : Stab I J) : Stab I J :=
  { alpha := fun i => s.alpha i + reg * Real.log (s.u i)
    beta := fun j => s.beta j + reg * Real.log (s.v j)
    u := fun _ => 1 / (Fintype.card I : ℝ)
    v := fun _ => 1 / (Fintype.card J : ℝ) }

/-- The test `nx.max(nx.abs(u)) > tau or nx.max(nx.abs(v)) > tau` (ot/bregman/_sinkhorn.py 1282). -/
def mustAbsorb (tau : ℝ) (s : Stab I J) : Prop := (∃ i, tau < |s.u i|) ∨ ∃ j, tau < |s.v j|

open Classical in
/-- One iteration (ot/bregman/_sinkhorn.py 1278-1296). -/
noncomputable def stabStep (a : I → ℝ) (b : J → ℝ) (M : I → J → ℝ) (reg tau : ℝ) (s : Stab I J) : Stab I J :=
  let s' := stabUpdate a b M reg s
  if mustAbsorb tau s' then absorb reg s' else s'

/-- `err = nx.norm(nx.sum(transp, axis=0) - b)` (ot/bregman/_sinkhorn.py 1308-1309). -/
noncomputable def stabErr (b : J → ℝ) (M : I → J → ℝ) (reg : ℝ) (s : Stab I J) : ℝ :=
  norm2 fun j => ∑ i, getGamma M reg s i j - b j

open Classical in
/-- Loop of `sinkhorn_stabilized` (ot/bregman/_sinkhorn.py 1273-1334): the error is refreshed every `print_period` iterations but compared in every
iteration. Simplification: the nan test of 1321 is not modelled (no division by zero occurs). -/
noncomputable def stabLoop (a : I → ℝ) (b : J → ℝ) (M : I → J → ℝ) (reg tau thr : ℝ) (period : ℕ) :
    ℕ → ℕ → ℝ → Stab I J → Run (Stab I J)
  | 0, ii, _, s => ⟨s, ii - 1, .exhausted⟩
  | k + 1, ii, err, s =>
    let s' := stabStep a b M reg tau s
    let err' := if ii % period = 0 then stabErr b M reg s' else err
    if err' ≤ thr then ⟨s', ii, .converged⟩ else stabLoop a b M reg tau thr period k (ii + 1) err' s'

/-- Initial state (ot/bregman/_sinkhorn.py 1245-1256). -/
noncomputable def stabInit (warm : Option ((I → ℝ) × (J → ℝ))) : Stab I J :=
  let ab : (I → ℝ) × (J → ℝ) := warm.getD (fun _ => 0, fun _ => 0)
  { alpha := ab.1, beta := ab.2, u := fun _ => 1 / (Fintype.card I : ℝ), v := fun _ => 1 / (Fintype.card J : ℝ) }

/-- `sinkhorn_stabilized` for one histogram (ot/bregman/_sinkhorn.py 1220-1368); the returned matrix is `getGamma M reg run.s`. -/
noncomputable def sinkhornStabilized (a : I → ℝ) (b : J → ℝ) (M : I → J → ℝ) (reg tau stopThr : ℝ) (numItermax period : ℕ)
    (warm : Option ((I → ℝ) × (J → ℝ))) : Run (Stab I J) :=
  stabLoop a b M reg tau stopThr period numItermax 0 1 (stabInit warm)

/-- `log["alpha"]`, `log["beta"]` (ot/bregman/_sinkhorn.py 1344-1345). -/
noncomputable def stabPotentials (reg : ℝ) (s : Stab I J) : (I → ℝ) × (J → ℝ) :=
  (fun i => s.alpha i + reg * Real.log (s.u i), fun j => s.beta j + reg * Real.log (s.v j))

/-- `get_reg(n)` of `sinkhorn_epsilon_scaling` (ot/bregman/_sinkhorn.py 1510-1511). -/
noncomputable def getReg (epsilon0 reg : ℝ) (n : ℕ) : ℝ := (epsilon0 - reg) * Real.exp (-(n : ℝ)) + reg

/-- One outer iteration of `sinkhorn_epsilon_scaling` (ot/bregman/_sinkhorn.py 1515-1532): a stabilised run at the current regularisation, warm started with
the potentials of the previous one; the state is the pair of potentials and the last plan. -/
noncomputable def epsStep (a : I → ℝ) (b : J → ℝ) (M : I → J → ℝ) (reg epsilon0 tau stopThr : ℝ) (inner : ℕ) (ii : ℕ)
    (ab : (I → ℝ) × (J → ℝ)) : ((I → ℝ) × (J → ℝ)) × (I → J → ℝ) :=
  let regi := getReg epsilon0 reg ii
  let r := sinkhornStabilized a b M regi tau stopThr inner 20 (some ab)
  (stabPotentials regi r.s, getGamma M regi r.s)

open Classical in
/-- The outer loop of `sinkhorn_epsilon_scaling` (ot/bregman/_sinkhorn.py 1514-1551): `err` is refreshed every `print_period` iterations and compared in
every one, but only after iteration `numItermin = 35`. -/
noncomputable def epsLoop (a : I → ℝ) (b : J → ℝ) (M : I → J → ℝ) (reg epsilon0 tau thr : ℝ) (inner period : ℕ) :
    ℕ → ℕ → ℝ → ((I → ℝ) × (J → ℝ)) × (I → J → ℝ) → Run (((I → ℝ) × (J → ℝ)) × (I → J → ℝ))
  | 0, ii, _, s => ⟨s, ii - 1, .exhausted⟩
  | k + 1, ii, err, s =>
    let s' := epsStep a b M reg epsilon0 tau thr inner ii s.1
    let err' := if ii % period = 0 then norm2 (fun j => ∑ i, s'.2 i j - b j) ^ 2 + norm2 (fun i => ∑ j, s'.2 i j - a i) ^ 2 else err
    if err' ≤ thr ∧ 35 < ii then ⟨s', ii, .converged⟩ else epsLoop a b M reg epsilon0 tau thr inner period k (ii + 1) err' s'

/-- `sinkhorn_epsilon_scaling` (ot/bregman/_sinkhorn.py 1481-1566): the returned matrix is `run.s.2`, the logged potentials `run.s.1`. The iteration limit is
raised to 35, so at least one iteration takes place. -/
noncomputable def sinkhornEpsilonScaling (a : I → ℝ) (b : J → ℝ) (M : I → J → ℝ) (reg epsilon0 tau stopThr : ℝ)
    (numItermax inner period : ℕ) (warm : Option ((I → ℝ) × (J → ℝ))) : Run (((I → ℝ) × (J → ℝ)) × (I → J → ℝ)) :=
  epsLoop a b M reg epsilon0 tau stopThr inner period (max 35 numItermax) 0 1 (warm.getD (fun _ => 0, fun _ => 0), fun _ _ => 0)

/-! ## The lazy branch of `empirical_sinkhorn` -/

/-- One iteration of the lazy branch (ot/bregman/_empirical.py 219-233): `f` first. The batching of the rows and columns is the subject of C22. -/
noncomputable def lazyStep (a : I → ℝ) (b : J → ℝ) (M : I → J → ℝ) (reg : ℝ) (s : UV I J) : UV I J :=
  let f := fun i => Real.log (a i) - logsumexp fun j => s.v j - M i j / reg
  { u := f, v := fun j => Real.log (b j) - logsumexp fun i => f i - M i j / reg }

/-- The plan `exp(f + g - M / reg)` (ot/bregman/_empirical.py 242; `get_sinkhorn_lazytensor` 26-71). -/
noncomputable def lazyPlan (M : I → J → ℝ) (reg : ℝ) (s : UV I J) : I → J → ℝ := fun i j => Real.exp (s.u i + s.v j - M i j / reg)

/-- The lazy branch of `empirical_sinkhorn` (ot/bregman/_empirical.py 197-271). -/
noncomputable def empiricalLazy (a : I → ℝ) (b : J → ℝ) (M : I → J → ℝ) (reg : ℝ) (numIterMax : ℕ) (stopThr : ℝ)
    (warm : Option ((I → ℝ) × (J → ℝ))) : Run (UV I J) :=
  loop (lazyStep a b M reg) (fun _ => False)
    (fun ii _ s => (ii + 1) % 10 = 0 ∧ ∑ i, |∑ j, lazyPlan M reg s i j - a i| ≤ stopThr) numIterMax 0 (logInit warm)

/-! ## Batch solvers (`ot/batch/_utils.py`) -/

/-- Scalings for a batch of problems. -/
@[ext] structure Batch (B I J : Type*) where
  f : B → I → ℝ
  g : B → J → ℝ

variable {B : Type*} [Fintype B]

/-- One iteration of `bregman_projection_batch` (ot/batch/_utils.py 142-143). -/
noncomputable def batchStep (K : B → I → J → ℝ) (a : B → I → ℝ) (b : B → J → ℝ) (s : Batch B I J) : Batch B I J :=
  let f := fun t i => a t i / ∑ j, K t i j * s.g t j
  { f := f, g := fun t j => b t j / ∑ i, K t i j * f t i }

/-- `T = K * f[:, :, None] * g[:, None, :]` (ot/batch/_utils.py 145, 157). -/
def batchPlan (K : B → I → J → ℝ) (s : Batch B I J) (t : B) : I → J → ℝ := fun i j => K t i j * s.f t i * s.g t j

/-- `bregman_projection_batch` (ot/batch/_utils.py 123-162, `grad="detach"`). `nx.max(errors) < tol` is written as "every error is below `tol`". -/
noncomputable def bregmanBatch (K : B → I → J → ℝ) (a : B → I → ℝ) (b : B → J → ℝ) (maxIter : ℕ) (tol : ℝ) : Run (Batch B I J) :=
  loop (batchStep K a b) (fun _ => False)
    (fun ii _ s => ii % 10 = 0 ∧ ∀ t, norm2 (fun i => ∑ j, batchPlan K s t i j - a t i) < tol) maxIter 0
    { f := fun _ _ => 1, g := fun _ _ => 1 }

/-- One iteration of `bregman_log_projection_batch` (ot/batch/_utils.py 269-270); also its extra update for `grad="last_step"` (281-284). -/
noncomputable def batchLogStep (L : B → I → J → ℝ) (a : B → I → ℝ) (b : B → J → ℝ) (s : Batch B I J) : Batch B I J :=
  let u := fun t i => Real.log (a t i) - logsumexp fun j => L t i j + s.g t j
  { f := u, g := fun t j => Real.log (b t j) - logsumexp fun i => L t i j + u t i }

/-- `exp(K + u + v)` (ot/batch/_utils.py 274, 286-287). -/
noncomputable def batchLogPlan (L : B → I → J → ℝ) (s : Batch B I J) (t : B) : I → J → ℝ :=
  fun i j => Real.exp (L t i j + s.f t i + s.g t j)

/-- `bregman_log_projection_batch` (ot/batch/_utils.py 247-290, `grad="detach"`). -/
noncomputable def bregmanLogBatch (L : B → I → J → ℝ) (a : B → I → ℝ) (b : B → J → ℝ) (maxIter : ℕ) (tol : ℝ) :
    Run (Batch B I J) :=
  loop (batchLogStep L a b) (fun _ => False)
    (fun ii _ s => ii % 10 = 0 ∧ ∀ t, norm2 (fun i => ∑ j, batchLogPlan L s t i j - a t i) < tol) maxIter 0
    { f := fun _ _ => 0, g := fun _ _ => 0 }

/-- `ot.solve(..., grad="last_step")`, entropic branch (ot/solvers.py 442-474): potentials after the extra update. The inner call gets `max_iter - 1`
iterations; `none` models the exceptions for `max_iter = 0` (443-446) and for `max_iter = 1` (the inner call with no iteration reads its unbound loop
counter, ot/bregman/_sinkhorn.py 909). -/
noncomputable def solveLastStep (a : I → ℝ) (b : J → ℝ) (M : I → J → ℝ) (reg : ℝ) (maxIter : ℕ) (tol : ℝ) : Option (UV I J) :=
  if maxIter ≤ 1 then none else some (lastStep a b M reg (sinkhornLog a b M reg (maxIter - 1) tol none).s)

end POT.Sinkhorn
