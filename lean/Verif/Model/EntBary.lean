import Verif.Model.Sinkhorn

/-!
# Model of the entropic barycenter solvers (`ot/bregman/_barycenter.py`, `ot/bregman/_utils.py`)

The `n_hists` histograms of dimension `dim` are the columns of `A : I → S → ℝ`.  Real arithmetic is exact: overflow and the `nan`/`inf` tests of
`barycenter_stabilized` are not modelled.
-/

set_option linter.unusedSectionVars false

namespace POT.EntBary

open Finset Spec Sinkhorn

variable {I S : Type*} [Fintype I] [Fintype S]

/-- `geometricBar` (ot/bregman/_utils.py 15-20). -/
noncomputable def geometricBar (w : S → ℝ) (X : I → S → ℝ) : I → ℝ := fun i => Real.exp (∑ s, Real.log (X i s) * w s)

/-- `geometricMean` (ot/bregman/_utils.py 23-27). -/
noncomputable def geometricMean (X : I → S → ℝ) : I → ℝ := fun i => Real.exp ((∑ s, Real.log (X i s)) / Fintype.card S)

/-- `nx.dot(K, u)` -/
def dotK (K : I → I → ℝ) (u : I → S → ℝ) : I → S → ℝ := fun i s => ∑ j, K i j * u j s

/-- `nx.dot(K.T, v)` -/
def dotKT (K : I → I → ℝ) (v : I → S → ℝ) : I → S → ℝ := fun j s => ∑ i, K i j * v i s

/-- Initial `u` of `barycenter_sinkhorn` and `_barycenter_debiased`: `UKv = nx.dot(K, (A.T / nx.sum(K, axis=0)).T)`, `u = (geometricMean(UKv) / UKv.T).T`
(ot/bregman/_barycenter.py 227-229, 759-761). -/
noncomputable def initU (K : I → I → ℝ) (A : I → S → ℝ) : I → S → ℝ :=
  let UKv := dotK K fun j s => A j s / ∑ i, K i j
  fun i s => geometricMean UKv i / UKv i s

/-- The pair `(u, UKv)` of `barycenter_sinkhorn`. -/
structure State (I S : Type*) where
  u : I → S → ℝ
  UKv : I → S → ℝ

/-- `UKv = u * nx.dot(K.T, A / nx.dot(K, u))` (ot/bregman/_barycenter.py 232). -/
noncomputable def ukv (K : I → I → ℝ) (A : I → S → ℝ) (u : I → S → ℝ) : I → S → ℝ := fun j s => u j s * dotKT K (fun i s => A i s / dotK K u i s) j s

/-- `u = (u.T * geometricBar(weights, UKv)).T / UKv` (ot/bregman/_barycenter.py 233). -/
noncomputable def newU (w : S → ℝ) (u UKv : I → S → ℝ) : I → S → ℝ := fun j s => u j s * geometricBar w UKv j / UKv j s

/-- One iteration of `barycenter_sinkhorn` (ot/bregman/_barycenter.py 232-233). -/
noncomputable def step (K : I → I → ℝ) (A : I → S → ℝ) (w : S → ℝ) (x : State I S) : State I S :=
  let UKv := ukv K A x.u
  { u := newU w x.u UKv, UKv := UKv }

/-- `err = nx.sum(nx.std(UKv, axis=1))` (ot/bregman/_barycenter.py 236). -/
noncomputable def stdErr (X : I → S → ℝ) : ℝ :=
  ∑ i, Real.sqrt ((∑ s, (X i s - (∑ r, X i r) / Fintype.card S) ^ 2) / Fintype.card S)

/-- Weights used when `weights is None` (ot/bregman/_barycenter.py 215-216). -/
noncomputable def uniform : S → ℝ := fun _ => 1 / Fintype.card S

/-- The loop of `barycenter_sinkhorn` (ot/bregman/_barycenter.py 223-254). -/
noncomputable def run (M : I → I → ℝ) (reg : ℝ) (A : I → S → ℝ) (w : S → ℝ) (thr : ℝ) (numItermax : ℕ) : Run (State I S) :=
  let K := kernel M reg
  let UKv0 := dotK K fun j s => A j s / ∑ i, K i j
  loop (step K A w) (fun _ => False) (fun ii _ x => ii % 10 = 1 ∧ stdErr x.UKv < thr) numItermax 0 { u := initU K A, UKv := UKv0 }

/-- `barycenter_sinkhorn` (ot/bregman/_barycenter.py 141-259). -/
noncomputable def barycenterSinkhorn (M : I → I → ℝ) (reg : ℝ) (A : I → S → ℝ) (w : S → ℝ) (thr : ℝ) (numItermax : ℕ) : I → ℝ :=
  geometricBar w (run M reg A w thr numItermax).s.UKv

/-! ### log domain -/

/-- State of `_barycenter_sinkhorn_log`: `G`, and `log_KU`, `log_bar` and the matrix `G + log_KU` (at the time of the test) of the last iteration. -/
structure LogState (I S : Type*) where
  G : I → S → ℝ
  KU : I → S → ℝ
  bar : I → ℝ
  GKU : I → S → ℝ

/-- `f = logA[:, k] - nx.logsumexp(M + G[None, :, k], axis=1)` with `M = -M / reg`, `logA = nx.log(A + 1e-16)`; the guard `1e-16` is the parameter `ε`
(ot/bregman/_barycenter.py 435-436, 442). -/
noncomputable def logF (ε : ℝ) (M : I → I → ℝ) (reg : ℝ) (A : I → S → ℝ) (G : I → S → ℝ) : I → S → ℝ := fun i k =>
  Real.log (A i k + ε) - logsumexp fun j => -M i j / reg + G j k

/-- One iteration of `_barycenter_sinkhorn_log` (ot/bregman/_barycenter.py 440-460): `log_KU`, `log_bar`, the quantity tested, and the new `G`. When the loop
breaks the code leaves `G` at its old value, but it is not used any more. -/
noncomputable def logStep (ε : ℝ) (M : I → I → ℝ) (reg : ℝ) (A : I → S → ℝ) (w : S → ℝ) (x : LogState I S) : LogState I S :=
  let f := logF ε M reg A x.G
  let KU : I → S → ℝ := fun j k => logsumexp fun i => -M i j / reg + f i k
  let bar : I → ℝ := fun j => ∑ k, w k * KU j k
  { G := fun j k => bar j - KU j k, KU := KU, bar := bar, GKU := fun j k => x.G j k + KU j k }

/-- `_barycenter_sinkhorn_log` (ot/bregman/_barycenter.py 403-473). -/
noncomputable def logRun (ε : ℝ) (M : I → I → ℝ) (reg : ℝ) (A : I → S → ℝ) (w : S → ℝ) (thr : ℝ) (numItermax : ℕ) : Run (LogState I S) :=
  loop (logStep ε M reg A w) (fun _ => False) (fun ii _ x => ii % 10 = 1 ∧ stdErr (fun j k => Real.exp (x.GKU j k)) < thr) numItermax 0
    { G := fun _ _ => 0, KU := fun _ _ => 0, bar := fun _ => 0, GKU := fun _ _ => 0 }

/-- `nx.exp(log_bar)` (ot/bregman/_barycenter.py 471-473). -/
noncomputable def barycenterLog (ε : ℝ) (M : I → I → ℝ) (reg : ℝ) (A : I → S → ℝ) (w : S → ℝ) (thr : ℝ) (numItermax : ℕ) : I → ℝ :=
  fun i => Real.exp ((logRun ε M reg A w thr numItermax).s.bar i)

/-! ### stabilized -/

/-- State of `barycenter_stabilized`: scalings, absorbed potentials, the kernel in use, the barycenter, whether the last iteration absorbed, and the
marginal error computed from the current values. -/
structure StabState (I S : Type*) where
  u : I → S → ℝ
  v : I → S → ℝ
  alpha : I → ℝ
  beta : I → ℝ
  K : I → I → ℝ
  q : I → ℝ
  absorbing : Prop
  err : ℝ

/-- `nx.max(x, 1)`: maximum over the histograms. -/
noncomputable def maxHist [Nonempty S] (x : I → S → ℝ) : I → ℝ := fun i => univ.sup' univ_nonempty fun s => x i s

/-- Initial values of `barycenter_stabilized` (ot/bregman/_barycenter.py 563-571). -/
noncomputable def stabInit (M : I → I → ℝ) (reg : ℝ) : StabState I S :=
  let d : ℝ := Fintype.card I
  { u := fun _ _ => 1 / d, v := fun _ _ => 1 / d, alpha := fun _ => 0, beta := fun _ => 0, K := kernel M reg, q := fun _ => 1 / d, absorbing := False, err := 1 }

open Classical in
/-- One iteration of `barycenter_stabilized` (ot/bregman/_barycenter.py 572-601). -/
noncomputable def stabStep [Nonempty I] [Nonempty S] (M : I → I → ℝ) (reg : ℝ) (A : I → S → ℝ) (w : S → ℝ) (tau : ℝ) (x : StabState I S) : StabState I S :=
  let u : I → S → ℝ := fun i s => A i s / dotK x.K x.v i s
  let Ktu := dotKT x.K u
  let q := geometricBar w Ktu
  let v : I → S → ℝ := fun j s => q j / Ktu j s
  if (∃ i s, tau < u i s) ∨ (∃ i s, tau < v i s) then
    let alpha : I → ℝ := fun i => x.alpha i + reg * Real.log (maxHist u i)
    let beta : I → ℝ := fun j => x.beta j + reg * Real.log (maxHist v j)
    let K : I → I → ℝ := fun i j => Real.exp ((alpha i + beta j - M i j) / reg)
    let v : I → S → ℝ := fun _ _ => 1
    { u := u, v := v, alpha := alpha, beta := beta, K := K, q := q, absorbing := True,
      err := univ.sup' univ_nonempty fun p : I × S => |u p.1 p.2 * dotK K v p.1 p.2 - A p.1 p.2| }
  else
    { u := u, v := v, alpha := x.alpha, beta := x.beta, K := x.K, q := q, absorbing := False,
      err := univ.sup' univ_nonempty fun p : I × S => |u p.1 p.2 * dotK x.K v p.1 p.2 - A p.1 p.2| }

/-- `barycenter_stabilized` (ot/bregman/_barycenter.py 476-626) without the tests for numerical errors; the result is the `q` of the final state. -/
noncomputable def stabRun [Nonempty I] [Nonempty S] (M : I → I → ℝ) (reg : ℝ) (A : I → S → ℝ) (w : S → ℝ) (tau thr : ℝ) (numItermax : ℕ) : Run (StabState I S) :=
  loop (stabStep M reg A w tau) (fun _ => False) (fun ii _ x => ((ii % 10 = 0 ∧ ¬ x.absorbing) ∨ ii = 0) ∧ x.err < thr) numItermax 0 (stabInit M reg)

/-! ### debiased -/

/-- State of `_barycenter_debiased`. -/
structure DebState (I S : Type*) where
  u : I → S → ℝ
  c : I → ℝ
  bar : I → ℝ
  bold : I → ℝ

/-- One iteration of `_barycenter_debiased` (ot/bregman/_barycenter.py 766-770); `** 0.5` is the square root. The kernel is not transposed: the cost is meant to be symmetric. -/
noncomputable def debStep (K : I → I → ℝ) (A : I → S → ℝ) (w : S → ℝ) (x : DebState I S) : DebState I S :=
  let UKv : I → S → ℝ := dotK K fun i s => A i s / dotK K x.u i s
  let bar : I → ℝ := fun i => x.c i * geometricBar w UKv i
  { u := fun i s => bar i / UKv i s, c := fun i => Real.sqrt (x.c i * bar i / ∑ j, K i j * x.c j), bar := bar, bold := x.bar }

/-- `err = abs(bar - bold).max() / max(bar.max(), 1.0)` (ot/bregman/_barycenter.py 773). -/
noncomputable def debErr [Nonempty I] (x : DebState I S) : ℝ :=
  (univ.sup' univ_nonempty fun i => |x.bar i - x.bold i|) / max (univ.sup' univ_nonempty x.bar) 1

/-- The loop of `_barycenter_debiased` (ot/bregman/_barycenter.py 755-793). -/
noncomputable def debRun [Nonempty I] (M : I → I → ℝ) (reg : ℝ) (A : I → S → ℝ) (w : S → ℝ) (thr : ℝ) (numItermax : ℕ) : Run (DebState I S) :=
  let K := kernel M reg
  loop (debStep K A w) (fun _ => False) (fun ii _ x => ii % 10 = 9 ∧ debErr x < thr ∧ 20 < ii) numItermax 0
    { u := initU K A, c := fun _ => 1, bar := fun _ => 1, bold := fun _ => 1 }

/-- `_barycenter_debiased` (ot/bregman/_barycenter.py 730-798). -/
noncomputable def barycenterDebiased [Nonempty I] (M : I → I → ℝ) (reg : ℝ) (A : I → S → ℝ) (w : S → ℝ) (thr : ℝ) (numItermax : ℕ) : I → ℝ :=
  (debRun M reg A w thr numItermax).s.bar

/-- State of `_barycenter_debiased_log`: `G`, `c`, and `log_bar` and the matrix `G + log_KU` (at the time of the test) of the last iteration. -/
structure DebLogState (I S : Type*) where
  G : I → S → ℝ
  c : I → ℝ
  bar : I → ℝ
  GKU : I → S → ℝ

/-- `c = 0.5 * (c + log_bar - nx.logsumexp(M + c[:, None], axis=0))` (ot/bregman/_barycenter.py 859-860). -/
noncomputable def debLogC (M : I → I → ℝ) (reg : ℝ) (bar c : I → ℝ) : I → ℝ := fun j => 0.5 * (c j + bar j - logsumexp fun i => -M i j / reg + c i)

/-- One iteration of `_barycenter_debiased_log` (ot/bregman/_barycenter.py 838-860). When the loop breaks the code leaves `G` and `c` at their old values, but they are not used any more. -/
noncomputable def debLogStep (ε : ℝ) (M : I → I → ℝ) (reg : ℝ) (A : I → S → ℝ) (w : S → ℝ) (x : DebLogState I S) : DebLogState I S :=
  let f := logF ε M reg A x.G
  let KU : I → S → ℝ := fun j k => logsumexp fun i => -M i j / reg + f i k
  let bar : I → ℝ := fun j => (∑ k, w k * KU j k) + x.c j
  { G := fun j k => bar j - KU j k, c := (debLogC M reg bar)^[10] x.c, bar := bar, GKU := fun j k => x.G j k + KU j k }

/-- The loop of `_barycenter_debiased_log` (ot/bregman/_barycenter.py 832-868). -/
noncomputable def debLogRun (ε : ℝ) (M : I → I → ℝ) (reg : ℝ) (A : I → S → ℝ) (w : S → ℝ) (thr : ℝ) (numItermax : ℕ) : Run (DebLogState I S) :=
  loop (debLogStep ε M reg A w) (fun _ => False) (fun ii _ x => ii % 10 = 1 ∧ stdErr (fun j k => Real.exp (x.GKU j k)) < thr ∧ 20 < ii) numItermax 0
    { G := fun _ _ => 0, c := fun _ => 0, bar := fun _ => 0, GKU := fun _ _ => 0 }

/-- `_barycenter_debiased_log` (ot/bregman/_barycenter.py 801-873). -/
noncomputable def barycenterDebiasedLog (ε : ℝ) (M : I → I → ℝ) (reg : ℝ) (A : I → S → ℝ) (w : S → ℝ) (thr : ℝ) (numItermax : ℕ) : I → ℝ :=
  fun i => Real.exp ((debLogRun ε M reg A w thr numItermax).s.bar i)

end POT.EntBary
