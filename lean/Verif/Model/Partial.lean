import Verif.Model.EmdPy
import Verif.Model.Sinkhorn
import Mathlib.Data.Fin.Tuple.Basic

/-!
# Model of the partial transport solvers (`ot/partial/partial_solvers.py`)
-/

set_option linter.unusedSectionVars false

namespace POT.Partial

open Finset Simplex EmdPy

section Exact

variable {R : Type*} [Field R] [LinearOrder R]

/-- Keyword arguments of `emd` and the open parameters of its model (see `EmdPy.emd`). -/
structure EmdOpts (R : Type*) where
  centerDual : Bool
  checkMarginals : Bool
  tol : R
  junk : R
  eps : R
  feps : R
  bs : ℕ
  maxIter : ℕ
  turns : ℕ
  arcs : ∀ N, List (Fin N)

/-- `emd(a, b, M, log=True, **kwargs)` -/
def EmdOpts.run (o : EmdOpts R) {n1 n2 : ℕ} [NeZero n1] [NeZero n2] (a : Fin n1 → R) (b : Fin n2 → R) (M : Fin n1 → Fin n2 → R) : Outcome n1 n2 R :=
  emd o.centerDual o.checkMarginals o.tol a b M o.junk o.eps o.feps o.bs o.maxIter o.turns o.arcs

/-- how a call of a partial solver ends: `ValueError`, an assertion of `emd`, the model's bound on turns, or a plan with its logged cost -/
inductive Out (n1 n2 : ℕ) (R : Type*) where
  | valueError
  | assertion
  | gaveUp
  | done (G : Fin n1 → Fin n2 → R) (cost : R)

/-- `nx.max(M)` -/
def maxEntry {n1 n2 : ℕ} [NeZero n1] [NeZero n2] (M : Fin n1 → Fin n2 → R) : R :=
  univ.sup' univ_nonempty fun i => univ.sup' univ_nonempty fun j => M i j

/-- `nx.concatenate((w, nx.ones(d) * x))`: append `d` dummy points of weight `x` each (ot/partial/partial_solvers.py 157-162, 298-301). -/
def extend {n : ℕ} (w : Fin n → R) (d : ℕ) (x : R) : Fin (n + d) → R := Fin.addCases w fun _ => x

/-- The extended cost matrix (ot/partial/partial_solvers.py 154-155, 302-311): `M`, zeros towards dummies, `c` between dummies. -/
def extendM {n1 n2 : ℕ} (M : Fin n1 → Fin n2 → R) (d : ℕ) (c : R) : Fin (n1 + d) → Fin (n2 + d) → R :=
  Fin.addCases (fun i => Fin.addCases (M i) fun _ => 0) fun _ => Fin.addCases (fun _ => 0) fun _ => c

/-- `gamma[: len(a), : len(b)]` (ot/partial/partial_solvers.py 168, 315). -/
def core {n1 n2 d : ℕ} (G : Fin (n1 + d) → Fin (n2 + d) → R) : Fin n1 → Fin n2 → R := fun i j => G (Fin.castAdd d i) (Fin.castAdd d j)

/-- `sum(G * M)` -/
def sumProd {n1 n2 : ℕ} (G M : Fin n1 → Fin n2 → R) : R := ∑ i, ∑ j, G i j * M i j

/-- `partial_wasserstein(a, b, M, m, nb_dummies=d)` with `m` given (ot/partial/partial_solvers.py 278-328). -/
def partialWasserstein (o : EmdOpts R) {n1 n2 : ℕ} [NeZero n1] [NeZero n2] (d : ℕ) (a : Fin n1 → R) (b : Fin n2 → R)
    (M : Fin n1 → Fin n2 → R) (m : R) : Out n1 n2 R :=
  haveI : NeZero (n1 + d) := ⟨by have := NeZero.pos n1; omega⟩
  haveI : NeZero (n2 + d) := ⟨by have := NeZero.pos n2; omega⟩
  if m < 0 then .valueError                                             -- 290-291
  else if m > min (∑ i, a i) (∑ j, b j) then .valueError                -- 292-296
  else
    let b' := extend b d ((∑ i, a i - m) / (d : R))                     -- 298-299
    let a' := extend a d ((∑ j, b j - m) / (d : R))                     -- 300-301
    let M' := extendM M d (maxEntry M * 2)                              -- 302-311
    match o.run a' b' M' with                                           -- 313
    | .assertion => .assertion
    | .gaveUp => .gaveUp
    | .done r => if r.status = .optimal then .done (core r.G) (sumProd M (core r.G)) else .valueError   -- 315-321

/-- `np.where(np.min(M_star, axis=1) < eps)[0]` (ot/partial/partial_solvers.py 150). -/
def idxX {n1 n2 : ℕ} (Ms : Fin n1 → Fin n2 → R) (e : R) : List (Fin n1) := (List.finRange n1).filter fun i => ∃ j, Ms i j < e

/-- `np.where(np.min(M_star, axis=0) < eps)[0]` (ot/partial/partial_solvers.py 151). -/
def idxY {n1 n2 : ℕ} (Ms : Fin n1 → Fin n2 → R) (e : R) : List (Fin n2) := (List.finRange n2).filter fun j => ∃ i, Ms i j < e

/-- `partial_wasserstein_lagrange(a, b, M, reg_m, nb_dummies=d)` (ot/partial/partial_solvers.py 125-184). `slack` is the `1e-15` of line 129, `e` the `1e-20` of
line 141. The early return of line 135 ignores `log`; it is modelled with the cost of the zero plan. -/
def partialLagrange (o : EmdOpts R) {n1 n2 : ℕ} [NeZero n1] [NeZero n2] (d : ℕ) [NeZero d] (slack e : R) (a : Fin n1 → R) (b : Fin n2 → R)
    (M : Fin n1 → Fin n2 → R) (regM : Option R) : Out n1 n2 R :=
  if ∑ i, a i > 1 + slack ∨ ∑ j, b j > 1 + slack then .valueError       -- 129-130
  else
    let reg := regM.getD (maxEntry M + 1)                               -- 132-133
    if reg < -maxEntry M then .done (fun _ _ => 0) 0                    -- 134-135
    else
      let Ms : Fin n1 → Fin n2 → R := fun i j => M i j - reg            -- 146
      let rows := idxX Ms e                                             -- 150
      let cols := idxY Ms e                                             -- 151
      haveI : NeZero (rows.length + d) := ⟨by have := NeZero.pos d; omega⟩
      haveI : NeZero (cols.length + d) := ⟨by have := NeZero.pos d; omega⟩
      let M' := extendM (fun r c => Ms (rows.get r) (cols.get c)) d 0    -- 154-155
      let a₁ := fun r => a (rows.get r)
      let b₁ := fun c => b (cols.get c)
      let a' := extend a₁ d ((∑ i, a i - ∑ r, a₁ r + ∑ j, b j) / (d : R))   -- 157-159
      let b' := extend b₁ d ((∑ j, b j - ∑ c, b₁ c + ∑ i, a i) / (d : R))   -- 160-162
      match o.run a' b' M' with                                         -- 164
      | .assertion => .assertion
      | .gaveUp => .gaveUp
      | .done r =>
        let gamma := scatterM rows cols (core r.G)                      -- 167-168
        if r.status = .optimal then .done gamma (sumProd gamma M) else .valueError   -- 173-177

end Exact

/-! ## Entropic partial transport -/

section Entropic

variable {I J : Type*} [Fintype I] [Fintype J]

/-- Loop variables of `_entropic_partial_wasserstein_sinkhorn` (ot/partial/partial_solvers.py 603-614). -/
@[ext] structure Dyk (I J : Type*) where
  K : I → J → ℝ
  q1 : I → J → ℝ
  q2 : I → J → ℝ
  q3 : I → J → ℝ

/-- Initial state (ot/partial/partial_solvers.py 602-614). -/
noncomputable def dykInit (M : I → J → ℝ) (reg m : ℝ) : Dyk I J :=
  let K := fun i j => Real.exp (M i j / (-reg))
  { K := fun i j => K i j * (m / ∑ i, ∑ j, K i j), q1 := fun _ _ => 1, q2 := fun _ _ => 1, q3 := fun _ _ => 1 }

/-- One iteration (ot/partial/partial_solvers.py 617-628). -/
noncomputable def dykStep (a : I → ℝ) (b : J → ℝ) (m : ℝ) (s : Dyk I J) : Dyk I J :=
  let Ka : I → J → ℝ := fun i j => s.K i j * s.q1 i j                             -- 618
  let K1 : I → J → ℝ := fun i j => min (a i / ∑ j, Ka i j) 1 * Ka i j             -- 619
  let q1 : I → J → ℝ := fun i j => s.q1 i j * s.K i j / K1 i j                    -- 620
  let Kb : I → J → ℝ := fun i j => K1 i j * s.q2 i j                              -- 622
  let K2 : I → J → ℝ := fun i j => Kb i j * min (b j / ∑ i, Kb i j) 1             -- 623
  let q2 : I → J → ℝ := fun i j => s.q2 i j * K1 i j / K2 i j                     -- 624
  let Kc : I → J → ℝ := fun i j => K2 i j * s.q3 i j                              -- 626
  let K : I → J → ℝ := fun i j => Kc i j * (m / ∑ i, ∑ j, Kc i j)                 -- 627
  { K := K, q1 := q1, q2 := q2, q3 := fun i j => s.q3 i j * K2 i j / K i j }      -- 628

/-- `nx.norm(Kprev - K)` (ot/partial/partial_solvers.py 634, 800). -/
noncomputable def matNorm (A B : I → J → ℝ) : ℝ := Spec.norm2 fun x : I × J => A x.1 x.2 - B x.1 x.2

open Classical in
/-- The loop of both entropic solvers (ot/partial/partial_solvers.py 616-642, 779-808): `err` is refreshed every ten iterations. `get` extracts the plan (or its logarithm) from
the state. Simplification: the nan/inf test of 630 and 793 is not modelled; with positive weights and `m` no division by zero occurs (C46). -/
noncomputable def dykLoop {S : Type*} (step : S → S) (get : S → I → J → ℝ) (thr : ℝ) : ℕ → ℕ → ℝ → S → S
  | 0, _, _, s => s
  | k + 1, cpt, err, s =>
    if err > thr then
      let s' := step s
      dykLoop step get thr k (cpt + 1) (if cpt % 10 = 0 then matNorm (get s) (get s') else err) s'
    else s

/-- `_entropic_partial_wasserstein_sinkhorn` (ot/partial/partial_solvers.py 576-647); `none` for the `ValueError`s. -/
noncomputable def entropicPartial (a : I → ℝ) (b : J → ℝ) (M : I → J → ℝ) (reg : ℝ) (m : Option ℝ) (numItermax : ℕ) (stopThr : ℝ) : Option (I → J → ℝ) :=
  let mm := m.getD (min (∑ i, a i) (∑ j, b j))
  if mm < 0 then none
  else if mm > min (∑ i, a i) (∑ j, b j) then none
  else some (dykLoop (dykStep a b mm) Dyk.K stopThr numItermax 0 1 (dykInit M reg mm)).K

/-- One iteration of `entropic_partial_wasserstein_logscale` (ot/partial/partial_solvers.py 780-791); the state holds the logarithms `LK`, `Lq1`, `Lq2`, `Lq3`. -/
noncomputable def dykLogStep (a : I → ℝ) (b : J → ℝ) (m : ℝ) (s : Dyk I J) : Dyk I J :=
  let Ka : I → J → ℝ := fun i j => s.K i j + s.q1 i j                                                          -- 781
  let K1 : I → J → ℝ := fun i j => min (Real.log (a i) - Sinkhorn.logsumexp fun j => Ka i j) 0 + Ka i j        -- 782
  let q1 : I → J → ℝ := fun i j => s.q1 i j + s.K i j - K1 i j                                                 -- 783
  let Kb : I → J → ℝ := fun i j => K1 i j + s.q2 i j                                                           -- 785
  let K2 : I → J → ℝ := fun i j => Kb i j + min (Real.log (b j) - Sinkhorn.logsumexp fun i => Kb i j) 0        -- 786
  let q2 : I → J → ℝ := fun i j => s.q2 i j + K1 i j - K2 i j                                                  -- 787
  let Kc : I → J → ℝ := fun i j => K2 i j + s.q3 i j                                                           -- 789
  let K : I → J → ℝ := fun i j => Kc i j + Real.log m - Sinkhorn.logsumexp fun x : I × J => Kc x.1 x.2         -- 790
  { K := K, q1 := q1, q2 := q2, q3 := fun i j => s.q3 i j + K2 i j - K i j }                                   -- 791

/-- Initial state of the logscale solver (ot/partial/partial_solvers.py 770-777). -/
noncomputable def dykLogInit (M : I → J → ℝ) (reg m : ℝ) : Dyk I J :=
  { K := fun i j => -M i j / reg + Real.log m - Sinkhorn.logsumexp fun x : I × J => -M x.1 x.2 / reg
    q1 := fun _ _ => 0, q2 := fun _ _ => 0, q3 := fun _ _ => 0 }

/-- `entropic_partial_wasserstein_logscale` (ot/partial/partial_solvers.py 741-813). -/
noncomputable def entropicPartialLog (a : I → ℝ) (b : J → ℝ) (M : I → J → ℝ) (reg : ℝ) (m : Option ℝ) (numItermax : ℕ) (stopThr : ℝ) :
    Option (I → J → ℝ) :=
  let mm := m.getD (min (∑ i, a i) (∑ j, b j))
  if mm < 0 then none
  else if mm > min (∑ i, a i) (∑ j, b j) then none
  else
    let s := dykLoop (dykLogStep a b mm) Dyk.K stopThr numItermax 0 1 (dykLogInit M reg mm)
    some fun i j => Real.exp (s.K i j)

end Entropic

end POT.Partial
