import Verif.Model.Gromov
import Verif.Model.GromovBary
import Verif.Model.GwEntropic

/-! # Model of the Gromov-Wasserstein barycenter loops

`gromov_barycenters`, `fgw_barycenters` (ot/gromov/_gw.py 949-1499), `entropic_gromov_barycenters`, `entropic_fused_gromov_barycenters` (ot/gromov/_bregman.py 754-994, 1792-2113), `semirelaxed_gromov_barycenters`, `semirelaxed_fgw_barycenters`
(ot/gromov/_semirelaxed.py 1467-2168).

Real arithmetic.  Weights, `init_C`, `init_X` (`init_Y`) and, for the semi-relaxed functions, the initial plans are given: their random or clustering defaults are not modelled.  `armijo=False`. -/

set_option linter.unusedSectionVars false

namespace POT.GwBary

open Finset Gromov GromovBary Optim

variable {S : Type*} [Fintype S] {I : S → Type*} [∀ s, Fintype (I s)] {J E : Type*} [Fintype J] [Fintype E]

/-! ## The common loop -/

/-- `stop_criterion` -/
inductive Crit | barycenter | loss

/-- What differs between the functions: the plans and unweighted sum of losses for a barycenter and an optional start, the update of the barycenter, and the test on two successive barycenters; `nanStop` tells whether a `nan` error stops the loop. -/
structure Sys (Z Ts : Type*) where
  solve : Z → Option Ts → Ts × ℝ
  update : Ts → Z → Z
  near : Z → Z → Prop
  nanStop : Bool

/-- Variables of the loop: barycenter, plans, `curr_loss`, and `log["loss"]` (with the criterion `"barycenter"` the code does not compute the losses: the list then counts the iterations, as `log["err_structure"]` does). -/
structure St (Z Ts : Type*) where
  z : Z
  T : Option Ts
  loss : ℝ
  losses : List ℝ

variable {Z Ts : Type*}

/-- Body of the loop (ot/gromov/_gw.py 1100-1155, 1387-1452; ot/gromov/_bregman.py 911-967, 1995-2052; ot/gromov/_semirelaxed.py 1664-1711, 2058-2117). -/
def step (y : Sys Z Ts) (warm : Bool) (s : St Z Ts) : St Z Ts :=
  let r := y.solve s.z (if warm then s.T else none)
  { z := y.update r.1 s.z, T := some r.1, loss := r.2, losses := s.losses ++ [r.2] }

/-- The convergence test (ot/gromov/_gw.py 1158-1175, 1455-1483; ot/gromov/_bregman.py 970-982, 2055-2083; ot/gromov/_semirelaxed.py 1714-1732, 2120-2159).  The relative change of the loss is `nan` after a loss equal to zero. -/
def stops (y : Sys Z Ts) (crit : Crit) (tol : ℝ) (s s' : St Z Ts) : Prop :=
  match crit with
  | .barycenter => y.near s.z s'.z
  | .loss => if s.loss ≠ 0 then |s'.loss - s.loss| / s.loss ≤ tol else y.nanStop = true

open Classical in
/-- `for cpt in range(max_iter)` with the break.  The loop of `entropic_gromov_barycenters`, `while (err > tol) and (cpt < max_iter)`, is the same for `tol < 1e15`. -/
noncomputable def loop (y : Sys Z Ts) (warm : Bool) (crit : Crit) (tol : ℝ) : ℕ → St Z Ts → St Z Ts
  | 0, s => s
  | n + 1, s => if stops y crit tol s (step y warm s) then step y warm s else loop y warm crit tol n (step y warm s)

/-- State before the loop: `curr_loss = 1e15` (ot/gromov/_gw.py 1084-1091). -/
def init (z : Z) (T : Option Ts) : St Z Ts := { z := z, T := T, loss := 10 ^ 15, losses := [] }

/-! ## Updates -/

/-- `loss_fun`; the two guards of the KL loss are `1e-18` (`_transform_matrix`) and `1e-16` (`update_barycenter_structure`). -/
inductive Loss | square | kl (ε δ : ℝ)

/-- `_transform_matrix` (ot/gromov/_utils.py 114-139). -/
noncomputable def Loss.decomp : Loss → Decomp ℝ
  | .square => Gromov.square
  | .kl ε _ => Gromov.kl ε

/-- `update_barycenter_structure(T, Cs, lambdas, p, loss_fun, target=False, check_zeros=False)` with one-dimensional `p` (ot/gromov/_utils.py 764-770, 786-791, 800-807). -/
noncomputable def structSource (ℓ : Loss) (lam : S → ℝ) (p : J → ℝ) (T : (s : S) → J → I s → ℝ) (C : (s : S) → I s → I s → ℝ) (j l : J) : ℝ :=
  match ℓ with
  | .square => (∑ s, lam s * ∑ k, (∑ i, T s j i * C s i k) * T s l k) * (1 / p j * (1 / p l))
  | .kl _ δ => Real.exp ((∑ s, lam s * ∑ k, (∑ i, T s j i * Real.log (max (C s i k) δ)) * T s l k) * (1 / p j * (1 / p l)))

/-- `update_barycenter_feature(T, Ys, lambdas, p, target=False, check_zeros=False)` (ot/gromov/_utils.py 874-875, 882-886, 894). -/
noncomputable def featSource (lam : S → ℝ) (p : J → ℝ) (T : (s : S) → J → I s → ℝ) (Y : (s : S) → I s → E → ℝ) (j : J) (e : E) : ℝ :=
  (∑ s, lam s * ∑ i, T s j i * Y s i e) * (1 / p j)

/-- `dist(X, Y)`: squared Euclidean. -/
def distSq {A B : Type*} (X : A → E → ℝ) (Y : B → E → ℝ) : A → B → ℝ := fun a b => ∑ e, (X a e - Y b e) ^ 2

/-- `nx.norm` of the difference of two arrays. -/
noncomputable def normDiff {A B : Type*} [Fintype A] [Fintype B] (M N : A → B → ℝ) : ℝ := Real.sqrt (∑ a, ∑ b, (M a b - N a b) ^ 2)

/-! ## Conditional gradient inner solver -/

/-- Plan and `log["loss"][-1]` returned by the conditional gradient loop (`C36`: the fuel `max 1 numItermax` suffices). -/
noncomputable def cgRun {A B : Type*} [Fintype A] [Fintype B] (P : Problem ℝ A B) (G0 : A → B → ℝ) : (A → B → ℝ) × ℝ :=
  let st := (P.loop (max 1 P.numItermax) (P.init G0)).getD (P.init G0)
  (st.G, st.losses.head?.getD 0)

/-- Data of the barycenter functions. -/
structure Data (S : Type*) (I : S → Type*) (J E : Type*) where
  lam : S → ℝ
  C : (s : S) → I s → I s → ℝ
  Y : (s : S) → I s → E → ℝ
  ps : (s : S) → I s → ℝ
  p : J → ℝ
  alpha : ℝ
  loss : Loss
  symmetric : Bool
  fixedStructure : Bool
  fixedFeatures : Bool

/-- Features and structure of the barycenter. -/
structure Bary (J E : Type*) where
  X : J → E → ℝ
  C : J → J → ℝ

/-- `fused_gromov_wasserstein(Ms[s], C, Cs[s], p, ps[s], ..., G0=..., max_iter=max_iter, tol_rel=1e-5, tol_abs=0.0)` (ot/gromov/_gw.py 1396-1413, 1418-1435); `lp` is the exact linear solver. -/
noncomputable def fgwPlan (d : Data S I J E) (lp : (s : S) → (J → I s → ℝ) → J → I s → ℝ) (maxIter : ℕ) (z : Bary J E) (G0 : Option ((s : S) → J → I s → ℝ)) (s : S) : (J → I s → ℝ) × ℝ :=
  cgRun (fgwProblem d.symmetric d.loss.decomp z.C (d.C s) d.p (d.ps s) (fun j i => (1 - d.alpha) * distSq z.X (d.Y s) j i) d.alpha (lp s) maxIter (1 / 10 ^ 5) 0)
    ((G0.map fun T => T s).getD (outer d.p (d.ps s)))

/-- Update of the barycenter (ot/gromov/_gw.py 1441-1452). -/
noncomputable def updSource (d : Data S I J E) (T : (s : S) → J → I s → ℝ) (z : Bary J E) : Bary J E :=
  { X := if d.fixedFeatures then z.X else featSource d.lam d.p T d.Y
    C := if d.fixedStructure then z.C else structSource d.loss d.lam d.p T d.C }

/-- `(err_feature <= tol) or (err_structure <= tol)`; the error of a fixed part is zero (ot/gromov/_gw.py 1456-1472). -/
def nearFused (d : Data S I J E) (tol : ℝ) (z z' : Bary J E) : Prop :=
  (if d.fixedFeatures then 0 else normDiff z'.X z.X) ≤ tol ∨ (if d.fixedStructure then 0 else normDiff z'.C z.C) ≤ tol

/-- `fgw_barycenters` as an instance of the loop. -/
noncomputable def fgwSys (d : Data S I J E) (lp : (s : S) → (J → I s → ℝ) → J → I s → ℝ) (maxIter : ℕ) (tol : ℝ) : Sys (Bary J E) ((s : S) → J → I s → ℝ) where
  solve z G0 := (fun s => (fgwPlan d lp maxIter z G0 s).1, ∑ s, (fgwPlan d lp maxIter z G0 s).2)
  update := updSource d
  near := nearFused d tol
  nanStop := false

/-- `fgw_barycenters` (ot/gromov/_gw.py 1186-1499): `outer` iterations of the loop with `maxIter` iterations in each inner call; the code passes the same number. -/
noncomputable def fgwRun (d : Data S I J E) (lp : (s : S) → (J → I s → ℝ) → J → I s → ℝ) (warm : Bool) (crit : Crit) (tol : ℝ) (outer maxIter : ℕ) (X0 : J → E → ℝ) (C0 : J → J → ℝ) : St (Bary J E) ((s : S) → J → I s → ℝ) :=
  loop (fgwSys d lp maxIter tol) warm crit tol outer (init ⟨X0, C0⟩ none)

noncomputable def fgwBarycenters (d : Data S I J E) (lp : (s : S) → (J → I s → ℝ) → J → I s → ℝ) (warm : Bool) (crit : Crit) (tol : ℝ) (maxIter : ℕ) (X0 : J → E → ℝ) (C0 : J → J → ℝ) : St (Bary J E) ((s : S) → J → I s → ℝ) :=
  fgwRun d lp warm crit tol maxIter maxIter X0 C0

/-- `gromov_barycenters` (ot/gromov/_gw.py 949-1183): the inner solver is the case without features (`M = 0`, weight one of the structures), only the structure is updated and tested. -/
noncomputable def gwData (lam : S → ℝ) (C : (s : S) → I s → I s → ℝ) (ps : (s : S) → I s → ℝ) (p : J → ℝ) (ℓ : Loss) (symmetric : Bool) : Data S I J Empty :=
  { lam := lam, C := C, Y := fun _ _ e => e.elim, ps := ps, p := p, alpha := 1, loss := ℓ, symmetric := symmetric, fixedStructure := false, fixedFeatures := true }

noncomputable def gwRun (d : Data S I J Empty) (lp : (s : S) → (J → I s → ℝ) → J → I s → ℝ) (warm : Bool) (crit : Crit) (tol : ℝ) (outer maxIter : ℕ) (C0 : J → J → ℝ) : St (Bary J Empty) ((s : S) → J → I s → ℝ) :=
  loop { fgwSys d lp maxIter tol with near := fun z z' => normDiff z'.C z.C ≤ tol } warm crit tol outer (init ⟨fun _ e => e.elim, C0⟩ none)

/-! ## Entropic inner solver -/

/-- `entropic_fused_gromov_wasserstein(Ms[s], C, Cs[s], p, ps[s], loss_fun, epsilon, symmetric, alpha, T[s], max_iter, 1e-4)` (ot/gromov/_bregman.py 2003-2020); `sk` is the Sinkhorn solver of its inner problems. -/
noncomputable def entPlan (d : Data S I J E) (ε : ℝ) (sk : (s : S) → (J → I s → ℝ) → J → I s → ℝ) (maxIter : ℕ) (X : J → E → ℝ) (C : J → J → ℝ) (G0 : Option ((s : S) → J → I s → ℝ)) (s : S) : (J → I s → ℝ) × ℝ :=
  let T := (GwEntropic.entropicFgw d.symmetric d.loss.decomp C (d.C s) d.p (d.ps s) (distSq X (d.Y s)) d.alpha ε false (sk s) (G0.map fun T => T s) maxIter (1 / 10 ^ 4)).T
  (T, GwEntropic.fgwDist d.loss.decomp C (d.C s) d.p (d.ps s) (distSq X (d.Y s)) d.alpha T)

/-- Variables of `entropic_fused_gromov_barycenters`: `Y` is what is returned, `X` is what `Ms` is computed from. -/
structure EntBary (J E : Type*) where
  Y : J → E → ℝ
  X : J → E → ℝ
  C : J → J → ℝ

/-- `entropic_fused_gromov_barycenters` (ot/gromov/_bregman.py 1994-2083): the update writes `X`, the test compares `Y` with `Yprev`. -/
noncomputable def entFusedSys (d : Data S I J E) (ε : ℝ) (sk : (s : S) → (J → I s → ℝ) → J → I s → ℝ) (maxIter : ℕ) (tol : ℝ) : Sys (EntBary J E) ((s : S) → J → I s → ℝ) where
  solve z G0 := (fun s => (entPlan d ε sk maxIter z.X z.C G0 s).1, ∑ s, (entPlan d ε sk maxIter z.X z.C G0 s).2)
  update T z := { Y := z.Y, X := if d.fixedFeatures then z.X else featSource d.lam d.p T d.Y, C := if d.fixedStructure then z.C else structSource d.loss d.lam d.p T d.C }
  near z z' := (if d.fixedFeatures then 0 else normDiff z'.Y z.Y) ≤ tol ∨ (if d.fixedStructure then 0 else normDiff z'.C z.C) ≤ tol
  nanStop := false

/-- `entropic_fused_gromov_barycenters` (ot/gromov/_bregman.py 1792-2113); it returns `z.Y`, `z.C`. -/
noncomputable def entFusedRun (d : Data S I J E) (ε : ℝ) (sk : (s : S) → (J → I s → ℝ) → J → I s → ℝ) (warm : Bool) (crit : Crit) (tol : ℝ) (outer maxIter : ℕ) (Y0 : J → E → ℝ) (C0 : J → J → ℝ) : St (EntBary J E) ((s : S) → J → I s → ℝ) :=
  loop (entFusedSys d ε sk maxIter tol) warm crit tol outer (init ⟨Y0, Y0, C0⟩ none)

/-- `entropic_gromov_barycenters` (ot/gromov/_bregman.py 754-994). -/
noncomputable def entRun (d : Data S I J Empty) (ε : ℝ) (sk : (s : S) → (J → I s → ℝ) → J → I s → ℝ) (warm : Bool) (crit : Crit) (tol : ℝ) (outer maxIter : ℕ) (C0 : J → J → ℝ) : St (Bary J Empty) ((s : S) → J → I s → ℝ) :=
  loop { solve := fun z G0 => (fun s => (entPlan d ε sk maxIter z.X z.C G0 s).1, ∑ s, (entPlan d ε sk maxIter z.X z.C G0 s).2)
         update := updSource d, near := fun z z' => normDiff z'.C z.C ≤ tol, nanStop := true } warm crit tol outer (init ⟨fun _ e => e.elim, C0⟩ none)

/-! ## Semi-relaxed -/

variable [Nonempty J]

/-- `semirelaxed_fused_gromov_wasserstein(Ms[s], Cs[s], C, ps[s], loss_fun, symmetric, alpha, G0, ...)` (ot/gromov/_semirelaxed.py 2067-2102); `tie` is the tolerance of its linear solver, `start` the plan built from the method `G0`. -/
noncomputable def srPlan (d : Data S I J E) (tie : ℝ) (start : Bary J E → (s : S) → I s → J → ℝ) (maxIter : ℕ) (tol : ℝ) (z : Bary J E) (G0 : Option ((s : S) → I s → J → ℝ)) (s : S) : (I s → J → ℝ) × ℝ :=
  cgRun (srProblem d.symmetric d.loss.decomp (d.C s) z.C (d.ps s) (fun i j => (1 - d.alpha) * distSq (d.Y s) z.X i j) d.alpha tie maxIter tol 0) (G0.getD (start z) s)

open Classical in
/-- Update with the marginals of the plans, `target=True`, `check_zeros=True` (ot/gromov/_semirelaxed.py 2110-2117). -/
noncomputable def updTarget (d : Data S I J E) (T : (s : S) → I s → J → ℝ) (z : Bary J E) : Bary J E :=
  { X := if d.fixedFeatures then z.X else updateFeature2 d.lam T d.Y
    C := if d.fixedStructure then z.C else updateTarget2 d.lam T d.C }

/-- `semirelaxed_fgw_barycenters` (ot/gromov/_semirelaxed.py 2057-2168), from given plans `T0`. -/
noncomputable def srSys (d : Data S I J E) (tie : ℝ) (start : Bary J E → (s : S) → I s → J → ℝ) (maxIter : ℕ) (tol : ℝ) : Sys (Bary J E) ((s : S) → I s → J → ℝ) where
  solve z G0 := (fun s => (srPlan d tie start maxIter tol z G0 s).1, ∑ s, (srPlan d tie start maxIter tol z G0 s).2)
  update := updTarget d
  near := nearFused d tol
  nanStop := false

noncomputable def srRun (d : Data S I J E) (tie : ℝ) (start : Bary J E → (s : S) → I s → J → ℝ) (warm : Bool) (crit : Crit) (tol : ℝ) (outer maxIter : ℕ) (X0 : J → E → ℝ) (C0 : J → J → ℝ) (T0 : (s : S) → I s → J → ℝ) : St (Bary J E) ((s : S) → I s → J → ℝ) :=
  loop (srSys d tie start maxIter tol) warm crit tol outer (init ⟨X0, C0⟩ (some T0))

/-- `semirelaxed_gromov_barycenters` (ot/gromov/_semirelaxed.py 1663-1757). -/
noncomputable def srGwRun (d : Data S I J Empty) (tie : ℝ) (start : Bary J Empty → (s : S) → I s → J → ℝ) (warm : Bool) (crit : Crit) (tol : ℝ) (outer maxIter : ℕ) (C0 : J → J → ℝ) (T0 : (s : S) → I s → J → ℝ) : St (Bary J Empty) ((s : S) → I s → J → ℝ) :=
  loop { srSys d tie start maxIter tol with near := fun z z' => normDiff z'.C z.C ≤ tol } warm crit tol outer (init ⟨fun _ e => e.elim, C0⟩ (some T0))

end POT.GwBary
