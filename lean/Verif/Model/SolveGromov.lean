import Verif.Model.Solve
import Verif.Model.GwPartialEntropic

/-! # Model of `ot.solve_gromov` (ot/solvers.py 607-1352)

The branches call the models of the solvers. Arithmetic is exact. The inner linear and entropic solvers are parameters. -/

set_option linter.unusedSectionVars false

namespace POT.SolveGromov

open Finset Gromov GwEntropic GwPartialEntropic

variable {n m : ℕ}

/-- Values of `loss` after `lower()`. -/
inductive Loss where
  | l2
  | kl
  | other
  deriving DecidableEq

/-- Values of `unbalanced_type` after `lower()`. -/
inductive UnbArg where
  | kl
  | l2
  | semirelaxed
  | partial_
  | other
  deriving DecidableEq

/-- Values of `method`, as the balanced entropic solvers distinguish them (ot/gromov/_bregman.py 149-150). -/
inductive Method where
  | pgd
  | ppa
  | other
  deriving DecidableEq

/-- The arguments of a call. `regEntropy`: `reg_type.lower() == "entropy"`. `symmetric` is the resolved flag: with `symmetric=None` the code compares the matrices with their transposes. -/
structure Call (n m : ℕ) where
  Ca : Fin n → Fin n → ℝ
  Cb : Fin m → Fin m → ℝ
  M : Option (Fin n → Fin m → ℝ)
  a : Option (Fin n → ℝ)
  b : Option (Fin m → ℝ)
  loss : Loss
  symmetric : Bool
  alpha : ℝ
  reg : Option ℝ
  regEntropy : Bool
  unbalanced : Option ℝ
  unbType : UnbArg
  method : Option Method
  maxIter : Option ℕ
  planInit : Option (Fin n → Fin m → ℝ)
  tol : Option ℝ

/-- The environment: that of `ot.solve`, the solvers called inside the loops — `ot.sinkhorn` (regularisation, weights, cost), the linear problem of `partial_cg` (weights, mass, cost),
`entropic_partial_wasserstein` (regularisation, weights, mass, cost) —, the guard `1e-18` of the Kullback-Leibler loss and the `1e-15` of the semi-relaxed linear problem. -/
structure Ext (n m : ℕ) extends Solve.Ext n m where
  sk : ℝ → (Fin n → ℝ) → (Fin m → ℝ) → (Fin n → Fin m → ℝ) → Fin n → Fin m → ℝ
  pw : (Fin n → ℝ) → (Fin m → ℝ) → ℝ → (Fin n → Fin m → ℝ) → Fin n → Fin m → ℝ
  epw : ℝ → (Fin n → ℝ) → (Fin m → ℝ) → ℝ → (Fin n → Fin m → ℝ) → Fin n → Fin m → ℝ
  klGuard : ℝ
  srTol : ℝ

/-- The fields of `OTResult` (ot/solvers.py 1341-1350). Simplification: the potentials of the conditional gradient branches (those of their last linear problem) are left out. -/
structure Res (n m : ℕ) where
  potentials : Option ((Fin n → ℝ) × (Fin m → ℝ))
  value : ℝ
  valueLinear : Option ℝ
  valueQuad : Option ℝ
  plan : Fin n → Fin m → ℝ
  status : Option Simplex.Status

/-- What a call does: it returns, raises `NotImplementedError`, raises another exception, or the model of the simplex runs out of fuel. -/
inductive Outcome (n m : ℕ) where
  | ok (r : Res n m)
  | notImplemented
  | error
  | gaveUp

/-- `loss_dict` (ot/solvers.py 871-875) and `_transform_matrix`. -/
noncomputable def decomp (klGuard : ℝ) : Loss → Option (Decomp ℝ)
  | .l2 => some square
  | .kl => some (kl klGuard)
  | .other => none

/-- A run of the conditional gradient loop: final plan and last loss. -/
noncomputable def cg (P : Optim.Problem ℝ (Fin n) (Fin m)) (G0 : Fin n → Fin m → ℝ) : Option ((Fin n → Fin m → ℝ) × ℝ) :=
  (P.loop (max 1 P.numItermax) (P.init G0)).map fun s => (s.G, s.losses.head?.getD 0)

/-- The features that count: `M is None or alpha == 1`. -/
noncomputable def feat (c : Call n m) : Option (Fin n → Fin m → ℝ) := if c.alpha = 1 then none else c.M

/-- `∑ plan * M` -/
def dot (T M : Fin n → Fin m → ℝ) : ℝ := ∑ i, ∑ j, T i j * M i j

/-- `nx.sum(plan * nx.log(plan + 1e-16))` -/
noncomputable def ent (guard : ℝ) (T : Fin n → Fin m → ℝ) : ℝ := ∑ i, ∑ j, T i j * Real.log (T i j + guard)

/-- Exact balanced problem (ot/solvers.py 878-962); ot/gromov/_gw.py 350-400, 556-660, 780-855. Simplification: a given `plan_init` is not compared with the weights (the code allows an absolute error of 1e-8). -/
noncomputable def exactBalanced [NeZero n] [NeZero m] (e : Ext n m) (D : Decomp ℝ) (c : Call n m) (a : Fin n → ℝ) (b : Fin m → ℝ) : Outcome n m :=
  let tol := c.tol.getD (1 / 10 ^ 9)
  let G0 := c.planInit.getD (Optim.outer a b)
  match feat c with
  | none =>
    match cg (fgwProblem c.symmetric D c.Ca c.Cb a b (fun _ _ => 0) 1 (e.lp a b) (c.maxIter.getD 10000) tol tol) G0 with
    | none => .gaveUp
    | some r => .ok { potentials := none, value := r.2, valueLinear := if c.alpha = 1 then some 0 else none, valueQuad := some r.2, plan := r.1, status := none }
  | some M =>
    if c.alpha = 0 then
      match EmdPy.emd true true e.massTol a b M e.junk e.eps e.feps e.bs (c.maxIter.getD 1000000) e.turns e.arcs with
      | .assertion => .error
      | .gaveUp => .gaveUp
      | .done r => .ok { potentials := some (r.u, r.v), value := r.cost, valueLinear := some r.cost, valueQuad := some 0, plan := r.G, status := some r.status }
    else
      match cg (fgwProblem c.symmetric D c.Ca c.Cb a b (fun i j => (1 - c.alpha) * M i j) c.alpha (e.lp a b) (c.maxIter.getD 10000) tol tol) G0 with
      | none => .gaveUp
      | some r => .ok { potentials := none, value := r.2, valueLinear := some (dot r.1 M * (1 - c.alpha)), valueQuad := some (r.2 - (1 - c.alpha) * dot r.1 M), plan := r.1, status := none }

/-- Exact semi-relaxed problem (ot/solvers.py 964-1020); ot/gromov/_semirelaxed.py 128-262, 690-752. -/
noncomputable def exactSemirelaxed [NeZero m] (e : Ext n m) (D : Decomp ℝ) (c : Call n m) (a : Fin n → ℝ) : Outcome n m :=
  let tol := c.tol.getD (1 / 10 ^ 9)
  let G0 := c.planInit.getD fun i _ => a i * (1 / m)
  match feat c with
  | none =>
    match cg (srProblem c.symmetric D c.Ca c.Cb a (fun _ _ => 0) 1 e.srTol (c.maxIter.getD 10000) tol tol) G0 with
    | none => .gaveUp
    | some r => .ok { potentials := none, value := r.2, valueLinear := if c.alpha = 1 then some 0 else none, valueQuad := some r.2, plan := r.1, status := none }
  | some M =>
    match cg (srProblem c.symmetric D c.Ca c.Cb a (fun i j => (1 - c.alpha) * M i j) c.alpha e.srTol (c.maxIter.getD 10000) tol tol) G0 with
    | none => .gaveUp
    | some r => .ok { potentials := none, value := r.2, valueLinear := some (dot r.1 M * (1 - c.alpha)), valueQuad := some (r.2 - (1 - c.alpha) * dot r.1 M), plan := r.1, status := none }

open Classical in
/-- Start of `partial_gromov_wasserstein` (ot/gromov/_partial.py 196-206); `none` for `AssertionError`. A given start has to stay below the weights; its mass and its signs are not looked at. -/
noncomputable def partialStart (a : Fin n → ℝ) (b : Fin m → ℝ) (mm : ℝ) : Option (Fin n → Fin m → ℝ) → Option (Fin n → Fin m → ℝ)
  | none => some fun i j => a i * b j * mm / ((∑ i, a i) * ∑ j, b j)
  | some G => if (∀ i, rowSum G i ≤ a i) ∧ ∀ j, colSum G j ≤ b j then some G else none

/-- Exact partial problem (ot/solvers.py 1022-1086): the mass check, and that of `partial_gromov_wasserstein` (ot/gromov/_partial.py 185-194). -/
noncomputable def exactPartial (e : Ext n m) (D : Decomp ℝ) (c : Call n m) (a : Fin n → ℝ) (b : Fin m → ℝ) (mm : ℝ) : Outcome n m :=
  if mm > ∑ i, a i ∨ mm > ∑ j, b j then .error
  else if mm < 0 then .error
  else
    let tol := c.tol.getD (1 / 10 ^ 7)
    match partialStart a b mm c.planInit with
    | none => .error
    | some G0 =>
      match feat c with
      | none =>
        match cg (pgProblem c.symmetric D c.Ca c.Cb (fun _ _ => 0) 1 (e.pw a b mm) (c.maxIter.getD 1000) tol 0) G0 with
        | none => .gaveUp
        | some r => .ok { potentials := none, value := r.2, valueLinear := none, valueQuad := some r.2, plan := r.1, status := none }
      | some M =>
        match cg (pgProblem c.symmetric D c.Ca c.Cb (fun i j => (1 - c.alpha) * M i j) c.alpha (e.pw a b mm) (c.maxIter.getD 1000) tol 0) G0 with
        | none => .gaveUp
        | some r => .ok { potentials := none, value := r.2, valueLinear := some (dot r.1 M * (1 - c.alpha)), valueQuad := some (r.2 - (1 - c.alpha) * dot r.1 M), plan := r.1, status := none }

/-- Entropic balanced problem (ot/solvers.py 1098-1199). The argument `tol` does not reach the parameter `tol` (1e-9) of the solvers, and the fused solver is called without `epsilon` (0.1). -/
noncomputable def entropicBalanced (e : Ext n m) (D : Decomp ℝ) (c : Call n m) (a : Fin n → ℝ) (b : Fin m → ℝ) (reg : ℝ) : Outcome n m :=
  if c.regEntropy then
    let maxIter := c.maxIter.getD 1000
    match feat c with
    | none =>
      if c.method = some .other then .error
      else
        let T := (entropicFgw c.symmetric D c.Ca c.Cb a b (fun _ _ => 0) 1 reg (decide (c.method = some .ppa)) (e.sk reg a b) c.planInit maxIter (1 / 10 ^ 9)).T
        let q := gwF D c.Ca c.Cb a b T
        .ok { potentials := none, value := q + reg * ent e.guard T, valueLinear := some 0, valueQuad := some q, plan := T, status := none }
    | some M =>
      if c.alpha = 0 then
        if maxIter = 0 then .error
        else
          let s := (Sinkhorn.sinkhornLog a b M reg maxIter (c.tol.getD (1 / 10 ^ 9)) none).s
          let T := Sinkhorn.logPlan M reg s
          .ok { potentials := some (s.u, s.v), value := dot T M + reg * ent e.guard T, valueLinear := some (dot T M), valueQuad := none, plan := T, status := none }
      else if c.method = some .other then .error
      else
        let T := (entropicFgw c.symmetric D c.Ca c.Cb a b M c.alpha (1 / 10) (decide (c.method = some .ppa)) (e.sk (1 / 10) a b) c.planInit maxIter (1 / 10 ^ 9)).T
        .ok { potentials := none, value := fgwDist D c.Ca c.Cb a b M c.alpha T + reg * ent e.guard T, valueLinear := some (fgwParts D c.Ca c.Cb a b M c.alpha T).2, valueQuad := some (fgwParts D c.Ca c.Cb a b M c.alpha T).1, plan := T, status := none }
  else .notImplemented

/-- Entropic semi-relaxed problem (ot/solvers.py 1201-1258); in the fused branch there is no `epsilon` (0.1) and any `reg_type` ends there; without `M` it crashes. -/
noncomputable def entropicSemirelaxed (e : Ext n m) (D : Decomp ℝ) (c : Call n m) (a : Fin n → ℝ) (reg : ℝ) : Outcome n m :=
  let maxIter := c.maxIter.getD 1000
  let tol := c.tol.getD (1 / 10 ^ 9)
  if c.regEntropy ∧ feat c = none then
    let T := (entropicSr c.symmetric D c.Ca c.Cb a (fun _ _ => 0) 1 reg c.planInit maxIter tol).T
    let q := srF D c.Ca c.Cb a T
    .ok { potentials := none, value := q + reg * ent e.guard T, valueLinear := some 0, valueQuad := some q, plan := T, status := none }
  else
    match c.M with
    | none => .error
    | some M =>
      let T := (entropicSr c.symmetric D c.Ca c.Cb a M c.alpha (1 / 10) c.planInit maxIter tol).T
      let parts := srParts D c.Ca c.Cb a M c.alpha T
      .ok { potentials := none, value := parts.1 + parts.2 + reg * ent e.guard T, valueLinear := some parts.1, valueQuad := some parts.2, plan := T, status := none }

/-- Entropic partial problem (ot/solvers.py 1260-1329), any `reg_type`; ot/gromov/_partial.py 1780-1814 for the parts. -/
noncomputable def entropicPartialG (e : Ext n m) (D : Decomp ℝ) (c : Call n m) (a : Fin n → ℝ) (b : Fin m → ℝ) (reg mm : ℝ) : Outcome n m :=
  if mm > ∑ i, a i ∨ mm > ∑ j, b j then .error
  else
    let maxIter := c.maxIter.getD 1000
    let tol := c.tol.getD (1 / 10 ^ 7)
    match feat c with
    | none =>
      match entropicPartialGw c.symmetric D c.Ca c.Cb a b (e.epw reg a b) (some mm) c.planInit maxIter tol with
      | none => .error
      | some s => .ok { potentials := none, value := epValue D c.Ca c.Cb s.T + reg * ent e.guard s.T, valueLinear := none, valueQuad := some (epValue D c.Ca c.Cb s.T), plan := s.T, status := none }
    | some M =>
      match entropicPartialFgw c.symmetric D c.Ca c.Cb a b M c.alpha (e.epw reg a b) (some mm) c.planInit maxIter tol with
      | none => .error
      | some s =>
        let v := epfValue D c.Ca c.Cb M c.alpha s.T
        .ok { potentials := none, value := v + reg * ent e.guard s.T, valueLinear := some (dot s.T M * (1 - c.alpha)), valueQuad := some (v - (1 - c.alpha) * dot s.T M), plan := s.T, status := none }

/-- `ot.solve_gromov` (ot/solvers.py 607-1352). -/
noncomputable def solveGromov [NeZero n] [NeZero m] (e : Ext n m) (c : Call n m) : Outcome n m :=
  let a := c.a.getD fun _ => 1 / n
  let b := c.b.getD fun _ => 1 / m
  match decomp e.klGuard c.loss with
  | none => .notImplemented
  | some D =>
    if c.reg.getD 0 = 0 then
      if c.unbalanced = none ∧ c.unbType ≠ .semirelaxed then exactBalanced e D c a b
      else if c.unbType = .semirelaxed then exactSemirelaxed e D c a
      else match c.unbType, c.unbalanced with
        | .partial_, some mm => exactPartial e D c a b mm
        | _, _ => .notImplemented
    else
      if c.unbalanced = none ∧ c.unbType ≠ .semirelaxed then entropicBalanced e D c a b (c.reg.getD 0)
      else if c.unbType = .semirelaxed then entropicSemirelaxed e D c a (c.reg.getD 0)
      else match c.unbType, c.unbalanced with
        | .partial_, some mm => entropicPartialG e D c a b (c.reg.getD 0) mm
        | _, _ => .notImplemented

end POT.SolveGromov
