import Verif.Model.Solve
import Verif.Model.EmdLazy
import Verif.Model.EmdSparse
import Verif.Model.Emd1d
import Verif.Model.Gaussian
import Verif.Model.Factored
import Verif.Model.Utils
import Verif.Spec.EdgePlan

/-! # Model of `ot.solve_sample` (ot/solvers.py 1354-2023) and of lazy empirical Sinkhorn (ot/bregman/_empirical.py)

Exact arithmetic.  The branches call the models of the solvers.  The branches `lowrank`, `nystroem` and `geomloss` only forward their arguments to solvers treated elsewhere and are
`unmodelled`, and so are metrics other than the three known to `Spec.PointMetric`. -/

set_option linter.unusedSectionVars false

namespace POT.SolveSample

open Finset Sinkhorn Solve Utils

variable {n m d : ℕ}

/-- `dist(X, Y, metric)` (ot/utils.py 289-307, 414-505); `same` is the test `X is Y`. -/
noncomputable def distM (μ : Spec.PointMetric) (same : Bool) (X : Fin n → Fin d → ℝ) (Y : Fin m → Fin d → ℝ) : Fin n → Fin m → ℝ :=
  match μ with
  | .sqeuclidean => sqEuclidean same X Y
  | .euclidean => euclidean same X Y
  | .cityblock => cityblock X Y

/-- the `i`-th entry of an array built by concatenation -/
noncomputable def entry {k : ℕ} (l : List ℝ) (i : Fin k) : ℝ := l.getD i 0

/-- One iteration of lazy `empirical_sinkhorn` with batches (ot/bregman/_empirical.py 218-234): a block of rows costs `dist(X_s[i : i + bs], X_t)`, a block of columns `dist(X_s, X_t[j : j + bt])`. -/
noncomputable def batchedStep (μ : Spec.PointMetric) (bs bt : ℕ) (a : Fin n → ℝ) (b : Fin m → ℝ) (X : Fin n → Fin d → ℝ) (Y : Fin m → Fin d → ℝ) (reg : ℝ) (s : UV (Fin n) (Fin m)) : UV (Fin n) (Fin m) :=
  let lseF := reduceAxisConcat (List.map fun x => logsumexp fun j => s.v j - distM μ false (fun _ : Fin 1 => x) Y 0 j / reg) (List.ofFn X) bs
  let f : Fin n → ℝ := fun i => Real.log (a i) - entry lseF i
  let lseG := reduceAxisConcat (List.map fun y => logsumexp fun i => f i - distM μ false X (fun _ : Fin 1 => y) i 0 / reg) (List.ofFn Y) bt
  { u := f, v := fun j => Real.log (b j) - entry lseG j }

/-- `err`, computed in blocks of rows (ot/bregman/_empirical.py 236-247); a row is a pair of a potential and a point. -/
noncomputable def batchedErr (μ : Spec.PointMetric) (bs : ℕ) (a : Fin n → ℝ) (X : Fin n → Fin d → ℝ) (Y : Fin m → Fin d → ℝ) (reg : ℝ) (s : UV (Fin n) (Fin m)) : ℝ :=
  let m1 := reduceAxisConcat (List.map fun r : ℝ × (Fin d → ℝ) => ∑ j, Real.exp (r.1 + s.v j - distM μ false (fun _ : Fin 1 => r.2) Y 0 j / reg)) (List.ofFn fun i => (s.u i, X i)) bs
  ∑ i, |entry m1 i - a i|

/-- Lazy `empirical_sinkhorn` (ot/bregman/_empirical.py 197-271) with batch sizes `(bs, bt)`. -/
noncomputable def empiricalBatched (μ : Spec.PointMetric) (bs bt : ℕ) (a : Fin n → ℝ) (b : Fin m → ℝ) (X : Fin n → Fin d → ℝ) (Y : Fin m → Fin d → ℝ) (reg : ℝ) (numIterMax : ℕ) (stopThr : ℝ)
    (warm : Option ((Fin n → ℝ) × (Fin m → ℝ))) : Run (UV (Fin n) (Fin m)) :=
  loop (batchedStep μ bs bt a b X Y reg) (fun _ => False) (fun ii _ s => (ii + 1) % 10 = 0 ∧ batchedErr μ bs a X Y reg s ≤ stopThr) numIterMax 0 (logInit warm)

/-- The loss of lazy `empirical_sinkhorn2` (ot/bregman/_empirical.py 465-478): the sum over blocks of rows. -/
noncomputable def batchedLoss (μ : Spec.PointMetric) (bs : ℕ) (X : Fin n → Fin d → ℝ) (Y : Fin m → Fin d → ℝ) (reg : ℝ) (s : UV (Fin n) (Fin m)) : ℝ :=
  reduceAll (fun rows : List (ℝ × (Fin d → ℝ)) => (rows.map fun r => ∑ j, distM μ false (fun _ : Fin 1 => r.2) Y 0 j *
    Real.exp (r.1 + s.v j - distM μ false (fun _ : Fin 1 => r.2) Y 0 j / reg)).sum) (List.ofFn fun i => (s.u i, X i)) bs

/-- `lazy_plan` of `empirical_sinkhorn` (ot/bregman/_empirical.py 26-71, 268): entry `exp(f + g - dist / reg)`. -/
noncomputable def batchedPlan (μ : Spec.PointMetric) (X : Fin n → Fin d → ℝ) (Y : Fin m → Fin d → ℝ) (reg : ℝ) (s : UV (Fin n) (Fin m)) : Fin n → Fin m → ℝ :=
  fun i j => Real.exp (s.u i + s.v j - distM μ false X Y i j / reg)

/-- `unif` (ot/utils.py) -/
noncomputable def unif (k : ℕ) : Fin k → ℝ := fun _ => 1 / k

/-- `empirical_sinkhorn2` (ot/bregman/_empirical.py 419-515): with `isLazy=True`, batch sizes `(bs, bt)`, else `sinkhorn2` with its default method. `same` is `X_s is X_t`. -/
noncomputable def empirical2 (μ : Spec.PointMetric) (same : Bool) (isLazy : Option (ℕ × ℕ)) (a0 : Option (Fin n → ℝ)) (b0 : Option (Fin m → ℝ)) (X : Fin n → Fin d → ℝ) (Y : Fin m → Fin d → ℝ) (reg : ℝ)
    (numIterMax : ℕ) (stopThr : ℝ) (warm : Option ((Fin n → ℝ) × (Fin m → ℝ))) : ℝ :=
  let a := a0.getD (unif n)
  let b := b0.getD (unif m)
  match isLazy with
  | some bst => batchedLoss μ bst.1 X Y reg (empiricalBatched μ bst.1 bst.2 a b X Y reg numIterMax stopThr warm).s
  | none =>
    let M := distM μ same X Y
    Spec.cost M (plan (kernel M reg) (sinkhornKnopp a b M reg numIterMax stopThr warm).s)

/-- `empirical_sinkhorn_divergence` (ot/bregman/_empirical.py 640-751); `same` is `X_s is X_t`. -/
noncomputable def divergence (μ : Spec.PointMetric) (same : Bool) (isLazy : Option (ℕ × ℕ)) (a0 : Option (Fin n → ℝ)) (b0 : Option (Fin m → ℝ)) (X : Fin n → Fin d → ℝ) (Y : Fin m → Fin d → ℝ) (reg : ℝ)
    (numIterMax : ℕ) (stopThr : ℝ) (warm : Option ((Fin n → ℝ) × (Fin m → ℝ))) : ℝ :=
  let ab := empirical2 μ same isLazy a0 b0 X Y reg numIterMax stopThr warm
  let aa := empirical2 μ true isLazy a0 a0 X X reg numIterMax stopThr (warm.map fun w => (w.1, w.1))
  let bb := empirical2 μ true isLazy b0 b0 Y Y reg numIterMax stopThr (warm.map fun w => (w.2, w.2))
  max 0 (ab - 1 / 2 * (aa + bb))

/-- Values of `method` after `lower()` that `solve_sample` distinguishes (ot/solvers.py 43-54, 1728). -/
inductive Method where
  | oneD
  | gaussian
  | factored
  | lowrank
  | nystroem
  | geomloss
  | other
  deriving DecidableEq

/-- Method names in `lst_method_lazy` (ot/solvers.py 43-54). -/
def Method.large : Method → Bool
  | .other => false
  | _ => true

/-- What a user reads from the `OTResult`: the properties `plan` (dense, or converted from the sparse plan), `lazy_plan`, `value`, `value_linear`, `potentials` (ot/utils.py 1245-1330). For the method
`1d` the values are vectors with one entry per dimension. -/
structure SampleResult (n m d : ℕ) where
  potentials : Option ((Fin n → ℝ) × (Fin m → ℝ)) := none
  value : Option ℝ := none
  valueLinear : Option ℝ := none
  values1d : Option (Fin d → ℝ) := none
  plan : Option (Fin n → Fin m → ℝ) := none
  lazyPlan : Option (Fin n → Fin m → ℝ) := none
  status : Option Simplex.Status := none

/-- How a call ends, as in `Solve.Outcome`. -/
inductive SampleOutcome (n m d : ℕ) where
  | ok (r : SampleResult n m d)
  | notImplemented
  | error
  | gaveUp
  | unmodelled

/-- The environment: that of `ot.solve`, the eigenvalue solver, `argsort`, the solver `solve_ot` of factored transport (`reg`, two weights, cost) and its random template. -/
structure Env (n m d : ℕ) where
  ext : Ext n m
  eigh : Gaussian.Eigh (Fin d)
  argsort : ∀ {k : ℕ}, (Fin k → ℝ) → Equiv.Perm (Fin k)
  solveOt : ∀ {p q : ℕ}, ℝ → (Fin p → ℝ) → (Fin q → ℝ) → (Fin p → Fin q → ℝ) → (Fin p → Fin q → ℝ)
  randn : ∀ r : ℕ, Fin r → Fin d → ℝ

/-- The result of `ot.solve` as read by the user. -/
def ofSolve : Outcome n m → SampleOutcome n m d
  | .ok r => .ok { potentials := r.potentials, value := some r.value, valueLinear := some r.valueLinear, plan := some r.plan, status := r.status }
  | .notImplemented => .notImplemented
  | .error => .error
  | .gaveUp => .gaveUp
  | .unmodelled => .unmodelled

/-- `ot.solve_sample` (ot/solvers.py 1354-2023). `metric` is `none` for a metric that is not modelled, `same` is `X_a is X_b`. Not modelled: warm start of the exact solver
(`potentials_init` with `lazy=True`), and the gradients. With `max_iter=0` the loops of factored transport and of lazy Sinkhorn bind no variable and the call raises. -/
noncomputable def solveSample [NeZero n] [NeZero m] (e : Env n m d) (same : Bool) (X : Fin n → Fin d → ℝ) (Y : Fin m → Fin d → ℝ) (a0 : Option (Fin n → ℝ)) (b0 : Option (Fin m → ℝ))
    (metric : Option Spec.PointMetric) (reg0 : Option ℝ) (c0 : Option (Fin n → Fin m → ℝ)) (regType : RegArg n m) (unbalanced : Option (Option ℝ × Option ℝ)) (unbType : UnbArg) (lazy0 : Bool)
    (batch : Option (ℕ × ℕ)) (method : Option Method) (maxIter : Option ℕ) (planInit : Option (Fin n → Fin m → ℝ)) (rank : ℕ) (potInit : Option ((Fin n → ℝ) × (Fin m → ℝ))) (tol : Option ℝ)
    (grad : Grad) : SampleOutcome n m d :=
  let lazy := lazy0 || (method.map Method.large).getD false                                               -- 1728-1730
  if lazy = false then                                                                                     -- 1732-1757
    match metric with
    | none => .unmodelled
    | some μ => ofSolve (solve e.ext (distM μ same X Y) a0 b0 reg0 c0 regType unbalanced unbType maxIter planInit potInit tol grad)
  else if method = none ∧ (reg0 = none ∨ reg0 = some 0) ∧ unbalanced = none then                           -- 1759-1790
    match metric with
    | none => .error
    | some μ =>
      match Simplex.emd2Lazy Real.sqrt true true e.ext.massTol μ a0 b0 X Y e.ext.junk e.ext.eps e.ext.feps e.ext.bs (maxIter.getD 100000) e.ext.turns e.ext.arcs with
      | .assertion => .error
      | .gaveUp => .gaveUp
      | .done r => .ok { potentials := some (r.u, r.v), value := some r.cost, valueLinear := some r.cost, plan := some (Spec.cooEntry r.flows), status := some r.status }
  else
    match method.getD .other with
    | .oneD =>                                                                                             -- 1808-1821
      match metric with
      | none => .notImplemented
      | some μ =>
        let p : ℝ := if μ = .sqeuclidean then 2 else 1
        let a := a0.getD (unif n)
        let b := b0.getD (unif m)
        .ok { values1d := some fun k => (Emd1d.wasserstein1d p (fun i => X i k) (fun j => Y j k) a b (e.argsort fun i => X i k) (e.argsort fun j => Y j k)).2 }
    | .gaussian =>                                                                                         -- 1823-1837
      if metric = some .sqeuclidean then
        let w := Gaussian.empDist e.eigh true (reg0.getD (1 / 10 ^ 6)) (Gaussian.uniformW (Fin n)) (Gaussian.uniformW (Fin m)) X Y
        .ok { value := some (w ^ 2), valueLinear := some (w ^ 2) }
      else .notImplemented
    | .factored =>                                                                                         -- 1839-1868
      if metric = some .sqeuclidean then
        let reg := reg0.getD 0
        match maxIter.getD 100 with
        | 0 => .error
        | k + 1 =>
          let s := Factored.factored X Y (e.solveOt reg (unif n) (Factored.w rank)) (e.solveOt reg (Factored.w rank) (unif m)) (tol.getD (1 / 10 ^ 7)) k (e.randn rank)
          let P := Factored.lazyPlan s.Ga s.Gb
          let v := Factored.costA X s + Factored.costB Y s
          .ok { value := some v, valueLinear := some v, lazyPlan := some P, plan := if lazy0 then none else some P }
      else .notImplemented
    | .lowrank | .nystroem | .geomloss => .unmodelled                                                      -- 1870-1964
    | .other =>                                                                                            -- 1966-2011
      if reg0 = none ∨ reg0 = some 0 then .notImplemented
      else
        match unbalanced with
        | some _ => .notImplemented
        | none =>
          match metric with
          | none => .unmodelled
          | some μ =>
            if maxIter = some 0 then .error else
            let reg := reg0.getD 0
            let bst := batch.getD (100, 100)
            let a := a0.getD (unif n)
            let b := b0.getD (unif m)
            let s := (empiricalBatched μ bst.1 bst.2 a b X Y reg (maxIter.getD 1000) (tol.getD (1 / 10 ^ 9)) none).s
            .ok { potentials := some (s.u, s.v), valueLinear := some (batchedLoss μ bst.1 X Y reg s), lazyPlan := some (batchedPlan μ X Y reg s) }

end POT.SolveSample
