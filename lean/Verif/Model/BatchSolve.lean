import Verif.Model.Sinkhorn
import Verif.Model.Conv
import Mathlib.Analysis.SpecialFunctions.Pow.Real

/-!
# Model of the batched linear solvers (`ot/batch/_linear.py`)

A batch of problems is indexed by `B`. The projections `bregman_projection_batch` and `bregman_log_projection_batch` (ot/batch/_utils.py) are in `Model/Sinkhorn`. Exact arithmetic; `grad` only matters
through `"last_step"`, which adds an update.
-/

set_option linter.unusedSectionVars false

namespace POT.BatchSolve

open Finset Sinkhorn

variable {B I J D : Type*} [Fintype B] [Fintype I] [Fintype J] [Fintype D]

/-- `dist_lp_batch` (ot/batch/_linear.py 45-51). -/
noncomputable def lpBatch (p q : ℝ) (X : B → I → D → ℝ) (Y : B → J → D → ℝ) : B → I → J → ℝ := fun t i j =>
  let m := ∑ d, |X t i d - Y t j d| ^ p
  if q ≠ p then m ^ (q / p) else m

/-- `dist_euclidean_batch` (ot/batch/_linear.py 77-85). -/
noncomputable def euclideanBatch (squared : Bool) (X : B → I → D → ℝ) (Y : B → J → D → ℝ) : B → I → J → ℝ := fun t i j =>
  let m := ∑ d, X t i d ^ 2 + ∑ d, Y t j d ^ 2 - 2 * ∑ d, X t i d * Y t j d
  if squared then m else Real.sqrt m

/-- `dist_kl_batch` with `logits_X=False` (ot/batch/_linear.py 111-120). -/
noncomputable def klBatch (eps : ℝ) (X : B → I → D → ℝ) (Y : B → J → D → ℝ) : B → I → J → ℝ := fun t i j =>
  ∑ d, Y t j d * Real.log (Y t j d + eps) - ∑ d, Y t j d * Real.log (X t i d + eps)

/-- Shape of the result of `dist_kl_batch` with `logits_X=True` (ot/batch/_linear.py 113-115) for `X` of shape `(B, n, d)` and `Y` of shape `(B, m, d)`: `entr_y[:, None, :]` has shape `(B, 1, m)`,
`Y[:, None, :]` has shape `(B, 1, m, d)` and `X[:, :, None]` has shape `(B, n, 1, d)`. There is no sum over the last axis. -/
def klLogitsShape (b n m d : ℕ) : Option (List ℕ) := (Conv.broadcast [b, 1, m, d] [b, n, 1, d]).bind fun s => Conv.broadcast [b, 1, m] s

/-- Metrics `dist_batch` knows (ot/batch/_linear.py 223-232). -/
inductive Metric where
  | sqeuclidean
  | euclidean
  | minkowski
  | kl
  | other
deriving DecidableEq

/-- `dist_batch` (ot/batch/_linear.py 221-233); `none` is the `ValueError`. `eps` is `1e-10`. -/
noncomputable def distBatch (eps : ℝ) (metric : Metric) (p : ℝ) (X : B → I → D → ℝ) (Y : B → J → D → ℝ) : Option (B → I → J → ℝ) :=
  match metric with
  | .sqeuclidean => some (euclideanBatch true X Y)
  | .euclidean => some (euclideanBatch false X Y)
  | .minkowski => some (lpBatch p 1 X Y)
  | .kl => some (klBatch eps X Y)
  | .other => none

/-- `loss_linear_batch` (ot/batch/_linear.py 145-147). -/
def lossLinear (M T : B → I → J → ℝ) : B → ℝ := fun t => ∑ i, ∑ j, M t i j * T t i j

/-- `loss_linear_samples_batch` (ot/batch/_linear.py 150-175); its default metric is the string `"l2"`, which is `Metric.other`. -/
noncomputable def lossLinearSamples (eps : ℝ) (metric : Metric) (X : B → I → D → ℝ) (Y : B → J → D → ℝ) (T : B → I → J → ℝ) : Option (B → ℝ) :=
  (distBatch eps metric 2 X Y).map fun M => lossLinear M T

/-- The default `metric="l2"` of `loss_linear_samples_batch`. -/
def samplesDefaultMetric : Metric := .other

/-- The argument `solver` (ot/batch/_linear.py 317-328). -/
inductive Solver where
  | logSinkhorn
  | sinkhorn
  | other
deriving DecidableEq

/-- The argument `reg_type` (ot/batch/_linear.py 339-345). -/
inductive RegType where
  | entropy
  | kl
  | other
deriving DecidableEq

/-- The fields of the `OTResult` (ot/batch/_linear.py 348-355), and how the iteration ended (not part of the result). -/
structure Result (B I J : Type*) where
  value : B → ℝ
  valueLinear : B → ℝ
  plan : B → I → J → ℝ
  potentials : (B → I → ℝ) × (B → J → ℝ)
  exit : Exit

/-- `entropy_batch` (ot/batch/_utils.py 4-22). -/
noncomputable def entropyBatch (eps : ℝ) (T : B → I → J → ℝ) : B → ℝ := fun t => -∑ i, ∑ j, T t i j * Real.log (T t i j + eps)

/-- Scalings, plan and exit of the inner solver (ot/batch/_linear.py 317-330); `none`: unknown solver. The plan of `bregman_projection_batch` uses the detached kernel, which has the same values. -/
noncomputable def inner (solver : Solver) (lastStep : Bool) (M : B → I → J → ℝ) (reg : ℝ) (a : B → I → ℝ) (b : B → J → ℝ) (maxIter : ℕ) (tol : ℝ) :
    Option (Batch B I J × (B → I → J → ℝ) × Exit) :=
  match solver with
  | .logSinkhorn =>
    let K : B → I → J → ℝ := fun t i j => -M t i j / reg
    let r := bregmanLogBatch K a b maxIter tol
    let s := if lastStep then batchLogStep K a b r.s else r.s
    some (s, batchLogPlan K s, r.exit)
  | .sinkhorn =>
    let K : B → I → J → ℝ := fun t i j => Real.exp (-M t i j / reg)
    let r := bregmanBatch K a b maxIter tol
    let s := if lastStep then batchStep K a b r.s else r.s
    some (s, batchPlan K s, r.exit)
  | .other => none

/-- `value` (ot/batch/_linear.py 338-345); `none`: the variable is unbound. `eps` is `1e-16`. -/
noncomputable def value (eps : ℝ) (regType : RegType) (M : B → I → J → ℝ) (reg : ℝ) (a : B → I → ℝ) (b : B → J → ℝ) (T : B → I → J → ℝ) : Option (B → ℝ) :=
  match regType with
  | .entropy => some fun t => lossLinear M T t + reg * -entropyBatch eps T t
  | .kl => some fun t => lossLinear M T t + reg * ∑ i, ∑ j, T t i j * Real.log (T t i j / (a t i * b t j) + eps)
  | .other => none

/-- `solve_batch` (ot/batch/_linear.py 308-357). `none` models the exceptions: unknown `solver`, unbound `value` for an unknown `reg_type`, unbound `n_iters` for `max_iter = 0`. -/
noncomputable def solveBatch (eps : ℝ) (solver : Solver) (regType : RegType) (lastStep : Bool) (M : B → I → J → ℝ) (reg : ℝ) (a : Option (B → I → ℝ)) (b : Option (B → J → ℝ)) (maxIter : ℕ) (tol : ℝ) :
    Option (Result B I J) :=
  let a := a.getD fun _ _ => 1 / Fintype.card I
  let b := b.getD fun _ _ => 1 / Fintype.card J
  if maxIter = 0 then none
  else (inner solver lastStep M reg a b maxIter tol).bind fun out =>
    (value eps regType M reg a b out.2.1).map fun v =>
      { value := v, valueLinear := lossLinear M out.2.1, plan := out.2.1, potentials := (out.1.f, out.1.g), exit := out.2.2 }

/-- `solve_sample_batch` (ot/batch/_linear.py 424-435). -/
noncomputable def solveSampleBatch (epsKl eps : ℝ) (metric : Metric) (p : ℝ) (solver : Solver) (regType : RegType) (lastStep : Bool) (X : B → I → D → ℝ) (Y : B → J → D → ℝ) (reg : ℝ) (a : Option (B → I → ℝ))
    (b : Option (B → J → ℝ)) (maxIter : ℕ) (tol : ℝ) : Option (Result B I J) :=
  (distBatch epsKl metric p X Y).bind fun M => solveBatch eps solver regType lastStep M reg a b maxIter tol

end POT.BatchSolve
