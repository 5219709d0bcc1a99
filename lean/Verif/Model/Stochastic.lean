import Verif.Spec.Transport
import Mathlib.Analysis.SpecialFunctions.Log.Basic
import Mathlib.Analysis.SpecialFunctions.Sqrt
import Mathlib.Logic.Function.Basic

/-!
# Model of `ot/stochastic.py`

Exact arithmetic over `ℝ`.  The random generator is replaced by the list of the indices (or batches) it returns: the theorems quantify over all of them, or
average over all of them.
-/

set_option linter.unusedSectionVars false

namespace POT.Stoch

open Finset

variable {I J : Type*} [Fintype I] [Fintype J]

/-- `coordinate_grad_semi_dual` (ot/stochastic.py 69-72) -/
noncomputable def coordGrad (b : J → ℝ) (M : I → J → ℝ) (reg : ℝ) (beta : J → ℝ) (i : I) : J → ℝ :=
  let r := fun j => M i j - beta j
  let e := fun j => Real.exp (-(r j) / reg) * b j
  fun j => b j - e j / ∑ k, e k

/-- state of `sag_entropic_transport` -/
structure Sag (I J : Type*) where
  cur : J → ℝ
  stored : I → J → ℝ
  sum : J → ℝ

/-- one iteration of `sag_entropic_transport` for the index `i` drawn (ot/stochastic.py 143-147) -/
noncomputable def sagStep [DecidableEq I] (a : I → ℝ) (b : J → ℝ) (M : I → J → ℝ) (reg lr : ℝ) (s : Sag I J) (i : I) : Sag I J :=
  let g := fun j => a i * coordGrad b M reg s.cur i j
  let sum := fun j => s.sum j + (g j - s.stored i j)
  { cur := fun j => s.cur j + lr * (1 / Fintype.card I) * sum j
    stored := Function.update s.stored i g
    sum := sum }

/-- `sag_entropic_transport` for the indices `draws` (ot/stochastic.py 136-148); `lr` is the value of the parameter after 134-135 -/
noncomputable def sag [DecidableEq I] (a : I → ℝ) (b : J → ℝ) (M : I → J → ℝ) (reg lr : ℝ) (draws : List I) : Sag I J :=
  draws.foldl (sagStep a b M reg lr) ⟨fun _ => 0, fun _ _ => 0, fun _ => 0⟩

/-- state of `averaged_sgd_entropic_transport`; `iter` is the number of iterations done -/
structure Asgd (J : Type*) where
  iter : ℕ
  cur : J → ℝ
  ave : J → ℝ

/-- one iteration of `averaged_sgd_entropic_transport` (ot/stochastic.py 219-223); the weights `a` do not occur -/
noncomputable def asgdStep (b : J → ℝ) (M : I → J → ℝ) (reg lr : ℝ) (s : Asgd J) (i : I) : Asgd J :=
  let k : ℝ := s.iter + 1
  let g := coordGrad b M reg s.cur i
  let cur := fun j => s.cur j + lr / Real.sqrt k * g j
  { iter := s.iter + 1
    cur := cur
    ave := fun j => 1 / k * cur j + (1 - 1 / k) * s.ave j }

/-- `averaged_sgd_entropic_transport` for the indices `draws` (ot/stochastic.py 213-224); `lr` is the value of the parameter after 211-212 -/
noncomputable def asgd (b : J → ℝ) (M : I → J → ℝ) (reg lr : ℝ) (draws : List I) : Asgd J :=
  draws.foldl (asgdStep b M reg lr) ⟨0, fun _ => 0, fun _ => 0⟩

/-- `np.min` of a vector (`0` for an empty one, where numpy raises) -/
noncomputable def minOf (r : J → ℝ) : ℝ := if h : (univ : Finset J).Nonempty then univ.inf' h r else 0

/-- `c_transform_entropic` (ot/stochastic.py 273-280) -/
noncomputable def cTransform (b : J → ℝ) (M : I → J → ℝ) (reg : ℝ) (beta : J → ℝ) : I → ℝ := fun i =>
  let r := fun j => M i j - beta j
  let mn := minOf r
  mn - reg * Real.log (∑ j, Real.exp (-(r j - mn) / reg) * b j)

/-- the plan of `solve_semi_dual_entropic` for the potential `beta` its solver returned (ot/stochastic.py 359-364) -/
noncomputable def semiPlan (a : I → ℝ) (b : J → ℝ) (M : I → J → ℝ) (reg : ℝ) (beta : J → ℝ) : I → J → ℝ :=
  let alpha := cTransform b M reg beta
  fun i j => Real.exp ((alpha i + beta j - M i j) / reg) * a i * b j

/-- `batch_grad_dual` (ot/stochastic.py 443-462).  A batch is drawn without replacement, its order does not matter: it is a finite set. -/
noncomputable def batchGrad [DecidableEq I] [DecidableEq J] (a : I → ℝ) (b : J → ℝ) (M : I → J → ℝ) (reg : ℝ) (alpha : I → ℝ) (beta : J → ℝ)
    (A : Finset I) (B : Finset J) : (I → ℝ) × (J → ℝ) :=
  let G := fun i j => -(Real.exp ((alpha i + beta j - M i j) / reg) * a i * b j)
  (fun i => if i ∈ A then a i * B.card / Fintype.card J + ∑ j ∈ B, G i j else 0,
   fun j => if j ∈ B then b j * A.card / Fintype.card I + ∑ i ∈ A, G i j else 0)

/-- one iteration of `sgd_entropic_regularization`; `k` counts from zero (ot/stochastic.py 527-534) -/
noncomputable def sgdStep [DecidableEq I] [DecidableEq J] (a : I → ℝ) (b : J → ℝ) (M : I → J → ℝ) (reg lr : ℝ) (s : ℕ × (I → ℝ) × (J → ℝ))
    (d : Finset I × Finset J) : ℕ × (I → ℝ) × (J → ℝ) :=
  let k := Real.sqrt (s.1 + 1)
  let u := batchGrad a b M reg s.2.1 s.2.2 d.1 d.2
  (s.1 + 1, fun i => if i ∈ d.1 then s.2.1 i + lr / k * u.1 i else s.2.1 i, fun j => if j ∈ d.2 then s.2.2 j + lr / k * u.2 j else s.2.2 j)

/-- `sgd_entropic_regularization` (ot/stochastic.py 521-536) -/
noncomputable def sgd [DecidableEq I] [DecidableEq J] (a : I → ℝ) (b : J → ℝ) (M : I → J → ℝ) (reg lr : ℝ) (draws : List (Finset I × Finset J)) :
    ℕ × (I → ℝ) × (J → ℝ) :=
  draws.foldl (sgdStep a b M reg lr) (0, fun _ => 0, fun _ => 0)

/-- `loss_dual_entropic` (ot/stochastic.py 614-669) with the weights and the cost matrix as arguments (`metric` may be any function) -/
noncomputable def lossEntropic (u : I → ℝ) (v : J → ℝ) (M : I → J → ℝ) (reg : ℝ) (ws : I → ℝ) (wt : J → ℝ) : ℝ :=
  let F := fun i j => -reg * Real.exp ((u i + v j - M i j) / reg)
  ∑ i, u i * ws i + ∑ j, v j * wt j + ∑ i, ∑ j, ws i * F i j * wt j

/-- `plan_dual_entropic` (ot/stochastic.py 672-727); the same formula is used by `solve_dual_entropic` (595-599) -/
noncomputable def planEntropic (u : I → ℝ) (v : J → ℝ) (M : I → J → ℝ) (reg : ℝ) (ws : I → ℝ) (wt : J → ℝ) : I → J → ℝ :=
  fun i j => ws i * Real.exp ((u i + v j - M i j) / reg) * wt j

/-- `loss_dual_quadratic` (ot/stochastic.py 730-785) -/
noncomputable def lossQuadratic (u : I → ℝ) (v : J → ℝ) (M : I → J → ℝ) (reg : ℝ) (ws : I → ℝ) (wt : J → ℝ) : ℝ :=
  let F := fun i j => -1 / (4 * reg) * max (u i + v j - M i j) 0 ^ 2
  ∑ i, u i * ws i + ∑ j, v j * wt j + ∑ i, ∑ j, ws i * F i j * wt j

/-- `plan_dual_quadratic` (ot/stochastic.py 788-843) -/
noncomputable def planQuadratic (u : I → ℝ) (v : J → ℝ) (M : I → J → ℝ) (reg : ℝ) (ws : I → ℝ) (wt : J → ℝ) : I → J → ℝ :=
  fun i j => ws i * (1 / (2 * reg) * max (u i + v j - M i j) 0) * wt j

end POT.Stoch
