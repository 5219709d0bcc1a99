import Mathlib.Algebra.Order.Field.Basic
import Mathlib.Algebra.BigOperators.Ring.Finset
import Mathlib.Data.Fintype.BigOperators

/-!
# Model of `ot/coot.py`

`co_optimal_transport` and `co_optimal_transport2`.  The two inner solvers (`sinkhorn` when the regularisation is positive, `emd`
when it is zero) and the divergence `nx.kl_div(., wxy)` are parameters; the dual vectors are not modelled (they only warm start
the inner solvers and are passed on as gradients).
-/

namespace POT.Coot

open Finset

variable {R : Type*} [Field R] [LinearOrder R]
variable {I J A B : Type*} [Fintype I] [Fintype J] [Fintype A] [Fintype B]

/-- The arguments of `co_optimal_transport` (ot/coot.py 17-42). -/
structure Problem (R I J A B : Type*) where
  X : I → A → R
  Y : J → B → R
  wxSamp : I → R
  wySamp : J → R
  wxFeat : A → R
  wyFeat : B → R
  epsSamp : R
  epsFeat : R
  alphaSamp : R
  alphaFeat : R
  MSamp : Option (I → J → R)
  MFeat : Option (A → B → R)
  /-- `nx.kl_div(pi_samp, wxy_samp)` -/
  klSamp : (I → J → R) → R
  /-- `nx.kl_div(pi_feat, wxy_feat)` -/
  klFeat : (A → B → R) → R
  /-- `sinkhorn` or `emd` with the sample weights, as a function of the cost -/
  solveSamp : (I → J → R) → (I → J → R)
  /-- `sinkhorn` or `emd` with the feature weights, as a function of the cost -/
  solveFeat : (A → B → R) → (A → B → R)
  nitsBcd : ℕ
  tolBcd : R
  evalBcd : ℕ
  earlyStoppingTol : R

/-- `wxy_samp` and `wxy_feat` (ot/coot.py 210-211). -/
def outer (a : I → R) (b : J → R) : I → J → R := fun i j => a i * b j

/-- `alpha_samp` after the treatment of absent matrices (ot/coot.py 192-193). -/
def Problem.aS (p : Problem R I J A B) : R := if p.MSamp.isNone ∨ p.alphaSamp = 0 then 0 else p.alphaSamp

/-- `alpha_feat` after the treatment of absent matrices (ot/coot.py 194-195). -/
def Problem.aF (p : Problem R I J A B) : R := if p.MFeat.isNone ∨ p.alphaFeat = 0 then 0 else p.alphaFeat

/-- `M_samp`, zero when absent (ot/coot.py 192-193). -/
def Problem.mS (p : Problem R I J A B) : I → J → R := if p.alphaSamp = 0 then 0 else p.MSamp.getD 0

/-- `M_feat`, zero when absent (ot/coot.py 194-195). -/
def Problem.mF (p : Problem R I J A B) : A → B → R := if p.alphaFeat = 0 then 0 else p.MFeat.getD 0

/-- `XY_sqr` (ot/coot.py 214). -/
def Problem.xySqr (p : Problem R I J A B) : I → J → R := fun i j =>
  (∑ a, p.X i a ^ 2 * p.wxFeat a) + (∑ b, p.Y j b ^ 2 * p.wyFeat b) + p.aS * p.mS i j

/-- `XY_sqr_T` (ot/coot.py 215-219). -/
def Problem.xySqrT (p : Problem R I J A B) : A → B → R := fun a b =>
  (∑ i, p.X i a ^ 2 * p.wxSamp i) + (∑ j, p.Y j b ^ 2 * p.wySamp j) + p.aF * p.mF a b

/-- `ot_cost` of the sample update (ot/coot.py 247). -/
def Problem.costSamp (p : Problem R I J A B) (piF : A → B → R) : I → J → R := fun i j =>
  p.xySqr i j - ∑ b, (∑ a, 2 * p.X i a * piF a b) * p.Y j b

/-- `ot_cost` of the feature update (ot/coot.py 267). -/
def Problem.costFeat (p : Problem R I J A B) (piS : I → J → R) : A → B → R := fun a b =>
  p.xySqrT a b - ∑ j, (∑ i, 2 * p.X i a * piS i j) * p.Y j b

/-- Loop variables: `pi_samp`, `pi_feat`, `list_coot[1:]` (newest first), the next `idx`, and whether the loop was left by `break`. -/
structure State (R I J A B : Type*) where
  piS : I → J → R
  piF : A → B → R
  dist : List R
  idx : ℕ
  stopped : Bool

/-- Value recorded by an evaluation (ot/coot.py 292-300); `ot_cost` is the cost of the feature update. -/
def Problem.value (p : Problem R I J A B) (piS : I → J → R) (piF : A → B → R) : R :=
  let coot := ∑ a, ∑ b, p.costFeat piS a b * piF a b                                    -- 292
  let coot := if p.aS ≠ 0 then coot + p.aS * ∑ i, ∑ j, p.mS i j * piS i j else coot     -- 293-294
  let coot := if p.epsSamp ≠ 0 then coot + p.epsSamp * p.klSamp piS else coot           -- 296-297
  if p.epsFeat ≠ 0 then coot + p.epsFeat * p.klFeat piF else coot                       -- 298-299

/-- Body of the loop (ot/coot.py 244-304). -/
def Problem.step (p : Problem R I J A B) (s : State R I J A B) : State R I J A B :=
  let piS := p.solveSamp (p.costSamp s.piF)                 -- 247-265
  let piF := p.solveFeat (p.costFeat piS)                   -- 267-285
  if s.idx % p.evalBcd = 0 then                             -- 287
    let err := ∑ i, ∑ j, |piS i j - s.piS i j|              -- 289
    let coot := p.value piS piF                             -- 292-300
    let small := match s.dist with                          -- 302: `list_coot[-2]` is infinite at the first evaluation
      | [] => false
      | prev :: _ => decide (|prev - coot| < p.earlyStoppingTol)
    { piS, piF, dist := coot :: s.dist, idx := s.idx + 1, stopped := decide (err < p.tolBcd) || small }
  else { piS, piF, dist := s.dist, idx := s.idx + 1, stopped := false }

/-- The loop (ot/coot.py 243-310) with `n` iterations left. -/
def Problem.loop (p : Problem R I J A B) : ℕ → State R I J A B → State R I J A B
  | 0, s => s
  | n + 1, s => let s' := p.step s; if s'.stopped then s' else p.loop n s'

/-- State before the loop: `warmstart`, or the products of the weights (ot/coot.py 222-241). -/
def Problem.init (p : Problem R I J A B) (warmstart : Option ((I → J → R) × (A → B → R))) : State R I J A B :=
  match warmstart with
  | none => { piS := outer p.wxSamp p.wySamp, piF := outer p.wxFeat p.wyFeat, dist := [], idx := 0, stopped := false }
  | some w => { piS := w.1, piF := w.2, dist := [], idx := 0, stopped := false }

/-- `co_optimal_transport` (ot/coot.py 17-326). -/
def Problem.run (p : Problem R I J A B) (warmstart : Option ((I → J → R) × (A → B → R))) : State R I J A B :=
  p.loop p.nitsBcd (p.init warmstart)

/-- The value of `co_optimal_transport2` (ot/coot.py 513): the last recorded distance (`none`: `IndexError`). -/
def Problem.value2 (p : Problem R I J A B) (warmstart : Option ((I → J → R) × (A → B → R))) : Option R :=
  (p.run warmstart).dist.head?

/-- `gradX` of `co_optimal_transport2` (ot/coot.py 506-508). -/
def Problem.gradX (p : Problem R I J A B) (piS : I → J → R) (piF : A → B → R) : I → A → R := fun i a =>
  2 * p.X i a * (p.wxSamp i * p.wxFeat a) - ∑ b, (∑ j, 2 * piS i j * p.Y j b) * piF a b

/-- `gradY` of `co_optimal_transport2` (ot/coot.py 509-511). -/
def Problem.gradY (p : Problem R I J A B) (piS : I → J → R) (piF : A → B → R) : J → B → R := fun j b =>
  2 * p.Y j b * (p.wySamp j * p.wyFeat b) - ∑ a, (∑ i, 2 * piS i j * p.X i a) * piF a b

end POT.Coot
