import Verif.Model.RegPath
import Verif.Spec.SemiPath
import Mathlib.Data.Finset.Sum

/-!
# Model of `semi_relaxed_path` (`ot/regpath.py` 684-836)

Same conventions as `Model/RegPath`: exact real arithmetic, vectors over the active set are indexed by the active indices themselves, the constants `1e-16`, `1e-10`, `1e-8` are parameters.  The augmented system is indexed by `J ⊕ X`, the
multipliers of the column constraints first.
-/

set_option linter.unusedSectionVars false

namespace POT.SemiPath

open Finset RegPath

variable {X R J : Type*} [Fintype X] [DecidableEq X] [Fintype R] [Fintype J] [DecidableEq J]

/-- `Hr`, `Hc`, `a`, `b`, `c` of the regression problem with constraints. -/
structure Prob (X R J : Type*) where
  H : R → X → ℝ
  E : J → X → ℝ
  y : R → ℝ
  b : J → ℝ
  c : X → ℝ

/-- `recast_semi_relaxed_as_lasso` (ot/regpath.py 196-212) -/
def recastSemi {I J : Type*} [DecidableEq I] [DecidableEq J] (a : I → ℝ) (b : J → ℝ) (C : I → J → ℝ) : Prob (I × J) I J where
  H := fun i x => if x.1 = i then 1 else 0
  E := fun j x => if x.2 = j then 1 else 0
  y := a
  b := b
  c := fun x => C x.1 x.2

/-- `HrHr = Hr.T.dot(Hr)` (ot/regpath.py 762) -/
def Prob.HrHr (p : Prob X R J) (i j : X) : ℝ := ∑ r, p.H r i * p.H r j

/-- `Hra = Hr.T.dot(a)` (ot/regpath.py 761) -/
def Prob.Hra (p : Prob X R J) (i : X) : ℝ := ∑ r, p.H r i * p.y r

/-- the matrix of `construct_augmented_H` (ot/regpath.py 538-541), before the restriction to the active indices -/
def Prob.aug (p : Prob X R J) : J ⊕ X → J ⊕ X → ℝ
  | .inl _, .inl _ => 0
  | .inl j, .inr i => p.E j i
  | .inr i, .inl j => p.E j i
  | .inr i, .inr k => p.HrHr i k

/-- `np.concatenate((b, Hra[active_index]))` (ot/regpath.py 783) -/
def Prob.rhs (p : Prob X R J) : J ⊕ X → ℝ := Sum.elim p.b p.Hra

/-- the indices of the augmented system -/
def active (S : Finset X) : Finset (J ⊕ X) := (univ : Finset J).disjSum S

/-- What happened to the active set at the end of the previous iteration; it decides how the inverse is updated. -/
inductive Event (X : Type*) where
  | first
  | add (i : X)
  | pop (i : X)

/-- The variables carried by the loop apart from the lists: active set, inverse before its update, last event. -/
structure State (X J : Type*) where
  S : Finset X
  B : J ⊕ X → J ⊕ X → ℝ
  ev : Event X

/-- `H_inv` (ot/regpath.py 778-781); `inv` is `np.linalg.inv` -/
noncomputable def inverse (p : Prob X R J) (inv : Finset (J ⊕ X) → (J ⊕ X → J ⊕ X → ℝ) → (J ⊕ X → J ⊕ X → ℝ)) (s : State X J) : J ⊕ X → J ⊕ X → ℝ :=
  match s.ev with
  | .first => inv (active s.S) p.aug
  | .add i => schurAdd s.B (active (s.S.erase i)) (.inr i) (fun k => p.aug k (.inr i)) 1
  | .pop i => schurPop s.B (.inr i)

variable (p : Prob X R J) (inv : Finset (J ⊕ X) → (J ⊕ X → J ⊕ X → ℝ) → (J ⊕ X → J ⊕ X → ℝ))

/-- `augmented_phi` (ot/regpath.py 783) -/
noncomputable def phi (s : State X J) : J ⊕ X → ℝ := fun z => if z ∈ active s.S then ∑ w ∈ active s.S, inverse p inv s z w * p.rhs w else 0

/-- `augmented_delta` (ot/regpath.py 784) -/
noncomputable def delta (s : State X J) : J ⊕ X → ℝ := fun z => if z ∈ active s.S then ∑ i ∈ s.S, inverse p inv s z (.inr i) * p.c i else 0

/-- `M > (current_gamma - tol * current_gamma)`; `none` is `np.inf`, for which the right side is `nan` and the test is false -/
def tooLarge (tol : ℝ) (cur : Option ℝ) (M : ℝ) : Prop :=
  match cur with
  | none => False
  | some g => M > g - tol * g

/-- `r >= (1 - tol) * current_gamma`; `none` is `np.inf` -/
def tooLarge' (tol : ℝ) (cur : Option ℝ) (r : ℝ) : Prop :=
  match cur with
  | none => False
  | some g => r ≥ (1 - tol) * g

open Classical in
/-- the candidates of `semi_relaxed_next_gamma` (ot/regpath.py 349-354) -/
noncomputable def nextGamma (tol : Tol) (cur : Option ℝ) (s : State X J) : X → ℝ := fun i =>
  if i ∈ s.S then 0 else
  let M := (∑ k ∈ s.S, p.HrHr i k * phi p inv s (.inr k) - p.Hra i + ∑ j, p.E j i * phi p inv s (.inl j)) /
    (∑ k ∈ s.S, p.HrHr i k * delta p inv s (.inr k) - p.c i + ∑ j, p.E j i * delta p inv s (.inl j) + tol.eps)
  if tooLarge tol.add cur M then 0 else M

open Classical in
/-- the candidates of `compute_next_removal` (ot/regpath.py 401-403).  Indices outside the active set count as `0` here; the result is used only if it exceeds a number that is at least `0`. -/
noncomputable def nextRemoval (tol : Tol) (cur : Option ℝ) (s : State X J) : X → ℝ := fun i =>
  if i ∈ s.S then
    let r := phi p inv s (.inr i) / (delta p inv s (.inr i) - tol.eps)
    if tooLarge' tol.rem cur r then 0 else r
  else 0

open Classical in
/-- one iteration (ot/regpath.py 778-819): the new state, `gamma` and `sol`; `arg` is `np.argmax` -/
noncomputable def step (tol : Tol) (arg : (X → ℝ) → X) (cur : Option ℝ) (s : State X J) : State X J × ℝ × (X → ℝ) :=
  let ik := arg (nextGamma p inv tol cur s)
  let ip := arg (nextRemoval p inv tol cur s)
  if nextRemoval p inv tol cur s ip > nextGamma p inv tol cur s ik then
    ({ S := s.S.erase ip, B := inverse p inv s, ev := .pop ip }, nextRemoval p inv tol cur s ip, fun i => phi p inv s (.inr i) - nextRemoval p inv tol cur s ip * delta p inv s (.inr i))
  else
    ({ S := insert ik s.S, B := inverse p inv s, ev := .add ik }, nextGamma p inv tol cur s ik, fun i => phi p inv s (.inr i) - nextGamma p inv tol cur s ik * delta p inv s (.inr i))

open Classical in
/-- `while n_iter < itmax and current_gamma > reg` (ot/regpath.py 777): `k` iterations are left; `out` are the pairs of `gamma_list` and `t_list`, newest first, and `current_gamma` is the newest `gamma`, or infinite -/
noncomputable def loop (tol : Tol) (arg : (X → ℝ) → X) (reg : ℝ) : ℕ → State X J → List (ℝ × (X → ℝ)) → List (ℝ × (X → ℝ))
  | 0, _, out => out
  | k + 1, s, [] => loop tol arg reg k (step p inv tol arg none s).1 [(step p inv tol arg none s).2]
  | k + 1, s, (g, t) :: out => if g > reg then loop tol arg reg k (step p inv tol arg (some g) s).1 ((step p inv tol arg (some g) s).2 :: (g, t) :: out) else (g, t) :: out

/-- the correction of the last solution (ot/regpath.py 825-833); on empty lists the code raises an `IndexError` -/
noncomputable def finish (reg : ℝ) : List (ℝ × (X → ℝ)) → Option (List (ℝ × (X → ℝ)))
  | (g1, t1) :: (g0, t0) :: rest => some ((reg, fun i => t0 i + (t1 i - t0 i) * (reg - g0) / (g1 - g0)) :: (g0, t0) :: rest)
  | [(_, t)] => some [(reg, t)]
  | [] => none

/-- the active set before the loop (ot/regpath.py 767-769): one index per column; `argmin` is `np.argmin` -/
def startSet {I J : Type*} [Fintype J] [DecidableEq I] [DecidableEq J] (argmin : (I → ℝ) → I) (C : I → J → ℝ) : Finset (I × J) := univ.image fun j => (argmin fun i => C i j, j)

/-- `semi_relaxed_path` (ot/regpath.py 684-835): the pairs of `gamma_list` and `t_list`, newest first; the returned `t` is the first `t`; `none` is an `IndexError`.  The loop runs at most `itmax - 1` times. -/
noncomputable def semiPath {I J : Type*} [Fintype I] [Fintype J] [DecidableEq I] [DecidableEq J] (inv : Finset (J ⊕ I × J) → (J ⊕ I × J → J ⊕ I × J → ℝ) → (J ⊕ I × J → J ⊕ I × J → ℝ)) (argmin : (I → ℝ) → I) (tol : Tol)
    (arg : (I × J → ℝ) → I × J) (a : I → ℝ) (b : J → ℝ) (C : I → J → ℝ) (reg : ℝ) (itmax : ℕ) : Option (List (ℝ × (I × J → ℝ))) :=
  finish reg (loop (recastSemi a b C) inv tol arg reg (itmax - 1) { S := startSet argmin C, B := fun _ _ => 0, ev := .first } [])

end POT.SemiPath
