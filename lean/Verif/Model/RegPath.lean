import Verif.Spec.RegPath
import Mathlib.Data.Fintype.Sum
import Mathlib.Data.Fintype.Prod

/-!
# Model of the regularisation path of quadratically penalised unbalanced transport (`ot/regpath.py`)

Real arithmetic is exact. Vectors and matrices over the active set are indexed by the active indices themselves, not by their positions in the list `active_index` (so `np.delete` and the appended row or column need
no renumbering); entries outside the active set are not used. A flattened index `i * m + j` is the pair `(i, j)`. The constants `1e-16`, `1e-10`, `1e-8` are parameters.
-/

set_option linter.unusedSectionVars false

namespace POT.RegPath

open Finset

variable {X R : Type*} [Fintype X] [DecidableEq X] [Fintype R]

/-- `H`, `y`, `c` of the penalised regression problem. -/
structure Lasso (X R : Type*) where
  H : R → X → ℝ
  y : R → ℝ
  c : X → ℝ

/-- `recast_ot_as_lasso` (ot/regpath.py 99-113) -/
def recast {I J : Type*} [DecidableEq I] [DecidableEq J] (a : I → ℝ) (b : J → ℝ) (C : I → J → ℝ) : Lasso (I × J) (I ⊕ J) where
  H := fun r x => match r with
    | .inl i => if x.1 = i then 1 else 0
    | .inr j => if x.2 = j then 1 else 0
  y := Sum.elim a b
  c := fun x => C x.1 x.2

/-- `HtH = H.T.dot(H)` (ot/regpath.py 618) -/
def Lasso.HtH (p : Lasso X R) (i j : X) : ℝ := ∑ r, p.H r i * p.H r j

/-- `Hty = H.T.dot(y)` (ot/regpath.py 619) -/
def Lasso.Hty (p : Lasso X R) (i : X) : ℝ := ∑ r, p.H r i * p.y r

/-- `1e-16`, `1e-10` (additions) and `1e-8` (removals) in ot/regpath.py 272-276, 401-402. -/
structure Tol where
  eps : ℝ
  add : ℝ
  rem : ℝ

/-- What happened to the active set at the end of the previous iteration; it decides how `complement_schur` is called (`add_col`, `id_pop`). -/
inductive Event (X : Type*) where
  | first (i : X)
  | add (i : X)
  | pop (i : X)

/-- The variables of the loop: active set, inverse matrix before its update, last event, and the path, newest pair `(gamma, t)` first. -/
structure State (X : Type*) where
  S : Finset X
  B : X → X → ℝ
  ev : Event X
  γ : ℝ
  t : X → ℝ
  past : List (ℝ × (X → ℝ))

/-- `complement_schur` with a column `b` to append for the index `i` (ot/regpath.py 486-497); `S` is the active set without `i` -/
noncomputable def schurAdd (B : X → X → ℝ) (S : Finset X) (i : X) (b : X → ℝ) (d : ℝ) : X → X → ℝ :=
  let x := fun j => ∑ k ∈ S, B j k * b k
  let s := d - ∑ k ∈ S, b k * x k
  fun j k => if j = i then (if k = i then 1 / s else -x k / s) else if k = i then -x j / s else B j k + x j * x k / s

/-- `complement_schur` with the index `i` to delete (ot/regpath.py 475-481) -/
noncomputable def schurPop (B : X → X → ℝ) (i : X) : X → X → ℝ := fun j k => B j k - B j i * B i k / B i i

/-- `H_inv = complement_schur(H_inv, add_col, 2.0, id_pop)` (ot/regpath.py 632, 483-485, 661) -/
noncomputable def inverse (p : Lasso X R) (s : State X) : X → X → ℝ :=
  match s.ev with
  | .first _ => fun _ _ => 1 / 2
  | .add i => schurAdd s.B (s.S.erase i) i (fun k => p.HtH k i) 2
  | .pop i => schurPop s.B i

/-- `phi = H_inv.dot(Hty[active_index])` (ot/regpath.py 637) -/
noncomputable def phi (p : Lasso X R) (s : State X) : X → ℝ := fun i => if i ∈ s.S then ∑ j ∈ s.S, inverse p s i j * p.Hty j else 0

/-- `delta = H_inv.dot(c[active_index])` (ot/regpath.py 638) -/
noncomputable def delta (p : Lasso X R) (s : State X) : X → ℝ := fun i => if i ∈ s.S then ∑ j ∈ s.S, inverse p s i j * p.c j else 0

open Classical in
/-- the candidates of `ot_next_gamma` (ot/regpath.py 272-276) -/
noncomputable def nextGamma (p : Lasso X R) (tol : Tol) (s : State X) : X → ℝ := fun i =>
  if i ∈ s.S then 0 else
  let M := (∑ j ∈ s.S, p.HtH i j * phi p s j - p.Hty i) / (∑ j ∈ s.S, p.HtH i j * delta p s j - p.c i + tol.eps)
  if M > s.γ - tol.add * s.γ then 0 else M

open Classical in
/-- the candidates of `compute_next_removal` (ot/regpath.py 401-403).  Indices outside the active set count as `0` here; the result is used only if it exceeds a number that is at least `0`. -/
noncomputable def nextRemoval (p : Lasso X R) (tol : Tol) (s : State X) : X → ℝ := fun i =>
  if i ∈ s.S then
    let r := phi p s i / (delta p s i - tol.eps)
    if r ≥ (1 - tol.rem) * s.γ then 0 else r
  else 0

open Classical in
/-- one iteration (ot/regpath.py 632-665); `arg` is `np.argmax` -/
noncomputable def step (p : Lasso X R) (tol : Tol) (arg : (X → ℝ) → X) (s : State X) : State X :=
  let ik := arg (nextGamma p tol s)
  let ip := arg (nextRemoval p tol s)
  if nextRemoval p tol s ip > nextGamma p tol s ik then
    { S := s.S.erase ip, B := inverse p s, ev := .pop ip, γ := nextRemoval p tol s ip, t := fun i => phi p s i - nextRemoval p tol s ip * delta p s i, past := (s.γ, s.t) :: s.past }
  else
    { S := insert ik s.S, B := inverse p s, ev := .add ik, γ := nextGamma p tol s ik, t := fun i => phi p s i - nextGamma p tol s ik * delta p s i, past := (s.γ, s.t) :: s.past }

/-- before the loop (ot/regpath.py 623-629) -/
noncomputable def start (p : Lasso X R) (arg : (X → ℝ) → X) : State X :=
  let M0 := fun i => p.Hty i / p.c i
  { S := {arg M0}, B := fun _ _ => 0, ev := .first (arg M0), γ := M0 (arg M0), t := fun _ => 0, past := [] }

open Classical in
/-- `while n_iter < itmax and gamma_list[-1] > reg` (ot/regpath.py 631); `k` iterations are left -/
noncomputable def loop (p : Lasso X R) (tol : Tol) (arg : (X → ℝ) → X) (reg : ℝ) : ℕ → State X → State X
  | 0, s => s
  | k + 1, s => if s.γ > reg then loop p tol arg reg k (step p tol arg s) else s

/-- the correction of the last solution (ot/regpath.py 671-679) -/
noncomputable def finish (reg : ℝ) (s : State X) : List (ℝ × (X → ℝ)) :=
  match s.past with
  | (g0, t0) :: rest => (reg, fun i => t0 i + (s.t i - t0 i) * (reg - g0) / (s.γ - g0)) :: (g0, t0) :: rest
  | [] => [(reg, s.t)]

/-- `fully_relaxed_path` (ot/regpath.py 545-681): the pairs of `gamma_list` and `t_list`, newest first; the returned `t` is the first `t`.  The loop runs at most `itmax - 1` times. -/
noncomputable def path (p : Lasso X R) (tol : Tol) (arg : (X → ℝ) → X) (reg : ℝ) (itmax : ℕ) : List (ℝ × (X → ℝ)) := finish reg (loop p tol arg reg (itmax - 1) (start p arg))

open Classical in
/-- the search of `compute_transport_plan` (ot/regpath.py 979-984) on the list with newest first: the newest pair with `gamma <= gamma_list[idx]`, and the pair after it in time -/
noncomputable def seek (γ : ℝ) : ℝ × (X → ℝ) → List (ℝ × (X → ℝ)) → X → ℝ
  | later, [] => later.2
  | later, (g, t) :: rest => if γ ≤ g then fun i => t i + (later.2 i - t i) * (γ - g) / (later.1 - g) else seek γ (g, t) rest

open Classical in
/-- `compute_transport_plan` (ot/regpath.py 974-985), for a list with newest first -/
noncomputable def planAt (γ : ℝ) : List (ℝ × (X → ℝ)) → X → ℝ
  | [] => fun _ => 0
  | last :: rest =>
    if γ ≥ ((last :: rest).getLast (List.cons_ne_nil _ _)).1 then ((last :: rest).getLast (List.cons_ne_nil _ _)).2
    else if γ ≤ last.1 then last.2
    else seek γ last rest

end POT.RegPath
