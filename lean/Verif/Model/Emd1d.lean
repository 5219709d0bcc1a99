import Mathlib.Algebra.Order.Field.Basic
import Mathlib.Data.Fintype.BigOperators
import Mathlib.Data.List.Sort
import Mathlib.Analysis.SpecialFunctions.Pow.Real

/-!
# Model of the one-dimensional exact solver

`ot/lp/emd_wrap.pyx` (`emd_1d_sorted`) and `ot/lp/solver_1d.py` (`emd_1d`, `emd2_1d`, `quantile_function`,
`wasserstein_1d`).
-/

namespace POT.Emd1d

/-- The arithmetic the Cython loop performs.  Kept abstract so that the same loop can be run with exact field
arithmetic (`Arith.exact`) and with operations about which nothing is assumed (rounded doubles, NaN). -/
structure Arith (R : Type*) where
  /-- `w_i < w_j` -/
  lt : R → R → Bool
  /-- `w_j -= w_i` -/
  sub : R → R → R
  /-- `cost += ...` -/
  add : R → R → R
  /-- `m_ij * w_i` -/
  mul : R → R → R

/-- Exact arithmetic in a linearly ordered field. -/
def Arith.exact (R : Type*) [Field R] [LinearOrder R] : Arith R where
  lt x y := decide (x < y)
  sub x y := x - y
  add x y := x + y
  mul x y := x * y

/-- Memory faults the C code could commit (bounds checking is disabled there); modelled as values. -/
inductive Err
  /-- `G[cur_idx] = ...` with `cur_idx ≥ n + m - 1` -/
  | writeOutOfBounds
  /-- `u_weights[i]`, `u[i]` with `i ≥ n` or `v_weights[j]`, `v[j]` with `j ≥ m` -/
  | readOutOfBounds
  deriving DecidableEq, Repr

/-- One entry of the output: `(G[k], (indices[k,0], indices[k,1]))`. -/
abbrev Entry (R : Type*) := R × ℕ × ℕ

/-- Loop state of `emd_1d_sorted` (ot/lp/emd_wrap.pyx 177-193).  `out` is the filled prefix of `G` and `indices`;
the code's `cur_idx` is `out.length` at the head of the loop. -/
structure State (R : Type*) where
  i : ℕ
  j : ℕ
  wi : R
  wj : R
  out : List (Entry R)
  cost : R

/-- Outcome of one turn of the `while True` loop. -/
inductive Outcome (R : Type*)
  | next (s : State R)
  | done (out : List (Entry R)) (cost : R)
  | fault (e : Err)

variable {R : Type*}

/-- One turn of the loop, ot/lp/emd_wrap.pyx 194-226.  `m_ij` is the cost of the pair `(i, j)` (the
metric dispatch 195-204 is `metricCost` below); array reads and the two writes are bounds-checked here and
reported as `fault`. -/
def step (A : Arith R) (n m : ℕ) (uw vw : ℕ → R) (M : ℕ → ℕ → R) (s : State R) : Outcome R :=
  if n ≤ s.i ∨ m ≤ s.j then .fault .readOutOfBounds          -- u[i], v[j], line 196
  else if n + m - 1 ≤ s.out.length then .fault .writeOutOfBounds  -- G[cur_idx], lines 207 / 217
  else if A.lt s.wi s.wj ∨ s.j = m - 1 then                    -- line 205
    let cost := A.add s.cost (A.mul (M s.i s.j) s.wi)         -- 206
    let out := s.out ++ [(s.wi, s.i, s.j)]                    -- 207-209
    let i := s.i + 1                                            -- 210
    if i = n then .done out cost                                -- 211-212
    else if n ≤ i then .fault .readOutOfBounds
    else .next { i := i, j := s.j, wi := uw i, wj := A.sub s.wj s.wi, out := out, cost := cost } -- 213-214
  else
    let cost := A.add s.cost (A.mul (M s.i s.j) s.wj)         -- 216
    let out := s.out ++ [(s.wj, s.i, s.j)]                    -- 217-219
    let j := s.j + 1                                            -- 220
    if j = m then .done out cost                                -- 221-222
    else if m ≤ j then .fault .readOutOfBounds
    else .next { i := s.i, j := j, wi := A.sub s.wi s.wj, wj := vw j, out := out, cost := cost } -- 223-224

/-- `fuel` turns of the loop.  `none`: still running. -/
def run (A : Arith R) (n m : ℕ) (uw vw : ℕ → R) (M : ℕ → ℕ → R) :
    ℕ → State R → Option (Except Err (List (Entry R) × R))
  | 0, _ => none
  | fuel + 1, s =>
    match step A n m uw vw M s with
    | .next s' => run A n m uw vw M fuel s'
    | .done out cost => some (.ok (out, cost))
    | .fault e => some (.error e)

/-- `emd_1d_sorted` (ot/lp/emd_wrap.pyx 140-227).  `uw`, `vw` are only read below `n`, `m` (see `step`);
`zero` is the initial cost `0.`. -/
def emd1dSorted (A : Arith R) (zero : R) (n m : ℕ) (uw vw : ℕ → R) (M : ℕ → ℕ → R) (fuel : ℕ) :
    Option (Except Err (List (Entry R) × R)) :=
  if n = 0 ∨ m = 0 then some (.error .readOutOfBounds)  -- u_weights[0], v_weights[0], lines 183, 185
  else run A n m uw vw M fuel
    { i := 0, j := 0, wi := uw 0, wj := vw 0, out := [], cost := zero }

/-- The dense plan of a coordinate list (`nx.coo_matrix` + `nx.todense`, ot/lp/solver_1d.py 350-357): entries with
equal coordinates are added. -/
def dense [AddCommMonoid R] (out : List (Entry R)) (i j : ℕ) : R :=
  ((out.filter fun e => e.2.1 = i ∧ e.2.2 = j).map fun e => e.1).sum

/-- The four accepted metrics, ot/lp/emd_wrap.pyx 195-200. -/
inductive Metric
  | sqeuclidean | cityblock | euclidean | minkowski
  deriving DecidableEq, Repr

/-- `m_ij` for positions `x`, `y`, ot/lp/emd_wrap.pyx 195-200. -/
noncomputable def metricCost (μ : Metric) (p : ℝ) (x y : ℝ) : ℝ :=
  match μ with
  | .sqeuclidean => (x - y) * (x - y)
  | .cityblock => |x - y|
  | .euclidean => |x - y|
  | .minkowski => |x - y| ^ p

/-- Extension of a finite vector to all indices; out-of-range values are never read (`step` checks). -/
def pad {n : ℕ} (f : Fin n → ℝ) (i : ℕ) : ℝ := if h : i < n then f ⟨i, h⟩ else 0

/-- `emd_1d` (ot/lp/solver_1d.py 202-368) for one-dimensional inputs given as vectors.
`permA`, `permB` are the results of `argsort` (335-336; the only thing used about them is that
they are permutations sorting the positions).  `b` is rescaled to the mass of `a` (331).  The result is the dense plan in the original
order (350-357) and the cost. -/
noncomputable def emd1d {n m : ℕ} (μ : Metric) (p : ℝ) (xa : Fin n → ℝ) (xb : Fin m → ℝ)
    (a : Fin n → ℝ) (b : Fin m → ℝ) (permA : Equiv.Perm (Fin n)) (permB : Equiv.Perm (Fin m)) :
    Option (Except Err ((Fin n → Fin m → ℝ) × ℝ)) :=
  let b' : Fin m → ℝ := fun j => b j * (∑ i, a i) / (∑ j, b j)
  let xs : Fin n → ℝ := fun i => xa (permA i)
  let ys : Fin m → ℝ := fun j => xb (permB j)
  (emd1dSorted (Arith.exact ℝ) 0 n m (pad fun i => a (permA i)) (pad fun j => b' (permB j))
      (fun i j => metricCost μ p (pad xs i) (pad ys j)) (n + m - 1)).map fun r =>
    r.map fun oc => (fun i j => dense oc.1 (permA.symm i) (permB.symm j), oc.2)

/-- `quantile_function` (ot/lp/solver_1d.py 23-58) with `return_index=True`, one quantile: `searchsorted` (left) is the number of cumulative weights
below `q`; the index is clipped to `n - 1`. -/
noncomputable def quantileIdx (q : ℝ) (cws : List ℝ) (n : ℕ) : ℕ :=
  min (cws.countP (· < q)) (n - 1)

/-- Cumulative sums `nx.cumsum`. -/
def cumsum (w : ℕ → ℝ) (n : ℕ) : List ℝ :=
  (List.range n).map fun i => ∑ k ∈ Finset.range (i + 1), w k

/-- `wasserstein_1d` on sorted inputs (ot/lp/solver_1d.py 153-199, `require_sort` already done): the merged grid
`qs`, its increments `delta`, the index of the quantile on both sides; returns the coordinate list of the plan (176-187) and the
value (190-193).  `M i j` stands for `|u_i - v_j|^p`. -/
noncomputable def wasserstein1dSorted (n m : ℕ) (uw vw : ℕ → ℝ) (M : ℕ → ℕ → ℝ) :
    List (Entry ℝ) × ℝ :=
  let ucum := cumsum uw n
  let vcum := cumsum vw m
  let qs := (ucum ++ vcum).mergeSort (· ≤ ·)
  let delta := List.zipWith (fun q q' => q' - q) (0 :: qs) qs
  let plan := List.zipWith (fun d q => (d, quantileIdx q ucum n, quantileIdx q vcum m)) delta qs
  (plan, (plan.map fun e => e.1 * M e.2.1 e.2.2).sum)

/-- `wasserstein_1d` (ot/lp/solver_1d.py 61-199) with `return_plans`, one-dimensional inputs.  `permA`, `permB` are the results
of `argsort` (143-147; identity when `require_sort=False`); plan entries are written at the
original positions (168-187).  Unlike `emd_1d` the weights are not rescaled. -/
noncomputable def wasserstein1d {n m : ℕ} (p : ℝ) (xa : Fin n → ℝ) (xb : Fin m → ℝ)
    (a : Fin n → ℝ) (b : Fin m → ℝ) (permA : Equiv.Perm (Fin n)) (permB : Equiv.Perm (Fin m)) :
    (Fin n → Fin m → ℝ) × ℝ :=
  let r := wasserstein1dSorted n m (pad fun i => a (permA i)) (pad fun j => b (permB j))
    (fun i j => |pad (fun i => xa (permA i)) i - pad (fun j => xb (permB j)) j| ^ p)
  (fun i j => dense r.1 (permA.symm i) (permB.symm j), r.2)

end POT.Emd1d
