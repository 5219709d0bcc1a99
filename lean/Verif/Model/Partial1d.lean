import Mathlib.Algebra.Order.Field.Basic
import Mathlib.Algebra.BigOperators.Group.List.Basic
import Mathlib.Data.List.Sort
import Mathlib.Order.Interval.Finset.Nat

/-!
# Model of `partial_wasserstein_1d` (`ot/partial/partial_cython.pyx`, `ot/partial/partial_solvers.py` 1533-1624)

Arrays are functions on ℕ (only positions below the array length are meaningful); the entry `-1` that means "absent" is `none`. `np.argsort` is an arbitrary permutation.
The binary heap of `heapq` is modelled by a sorted list of tuples: `heappush` inserts in lexicographic order, `heappop` takes the first element.
-/

set_option linter.unusedSectionVars false

namespace POT.Partial1d

variable {R : Type*} [Field R] [LinearOrder R]

/-- loop of `arg_insert_in_sorted` (ot/partial/partial_cython.pyx 162-176); the fuel is the number of remaining entries `n_x + n_y - idx_x - idx_y` -/
def merge (x y : ℕ → R) (nx ny : ℕ) : ℕ → ℕ → ℕ → List ℕ
  | 0, _, _ => []
  | k + 1, ix, iy =>
    if ix = nx then (nx + iy) :: merge x y nx ny k ix (iy + 1)
    else if iy = ny then ix :: merge x y nx ny k (ix + 1) iy
    else if x ix ≤ y iy then ix :: merge x y nx ny k (ix + 1) iy
    else (nx + iy) :: merge x y nx ny k ix (iy + 1)

/-- `arg_insert_in_sorted(x, y)` (ot/partial/partial_cython.pyx 146-176) -/
def argInsert (x y : ℕ → R) (nx ny : ℕ) : List ℕ := merge x y nx ny (nx + ny) 0 0

/-- The arrays built from the merged order (ot/partial/partial_cython.pyx 193-194, 464, 383-384): `isY` is `sorted_distrib_indicator == 1`, `rank` is `ranks_xy_ordered`,
`z` is `sorted_z`. -/
structure Seq (R : Type*) where
  N : ℕ
  isY : ℕ → Bool
  rank : ℕ → ℕ
  z : ℕ → R

/-- `preprocess` and the gathering of `sorted_z` and `ranks_xy` (ot/partial/partial_cython.pyx 181-195, 462-464, 383-384), for sorted `x`, `y` -/
def mkSeq (x y : ℕ → R) (nx ny : ℕ) : Seq R :=
  let order := argInsert x y nx ny
  { N := nx + ny
    isY := fun p => decide (nx ≤ order.getD p 0)
    rank := fun p => if nx ≤ order.getD p 0 then order.getD p 0 - nx else order.getD p 0
    z := fun p => if nx ≤ order.getD p 0 then y (order.getD p 0 - nx) else x (order.getD p 0) }

/-- `insert_constant_values_{float,int}(arr, distrib_index, sorted_distrib_indicator)` (ot/partial/partial_cython.pyx 317-355) -/
def insertConst {T : Type*} [Zero T] (arr : ℕ → T) (d : Bool) (isY : ℕ → Bool) : ℕ → T
  | 0 => if isY 0 ≠ d then 0 else arr 0
  | p + 1 => if isY (p + 1) ≠ d then insertConst arr d isY p else arr (p + 1)

/-- `np.cumsum` -/
def cumsum (x : ℕ → R) (k : ℕ) : R := ((List.range (k + 1)).map x).sum

/-- `compute_cumulative_sum_differences` (ot/partial/partial_cython.pyx 282-313) -/
def diffCumSum (x y : ℕ → R) (S : Seq R) (p : ℕ) : R :=
  let ordered := fun p => if S.isY p then cumsum y (S.rank p) else cumsum x (S.rank p)       -- 305-308
  insertConst ordered false S.isY p - insertConst ordered true S.isY p                      -- 310-313

/-- `compute_rank_differences` (ot/partial/partial_cython.pyx 359-398) -/
def diffRanks (S : Seq R) (p : ℕ) : ℤ :=
  insertConst (fun p => if S.isY p then 0 else (S.rank p : ℤ) + 1) false S.isY p            -- 386-389
    - insertConst (fun p => if S.isY p then (S.rank p : ℤ) + 1 else 0) true S.isY p         -- 391-396

/-- `get_cost_w1` (ot/partial/partial_cython.pyx 72-77) -/
def costW1 (diff : ℕ → R) (s e : ℕ) : R := if s = 0 then diff e else diff e - diff (s - 1)

/-- positions `s..e` -/
def interval (s e : ℕ) : List ℕ := List.range' s (e + 1 - s)

/-- `get_cost_wp` (ot/partial/partial_cython.pyx 81-87) -/
def costWp (S : Seq R) (p s e : ℕ) : R :=
  (List.zipWith (fun a b => |S.z a - S.z b| ^ p) ((interval s e).filter fun q => !S.isY q) ((interval s e).filter fun q => S.isY q)).sum

/-- a heap entry `(cost, i, j)` -/
structure Cand (R : Type*) where
  c : R
  i : ℕ
  j : ℕ

/-- order of Python tuples -/
def Cand.le (u v : Cand R) : Prop := u.c < v.c ∨ (u.c = v.c ∧ (u.i < v.i ∨ (u.i = v.i ∧ u.j ≤ v.j)))

instance : DecidableRel (Cand.le (R := R)) := fun u v => by unfold Cand.le; infer_instance

/-- `heapq.heappush` -/
def push (u : Cand R) (h : List (Cand R)) : List (Cand R) := h.orderedInsert Cand.le u

/-- state of the loop of `compute_costs` (ot/partial/partial_cython.pyx 106-110) -/
structure CostState (R : Type*) where
  heap : List (Cand R)
  minIdx : ℕ → Option ℕ
  minCost : ℕ → R
  lastX : ℤ → Option ℕ
  lastY : ℤ → Option ℕ

/-- index into an array of length `L` with wraparound of negative indices (line 91) -/
def wrap (L : ℕ) (r : ℤ) : ℤ := if r < 0 then r + L else r

/-- one turn of the loop of `compute_costs` (ot/partial/partial_cython.pyx 121-141) -/
def costTurn (S : Seq R) (diff : ℕ → R) (ranks : ℕ → ℤ) (p : ℕ) (st : CostState R) (e : ℕ) : CostState R :=
  let r := ranks e                                                                          -- 121
  let start := if S.isY e then st.lastX (wrap (2 * S.N) (r + 1)) else st.lastY (wrap (2 * S.N) (r - 1))   -- 122-131
  let st' : CostState R := if S.isY e then { st with lastY := Function.update st.lastY (wrap (2 * S.N) r) (some e) }     -- 132
    else { st with lastX := Function.update st.lastX (wrap (2 * S.N) r) (some e) }          -- 127
  match start with
  | none => st'
  | some s =>
    let cost := if p = 1 then costW1 diff s e else costWp S p s e                           -- 134-137
    { st' with
      heap := if e = s + 1 then push ⟨|cost|, s, e⟩ st'.heap else st'.heap                  -- 138-139
      minIdx := Function.update st'.minIdx e (some s)                                       -- 140
      minCost := Function.update st'.minCost e |cost| }                                     -- 141

/-- the loop of `compute_costs` (ot/partial/partial_cython.pyx 106-141) over the positions `0..k-1` -/
def costLoop (S : Seq R) (diff : ℕ → R) (ranks : ℕ → ℤ) (p : ℕ) : ℕ → CostState R
  | 0 => { heap := [], minIdx := fun _ => none, minCost := fun _ => -1, lastX := fun _ => none, lastY := fun _ => none }
  | k + 1 => costTurn S diff ranks p (costLoop S diff ranks p k) k

/-- `precompute_chain_costs_cumsum` (ot/partial/partial_cython.pyx 48-68) over the positions `0..k-1` -/
def chainCumsum (minIdx : ℕ → Option ℕ) (minCost : ℕ → R) : ℕ → ℕ → R
  | 0 => fun _ => 0
  | k + 1 =>
    let D := chainCumsum minIdx minCost k
    match minIdx k with
    | none => D
    | some s => Function.update D k (if s = 0 then minCost k else D (s - 1) + minCost k)

/-- `compute_cost_for_chain` (ot/partial/partial_cython.pyx 37-44) -/
def chainCost (D : ℕ → R) (s e : ℕ) : R := if s = 0 then D e else D e - D (s - 1)

/-- `chains_starting_at`, `chains_ending_at` -/
structure Chains where
  st : ℕ → Option ℕ
  en : ℕ → Option ℕ

/-- `insert_new_chain` (ot/partial/partial_cython.pyx 14-33); `n` is the length of the arrays -/
def insertChain (n : ℕ) (C : Chains) (i j : ℕ) : Chains × ℕ × ℕ :=
  let i' := if 0 < i ∧ i - 1 < n then (C.en (i - 1)).getD i else i                          -- 21-22
  let j' := if j + 1 < n then (C.st (j + 1)).getD j else j                                  -- 23-24
  let C1 : Chains := if i' < n then                                                         -- 25
      { st := Function.update C.st i' (some j')                                             -- 28
        en := match C.st i' with | some e => Function.update C.en e none | none => C.en }   -- 26-27
    else C
  let C2 : Chains := if j' < n then                                                         -- 29
      { st := match C1.en j' with | some s => Function.update C1.st s none | none => C1.st  -- 30-31
        en := Function.update C1.en j' (some i') }                                          -- 32
    else C1
  (C2, i', j')

/-- variables of `generate_solution_using_marginal_costs` (ot/partial/partial_cython.pyx 216-225); `pairs` and `marg` are the filled parts of `active_set_inserts` and
`arr_marginal_costs`, newest first -/
structure Gen (R : Type*) where
  active : ℕ → Bool
  chains : Chains
  heap : List (Cand R)
  pairs : List (ℕ × ℕ)
  marg : List R

/-- result of the loop -/
inductive GenRes (R : Type*) where
  | valueError
  | outOfFuel
  | done (g : Gen R)

/-- the insertion of the popped candidate `(c, i, j)` and the update of the candidates (ot/partial/partial_cython.pyx 232-258); `none` is the `ValueError` of line 243 -/
def insertCand (S : Seq R) (D : ℕ → R) (g : Gen R) (u : Cand R) (h : List (Cand R)) : Option (Gen R) :=
  let ins : Option (Chains × ℕ × ℕ) :=
    if u.j = u.i + 1 then some (insertChain S.N g.chains u.i u.j)                           -- 232-233
    else if g.chains.en (u.j - 1) ≠ none then                                               -- 235
      let C : Chains := { st := if u.i + 1 < S.N then Function.update g.chains.st (u.i + 1) none else g.chains.st     -- 236-237
                          en := if u.j - 1 < S.N then Function.update g.chains.en (u.j - 1) none else g.chains.en }   -- 238-239
      some (insertChain S.N C u.i u.j)                                                      -- 240
    else none                                                                               -- 243
  match ins with
  | none => none
  | some (C, s, e) =>
    let h' := if s = 0 ∨ e = S.N - 1 then h                                                 -- 252-253
      else if S.isY (s - 1) ≠ S.isY (e + 1) then                                            -- 254
        push ⟨chainCost D (s - 1) (e + 1) - chainCost D s e, s - 1, e + 1⟩ h                -- 256-258
      else h
    some { active := Function.update (Function.update g.active u.i true) u.j true           -- 247-248
           chains := C, heap := h', pairs := (u.i, u.j) :: g.pairs, marg := u.c :: g.marg } -- 244-246

/-- the loop of `generate_solution_using_marginal_costs` (ot/partial/partial_cython.pyx 227-258) -/
def genLoop (S : Seq R) (D : ℕ → R) (maxIter : ℕ) : ℕ → Gen R → GenRes R
  | 0, _ => .outOfFuel
  | k + 1, g =>
    if g.pairs.length < maxIter then
      match g.heap with
      | [] => .done g
      | u :: h =>
        if g.active u.i || g.active u.j then genLoop S D maxIter k { g with heap := h }     -- 229-230
        else match insertCand S D g u h with
          | none => .valueError
          | some g' => genLoop S D maxIter k g'
    else .done g

/-- one row of the index arrays (ot/partial/partial_cython.pyx 260-273): `-1` where nothing is written. Position 0 is used for rows that were never filled. -/
def rowOut (S : Seq R) (ab : ℕ × ℕ) : ℤ × ℤ :=
  let v : ℤ × ℤ := if S.isY ab.1 then (-1, S.rank ab.1) else (S.rank ab.1, -1)
  if S.isY ab.2 then (v.1, S.rank ab.2) else (S.rank ab.2, v.2)

/-- fancy indexing `arr[idx]` of an array of length `n` with wraparound of negative indices -/
def gather (arr : ℕ → ℕ) (n : ℕ) (r : ℤ) : ℕ := arr (if r < 0 then (r + n).toNat else r.toNat)

/-- result of the call -/
inductive Res (R : Type*) where
  | valueError
  | outOfFuel
  | done (indX indY : List ℕ) (marg : List R)

/-- `partial_wasserstein_1d(x, y, maxIter, p)` (ot/partial/partial_solvers.py 1604-1624, ot/partial/partial_cython.pyx 402-486); `sx`, `sy` are the results of `np.argsort` (lines 190-191). -/
def partial1d (x y : ℕ → R) (nx ny : ℕ) (sx sy : ℕ → ℕ) (maxIter : Option ℕ) (p : ℕ) : Res R :=
  let mi := maxIter.getD (min nx ny)
  let xs := fun k => x (sx k)
  let ys := fun k => y (sy k)
  let S := mkSeq xs ys nx ny
  let st := costLoop S (diffCumSum xs ys S) (diffRanks S) p S.N
  let D := chainCumsum st.minIdx st.minCost S.N
  let g0 : Gen R := { active := fun _ => false, chains := ⟨fun _ => none, fun _ => none⟩, heap := st.heap, pairs := [], marg := [] }
  match genLoop S D mi (st.heap.length + 2 * mi + 1) g0 with
  | .valueError => .valueError
  | .outOfFuel => .outOfFuel
  | .done g =>
    let rows := g.pairs.reverse ++ List.replicate (mi - g.pairs.length) (0, 0)
    let out := rows.map (rowOut S)
    .done (out.map fun r => gather sx nx r.1) (out.map fun r => gather sy ny r.2) (g.marg.reverse ++ List.replicate (mi - g.pairs.length) 0)

end POT.Partial1d
