import Verif.Model.Simplex
import Mathlib.Data.Fin.VecNotation
import Mathlib.Data.List.FinRange
import Mathlib.Algebra.Order.Group.Abs

/-! # A whole run of `ot/lp/network_simplex_simple.h`

The graph has nodes `Fin n` with `n ≠ 0` (the code refuses a graph without nodes, network_simplex_simple.h:1802) and real arcs `Fin m`, numbered in the order in which the
pivot rule scans them.  The artificial root (`_root = _node_num`) is `none`.  The artificial arc of node `u` (number `_arc_num + u` in
the code) is `Sum.inr u`.

`warmstartInit` is in `Model/WarmStart.lean`.  Not modelled: floating point rounding, the OpenMP variant, and the branches for `_sum_supply ≠ 0`, which are dead
because line 1811 sets `_sum_supply = 0`. -/

namespace POT.Simplex

variable {R : Type*}

/-- node type: real nodes and the root -/
abbrev Node (n : ℕ) := Option (Fin n)
/-- arc type: real arcs and artificial arcs -/
abbrev Arc (n m : ℕ) := Fin m ⊕ Fin n

/-- the data of a problem: graph, costs, supplies and the cost of the artificial arcs (network_simplex_simple.h:1813-1820) -/
structure Problem (n m : ℕ) (R : Type*) where
  src : Fin m → Fin n
  tgt : Fin m → Fin n
  cost : Fin m → R
  supply : Fin n → R
  art : R

section
variable {n m : ℕ} [NeZero n] [Ring R] [LinearOrder R]

/-- `maxRealArcCost`, network_simplex_simple.h:590-605 -/
def maxRealArcCost {m : ℕ} (cost : Fin m → R) : R :=
  (List.finRange m).foldl (fun mx i => if i.val = 0 ∨ mx < cost i then cost i else mx) 0

/-- `ART_COST` for floating point costs, network_simplex_simple.h:1818-1819 -/
def artCost (n : ℕ) {m : ℕ} (cost : Fin m → R) : R := (maxRealArcCost cost + 1) * (n : R)

/-- endpoints and costs after `init`, network_simplex_simple.h:1838-1866 -/
def initNet (P : Problem n m R) : Net (Node n) (Arc n m) R where
  src
    | .inl i => some (P.src i)
    | .inr u => if 0 ≤ P.supply u then some u else none
  tgt
    | .inl i => some (P.tgt i)
    | .inr u => if 0 ≤ P.supply u then none else some u
  cost
    | .inl i => P.cost i
    | .inr u => if 0 ≤ P.supply u then 0 else P.art

/-- arrays after `init`, network_simplex_simple.h:1823-1866 -/
def initState (P : Problem n m R) : State (Node n) (Arc n m) R where
  flow
    | .inl _ => 0
    | .inr u => if 0 ≤ P.supply u then P.supply u else -P.supply u
  state
    | .inl _ => .lower
    | .inr _ => .tree
  pi
    | none => 0
    | some u => if 0 ≤ P.supply u then 0 else P.art
  parent
    | none => none
    | some _ => some none
  pred
    | none => .inr 0
    | some u => .inr u
  forward
    | none => true
    | some u => decide (0 ≤ P.supply u)
  thread
    | none => some 0
    | some u => if h : u.val + 1 < n then some ⟨u.val + 1, h⟩ else none
  revThread
    | none => some ⟨n - 1, Nat.sub_one_lt (NeZero.ne n)⟩
    | some u => if u.val = 0 then none else some ⟨u.val - 1, by omega⟩
  succNum
    | none => n + 1
    | some _ => 1
  lastSucc
    | none => some ⟨n - 1, Nat.sub_one_lt (NeZero.ne n)⟩
    | some u => some u

/-! ### Block search -/

/-- outcome of scanning the arcs: least violation, `in_arc`, and the arc where a block ended successfully -/
structure Search (E R : Type*) where
  min : R
  inArc : Option E
  stop : Option E

/-- The two loops of `findEnteringArc` over the arcs in scanning order, network_simplex_simple.h:796-821.  `scale` is the variable `a`
computed from `in_arc` (`none`: `in_arc` was never assigned). -/
def searchLoop {E : Type*} (viol : E → R) (scale : Option E → R) (eps : R) (bs : ℕ) : List E → R → Option E → ℕ → Search E R
  | [], min, ia, _ => ⟨min, ia, none⟩
  | e :: es, min, ia, cnt =>
    let min' := if viol e < min then viol e else min
    let ia' := if viol e < min then some e else ia
    if cnt - 1 = 0 then
      if min' < -eps * scale ia' then ⟨min', ia', some e⟩ else searchLoop viol scale eps bs es min' ia' bs
    else searchLoop viol scale eps bs es min' ia' (cnt - 1)

/-- what the pivot rule remembers: `_next_arc` and `in_arc` -/
structure Rule (m : ℕ) where
  nextArc : ℕ
  inArc : Option (Fin m)

/-- `findEnteringArc`, network_simplex_simple.h:791-829; `none`: returns false -/
def findEnteringArc (viol : Fin m → R) (scale : Option (Fin m) → R) (eps : R) (bs : ℕ) (r : Rule m) : Option (Rule m) :=
  let s := searchLoop viol scale eps bs ((List.finRange m).drop r.nextArc ++ (List.finRange m).take r.nextArc) 0 r.inArc bs
  match s.stop with
  | some e => some ⟨e.val, s.inArc⟩
  | none => if -eps * scale s.inArc ≤ s.min then none else some ⟨r.nextArc, s.inArc⟩

/-- the variable `a` of `findEnteringArc`, network_simplex_simple.h:804-805; `junk` stands for the value read through an `in_arc` that was
never assigned -/
def searchScale (P : Problem n m R) (junk : R) (s : State (Node n) (Arc n m) R) : Option (Fin m) → R
  | none => |junk|
  | some e =>
    let x := |s.pi (some (P.src e))|
    let y := |s.pi (some (P.tgt e))|
    let a := if y < x then x else y
    if |P.cost e| < a then a else |P.cost e|

/-! ### Running -/

/-- `ProblemType`, network_simplex_simple.h:262-275 -/
inductive Status
  | infeasible | optimal | unbounded | maxIter
  deriving DecidableEq

/-- the loop of `initialPivots`, network_simplex_simple.h:2236-2252.  `arcs` is the `arc_vector` chosen by the heuristics of
lines 2157-2233; the model lets it be any list. -/
def initialPivots (P : Problem n m R) (fuel : ℕ) : List (Fin m) → State (Node n) (Arc n m) R → Option (Outcome (State (Node n) (Arc n m) R))
  | [], s => some (.next s)
  | e :: es, s =>
    if 0 ≤ violation (initNet P) s (.inl e) then initialPivots P fuel es s
    else match pivot (initNet P) fuel s (.inl e) with
      | none => none
      | some .unbounded => some .unbounded
      | some (.next s') => initialPivots P fuel es s'

/-- The main loop, network_simplex_simple.h:2276-2297.  `iters` is `iter_number`; the first argument bounds the number of turns and `none` is returned
when it is exhausted. -/
def mainLoop (P : Problem n m R) (junk eps : R) (bs maxIter fuel : ℕ) : ℕ → ℕ → Rule m → State (Node n) (Arc n m) R →
    Option (Status × State (Node n) (Arc n m) R)
  | 0, _, _, _ => none
  | k + 1, iters, r, s =>
    match findEnteringArc (fun e => violation (initNet P) s (.inl e)) (searchScale P junk s) eps bs r with
    | none => some (.optimal, s)
    | some r' =>
      if 0 < maxIter ∧ maxIter ≤ iters + 1 then some (.maxIter, s)
      else match r'.inArc with
        | none => none
        | some e =>
          match pivot (initNet P) fuel s (.inl e) with
          | none => none
          | some .unbounded => some (.unbounded, s)
          | some (.next s') => mainLoop P junk eps bs maxIter fuel k (iters + 1) r' s'

/-- feasibility check, network_simplex_simple.h:2299-2311 -/
def checkFeasible (feps : R) (s : State (Node n) (Arc n m) R) : Option (Arc n m → R) :=
  if ∃ u : Fin n, s.flow (.inr u) ≠ 0 ∧ feps < |s.flow (.inr u)| then none
  else some fun
    | .inl i => s.flow (.inl i)
    | .inr _ => 0

/-- shift of the potentials, network_simplex_simple.h:2313-2325 -/
def shiftPotentials (pi : Node n → R) : Node n → R :=
  let maxPot := (List.finRange n).foldl (fun mx i => if mx < pi (some i) then pi (some i) else mx) (pi (some 0))
  if 0 < maxPot then fun
    | none => pi none
    | some u => pi (some u) - maxPot
  else pi

/-- what a run returns: the status, the flow on all arcs and the potentials -/
structure Solution (n m : ℕ) (R : Type*) where
  status : Status
  flow : Arc n m → R
  pi : Node n → R

/-- `run` without warm start, network_simplex_simple.h:1162-1173, 1801-1811, 2260-2329.
`eps` is `EPSILON`, `feps` is `_EPSILON`, `bs` the block size, `turns` a bound on the number of turns of the main loop. -/
def run (P : Problem n m R) (junk eps feps : R) (bs maxIter turns : ℕ) (arcs : List (Fin m)) : Option (Solution n m R) :=
  let s0 := initState P
  let fuel := 2 * (n + 1) + 2
  if feps < |(List.finRange n).foldl (fun x u => x + P.supply u) 0| then some ⟨.infeasible, s0.flow, s0.pi⟩
  else match initialPivots P fuel arcs s0 with
  | none => none
  | some .unbounded => some ⟨.unbounded, s0.flow, s0.pi⟩
  | some (.next s1) =>
    match mainLoop P junk eps bs maxIter fuel turns 0 ⟨0, arcs.getLast?⟩ s1 with
    | none => none
    | some (.unbounded, s2) => some ⟨.unbounded, s2.flow, s2.pi⟩
    | some (.infeasible, s2) => some ⟨.infeasible, s2.flow, s2.pi⟩
    | some (.maxIter, s2) => some ⟨.maxIter, s2.flow, shiftPotentials s2.pi⟩
    | some (.optimal, s2) =>
      match checkFeasible feps s2 with
      | none => some ⟨.infeasible, s2.flow, s2.pi⟩
      | some f => some ⟨.optimal, f, shiftPotentials s2.pi⟩

end

end POT.Simplex
