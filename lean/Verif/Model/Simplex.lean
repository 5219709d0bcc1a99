import Mathlib.Order.WithBot
import Mathlib.Algebra.Order.Field.Basic
import Mathlib.Logic.Function.Basic

/-! # The network simplex pivot of `ot/lp/network_simplex_simple.h`

Nodes are elements of a type `V` (the code: `0..node_num`, the last one being the artificial root) and arcs of a
type `A` (real and artificial arcs).  The arrays of the code are functions.  The parent of the root, `-1` in the code, is `none`.

Every loop is run with a fuel argument; `none` is returned if the fuel does not suffice or if the loop would dereference `-1`.
C08 proves that with fuel `2 * (number of nodes) + 1` this never happens. -/

namespace POT.Simplex

variable {V A R : Type*}

/-- network_simplex_simple.h:356-360 -/
inductive ArcState
  | upper | tree | lower
  deriving DecidableEq

/-- the numeric value of the state constants, network_simplex_simple.h:356-360 -/
def ArcState.sign [Ring R] : ArcState → R
  | .upper => -1
  | .tree => 0
  | .lower => 1

/-- network_simplex_simple.h:669-671 (`flipArcState`) -/
def ArcState.flip : ArcState → ArcState
  | .upper => .lower
  | .tree => .tree
  | .lower => .upper

/-- Endpoints and costs of all arcs, network_simplex_simple.h:432-440 (`arcSource`, `arcTarget`, `getCostForArc`). -/
structure Net (V A R : Type*) where
  src : A → V
  tgt : A → V
  cost : A → R

/-- The arrays changed by pivots, network_simplex_simple.h:441-483.  `pred` of the root (`-1` in the code) may be any arc here: it is never used. -/
structure State (V A R : Type*) where
  flow : A → R
  state : A → ArcState
  pi : V → R
  parent : V → Option V
  pred : V → A
  forward : V → Bool
  thread : V → V
  revThread : V → V
  succNum : V → ℤ
  lastSucc : V → V

variable [DecidableEq V]

/-- `for (u = start; u != stop; u = _parent[u])`: the nodes visited. -/
def pathTo (parent : V → Option V) (stop : V) : ℕ → V → Option (List V)
  | 0, _ => none
  | k + 1, u =>
    if u = stop then some []
    else match parent u with
      | none => none
      | some p => (pathTo parent stop k p).map (u :: ·)

/-- network_simplex_simple.h:1938-1949 (`findJoinNode`) -/
def findJoinNode (parent : V → Option V) (succNum : V → ℤ) : ℕ → V → V → Option V
  | 0, _, _ => none
  | k + 1, u, v =>
    if u = v then some u
    else if succNum u < succNum v then
      match parent u with
      | none => none
      | some p => findJoinNode parent succNum k p v
    else
      match parent v with
      | none => none
      | some p => findJoinNode parent succNum k u p

/-! ### Leaving arc -/

/-- `delta`, `u_out` and `result` in `findLeavingArc` -/
structure Leaving (V R : Type*) where
  delta : WithTop R
  uOut : V
  result : ℕ

section leaving
variable [LinearOrder R]

/-- body of the first loop, network_simplex_simple.h:1971-1979; `INF` is `⊤` -/
def scanFirst (s : State V A R) (acc : Leaving V R) (u : V) : Leaving V R :=
  let d : WithTop R := if s.forward u then ((s.flow (s.pred u) : R) : WithTop R) else ⊤
  if d < acc.delta then ⟨d, u, 1⟩ else acc

/-- body of the second loop, network_simplex_simple.h:1981-1989 -/
def scanSecond (s : State V A R) (acc : Leaving V R) (u : V) : Leaving V R :=
  let d : WithTop R := if s.forward u then ⊤ else ((s.flow (s.pred u) : R) : WithTop R)
  if d ≤ acc.delta then ⟨d, u, 2⟩ else acc

/-- `first`, network_simplex_simple.h:1956-1962 -/
def firstNode (net : Net V A R) (s : State V A R) (e : A) : V :=
  if s.state e = .lower then net.src e else net.tgt e

/-- `second`, network_simplex_simple.h:1956-1962 -/
def secondNode (net : Net V A R) (s : State V A R) (e : A) : V :=
  if s.state e = .lower then net.tgt e else net.src e

/-- network_simplex_simple.h:1953-1990 (`findLeavingArc` up to the assignment of `u_in`, `v_in`).  The initial `u_out` is left over from the
previous pivot in the code; it is only used after having been assigned. -/
def findLeavingArc (net : Net V A R) (s : State V A R) (fuel : ℕ) (e : A) (join : V) : Option (Leaving V R) :=
  match pathTo s.parent join fuel (firstNode net s e), pathTo s.parent join fuel (secondNode net s e) with
  | some p1, some p2 => some (p2.foldl (scanSecond s) (p1.foldl (scanFirst s) ⟨⊤, firstNode net s e, 0⟩))
  | _, _ => none

end leaving

/-! ### Flow -/

section flow
variable [DecidableEq A] [Ring R] [LinearOrder R]

/-- `addArcFlow`, network_simplex_simple.h:714-724 -/
def addFlow (f : A → R) (e : A) (x : R) : A → R := Function.update f e (f e + x)

/-- network_simplex_simple.h:2000-2022 (`changeFlow`) -/
def changeFlow (net : Net V A R) (s : State V A R) (fuel : ℕ) (e : A) (join : V) (delta : R) (uOut : V) (change : Bool) :
    Option (State V A R) :=
  let flow? : Option (A → R) :=
    if 0 < delta then
      match pathTo s.parent join fuel (net.src e), pathTo s.parent join fuel (net.tgt e) with
      | some ps, some pt =>
        let val := (s.state e).sign * delta
        let f1 := addFlow s.flow e val
        let f2 := ps.foldl (fun f u => addFlow f (s.pred u) (if s.forward u then -val else val)) f1
        some (pt.foldl (fun f u => addFlow f (s.pred u) (if s.forward u then val else -val)) f2)
      | _, _ => none
    else some s.flow
  match flow? with
  | none => none
  | some f =>
    if change then
      some { s with
        flow := f
        state := Function.update (Function.update s.state e .tree) (s.pred uOut)
          (if f (s.pred uOut) = 0 then .lower else .upper) }
    else some { s with flow := f, state := Function.update s.state e (s.state e).flip }

end flow

/-! ### Tree update -/

/-- the variables of the stem loop, network_simplex_simple.h:2046-2072 -/
structure Stem (V : Type*) where
  parent : V → Option V
  thread : V → V
  rev : V → V
  stem : V
  parStem : V
  u : V
  right : V
  dirty : List V

/-- one turn of the stem loop, network_simplex_simple.h:2051-2071 -/
def stemStep (lastSucc : V → V) (c : Stem V) : Option (Stem V) :=
  match c.parent c.stem with
  | none => none
  | some newStem =>
    let w := c.rev c.stem
    let thread := Function.update (Function.update c.thread c.u newStem) w c.right
    let rev := Function.update c.rev c.right w
    let u := if lastSucc newStem = lastSucc c.stem then rev c.stem else lastSucc newStem
    some { parent := Function.update c.parent c.stem (some c.parStem), thread := thread, rev := rev, stem := newStem,
           parStem := c.stem, u := u, right := thread u, dirty := c.dirty ++ [c.u] }

/-- network_simplex_simple.h:2050-2072 -/
def stemLoop (lastSucc : V → V) (uOut : V) : ℕ → Stem V → Option (Stem V)
  | 0, _ => none
  | k + 1, c =>
    if c.stem = uOut then some c
    else match stemStep lastSucc c with
      | none => none
      | some c' => stemLoop lastSucc uOut k c'

/-- `_parent`, `_thread`, `_rev_thread` and `_last_succ[u_out]` after lines 2025-2091 -/
structure Threads (V : Type*) where
  parent : V → Option V
  thread : V → V
  rev : V → V
  lastOut : V

/-- network_simplex_simple.h:2027-2091: parents and thread -/
def updateThreads (s : State V A R) (fuel : ℕ) (uIn vIn uOut : V) : Option (Threads V) :=
  let oldRev := s.revThread uOut
  let last := if oldRev = vIn then s.thread (s.lastSucc uOut) else s.thread vIn
  match stemLoop s.lastSucc uOut fuel
      { parent := s.parent, thread := Function.update s.thread vIn uIn, rev := s.revThread, stem := uIn, parStem := vIn,
        u := s.lastSucc uIn, right := s.thread (s.lastSucc uIn), dirty := [vIn] } with
  | none => none
  | some c =>
    let parent := Function.update c.parent uOut (some c.parStem)
    let thread := Function.update c.thread c.u last
    let rev := Function.update c.rev last c.u
    let thread' := if oldRev ≠ vIn then Function.update thread oldRev c.right else thread
    let rev' := if oldRev ≠ vIn then Function.update rev c.right oldRev else rev
    some { parent := parent, thread := thread',
           rev := c.dirty.foldl (fun r d => Function.update r (thread' d) d) rev', lastOut := c.u }

/-- arrays relabelled along the stem -/
structure Labels (V A : Type*) where
  pred : V → A
  forward : V → Bool
  succNum : V → ℤ
  lastSucc : V → V

/-- network_simplex_simple.h:2095-2105: the loop from `u_out` to `u_in` -/
def relabelLoop (parent : V → Option V) (uIn : V) (tmpLs : V) : ℕ → V → ℤ → Labels V A → Option (Labels V A)
  | 0, _, _, _ => none
  | k + 1, u, tmpSc, l =>
    if u = uIn then some l
    else match parent u with
      | none => none
      | some w =>
        let tmpSc' := tmpSc + (l.succNum u - l.succNum w)
        relabelLoop parent uIn tmpLs k w tmpSc'
          { pred := Function.update l.pred u (l.pred w), forward := Function.update l.forward u (!l.forward w),
            succNum := Function.update l.succNum u tmpSc', lastSucc := Function.update l.lastSucc w tmpLs }

/-- `for (u = start; u != limit && _last_succ[u] == old; u = _parent[u]) _last_succ[u] = new`,
network_simplex_simple.h:2119-2135.  `limit = none` is the `-1` of the code; running past the root with another limit reads `_last_succ[-1]`. -/
def lastSuccLoop (parent : V → Option V) (limit : Option V) (old : V) (new : (V → V) → V) : ℕ → Option V → (V → V) → Option (V → V)
  | 0, _, _ => none
  | _ + 1, none, ls => if limit = none then some ls else none
  | k + 1, some u, ls =>
    if some u = limit then some ls
    else if ls u = old then lastSuccLoop parent limit old new k (parent u) (Function.update ls u (new ls))
    else some ls

/-- `for (u = start; u != join; u = _parent[u]) _succ_num[u] += x`, network_simplex_simple.h:2137-2141 -/
def addSucc (path : List V) (x : ℤ) (sn : V → ℤ) : V → ℤ :=
  path.foldl (fun sn u => Function.update sn u (sn u + x)) sn

/-- network_simplex_simple.h:2025-2142 (`updateTreeStructure`) -/
def updateTreeStructure (net : Net V A R) (s : State V A R) (fuel : ℕ) (e : A) (join uIn vIn uOut : V) : Option (State V A R) :=
  match s.parent uOut with
  | none => none
  | some vOut =>
  match updateThreads s fuel uIn vIn uOut with
  | none => none
  | some t =>
  match relabelLoop t.parent uIn t.lastOut fuel uOut 0
      { pred := s.pred, forward := s.forward, succNum := s.succNum,
        lastSucc := Function.update s.lastSucc uOut t.lastOut } with
  | none => none
  | some l =>
  let oldSucc := s.succNum uOut
  let oldLast := s.lastSucc uOut
  let oldRev := s.revThread uOut
  let limitIn : Option V := if l.lastSucc join = vIn then none else some join
  let limitOut : Option V := if l.lastSucc join = vIn then some join else none
  match lastSuccLoop t.parent limitIn vIn (fun ls => ls uOut) fuel (some vIn) l.lastSucc with
  | none => none
  | some ls1 =>
  match lastSuccLoop t.parent limitOut oldLast (fun ls => if join ≠ oldRev ∧ vIn ≠ oldRev then oldRev else ls uOut)
      fuel (some vOut) ls1 with
  | none => none
  | some ls2 =>
  match pathTo t.parent join fuel vIn, pathTo t.parent join fuel vOut with
  | some pi, some po =>
    some { s with
      parent := t.parent, thread := t.thread, revThread := t.rev
      pred := Function.update l.pred uIn e
      forward := Function.update l.forward uIn (decide (uIn = net.src e))
      succNum := addSucc po (-oldSucc) (addSucc pi oldSucc (Function.update l.succNum uIn oldSucc))
      lastSucc := ls2 }
  | _, _ => none

/-! ### Potentials -/

section potential
variable [Ring R]

/-- `for (u = start; u != end; u = _thread[u]) _pi[u] += sigma` with the loop test before the body,
network_simplex_simple.h:2151-2153 -/
def shiftLoop (thread : V → V) (stop : V) (sigma : R) : ℕ → V → (V → R) → Option (V → R)
  | 0, _, _ => none
  | k + 1, u, pi => if u = stop then some pi else shiftLoop thread stop sigma k (thread u) (Function.update pi u (pi u + sigma))

/-- network_simplex_simple.h:2145-2154 (`updatePotential`) -/
def updatePotential (net : Net V A R) (s : State V A R) (fuel : ℕ) (uIn vIn : V) : Option (State V A R) :=
  let sigma := if s.forward uIn then s.pi vIn - s.pi uIn - net.cost (s.pred uIn)
    else s.pi vIn - s.pi uIn + net.cost (s.pred uIn)
  (shiftLoop s.thread (s.thread (s.lastSucc uIn)) sigma fuel uIn s.pi).map fun pi => { s with pi := pi }

end potential

/-! ### Pivot -/

/-- outcome of a pivot -/
inductive Outcome (S : Type*)
  | unbounded
  | next (s : S)

section pivot
variable [DecidableEq A] [Ring R] [LinearOrder R]

/-- the body of the main loop, network_simplex_simple.h:2288-2295 (and 2244-2251 in the initial pivots) -/
def pivot (net : Net V A R) (fuel : ℕ) (s : State V A R) (e : A) : Option (Outcome (State V A R)) :=
  match findJoinNode s.parent s.succNum fuel (net.src e) (net.tgt e) with
  | none => none
  | some join =>
  match findLeavingArc net s fuel e join with
  | none => none
  | some l =>
  match l.delta with
  | ⊤ => some .unbounded
  | (delta : R) =>
    let uIn := if l.result = 1 then firstNode net s e else secondNode net s e
    let vIn := if l.result = 1 then secondNode net s e else firstNode net s e
    let change := decide (l.result ≠ 0)
    match changeFlow net s fuel e join delta l.uOut change with
    | none => none
    | some s1 =>
      if change then
        match updateTreeStructure net s1 fuel e join uIn vIn l.uOut with
        | none => none
        | some s2 => (updatePotential net s2 fuel uIn vIn).map .next
      else some (.next s1)

/-- reduced cost, network_simplex_simple.h:799 -/
def redCost (net : Net V A R) (s : State V A R) (e : A) : R := net.cost e + s.pi (net.src e) - s.pi (net.tgt e)

/-- what the pivot rules test, network_simplex_simple.h:799 -/
def violation (net : Net V A R) (s : State V A R) (e : A) : R := (s.state e).sign * redCost net s e

end pivot

end POT.Simplex
