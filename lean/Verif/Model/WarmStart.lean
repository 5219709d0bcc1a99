import Verif.Model.EmdWrap
import Mathlib.Data.List.Basic

/-! # The warm start of `ot/lp/network_simplex_simple.h` (`potentials_init` of `emd`, `emd2`, `emd2_lazy`)

`warmstartInit` (lines 1463-1798) replaces `init`: it takes the arcs whose reduced cost for the given potentials is closest to zero, grows a spanning forest from them,
hangs the forest on the artificial root, computes the flow of the tree from the leaves to the root, cuts off the nodes whose arc would carry a negative flow, and
computes the potentials of the final tree.

Not modelled: the heap and the sort that list the arcs by reduced cost for the given potentials (lines 1479-1511).  Their result is the argument `cand`, any list of arcs: the
given potentials are used for nothing else.  The union-find forest of Kruskal's algorithm is modelled by the partition it stands for. -/

namespace POT.Simplex

variable {R : Type*} {n m : ℕ} [Ring R] [LinearOrder R]

/-- `ART_COST` of the warm start, network_simplex_simple.h:1477, 1487-1488, 1496-1500: the maximum starts from `0` -/
def warmArtCost (n : ℕ) {m : ℕ} (cost : Fin m → R) : R :=
  ((List.finRange m).foldl (fun mx i => if mx < cost i then cost i else mx) 0 + 1) * (n : R)

/-! ### Spanning forest -/

/-- one arc in Kruskal's algorithm, network_simplex_simple.h:1519-1532, 1540-1554: `lab` gives every node the name of its component -/
def kruskalStep (P : Problem n m R) (acc : (Fin n → Fin n) × List (Fin m)) (e : Fin m) : (Fin n → Fin n) × List (Fin m) :=
  if n - 1 ≤ acc.2.length then acc
  else if acc.1 (P.src e) = acc.1 (P.tgt e) then acc
  else (fun x => if acc.1 x = acc.1 (P.tgt e) then acc.1 (P.src e) else acc.1 x, acc.2 ++ [e])

/-- `tree_arcs`, network_simplex_simple.h:1513-1556: first the candidates, then the remaining arcs -/
def treeArcs (P : Problem n m R) (cand : List (Fin m)) : List (Fin m) :=
  ((cand ++ (List.finRange m).filter fun e => e ∉ cand).foldl (kruskalStep P) (id, [])).2

/-- the neighbours of `v` in the forest with the connecting arcs, network_simplex_simple.h:1559-1585 -/
def treeAdj (P : Problem n m R) (arcs : List (Fin m)) (v : Fin n) : List (Fin n × Fin m) :=
  arcs.flatMap fun e => (if P.src e = v then [(P.tgt e, e)] else []) ++ if P.tgt e = v then [(P.src e, e)] else []

/-! ### Breadth first search -/

/-- the variables of the search; a node that was not reached has no parent.  `par v = none` is the root. -/
structure Bfs (n m : ℕ) where
  visited : List (Fin n)
  parent : Fin n → Option (Fin n)
  pred : Fin n → Arc n m
  forward : Fin n → Bool

/-- visiting the neighbour `x.1` of `v` through the arc `x.2`, network_simplex_simple.h:1630-1645; the second component is the queue -/
def bfsVisit (P : Problem n m R) (v : Fin n) (acc : Bfs n m × List (Fin n)) (x : Fin n × Fin m) : Bfs n m × List (Fin n) :=
  if x.1 ∈ acc.1.visited then acc
  else ({ visited := acc.1.visited ++ [x.1], parent := Function.update acc.1.parent x.1 (some v), pred := Function.update acc.1.pred x.1 (.inl x.2),
          forward := Function.update acc.1.forward x.1 (decide (P.src x.2 = x.1)) }, acc.2 ++ [x.1])

/-- the queue loop, network_simplex_simple.h:1626-1647; a node enters the queue once, so `n` turns are enough -/
def bfsLoop (P : Problem n m R) (arcs : List (Fin m)) : ℕ → List (Fin n) → Bfs n m → Bfs n m
  | 0, _, b => b
  | _ + 1, [], b => b
  | k + 1, v :: q, b =>
    let r := (treeAdj P arcs v).foldl (bfsVisit P v) (b, q)
    bfsLoop P arcs k r.2 r.1

/-- one turn of the loop over the nodes, network_simplex_simple.h:1613-1648: a node that was not reached becomes the top of a component, hung on the root by its artificial
arc -/
def bfsRep (P : Problem n m R) (arcs : List (Fin m)) (b : Bfs n m) (u : Fin n) : Bfs n m :=
  if u ∈ b.visited then b
  else bfsLoop P arcs n [u] { visited := b.visited ++ [u], parent := Function.update b.parent u none, pred := Function.update b.pred u (.inr u),
                              forward := Function.update b.forward u (decide (0 ≤ P.supply u)) }

/-- the search, network_simplex_simple.h:1609-1648 -/
def bfs (P : Problem n m R) (arcs : List (Fin m)) : Bfs n m :=
  (List.finRange n).foldl (bfsRep P arcs) ⟨[], fun _ => none, fun u => .inr u, fun _ => true⟩

/-! ### Depth first order -/

/-- `_parent` with the root: `-1` is `none`, the root is `some none` -/
def liftParent (p : Fin n → Option (Fin n)) : Node n → Option (Node n)
  | none => none
  | some u => some (p u)

/-- `children`, network_simplex_simple.h:1652-1655 -/
def childList (p : Fin n → Option (Fin n)) (v : Node n) : List (Node n) :=
  ((List.finRange n).filter fun u => p u = v).map some

/-- the stack loop, network_simplex_simple.h:1657-1668 (the children are pushed last to first); every node enters the stack once -/
def dfsLoop (ch : Node n → List (Node n)) : ℕ → List (Node n) → List (Node n)
  | 0, _ => []
  | _ + 1, [] => []
  | k + 1, v :: st => v :: dfsLoop ch k (ch v ++ st)

/-- `preorder`, network_simplex_simple.h:1657-1668 -/
def preorder (p : Fin n → Option (Fin n)) : List (Node n) := dfsLoop (childList p) (n + 2) [none]

/-- `_thread`, network_simplex_simple.h:1670-1673 -/
def threadOf (l : List (Node n)) (u : Node n) : Node n := l.getD ((l.idxOf u + 1) % l.length) none

/-- `_rev_thread`, network_simplex_simple.h:1675-1677 -/
def revThreadOf (l : List (Node n)) : Node n → Node n :=
  ((List.finRange n).map some ++ [none]).foldl (fun r u => Function.update r (threadOf l u) u) fun _ => none

/-- one turn of the loop for `_succ_num`, network_simplex_simple.h:1682-1685 (which stops before the root) -/
def succStep (p : Fin n → Option (Fin n)) (sn : Node n → ℤ) : Node n → Node n → ℤ
  | none => sn
  | some i => Function.update sn (p i) (sn (p i) + sn (some i))

/-- `_succ_num`, network_simplex_simple.h:1679-1685 -/
def succNumOf (p : Fin n → Option (Fin n)) (l : List (Node n)) : Node n → ℤ := l.reverse.foldl (succStep p) fun _ => 1

/-- `_last_succ`, network_simplex_simple.h:1687-1694 -/
def lastSuccOf (p : Fin n → Option (Fin n)) (l : List (Node n)) (u : Node n) : Node n :=
  l.getD (l.idxOf u + (succNumOf p l u).toNat - 1) none

/-! ### Flow, potentials -/

/-- the variables of STEP 5: net supply below each node, tree, the flow of the arc above each node, and the number of nodes cut off -/
structure Push (n m : ℕ) (R : Type*) where
  net : Node n → R
  parent : Fin n → Option (Fin n)
  pred : Fin n → Arc n m
  forward : Fin n → Bool
  flow : Arc n m → R
  ejected : ℕ

/-- flow of the arc through which a node is processed or that it is given, in the direction `fw`, network_simplex_simple.h:1718, 1737 -/
def signedNet (c : Push n m R) (fw : Bool) (u : Fin n) : R := if fw then c.net (some u) else -c.net (some u)

/-- a real arc above a node that is cut off gets flow `0`, network_simplex_simple.h:1724-1727 -/
def cutFlow (c : Push n m R) : Arc n m → Arc n m → R
  | .inl e => Function.update c.flow (.inl e) 0
  | .inr _ => c.flow

/-- one node of STEP 5, network_simplex_simple.h:1714-1747.  The direction of the artificial arc is that of line 1594-1603. -/
def pushStep (P : Problem n m R) (c : Push n m R) (u : Node n) : Push n m R :=
  match u with
  | none => c
  | some u =>
    let f := signedNet c (c.forward u) u
    if 0 ≤ f then
      { c with flow := Function.update c.flow (c.pred u) f, net := Function.update c.net (c.parent u) (c.net (c.parent u) + c.net (some u)) }
    else
      let fw := decide (0 ≤ P.supply u)
      let af := signedNet c fw u
      { net := Function.update c.net none (c.net none + c.net (some u))
        parent := Function.update c.parent u none
        pred := Function.update c.pred u (.inr u)
        forward := Function.update c.forward u (if af < 0 then !fw else fw)
        flow := Function.update (cutFlow c (c.pred u)) (.inr u) (if af < 0 then -af else af)
        ejected := c.ejected + 1 }

/-- STEP 5, network_simplex_simple.h:1697-1747: the nodes in reverse depth first order without the root -/
def pushUp (P : Problem n m R) (b : Bfs n m) : Push n m R :=
  (preorder b.parent).reverse.foldl (pushStep P)
    ⟨fun u => match u with | none => 0 | some i => P.supply i, b.parent, b.pred, b.forward, fun _ => 0, 0⟩

/-- one turn of the loop of STEP 6, network_simplex_simple.h:1786-1797 -/
def potStep (cost : Arc n m → R) (p : Fin n → Option (Fin n)) (pred : Fin n → Arc n m) (fw : Fin n → Bool) (pi : Node n → R) : Node n → Node n → R
  | none => pi
  | some i => Function.update pi (some i) (if fw i then pi (p i) - cost (pred i) else pi (p i) + cost (pred i))

/-- STEP 6, network_simplex_simple.h:1783-1798: potentials from the root down the thread -/
def treePotentials (cost : Arc n m → R) (p : Fin n → Option (Fin n)) (pred : Fin n → Arc n m) (fw : Fin n → Bool) (l : List (Node n)) : Node n → R :=
  l.foldl (potStep cost p pred fw) fun _ => 0

/-- the state after `warmstartInit`, network_simplex_simple.h:1463-1798.  Arcs are in the tree exactly if they are the arc above some node: the code marks them one by one
(lines 1469-1490, 1594, 1620, 1637-1642, 1727-1735).  The order and its arrays are computed again if some node was cut off (lines 1748-1780). -/
def warmState [NeZero n] (P : Problem n m R) (cand : List (Fin m)) : State (Node n) (Arc n m) R :=
  let b := bfs P (treeArcs P cand)
  let c := pushUp P b
  let l := if 0 < c.ejected then preorder c.parent else preorder b.parent
  let p := if 0 < c.ejected then c.parent else b.parent
  { flow := c.flow
    state := fun a => if ∃ u, c.pred u = a then .tree else .lower
    pi := treePotentials (initNet P).cost c.parent c.pred c.forward l
    parent := liftParent c.parent
    pred := fun u => match u with | none => .inr 0 | some i => c.pred i
    forward := fun u => match u with | none => true | some i => c.forward i
    thread := threadOf l
    revThread := revThreadOf l
    succNum := succNumOf p l
    lastSucc := lastSuccOf p l }

/-- `run` with a warm start, network_simplex_simple.h:1162-1173, 1463-1473, 2260-2329: `initialPivots` is skipped (line 2265) and `in_arc` is `0` (line 1795) -/
def warmRun [NeZero n] (P : Problem n m R) (junk eps feps : R) (bs maxIter turns : ℕ) (cand : List (Fin m)) : Option (Solution n m R) :=
  if feps < |(List.finRange n).foldl (fun x u => x + P.supply u) 0| then some ⟨.infeasible, (initState P).flow, (initState P).pi⟩
  else match mainLoop P junk eps bs maxIter (2 * (n + 1) + 2) turns 0 ⟨0, (List.finRange m).head?⟩ (warmState P cand) with
    | none => none
    | some (.unbounded, s2) => some ⟨.unbounded, s2.flow, s2.pi⟩
    | some (.infeasible, s2) => some ⟨.infeasible, s2.flow, s2.pi⟩
    | some (.maxIter, s2) => some ⟨.maxIter, s2.flow, shiftPotentials s2.pi⟩
    | some (.optimal, s2) =>
      match checkFeasible feps s2 with
      | none => some ⟨.infeasible, s2.flow, s2.pi⟩
      | some f => some ⟨.optimal, f, shiftPotentials s2.pi⟩

end POT.Simplex

namespace POT.Simplex

variable {R : Type*} [CommRing R] [LinearOrder R]

/-- `EMD_wrap` with `alpha_init` and `beta_init`, EMD_wrapper.cpp:67-84, 209-295.  `cand` stands for the arcs chosen for these potentials. -/
def emdWrapWarm {n1 n2 : ℕ} (a : Fin n1 → R) (b : Fin n2 → R) (D : Fin n1 → Fin n2 → R) (junk eps feps : R) (bs maxIter turns : ℕ)
    (cand : ∀ N, List (Fin N)) : Option (WrapResult n1 n2 R) :=
  if (∃ i, a i < 0) ∨ ∃ j, b j < 0 then some ⟨.infeasible, fun _ _ => 0, fun _ => 0, fun _ => 0, 0⟩
  else
    let indI := posIdx a
    let indJ := posIdx b
    let n := indI.length
    let m := indJ.length
    let full : Bool := n = n1 ∧ m = n2
    let mixing := !full
    if h : n + m = 0 then some ⟨.infeasible, fun _ _ => 0, fun _ => 0, fun _ => 0, 0⟩
    else
      haveI : NeZero (n + m) := ⟨h⟩
      let Ds : Fin n → Fin m → R := fun i j => D (indI.get i) (indJ.get j)
      let P := bipNet mixing (fun i => a (indI.get i)) (fun j => b (indJ.get j)) Ds (warmArtCost (n + m) (costArray mixing fun k => Ds k.divNat k.modNat))
      match warmRun P junk eps feps bs maxIter turns (cand _) with
      | none => none
      | some sol =>
        if sol.status = .optimal ∨ sol.status = .maxIter then
          let e := extractPlan full mixing D indI indJ fun k => sol.flow (.inl k)
          some ⟨sol.status, e.2, scatter indI fun i => -sol.pi (some (nodeId (Fin.castAdd m i))),
            scatter indJ fun j => sol.pi (some (nodeId (Fin.natAdd n j))), e.1⟩
        else some ⟨sol.status, fun _ _ => 0, fun _ => 0, fun _ => 0, 0⟩

end POT.Simplex
