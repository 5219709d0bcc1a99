import Verif.Model.SimplexRun
import Mathlib.Logic.Function.Basic
import Mathlib.Data.Nat.Sqrt
import Mathlib.Logic.Equiv.Fin.Basic

/-! # `EMD_wrap` of `ot/lp/EMD_wrapper.cpp`: graph, arc numbering, solving, extraction

Here without warm start (`alpha_init = beta_init = nullptr`); with it in `Model/WarmStart.lean`. -/

namespace POT.Simplex

/-! ### `ot/lp/full_bipartitegraph.h` -/

/-- number of the arc from source `i` to target `j` among `n2` targets, full_bipartitegraph.h:59-64 (`t - _n1 = j`) -/
def fbArc (n2 i j : ℕ) : ℕ := i * n2 + j
/-- `source`, full_bipartitegraph.h:73 -/
def fbSource (n2 arc : ℕ) : ℕ := arc / n2
/-- `target`, full_bipartitegraph.h:74 -/
def fbTarget (n1 n2 arc : ℕ) : ℕ := arc % n2 + n1

/-- the arcs visited by `first` and `next` (`-1` is INVALID), full_bipartitegraph.h:99-105 -/
def fbArcs (n1 n2 : ℕ) : List ℕ := (List.range (n1 * n2)).reverse

/-- the loop `for (firstOut(a); a != INVALID; nextOut(a))` started at arc `a`, full_bipartitegraph.h:107-117; the arc numbers are C
integers, hence `ℤ`; the first argument bounds the number of turns. -/
def fbOutLoop (n2 : ℤ) : ℕ → ℤ → List ℤ
  | 0, _ => []
  | fuel + 1, a =>
    if a = -1 then []
    else a :: fbOutLoop n2 fuel ((if a % n2 = 0 then 0 else a) - 1)

/-- arcs listed by `firstOut`, `nextOut` at `node`, full_bipartitegraph.h:107-117 -/
def fbOutArcs (n1 n2 : ℕ) (node : ℕ) : List ℤ :=
  fbOutLoop n2 (n1 * n2 + 1) (if n1 ≤ node then -1 else (node + 1) * n2 - 1)

/-- the loop `for (firstIn(a); a != INVALID; nextIn(a))` started at arc `a`, full_bipartitegraph.h:119-129 -/
def fbInLoop (n2 : ℤ) : ℕ → ℤ → List ℤ
  | 0, _ => []
  | fuel + 1, a =>
    if a = -1 then []
    else a :: fbInLoop n2 fuel (if a - n2 < 0 then -1 else a - n2)

/-- arcs listed by `firstIn`, `nextIn` at `node`, full_bipartitegraph.h:119-129 -/
def fbInArcs (n1 n2 : ℕ) (node : ℕ) : List ℤ :=
  fbInLoop n2 (n1 * n2 + 1) (if node < n1 then -1 else (n1 * n2 : ℤ) + node - (n1 + n2))

/-! ### Mixed arc order -/

/-- `mixingCoeff`, network_simplex_simple.h:1310 (the truncated floating point square root is modelled by the exact integer one) -/
def mixingCoeff (N : ℕ) : ℕ := max (Nat.sqrt N) 10

/-- `sequence`, network_simplex_simple.h:505-514, with the fields of lines 1312-1314; `N` is `_arc_num`, `K` is `mixingCoeff` -/
def sequence (K N k : ℕ) : ℕ :=
  let len := N / K + 1
  let big := N % K
  let total := len * big
  let small := if total < k then 1 else 0
  let k' := k - total * small
  let len2 := len - small
  let num := k' / len2 + big * small
  let off := k' % len2 * K
  off + num

/-- the positions `i` used by the loop of `reset`, network_simplex_simple.h:1316-1325; the first argument counts the arcs left -/
def mixLoop (K N : ℕ) : ℕ → ℕ → ℕ → List ℕ
  | 0, _, _ => []
  | c + 1, i, j => i :: if N ≤ i + K then mixLoop K N c (j + 1) (j + 1) else mixLoop K N c (i + K) j

/-- `getArcID`, network_simplex_simple.h:519-530 -/
def arcId (mixing : Bool) (N k : ℕ) : ℕ := if mixing then sequence (mixingCoeff N) N (N - k - 1) else N - k - 1

/-- positions at which `reset` stores the arcs, in the order of `first`, `next`, network_simplex_simple.h:1308-1338 -/
def storePositions (mixing : Bool) (N : ℕ) : List ℕ := if mixing then mixLoop (mixingCoeff N) N N 0 0 else List.range N

section
variable {R : Type*} [CommRing R] [LinearOrder R]

/-- indices of the positive weights: `indI`, `indJ`, EMD_wrapper.cpp:247-268 -/
def posIdx {n : ℕ} (w : Fin n → R) : List (Fin n) := (List.finRange n).filter fun i => 0 < w i

/-- `_node_id` of a node of the graph, network_simplex_simple.h:429 -/
def nodeId {N : ℕ} (v : Fin N) : Fin N := Fin.rev v

/-- node array filled by the loop of `reset` (`_source` or `_target`), network_simplex_simple.h:1308-1338; `f` gives the endpoint of the
arc in the graph.  In the dense mode without mixing the same values are stored. -/
def endpoints {N n : ℕ} [NeZero n] (mixing : Bool) (f : Fin N → Fin n) : ℕ → Fin n :=
  ((storePositions mixing N).zip (List.finRange N).reverse).foldl (fun arr p => Function.update arr p.1 (nodeId (f p.2))) fun _ => 0

/-- costs by position: `setup_explicit_arc_costs` (EMD_wrapper.cpp:47-65) with `setCost` when arcs are mixed, otherwise the matrix is read in
place (`getCostForArc`, network_simplex_simple.h:984-997) -/
def costArray {N : ℕ} (mixing : Bool) (c : Fin N → R) : Fin N → R :=
  if mixing then fun a => (List.finRange N).foldl (fun (arr : ℕ → R) (k : Fin N) => Function.update arr (arcId mixing N k.val) (c k)) (fun _ => 1) a.val
  else fun a => c (Fin.rev a)

/-- the problem handed to the solver, EMD_wrapper.cpp:237-279: `n`, `m` positive weights `wa`, `wb` and costs `D` between them; `art` is the cost of the
artificial arcs -/
def bipNet {n m : ℕ} [NeZero (n + m)] (mixing : Bool) (wa : Fin n → R) (wb : Fin m → R) (D : Fin n → Fin m → R) (art : R) : Problem (n + m) (n * m) R where
  src a := endpoints mixing (fun k : Fin (n * m) => Fin.castAdd m k.divNat) a.val
  tgt a := endpoints mixing (fun k : Fin (n * m) => Fin.natAdd n k.modNat) a.val
  cost := costArray mixing fun k => D k.divNat k.modNat
  supply v := Fin.addCases (motive := fun _ => R) wa (fun j => -wb j) (nodeId v)
  art := art

/-- the same with the cost of the artificial arcs computed from the greatest cost, network_simplex_simple.h:1818-1819 -/
abbrev bipProblem {n m : ℕ} [NeZero (n + m)] (mixing : Bool) (wa : Fin n → R) (wb : Fin m → R) (D : Fin n → Fin m → R) : Problem (n + m) (n * m) R :=
  bipNet mixing wa wb D (artCost (n + m) (costArray mixing fun k => D k.divNat k.modNat))

/-- write `val k` at `ind[k]` into a zero array, EMD_wrapper.cpp:130-135 -/
def scatter {n1 : ℕ} (ind : List (Fin n1)) (val : Fin ind.length → R) : Fin n1 → R :=
  (List.finRange ind.length).foldl (fun f k => Function.update f (ind.get k) (val k)) fun _ => 0

/-- read position `a` of an array of length `N` -/
def readAt {N : ℕ} (f : Fin N → R) (a : ℕ) : R := if h : a < N then f ⟨a, h⟩ else 0

/-- what `EMD_wrap` returns; arrays not written keep their initial zeros (emd_wrap.pyx:95-101) -/
structure WrapResult (n1 n2 : ℕ) (R : Type*) where
  status : Status
  G : Fin n1 → Fin n2 → R
  alpha : Fin n1 → R
  beta : Fin n2 → R
  cost : R

/-- extraction of the plan and its cost, EMD_wrapper.cpp:103-113 and 137-147: arcs in the order of `first`, `next`.  The dense variant
skips zero flows, which leaves the zeros already there. -/
def extractPlan {n1 n2 : ℕ} (full mixing : Bool) (D : Fin n1 → Fin n2 → R) (indI : List (Fin n1)) (indJ : List (Fin n2))
    (flow : Fin (indI.length * indJ.length) → R) : R × (Fin n1 → Fin n2 → R) :=
  (List.finRange (indI.length * indJ.length)).reverse.foldl
    (fun (acc : R × (Fin n1 → Fin n2 → R)) (k : Fin (indI.length * indJ.length)) =>
      let f := readAt flow (arcId mixing (indI.length * indJ.length) k.val)
      let i := indI.get k.divNat
      let j := indJ.get k.modNat
      if full ∧ f = 0 then acc
      else (acc.1 + f * D i j, Function.update acc.2 i (Function.update (acc.2 i) j f)))
    (0, fun _ _ => 0)

/-- `EMD_wrap`, EMD_wrapper.cpp:209-295, without warm start.  `arcs` stands for the heuristic choice of initial pivots. -/
def emdWrap {n1 n2 : ℕ} (a : Fin n1 → R) (b : Fin n2 → R) (D : Fin n1 → Fin n2 → R) (junk eps feps : R) (bs maxIter turns : ℕ)
    (arcs : ∀ N, List (Fin N)) : Option (WrapResult n1 n2 R) :=
  if (∃ i, a i < 0) ∨ ∃ j, b j < 0 then some ⟨.infeasible, fun _ _ => 0, fun _ => 0, fun _ => 0, 0⟩
  else
    let indI := posIdx a
    let indJ := posIdx b
    let n := indI.length
    let m := indJ.length
    let full : Bool := n = n1 ∧ m = n2
    let mixing := !full
    if h : n + m = 0 then some ⟨.infeasible, fun _ _ => 0, fun _ => 0, fun _ => 0, 0⟩
    else
      haveI : NeZero (n + m) := ⟨h⟩
      let P := bipProblem mixing (fun i => a (indI.get i)) (fun j => b (indJ.get j)) fun i j => D (indI.get i) (indJ.get j)
      match run P junk eps feps bs maxIter turns (arcs _) with
      | none => none
      | some sol =>
        if sol.status = .optimal ∨ sol.status = .maxIter then
          let e := extractPlan full mixing D indI indJ fun k => sol.flow (.inl k)
          some ⟨sol.status, e.2, scatter indI fun i => -sol.pi (some (nodeId (Fin.castAdd m i))),
            scatter indJ fun j => sol.pi (some (nodeId (Fin.natAdd n j))), e.1⟩
        else some ⟨sol.status, fun _ _ => 0, fun _ => 0, fun _ => 0, 0⟩

end

end POT.Simplex
