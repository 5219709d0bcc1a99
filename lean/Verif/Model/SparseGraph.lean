import Mathlib.Data.List.Basic
import Mathlib.Logic.Function.Basic

/-! # `ot/lp/sparse_bipartitegraph.h`

Arrays are functions `ℕ → ℕ`; `none` stands for the invalid arc `-1`. -/

namespace POT.Sparse

/-- the fields filled by `buildFromEdges`, sparse_bipartitegraph.h:29-43, and its local variable `current_row` -/
structure Csr where
  n1 : ℕ
  n2 : ℕ
  arcNum : ℕ
  arcSources : ℕ → ℕ
  arcTargets : ℕ → ℕ
  rowPtr : ℕ → ℕ
  colIndices : ℕ → ℕ
  arcIds : ℕ → ℕ
  currentRow : ℕ

/-- what `std::sort` with the comparator of sparse_bipartitegraph.h:130-135 may leave in `indexed_edges` (source, target, arc number): a rearrangement of the
numbered edges in which no edge is smaller than an earlier one.  The order of equal edges is unspecified. -/
structure IsSorted (edges : List (ℕ × ℕ)) (sorted : List (ℕ × ℕ × ℕ)) : Prop where
  perm : sorted.Perm (edges.zipIdx.map fun e => (e.1.1, e.1.2, e.2))
  ordered : sorted.Pairwise fun e e' => e.1 < e'.1 ∨ e.1 = e'.1 ∧ e.2.1 ≤ e'.2.1

/-- `while (current_row < to) _row_ptr[++current_row] = i;`, sparse_bipartitegraph.h:152-154 and 163-165; the first argument counts the turns -/
def fillRows (i : ℕ) : ℕ → Csr → Csr
  | 0, g => g
  | c + 1, g => fillRows i c { g with rowPtr := Function.update g.rowPtr (g.currentRow + 1) i, currentRow := g.currentRow + 1 }

/-- one turn of the loop, sparse_bipartitegraph.h:145-160; `e.2` is the index `i` -/
def buildStep (g : Csr) (e : (ℕ × ℕ × ℕ) × ℕ) : Csr :=
  let src := e.1.1
  let tgt := e.1.2.1
  let id := e.1.2.2
  let g := fillRows e.2 (src - g.currentRow) g
  { g with
    arcSources := Function.update g.arcSources id src
    arcTargets := Function.update g.arcTargets id tgt
    colIndices := Function.update g.colIndices e.2 tgt
    arcIds := Function.update g.arcIds e.2 id }

/-- `buildFromEdges`, sparse_bipartitegraph.h:114-168, given the result of the sort.  (For an empty list the special case of lines 117-120 also leaves
only zeros in `_row_ptr`.) -/
def build (n1 n2 : ℕ) (sorted : List (ℕ × ℕ × ℕ)) : Csr :=
  let z : ℕ → ℕ := fun _ => 0
  let g := sorted.zipIdx.foldl buildStep ⟨n1, n2, sorted.length, z, z, z, z, z, 0⟩
  fillRows sorted.length (n1 - g.currentRow) g

/-- `std::lower_bound` of `t` in `col[first .. first+len)`: halving loop of the C++ library -/
def lowerBound (col : ℕ → ℕ) (t : ℕ) (first len : ℕ) : ℕ :=
  if len = 0 then first
  else if col (first + len / 2) < t then lowerBound col t (first + len / 2 + 1) (len - len / 2 - 1)
  else lowerBound col t first (len / 2)
termination_by len
decreasing_by all_goals omega

/-- `arc`, sparse_bipartitegraph.h:171-192 -/
def arc (g : Csr) (s t : ℕ) : Option ℕ :=
  if g.n1 ≤ s ∨ t < g.n1 ∨ g.n1 + g.n2 ≤ t then none
  else
    let stop := g.rowPtr (s + 1)
    let it := lowerBound g.colIndices t (g.rowPtr s) (stop - g.rowPtr s)
    if it ≠ stop ∧ g.colIndices it = t then some (g.arcIds it) else none

/-- `source`, sparse_bipartitegraph.h:200-202 -/
def source (g : Csr) (a : ℕ) : Option ℕ := if a < g.arcNum then some (g.arcSources a) else none
/-- `target`, sparse_bipartitegraph.h:204-206 -/
def target (g : Csr) (a : ℕ) : Option ℕ := if a < g.arcNum then some (g.arcTargets a) else none

/-- `_in_arcs[node]`, sparse_bipartitegraph.h:71-82 -/
def inArcs (g : Csr) : ℕ → List ℕ :=
  (List.range g.arcNum).foldl (fun arr a => Function.update arr (g.arcTargets a) (arr (g.arcTargets a) ++ [a])) fun _ => []

/-- `_arc_to_out_pos`, sparse_bipartitegraph.h:91-94 -/
def outPos (g : Csr) : ℕ → ℕ := (List.range g.arcNum).foldl (fun arr p => Function.update arr (g.arcIds p) p) fun _ => 0

/-- `_arc_to_in_pos`, sparse_bipartitegraph.h:97-104 -/
def inPos (g : Csr) : ℕ → ℕ :=
  (List.range (g.n1 + g.n2)).foldl (fun arr node => (inArcs g node).zipIdx.foldl (fun arr p => Function.update arr p.1 p.2) arr) fun _ => 0

/-- `firstOut`, sparse_bipartitegraph.h:234-244 -/
def firstOut (g : Csr) (node : ℕ) : Option ℕ :=
  if g.n1 ≤ node then none
  else if g.rowPtr node < g.rowPtr (node + 1) then some (g.arcIds (g.rowPtr node)) else none

/-- `nextOut`, sparse_bipartitegraph.h:246-256 -/
def nextOut (g : Csr) (a : ℕ) : Option ℕ :=
  let pos := outPos g a
  if pos + 1 < g.rowPtr (g.arcSources a + 1) then some (g.arcIds (pos + 1)) else none

/-- `firstIn`, sparse_bipartitegraph.h:258-268 -/
def firstIn (g : Csr) (node : ℕ) : Option ℕ :=
  if g.n1 + g.n2 ≤ node ∨ node < g.n1 then none else (inArcs g node)[0]?

/-- `nextIn`, sparse_bipartitegraph.h:270-280 -/
def nextIn (g : Csr) (a : ℕ) : Option ℕ := (inArcs g (g.arcTargets a))[inPos g a + 1]?

/-- the loop `for (first…(a); a != INVALID; next…(a))`; the first argument bounds the number of turns -/
def visit (next : ℕ → Option ℕ) : ℕ → Option ℕ → List ℕ
  | 0, _ => []
  | _ + 1, none => []
  | fuel + 1, some a => a :: visit next fuel (next a)

/-- arcs visited by `firstOut`, `nextOut` -/
def outArcs (g : Csr) (node : ℕ) : List ℕ := visit (nextOut g) (g.arcNum + 1) (firstOut g node)
/-- arcs visited by `firstIn`, `nextIn` -/
def inArcsVisited (g : Csr) (node : ℕ) : List ℕ := visit (nextIn g) (g.arcNum + 1) (firstIn g node)

end POT.Sparse
