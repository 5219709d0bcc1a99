import Verif.Model.EmdWrap

/-! # `EMD_wrap_sparse` of `ot/lp/EMD_wrapper.cpp`

Only the call without warm start is modelled.  The digraph class is modelled separately (`Verif.Model.SparseGraph`); here arc `k` is the
`k`-th kept edge, as `buildFromEdges` stores it. -/

namespace POT.Simplex

section
variable {R : Type*} [CommRing R] [LinearOrder R] {n1 n2 K : ℕ}

/-- edges whose two endpoints have positive weight, EMD_wrapper.cpp:463-482 -/
def keptEdges (a : Fin n1 → R) (b : Fin n2 → R) (src : Fin K → Fin n1) (tgt : Fin K → Fin n2) : List (Fin K) :=
  (List.finRange K).filter fun k => 0 < a (src k) ∧ 0 < b (tgt k)

theorem kept_src {a : Fin n1 → R} {b : Fin n2 → R} {src : Fin K → Fin n1} {tgt : Fin K → Fin n2} (e : Fin (keptEdges a b src tgt).length) :
    0 < a (src ((keptEdges a b src tgt).get e)) ∧ 0 < b (tgt ((keptEdges a b src tgt).get e)) := by
  have := (List.mem_filter.1 (List.get_mem (keptEdges a b src tgt) e)).2
  exact of_decide_eq_true this

/-- `source_to_graph`, `target_to_graph`, EMD_wrapper.cpp:431-457: the place of a point of positive weight in `indI` (`indJ`) -/
def toGraph {n : ℕ} (w : Fin n → R) (i : Fin n) (h : 0 < w i) : Fin (posIdx w).length :=
  ⟨(posIdx w).idxOf i, List.idxOf_lt_length_of_mem (by simpa [posIdx] using h)⟩

/-- the problem handed to the solver, EMD_wrapper.cpp:461-500; `setCost` stores the cost of edge `k` at the position of its arc -/
def sparseProblem (a : Fin n1 → R) (b : Fin n2 → R) (src : Fin K → Fin n1) (tgt : Fin K → Fin n2) (c : Fin K → R)
    [NeZero ((posIdx a).length + (posIdx b).length)] :
    Problem ((posIdx a).length + (posIdx b).length) (keptEdges a b src tgt).length R where
  src e := endpoints true (fun k : Fin (keptEdges a b src tgt).length =>
    Fin.castAdd (posIdx b).length (toGraph a (src ((keptEdges a b src tgt).get k)) (kept_src k).1)) e.val
  tgt e := endpoints true (fun k : Fin (keptEdges a b src tgt).length =>
    Fin.natAdd (posIdx a).length (toGraph b (tgt ((keptEdges a b src tgt).get k)) (kept_src k).2)) e.val
  cost := costArray true fun k => c ((keptEdges a b src tgt).get k)
  supply v := Fin.addCases (motive := fun _ => R) (fun i => a ((posIdx a).get i)) (fun j => -b ((posIdx b).get j)) (nodeId v)
  art := artCost ((posIdx a).length + (posIdx b).length) (costArray true fun k => c ((keptEdges a b src tgt).get k))

/-- what `EMD_wrap_sparse` writes -/
structure SparseResult (n1 n2 : ℕ) (R : Type*) where
  status : Status
  /-- source, target, value: the first `n_flows_out` entries of the three output arrays -/
  flows : List (Fin n1 × Fin n2 × R)
  alpha : Fin n1 → R
  beta : Fin n2 → R
  cost : R

/-- `extract_sparse_solution`, EMD_wrapper.cpp:172-203, arcs in the order of `first`, `next`.  `none`: the output arrays are full. -/
def extractSparse (mixing : Bool) (indI : List (Fin n1)) (indJ : List (Fin n2)) (N : ℕ) (s : Fin N → Fin indI.length) (t : Fin N → Fin indJ.length) (c : Fin N → R)
    (flow : Fin N → R) (minFlow : R) (maxOut : ℕ) : Option (R × List (Fin n1 × Fin n2 × R)) :=
  (List.finRange N).reverse.foldl
    (fun (acc : Option (R × List (Fin n1 × Fin n2 × R))) (k : Fin N) =>
      match acc with
      | none => none
      | some (cost, out) =>
        let f := readAt flow (arcId mixing N k.val)
        let cost' := if f ≠ 0 then cost + f * c k else cost
        if minFlow < f then
          if maxOut ≤ out.length then none
          else some (cost', out ++ [(indI.get (s k), indJ.get (t k), f)])
        else some (cost', out))
    (some (0, []))

/-- `EMD_wrap_sparse`, EMD_wrapper.cpp:387-536, without warm start.  `arcs` stands for the heuristic choice of initial pivots.  When the output arrays are
too small the code returns `MAX_ITER_REACHED` with partly filled arrays; the model returns empty ones (emd_wrap.pyx:283 makes them large
enough). -/
def emdWrapSparse (a : Fin n1 → R) (b : Fin n2 → R) (src : Fin K → Fin n1) (tgt : Fin K → Fin n2) (c : Fin K → R) (junk eps feps minFlow : R)
    (bs maxIter turns maxOut : ℕ) (arcs : ∀ N, List (Fin N)) : Option (SparseResult n1 n2 R) :=
  if (∃ i, a i < 0) ∨ ∃ j, b j < 0 then some ⟨.infeasible, [], fun _ => 0, fun _ => 0, 0⟩
  else
    let indI := posIdx a
    let indJ := posIdx b
    let n := indI.length
    let m := indJ.length
    let kept := keptEdges a b src tgt
    if h : n + m = 0 then some ⟨.infeasible, [], fun _ => 0, fun _ => 0, 0⟩
    else
      haveI : NeZero (n + m) := ⟨h⟩
      match run (sparseProblem a b src tgt c) junk eps feps bs maxIter turns (arcs _) with
      | none => none
      | some sol =>
        if sol.status = .optimal ∨ sol.status = .maxIter then
          let alpha := scatter indI fun i => -sol.pi (some (nodeId (Fin.castAdd m i)))
          let beta := scatter indJ fun j => sol.pi (some (nodeId (Fin.natAdd n j)))
          match extractSparse true indI indJ kept.length (fun k => toGraph a (src (kept.get k)) (kept_src k).1)
              (fun k => toGraph b (tgt (kept.get k)) (kept_src k).2) (fun k => c (kept.get k)) (fun k => sol.flow (.inl k)) minFlow maxOut with
          | some e => some ⟨sol.status, e.2, alpha, beta, e.1⟩
          | none => some ⟨.maxIter, [], alpha, beta, 0⟩
        else some ⟨sol.status, [], fun _ => 0, fun _ => 0, 0⟩

/-- `emd_c_sparse`, emd_wrap.pyx:231-319: room for as many flows as there are edges, flows up to `1e-15` are not listed (EMD_wrapper.cpp:531, parameter
`minFlow`) -/
def emdSparse (a : Fin n1 → R) (b : Fin n2 → R) (src : Fin K → Fin n1) (tgt : Fin K → Fin n2) (c : Fin K → R) (junk eps feps minFlow : R)
    (bs maxIter turns : ℕ) (arcs : ∀ N, List (Fin N)) : Option (SparseResult n1 n2 R) :=
  emdWrapSparse a b src tgt c junk eps feps minFlow bs maxIter turns K arcs

end

end POT.Simplex
