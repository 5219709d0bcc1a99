import Verif.Lemmas.SparseGraph

/-! # C14: the sparse graph answers according to the edge list

`edges` is the list given by the caller (source, target), with sources below `n1` and targets in `n1 … n1+n2-1`; `sorted` is any result that the
standard sort may produce. -/

namespace POT.Props

open Sparse

section
variable {n1 n2 : ℕ} {edges : List (ℕ × ℕ)} {sorted : List (ℕ × ℕ × ℕ)} (hS : IsSorted edges sorted)
include hS

theorem sorted_mem (e : ℕ × ℕ × ℕ) : e ∈ sorted ↔ edges[e.2.2]? = some (e.1, e.2.1) := by
  rw [hS.perm.mem_iff, List.mem_map]
  constructor
  · rintro ⟨⟨e', k⟩, hk, rfl⟩
    rw [List.mem_zipIdx_iff_getElem?] at hk
    exact hk
  · intro hk
    exact ⟨((e.1, e.2.1), e.2.2), by rw [List.mem_zipIdx_iff_getElem?]; exact hk, rfl⟩

theorem sorted_ids : (sorted.map fun e => e.2.2).Nodup := by
  have h1 : (sorted.map fun e => e.2.2).Perm ((edges.zipIdx.map fun e => (e.1.1, e.1.2, e.2)).map fun e => e.2.2) := hS.perm.map _
  rw [h1.nodup_iff, List.map_map]
  have : ((fun e : ℕ × ℕ × ℕ => e.2.2) ∘ fun e : (ℕ × ℕ) × ℕ => (e.1.1, e.1.2, e.2)) = Prod.snd := rfl
  rw [this, List.zipIdx_map_snd]
  exact List.nodup_range'

theorem sorted_len : sorted.length = edges.length := by
  rw [hS.perm.length_eq]; simp

theorem sorted_src : sorted.Pairwise fun e e' => e.1 ≤ e'.1 := by
  refine hS.ordered.imp fun h => ?_
  rcases h with h | h
  · exact h.le
  · exact h.1.le

theorem sorted_built : Built n1 n2 sorted (build n1 n2 sorted) := build_spec n1 n2 sorted (sorted_src hS) (sorted_ids hS)

/-- **C14**, endpoints.  `source` and `target` of arc `k` are those of the `k`-th edge, and other arc numbers are invalid. -/
theorem C14_endpoints (k : ℕ) : source (build n1 n2 sorted) k = edges[k]?.map Prod.fst ∧ target (build n1 n2 sorted) k = edges[k]?.map Prod.snd := by
  have hB := sorted_built (n1 := n1) (n2 := n2) hS
  unfold source target
  rw [hB.num, sorted_len hS]
  by_cases hk : k < edges.length
  · have hm : (edges[k].1, edges[k].2, k) ∈ sorted := by rw [sorted_mem hS, List.getElem?_eq_getElem hk]
    have h1 := hB.src _ hm
    have h2 := hB.tgt _ hm
    dsimp only at h1 h2
    rw [if_pos hk, if_pos hk, h1, h2, List.getElem?_eq_getElem hk]
    exact ⟨rfl, rfl⟩
  · rw [if_neg hk, if_neg hk, List.getElem?_eq_none (by omega)]
    exact ⟨rfl, rfl⟩

/-- **C14**, lookup.  `arc s t` returns the number of an edge from `s` to `t` if there is one and fails otherwise. -/
theorem C14_arc (hE : ∀ e ∈ edges, e.1 < n1 ∧ n1 ≤ e.2 ∧ e.2 < n1 + n2) (s t : ℕ) :
    (∀ k, arc (build n1 n2 sorted) s t = some k → edges[k]? = some (s, t)) ∧
    (arc (build n1 n2 sorted) s t = none ↔ (s, t) ∉ edges) := by
  have hB := sorted_built (n1 := n1) (n2 := n2) hS
  generalize build n1 n2 sorted = g at hB ⊢
  unfold arc
  rw [hB.hn1, hB.hn2]
  by_cases hr : n1 ≤ s ∨ t < n1 ∨ n1 + n2 ≤ t
  · rw [if_pos hr]
    refine ⟨fun k hk => (by cases hk), ⟨fun _ hm => ?_, fun _ => rfl⟩⟩
    have := hE _ hm
    dsimp only at this
    omega
  · rw [if_neg hr]
    push Not at hr
    dsimp only
    have hle : g.rowPtr (s + 1) ≤ sorted.length := row_le hB (s + 1) (by omega)
    have hmono := row_mono hB s hr.1
    have hrow := fun j hj => mem_row hB (sorted_src hS) (s := s) (j := j) hr.1 hj
    have hsort : ∀ i j, g.rowPtr s ≤ i → i ≤ j → j < g.rowPtr s + (g.rowPtr (s + 1) - g.rowPtr s) → g.colIndices i ≤ g.colIndices j := by
      intro i j hi hij hj
      have hj' : j < sorted.length := by omega
      have hi' : i < sorted.length := by omega
      rcases Nat.eq_or_lt_of_le hij with rfl | hlt
      · exact le_rfl
      · rw [hB.col i hi', hB.col j hj']
        have h1 := (hrow i hi').1 ⟨hi, by omega⟩
        have h2 := (hrow j hj').1 ⟨by omega, by omega⟩
        rcases List.pairwise_iff_getElem.1 hS.ordered i j hi' hj' hlt with h | h
        · omega
        · exact h.2
    obtain ⟨q1, q2, q3, q4⟩ := lowerBound_spec g.colIndices t (g.rowPtr s) (g.rowPtr (s + 1) - g.rowPtr s) hsort
    generalize lowerBound g.colIndices t (g.rowPtr s) (g.rowPtr (s + 1) - g.rowPtr s) = p at q1 q2 q3 q4 ⊢
    have hfound : ∀ j, g.rowPtr s ≤ j → j < g.rowPtr (s + 1) → g.colIndices j = t → edges[g.arcIds j]? = some (s, t) := by
      intro j h1 h2 h3
      have hj : j < sorted.length := by omega
      have e1 := (hrow j hj).1 ⟨h1, h2⟩
      rw [hB.col j hj] at h3
      rw [hB.ids j hj]
      have := (sorted_mem hS sorted[j]).1 (List.getElem_mem hj)
      rw [e1, h3] at this
      exact this
    constructor
    · intro k hk
      split_ifs at hk with hc
      rw [← Option.some_inj.1 hk]
      exact hfound p q1 (by omega) hc.2
    · constructor
      · intro hn hm
        split_ifs at hn with hc
        obtain ⟨k, hk⟩ := List.mem_iff_getElem?.1 hm
        have hmem : (s, t, k) ∈ sorted := (sorted_mem hS _).2 hk
        obtain ⟨j, hj, hje⟩ := List.mem_iff_getElem.1 hmem
        have hin := (hrow j hj).2 (by rw [hje])
        have hcol : g.colIndices j = t := by rw [hB.col j hj, hje]
        have hpj : p ≤ j := by
          by_contra hlt
          have := q3 j hin.1 (by omega)
          omega
        apply hc
        refine ⟨by omega, ?_⟩
        have h1 := q4 p le_rfl (by omega)
        have h2 := hsort p j q1 hpj (by omega)
        omega
      · intro hnm
        rw [if_neg]
        intro hc
        exact hnm (List.mem_iff_getElem?.2 ⟨_, hfound p q1 (by omega) hc.2⟩)

/-- **C14**, out-arcs.  `firstOut`/`nextOut` visit exactly the edges that leave `node`, each once. -/
theorem C14_out_arcs (hE : ∀ e ∈ edges, e.1 < n1 ∧ n1 ≤ e.2 ∧ e.2 < n1 + n2) (node : ℕ) :
    (outArcs (build n1 n2 sorted) node).Nodup ∧ ∀ k, k ∈ outArcs (build n1 n2 sorted) node ↔ edges[k]?.map Prod.fst = some node := by
  have hB := sorted_built (n1 := n1) (n2 := n2) hS
  generalize build n1 n2 sorted = g at hB ⊢
  unfold outArcs
  by_cases hn : n1 ≤ node
  · have : firstOut g node = none := by unfold firstOut; rw [hB.hn1, if_pos hn]
    rw [this, visit]
    refine ⟨List.nodup_nil, fun k => ⟨fun h => (by cases h), fun hk => ?_⟩⟩
    obtain ⟨e, he, hen⟩ := Option.map_eq_some_iff.1 hk
    have := hE e (List.mem_iff_getElem?.2 ⟨k, he⟩)
    omega
  · have hn' : node < n1 := by omega
    have hle : g.rowPtr (node + 1) ≤ sorted.length := row_le hB (node + 1) (by omega)
    have hrow := fun j hj => mem_row hB (sorted_src hS) (s := node) (j := j) hn' hj
    -- the row as a list
    obtain ⟨l, hl⟩ : ∃ l, l = (List.range' (g.rowPtr node) (g.rowPtr (node + 1) - g.rowPtr node)).map g.arcIds := ⟨_, rfl⟩
    have hlen : l.length = g.rowPtr (node + 1) - g.rowPtr node := by rw [hl]; simp
    have hget : ∀ i (hi : i < l.length), l[i] = g.arcIds (g.rowPtr node + i) := by
      intro i hi; simp [hl]
    have hget? : ∀ i, l[i]? = if g.rowPtr node + i < g.rowPtr (node + 1) then some (g.arcIds (g.rowPtr node + i)) else none := by
      intro i
      by_cases hi : i < l.length
      · rw [List.getElem?_eq_getElem hi, hget i hi, if_pos (by omega)]
      · rw [List.getElem?_eq_none (by omega), if_neg (by omega)]
    have hfirst : firstOut g node = l[0]? := by
      unfold firstOut
      rw [hB.hn1, if_neg hn, hget? 0]
      rfl
    have hnext : ∀ i (hi : i < l.length), nextOut g l[i] = l[i + 1]? := by
      intro i hi
      have hj : g.rowPtr node + i < sorted.length := by omega
      unfold nextOut
      dsimp only
      rw [hget i hi, outPos_spec hB (sorted_ids hS) _ hj, hget? (i + 1)]
      have hsrc : g.arcSources (g.arcIds (g.rowPtr node + i)) = node := by
        rw [hB.ids _ hj, hB.src _ (List.getElem_mem hj)]
        exact (hrow _ hj).1 ⟨by omega, by omega⟩
      rw [hsrc]
      rfl
    have hnum : g.rowPtr (node + 1) ≤ g.arcNum := by rw [hB.num]; exact hle
    rw [hfirst, visit_of_list _ l hnext _ 0 (by omega), List.drop_zero]
    constructor
    · rw [hl]
      refine List.Nodup.map_on (fun x hx y hy hxy => ?_) List.nodup_range'
      simp only [List.mem_range'_1] at hx hy
      have := congrArg (outPos g) hxy
      rwa [outPos_spec hB (sorted_ids hS) _ (by omega), outPos_spec hB (sorted_ids hS) _ (by omega)] at this
    · intro k
      rw [hl, List.mem_map]
      constructor
      · rintro ⟨j, hj, rfl⟩
        simp only [List.mem_range'_1] at hj
        have hj' : j < sorted.length := by omega
        have := (sorted_mem hS sorted[j]).1 (List.getElem_mem hj')
        rw [hB.ids j hj', this, Option.map_some]
        rw [(hrow j hj').1 ⟨hj.1, by omega⟩]
      · intro hk
        obtain ⟨e, he, hen⟩ := Option.map_eq_some_iff.1 hk
        have hmem : (e.1, e.2, k) ∈ sorted := (sorted_mem hS _).2 he
        obtain ⟨j, hj, hje⟩ := List.mem_iff_getElem.1 hmem
        have hin := (hrow j hj).2 (by rw [hje]; exact hen)
        refine ⟨j, ?_, ?_⟩
        · simp only [List.mem_range'_1]; omega
        · rw [hB.ids j hj, hje]

/-- **C14**, in-arcs.  `firstIn`/`nextIn` visit exactly the edges that enter `node`, each once. -/
theorem C14_in_arcs (hE : ∀ e ∈ edges, e.1 < n1 ∧ n1 ≤ e.2 ∧ e.2 < n1 + n2) (node : ℕ) :
    (inArcsVisited (build n1 n2 sorted) node).Nodup ∧
    ∀ k, k ∈ inArcsVisited (build n1 n2 sorted) node ↔ edges[k]?.map Prod.snd = some node := by
  have hT := fun k => (C14_endpoints (n1 := n1) (n2 := n2) hS k).2
  have hB := sorted_built (n1 := n1) (n2 := n2) hS
  generalize build n1 n2 sorted = g at hB hT ⊢
  unfold inArcsVisited
  by_cases hn : n1 + n2 ≤ node ∨ node < n1
  · have : firstIn g node = none := by unfold firstIn; rw [hB.hn1, hB.hn2, if_pos hn]
    rw [this, visit]
    refine ⟨List.nodup_nil, fun k => ⟨fun h => (by cases h), fun hk => ?_⟩⟩
    obtain ⟨e, he, hen⟩ := Option.map_eq_some_iff.1 hk
    have := hE e (List.mem_iff_getElem?.2 ⟨k, he⟩)
    omega
  · have hfirst : firstIn g node = (inArcs g node)[0]? := by unfold firstIn; rw [hB.hn1, hB.hn2, if_neg hn]
    have hlen : (inArcs g node).length ≤ g.arcNum := by
      rw [inArcs_spec]
      exact le_trans (List.length_filter_le _ _) (by simp)
    have hnext : ∀ i (hi : i < (inArcs g node).length), nextIn g (inArcs g node)[i] = (inArcs g node)[i + 1]? := by
      intro i hi
      have ht : g.arcTargets (inArcs g node)[i] = node := mem_inArcs g node _ (List.getElem_mem hi)
      unfold nextIn
      rw [ht, inPos_spec g node (by rw [hB.hn1, hB.hn2]; omega) i hi]
    rw [hfirst, visit_of_list _ _ hnext _ 0 (by omega), List.drop_zero, inArcs_spec]
    refine ⟨List.Nodup.filter _ List.nodup_range, fun k => ?_⟩
    rw [List.mem_filter, ← hT k, List.mem_range]
    unfold target
    split_ifs with hk <;> simp [hk]

end

/-- four edges on two sources and three targets, listed out of order -/
def exEdges : List (ℕ × ℕ) := [(1, 4), (0, 3), (1, 2), (0, 2)]
/-- their sorted list -/
def exSorted : List (ℕ × ℕ × ℕ) := [(0, 2, 3), (0, 3, 1), (1, 2, 2), (1, 4, 0)]

example : IsSorted exEdges exSorted := ⟨by decide, by decide⟩
example : outArcs (build 2 3 exSorted) 1 = [2, 0] ∧ inArcsVisited (build 2 3 exSorted) 2 = [2, 3] ∧
    firstOut (build 2 3 exSorted) 0 = some 3 := by decide

end POT.Props
