import Verif.Model.SparseGraph
import Mathlib.Data.List.Perm.Basic
import Mathlib.Data.List.Count
import Mathlib.Data.List.Nodup
import Mathlib.Data.List.Range
import Mathlib.Tactic.SplitIfs

/-! # Lemmas about the compressed row structure -/

namespace POT.Sparse

theorem fillRows_spec (i c : ℕ) (g : Csr) :
    fillRows i c g = { g with
      rowPtr := fun r => if g.currentRow < r ∧ r ≤ g.currentRow + c then i else g.rowPtr r
      currentRow := g.currentRow + c } := by
  induction c generalizing g with
  | zero =>
    have : ∀ r, ¬ (g.currentRow < r ∧ r ≤ g.currentRow + 0) := fun r => by omega
    simp only [fillRows, if_neg (this _)]
    rfl
  | succ c ih =>
    rw [fillRows, ih]
    have e1 : g.currentRow + 1 + c = g.currentRow + (c + 1) := by omega
    have e2 : (fun r => if g.currentRow + 1 < r ∧ r ≤ g.currentRow + 1 + c then i else Function.update g.rowPtr (g.currentRow + 1) i r) =
        fun r => if g.currentRow < r ∧ r ≤ g.currentRow + (c + 1) then i else g.rowPtr r := by
      funext r
      rw [Function.update_apply]
      split_ifs <;> first | rfl | omega
    dsimp only
    rw [e1] at e2 ⊢
    rw [e2]

/-- number of entries with source below `r` -/
def below (l : List (ℕ × ℕ × ℕ)) (r : ℕ) : ℕ := l.countP fun e => e.1 < r

structure BuildInv (n1 n2 N : ℕ) (p : List (ℕ × ℕ × ℕ)) (g : Csr) : Prop where
  hn1 : g.n1 = n1
  hn2 : g.n2 = n2
  num : g.arcNum = N
  col : ∀ j (h : j < p.length), g.colIndices j = p[j].2.1
  ids : ∀ j (h : j < p.length), g.arcIds j = p[j].2.2
  src : ∀ e ∈ p, g.arcSources e.2.2 = e.1
  tgt : ∀ e ∈ p, g.arcTargets e.2.2 = e.2.1
  row : ∀ r, r ≤ g.currentRow → g.rowPtr r = below p r
  le : ∀ e ∈ p, e.1 ≤ g.currentRow
  cur : g.currentRow = 0 ∨ ∃ e ∈ p, e.1 = g.currentRow

theorem below_le (l : List (ℕ × ℕ × ℕ)) (r : ℕ) : below l r ≤ l.length := List.countP_le_length

theorem below_all {l : List (ℕ × ℕ × ℕ)} {r : ℕ} (h : ∀ e ∈ l, e.1 < r) : below l r = l.length := by
  unfold below
  rw [List.countP_eq_length]
  intro e he
  simpa using h e he

theorem build_inv (n1 n2 N : ℕ) (p : List (ℕ × ℕ × ℕ)) (hs : p.Pairwise fun e e' => e.1 ≤ e'.1) (hid : (p.map fun e => e.2.2).Nodup) :
    BuildInv n1 n2 N p (p.zipIdx.foldl buildStep ⟨n1, n2, N, fun _ => 0, fun _ => 0, fun _ => 0, fun _ => 0, fun _ => 0, 0⟩) := by
  induction p using List.reverseRecOn with
  | nil =>
    refine ⟨rfl, rfl, rfl, ?_, ?_, ?_, ?_, ?_, ?_, Or.inl rfl⟩
    · intro j h; simp at h
    · intro j h; simp at h
    · intro e h; cases h
    · intro e h; cases h
    · intro r _; rfl
    · intro e h; cases h
  | append_singleton p e ih =>
    rw [List.pairwise_append] at hs
    obtain ⟨hs1, _, hs2⟩ := hs
    rw [List.map_append, List.nodup_append] at hid
    obtain ⟨hid1, _, hid2⟩ := hid
    have h := ih hs1 hid1
    have hz : (p ++ [e]).zipIdx = p.zipIdx ++ [(e, p.length)] := by simp [List.zipIdx_append]
    rw [hz, List.foldl_append]
    generalize p.zipIdx.foldl buildStep _ = g at h ⊢
    simp only [List.foldl_cons, List.foldl_nil]
    have hcur : g.currentRow ≤ e.1 := by
      rcases h.cur with h0 | ⟨e', he', h0⟩
      · omega
      · rw [← h0]; exact hs2 e' he' e (by simp)
    have hne : ∀ e' ∈ p, e'.2.2 ≠ e.2.2 := fun e' he' => hid2 _ (List.mem_map_of_mem he') _ (by simp)
    unfold buildStep
    dsimp only
    rw [fillRows_spec]
    have hsub : g.currentRow + (e.1 - g.currentRow) = e.1 := by omega
    refine ⟨h.hn1, h.hn2, h.num, ?_, ?_, ?_, ?_, ?_, ?_, ?_⟩
    · intro j hj
      dsimp only
      rw [Function.update_apply]
      split_ifs with hjl
      · subst hjl; simp
      · have hj' : j < p.length := by simp at hj; omega
        rw [h.col j hj', List.getElem_append_left hj']
    · intro j hj
      dsimp only
      rw [Function.update_apply]
      split_ifs with hjl
      · subst hjl; simp
      · have hj' : j < p.length := by simp at hj; omega
        rw [h.ids j hj', List.getElem_append_left hj']
    · intro e' he'
      dsimp only
      rcases List.mem_append.1 he' with he' | he'
      · rw [Function.update_of_ne (hne e' he'), h.src e' he']
      · rw [List.mem_singleton.1 he', Function.update_self]
    · intro e' he'
      dsimp only
      rcases List.mem_append.1 he' with he' | he'
      · rw [Function.update_of_ne (hne e' he'), h.tgt e' he']
      · rw [List.mem_singleton.1 he', Function.update_self]
    · intro r hr
      dsimp only at hr ⊢
      rw [hsub] at hr ⊢
      have hb : below (p ++ [e]) r = below p r := by
        unfold below
        rw [List.countP_append]
        have : ¬ e.1 < r := by omega
        simp [this]
      rw [hb]
      split_ifs with hc
      · rw [below_all]
        intro e' he'
        exact lt_of_le_of_lt (h.le e' he') hc.1
      · exact h.row r (by omega)
    · intro e' he'
      dsimp only
      rw [hsub]
      rcases List.mem_append.1 he' with he' | he'
      · exact le_trans (h.le e' he') hcur
      · rw [List.mem_singleton.1 he']
    · right
      refine ⟨e, by simp, ?_⟩
      dsimp only
      omega

/-- the finished structure -/
structure Built (n1 n2 : ℕ) (p : List (ℕ × ℕ × ℕ)) (g : Csr) : Prop where
  hn1 : g.n1 = n1
  hn2 : g.n2 = n2
  num : g.arcNum = p.length
  col : ∀ j (h : j < p.length), g.colIndices j = p[j].2.1
  ids : ∀ j (h : j < p.length), g.arcIds j = p[j].2.2
  src : ∀ e ∈ p, g.arcSources e.2.2 = e.1
  tgt : ∀ e ∈ p, g.arcTargets e.2.2 = e.2.1
  row : ∀ r, r ≤ n1 → g.rowPtr r = below p r

theorem build_spec (n1 n2 : ℕ) (p : List (ℕ × ℕ × ℕ)) (hs : p.Pairwise fun e e' => e.1 ≤ e'.1) (hid : (p.map fun e => e.2.2).Nodup) :
    Built n1 n2 p (build n1 n2 p) := by
  have h := build_inv n1 n2 p.length p hs hid
  unfold build
  dsimp only
  generalize p.zipIdx.foldl buildStep _ = g at h ⊢
  rw [fillRows_spec]
  refine ⟨h.hn1, h.hn2, h.num, h.col, h.ids, h.src, h.tgt, fun r hr => ?_⟩
  dsimp only
  split_ifs with hc
  · rw [below_all fun e he => lt_of_le_of_lt (h.le e he) hc.1]
  · exact h.row r (by omega)

/-- in a list sorted by source, the entries with source below `r` come first -/
theorem below_iff {l : List (ℕ × ℕ × ℕ)} (hs : l.Pairwise fun e e' => e.1 ≤ e'.1) (r j : ℕ) (hj : j < l.length) : below l r ≤ j ↔ r ≤ l[j].1 := by
  induction l generalizing j with
  | nil => simp at hj
  | cons a l ih =>
    rw [List.pairwise_cons] at hs
    unfold below at ih ⊢
    rw [List.countP_cons]
    by_cases ha : a.1 < r
    · cases j with
      | zero => simp [ha]
      | succ j =>
        simp only [ha, decide_true, if_true, List.getElem_cons_succ]
        rw [← ih hs.2 j (by simpa using hj)]
        omega
    · have h0 : List.countP (fun e : ℕ × ℕ × ℕ => decide (e.1 < r)) l = 0 := by
        rw [List.countP_eq_zero]
        intro e he
        have := hs.1 e he
        simp; omega
      simp only [ha, decide_false, h0]
      constructor
      · intro _
        cases j with
        | zero => simpa using ha
        | succ j =>
          have := hs.1 _ (List.getElem_mem (show j < l.length by simpa using hj))
          simp only [List.getElem_cons_succ]; omega
      · intro _; simp

theorem lowerBound_spec (col : ℕ → ℕ) (t : ℕ) (first len : ℕ)
    (hs : ∀ i j, first ≤ i → i ≤ j → j < first + len → col i ≤ col j) :
    let p := lowerBound col t first len
    first ≤ p ∧ p ≤ first + len ∧ (∀ j, first ≤ j → j < p → col j < t) ∧ ∀ j, p ≤ j → j < first + len → t ≤ col j := by
  induction len using Nat.strong_induction_on generalizing first with
  | _ len ih =>
    unfold lowerBound
    split_ifs with h0 h1
    · subst h0
      exact ⟨le_rfl, by omega, fun j h1 h2 => by omega, fun j h1 h2 => by omega⟩
    · obtain ⟨q1, q2, q3, q4⟩ := ih (len - len / 2 - 1) (by omega) (first + len / 2 + 1) (fun i j hi hij hj => hs i j (by omega) hij (by omega))
      refine ⟨by omega, by omega, fun j hj1 hj2 => ?_, fun j hj1 hj2 => q4 j hj1 (by omega)⟩
      by_cases hj : first + len / 2 + 1 ≤ j
      · exact q3 j hj hj2
      · exact lt_of_le_of_lt (hs j (first + len / 2) hj1 (by omega) (by omega)) h1
    · obtain ⟨q1, q2, q3, q4⟩ := ih (len / 2) (by omega) first (fun i j hi hij hj => hs i j (by omega) hij (by omega))
      refine ⟨by omega, by omega, q3, fun j hj1 hj2 => ?_⟩
      by_cases hj : j < first + len / 2
      · exact q4 j hj1 hj
      · exact le_trans (not_lt.1 h1) (hs (first + len / 2) j (by omega) (by omega) hj2)

section
variable {n1 n2 : ℕ} {p : List (ℕ × ℕ × ℕ)} {g : Csr} (h : Built n1 n2 p g) (hs : p.Pairwise fun e e' => e.1 ≤ e'.1)
include h hs

/-- positions of row `s` -/
theorem mem_row {s j : ℕ} (hsn : s < n1) (hj : j < p.length) : (g.rowPtr s ≤ j ∧ j < g.rowPtr (s + 1)) ↔ p[j].1 = s := by
  rw [h.row s hsn.le, h.row (s + 1) hsn]
  have h1 := below_iff hs s j hj
  have h2 := below_iff hs (s + 1) j hj
  constructor
  · intro ⟨q1, q2⟩
    have := h1.1 q1
    have := mt h2.2 (not_le.2 q2)
    omega
  · intro q
    exact ⟨h1.2 (by omega), not_le.1 (mt h2.1 (by omega))⟩

omit hs in
theorem row_le (s : ℕ) (hsn : s ≤ n1) : g.rowPtr s ≤ p.length := by
  rw [h.row s hsn]; exact below_le _ _

omit hs in
theorem row_mono (s : ℕ) (hsn : s < n1) : g.rowPtr s ≤ g.rowPtr (s + 1) := by
  rw [h.row s hsn.le, h.row (s + 1) hsn]
  refine List.countP_mono_left fun e _ he => ?_
  simp only [decide_eq_true_eq] at he ⊢
  omega

omit hs in
theorem outPos_spec (hid : (p.map fun e => e.2.2).Nodup) (j : ℕ) (hj : j < p.length) : outPos g (g.arcIds j) = j := by
  unfold outPos
  rw [h.num]
  have inj : ∀ i j, i < p.length → j < p.length → g.arcIds i = g.arcIds j → i = j := by
    intro i j hi hj hij
    rw [h.ids i hi, h.ids j hj] at hij
    have e : ∀ k (hk : k < p.length), (p.map fun e => e.2.2)[k]'(by simpa using hk) = p[k].2.2 := fun k hk => by simp
    rw [← e i hi, ← e j hj] at hij
    exact (List.Nodup.getElem_inj_iff hid).1 hij
  have key : ∀ N, N ≤ p.length → j < N → (List.range N).foldl (fun arr p => Function.update arr (g.arcIds p) p) (fun _ => 0) (g.arcIds j) = j := by
    intro N hN hjN
    induction N with
    | zero => omega
    | succ N ih =>
      rw [List.range_succ, List.foldl_append, List.foldl_cons, List.foldl_nil, Function.update_apply]
      split_ifs with he
      · exact (inj j N hj (by omega) he).symm
      · exact ih (by omega) (by
          have : j ≠ N := fun hjN => he (by rw [hjN])
          omega)
  exact key p.length le_rfl hj

end

theorem visit_of_list (next : ℕ → Option ℕ) (l : List ℕ) (hnext : ∀ i (hi : i < l.length), next l[i] = l[i + 1]?) (fuel i : ℕ) (hf : l.length - i < fuel) :
    visit next fuel l[i]? = l.drop i := by
  induction fuel generalizing i with
  | zero => omega
  | succ fuel ih =>
    by_cases hi : i < l.length
    · rw [List.getElem?_eq_getElem hi, visit, hnext i hi, ih (i + 1) (by omega), ← List.drop_eq_getElem_cons hi]
    · rw [List.getElem?_eq_none (by omega), visit, List.drop_eq_nil_of_le (by omega)]

theorem inArcs_spec (g : Csr) (node : ℕ) : inArcs g node = (List.range g.arcNum).filter fun a => g.arcTargets a = node := by
  unfold inArcs
  generalize g.arcNum = N
  induction N with
  | zero => rfl
  | succ N ih =>
    rw [List.range_succ, List.foldl_append, List.filter_append, ← ih, List.foldl_cons, List.foldl_nil, Function.update_apply]
    by_cases hn : g.arcTargets N = node
    · simp [hn]
    · rw [if_neg (Ne.symm hn)]; simp [hn]

theorem mem_inArcs (g : Csr) (node a : ℕ) (ha : a ∈ inArcs g node) : g.arcTargets a = node := by
  rw [inArcs_spec, List.mem_filter] at ha
  simpa using ha.2

theorem inPos_spec (g : Csr) (node : ℕ) (hnode : node < g.n1 + g.n2) (i : ℕ) (hi : i < (inArcs g node).length) :
    inPos g (inArcs g node)[i] = i := by
  have hnd : ∀ node, (inArcs g node).Nodup := fun node => by
    rw [inArcs_spec]; exact List.Nodup.filter _ List.nodup_range
  have hmem : ∀ node a, a ∈ inArcs g node → g.arcTargets a = node := by
    intro node a ha
    rw [inArcs_spec, List.mem_filter] at ha
    simpa using ha.2
  have inner : ∀ (l : List ℕ) (arr : ℕ → ℕ) (k x : ℕ), l.Nodup →
      (l.zipIdx k).foldl (fun arr p => Function.update arr p.1 p.2) arr x = if x ∈ l then k + l.idxOf x else arr x := by
    intro l
    induction l with
    | nil => intro arr k x _; rfl
    | cons a l ih =>
      intro arr k x hl
      rw [List.nodup_cons] at hl
      rw [List.zipIdx_cons, List.foldl_cons, ih _ _ _ hl.2]
      by_cases hx : x = a
      · subst hx
        simp [hl.1]
      · simp only [List.mem_cons, hx, false_or, Function.update_apply, if_false]
        split_ifs
        · rw [List.idxOf_cons_ne _ (Ne.symm hx)]; omega
        · rfl
  unfold inPos
  have key : ∀ N, N ≤ g.n1 + g.n2 → node < N →
      (List.range N).foldl (fun arr node => (inArcs g node).zipIdx.foldl (fun arr p => Function.update arr p.1 p.2) arr) (fun _ => 0)
        (inArcs g node)[i] = i := by
    intro N hN hlt
    induction N with
    | zero => omega
    | succ N ih =>
      rw [List.range_succ, List.foldl_append, List.foldl_cons, List.foldl_nil, inner _ _ _ _ (hnd N)]
      by_cases he : node = N
      · subst he
        rw [if_pos (List.getElem_mem hi), List.Nodup.idxOf_getElem (hnd node)]
        omega
      · rw [if_neg, ih (by omega) (by omega)]
        intro hm
        exact he ((hmem _ _ (List.getElem_mem hi)).symm.trans (hmem _ _ hm))
  exact key _ le_rfl hnode

end POT.Sparse
