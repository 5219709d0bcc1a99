import Verif.Lemmas.EmdWrap2
import Verif.Lemmas.SimplexBigM
import Verif.Model.EmdSparse
import Verif.Spec.EdgePlan
import Mathlib.Tactic.Positivity

/-! # Facts about `EMD_wrap_sparse` -/

set_option linter.unusedSectionVars false

namespace POT.Simplex

open Spec Finset

variable {R : Type*} [Field R] [LinearOrder R] [IsStrictOrderedRing R] {n1 n2 K : ℕ}

theorem sum_list_get {n : ℕ} (l : List (Fin n)) (hl : l.Nodup) (F : Fin n → R) (h : ∀ x, x ∉ l → F x = 0) : ∑ x, F x = ∑ i : Fin l.length, F (l.get i) := by
  have h1 : ∑ i : Fin l.length, F (l.get i) = (l.map F).sum := by
    rw [← List.sum_ofFn]
    congr 1
    conv_rhs => rw [← List.ofFn_get l]
    rw [List.map_ofFn]
    rfl
  rw [h1, ← List.sum_toFinset F hl]
  symm
  refine Finset.sum_subset (Finset.subset_univ _) fun x _ hx => h x fun hpos => hx ?_
  rw [List.mem_toFinset]
  exact hpos

theorem kept_nodup (a : Fin n1 → R) (b : Fin n2 → R) (src : Fin K → Fin n1) (tgt : Fin K → Fin n2) : (keptEdges a b src tgt).Nodup :=
  (List.nodup_finRange K).filter _

theorem mem_kept {a : Fin n1 → R} {b : Fin n2 → R} {src : Fin K → Fin n1} {tgt : Fin K → Fin n2} {k : Fin K} :
    k ∈ keptEdges a b src tgt ↔ 0 < a (src k) ∧ 0 < b (tgt k) := by simp [keptEdges]

theorem kept_length (a : Fin n1 → R) (b : Fin n2 → R) (src : Fin K → Fin n1) (tgt : Fin K → Fin n2) : (keptEdges a b src tgt).length ≤ K := by
  have := List.length_filter_le (fun k => decide (0 < a (src k) ∧ 0 < b (tgt k))) (List.finRange K)
  rwa [List.length_finRange] at this

theorem toGraph_get {n : ℕ} (w : Fin n → R) (i : Fin n) (h : 0 < w i) : (posIdx w).get (toGraph w i h) = i := by
  unfold toGraph
  exact List.getElem_idxOf _

theorem toGraph_eq_iff {n : ℕ} (w : Fin n → R) (i : Fin n) (h : 0 < w i) (r) : toGraph w i h = r ↔ i = (posIdx w).get r := by
  constructor
  · rintro rfl; exact (toGraph_get w i h).symm
  · intro he
    exact (List.nodup_iff_injective_get.1 (posIdx_nodup w)) (by rw [toGraph_get, he])

section problem
variable (a : Fin n1 → R) (b : Fin n2 → R) (src : Fin K → Fin n1) (tgt : Fin K → Fin n2) (c : Fin K → R)
  [NeZero ((posIdx a).length + (posIdx b).length)]

theorem sp_src (k : Fin (keptEdges a b src tgt).length) : (sparseProblem a b src tgt c).src (arcPerm true _ k)
    = nodeAt _ _ (.inl (toGraph a (src ((keptEdges a b src tgt).get k)) (kept_src k).1)) :=
  endpoints_arcId true (fun k : Fin (keptEdges a b src tgt).length =>
    Fin.castAdd (posIdx b).length (toGraph a (src ((keptEdges a b src tgt).get k)) (kept_src k).1)) k

theorem sp_tgt (k : Fin (keptEdges a b src tgt).length) : (sparseProblem a b src tgt c).tgt (arcPerm true _ k)
    = nodeAt _ _ (.inr (toGraph b (tgt ((keptEdges a b src tgt).get k)) (kept_src k).2)) :=
  endpoints_arcId true (fun k : Fin (keptEdges a b src tgt).length =>
    Fin.natAdd (posIdx a).length (toGraph b (tgt ((keptEdges a b src tgt).get k)) (kept_src k).2)) k

theorem sp_cost (k : Fin (keptEdges a b src tgt).length) : (sparseProblem a b src tgt c).cost (arcPerm true _ k) = c ((keptEdges a b src tgt).get k) :=
  costArray_arcPerm true (fun k : Fin (keptEdges a b src tgt).length => c ((keptEdges a b src tgt).get k)) k

theorem sp_supply_inl (i) : (sparseProblem a b src tgt c).supply (nodeAt _ _ (.inl i)) = a ((posIdx a).get i) := by
  simp [sparseProblem, nodeAt, nodeId]

theorem sp_supply_inr (j) : (sparseProblem a b src tgt c).supply (nodeAt _ _ (.inr j)) = -b ((posIdx b).get j) := by
  simp [sparseProblem, nodeAt, nodeId]

theorem sp_bipartite : Bipartite (sparseProblem a b src tgt c) := by
  intro e
  obtain ⟨k, rfl⟩ := (arcPerm true _).surjective e
  rw [sp_src, sp_tgt, sp_supply_inl, sp_supply_inr, toGraph_get, toGraph_get]
  exact ⟨(kept_src k).1.le, neg_lt_zero.2 (kept_src k).2⟩

theorem sp_row (f : Fin (keptEdges a b src tgt).length → R) (i) :
    netFlow (sparseProblem a b src tgt c).src (sparseProblem a b src tgt c).tgt f (nodeAt _ _ (.inl i))
      = ∑ k, if src ((keptEdges a b src tgt).get k) = (posIdx a).get i then f (arcPerm true _ k) else 0 := by
  unfold netFlow
  rw [← Finset.sum_sub_distrib, ← Equiv.sum_comp (arcPerm true _)]
  simp only [sp_src, sp_tgt, EmbeddingLike.apply_eq_iff_eq, Sum.inl.injEq, reduceCtorEq, if_false, sub_zero, toGraph_eq_iff]

theorem sp_col (f : Fin (keptEdges a b src tgt).length → R) (j) :
    netFlow (sparseProblem a b src tgt c).src (sparseProblem a b src tgt c).tgt f (nodeAt _ _ (.inr j))
      = -∑ k, if tgt ((keptEdges a b src tgt).get k) = (posIdx b).get j then f (arcPerm true _ k) else 0 := by
  unfold netFlow
  rw [← Finset.sum_sub_distrib, ← Equiv.sum_comp (arcPerm true _), ← Finset.sum_neg_distrib]
  simp only [sp_src, sp_tgt, EmbeddingLike.apply_eq_iff_eq, Sum.inr.injEq, reduceCtorEq, if_false, zero_sub, neg_inj, toGraph_eq_iff]

variable {a b src tgt c}

theorem edge_zero {F : Fin K → R} (hF : IsEdgePlan src tgt a b F) {k : Fin K} (hk : k ∉ keptEdges a b src tgt) : F k = 0 := by
  rw [mem_kept, not_and_or, not_lt, not_lt] at hk
  refine le_antisymm ?_ (hF.nonneg k)
  rcases hk with hk | hk
  · refine le_trans ?_ hk
    rw [← hF.row (src k)]
    have := single_le_sum (f := fun l => if src l = src k then F l else 0) (fun l _ => by split_ifs; exacts [hF.nonneg l, le_refl _]) (mem_univ k)
    simpa using this
  · refine le_trans ?_ hk
    rw [← hF.col (tgt k)]
    have := single_le_sum (f := fun l => if tgt l = tgt k then F l else 0) (fun l _ => by split_ifs; exacts [hF.nonneg l, le_refl _]) (mem_univ k)
    simpa using this

/-- an edge plan is a flow of the network -/
theorem flow_of_plan {F : Fin K → R} (hF : IsEdgePlan src tgt a b F) :
    IsFlow (sparseProblem a b src tgt c).src (sparseProblem a b src tgt c).tgt (sparseProblem a b src tgt c).supply
      (fun e => F ((keptEdges a b src tgt).get ((arcPerm true _).symm e))) := by
  refine ⟨fun e => hF.nonneg _, fun v => ?_⟩
  obtain ⟨x, rfl⟩ := (nodeAt _ _).surjective v
  cases x with
  | inl i =>
    rw [sp_row, sp_supply_inl, ← hF.row]
    simp only [Equiv.symm_apply_apply]
    rw [sum_list_get _ (kept_nodup a b src tgt) (fun k => if src k = (posIdx a).get i then F k else 0)]
    intro k hk
    rw [edge_zero hF hk]; simp
  | inr j =>
    rw [sp_col, sp_supply_inr, ← hF.col]
    simp only [Equiv.symm_apply_apply]
    rw [sum_list_get _ (kept_nodup a b src tgt) (fun k => if tgt k = (posIdx b).get j then F k else 0)]
    intro k hk
    rw [edge_zero hF hk]; simp

variable (a b src tgt) in
/-- flow of a state on the given edges -/
noncomputable def edgeFlow (s : State (Node ((posIdx a).length + (posIdx b).length)) (Arc ((posIdx a).length + (posIdx b).length) (keptEdges a b src tgt).length) R) :
    Fin K → R := scatter (keptEdges a b src tgt) fun k => s.flow (.inl (arcPerm true _ k))

variable {s : State (Node ((posIdx a).length + (posIdx b).length)) (Arc ((posIdx a).length + (posIdx b).length) (keptEdges a b src tgt).length) R}

theorem edgeFlow_get (k) : edgeFlow a b src tgt s ((keptEdges a b src tgt).get k) = s.flow (.inl (arcPerm true _ k)) :=
  scatter_get _ (kept_nodup a b src tgt) _ k

theorem edgeFlow_notMem {k} (hk : k ∉ keptEdges a b src tgt) : edgeFlow a b src tgt s k = 0 := scatter_notMem _ _ _ hk

theorem edgeFlow_nonneg (h : Good (sparseProblem a b src tgt c) s) (k) : 0 ≤ edgeFlow a b src tgt s k := by
  by_cases hk : k ∈ keptEdges a b src tgt
  · obtain ⟨e, rfl⟩ := List.mem_iff_get.1 hk
    rw [edgeFlow_get]; exact art_nonneg h _
  · rw [edgeFlow_notMem hk]

theorem edgeFlow_row (h : Good (sparseProblem a b src tgt c) s) (i) :
    (∑ k, if src k = (posIdx a).get i then edgeFlow a b src tgt s k else 0) = a ((posIdx a).get i) - s.flow (.inr (nodeAt _ _ (.inl i))) := by
  have h1 := good_net h (nodeAt _ _ (.inl i))
  rw [sp_row, sp_supply_inl, if_pos (posIdx_pos a i).le] at h1
  rw [← h1, sum_list_get _ (kept_nodup a b src tgt)]
  · simp only [edgeFlow_get]
  · intro k hk; rw [edgeFlow_notMem hk]; simp

theorem edgeFlow_col (h : Good (sparseProblem a b src tgt c) s) (j) :
    (∑ k, if tgt k = (posIdx b).get j then edgeFlow a b src tgt s k else 0) = b ((posIdx b).get j) - s.flow (.inr (nodeAt _ _ (.inr j))) := by
  have h1 := good_net h (nodeAt _ _ (.inr j))
  have hneg : ¬ 0 ≤ -b ((posIdx b).get j) := by have := posIdx_pos b j; linarith
  rw [sp_col, sp_supply_inr, if_neg hneg] at h1
  have h2 : (∑ k, if tgt k = (posIdx b).get j then edgeFlow a b src tgt s k else 0)
      = ∑ k, if tgt ((keptEdges a b src tgt).get k) = (posIdx b).get j then s.flow (.inl (arcPerm true _ k)) else 0 := by
    rw [sum_list_get _ (kept_nodup a b src tgt)]
    · simp only [edgeFlow_get]
    · intro k hk; rw [edgeFlow_notMem hk]; simp
  rw [h2]
  linarith

theorem edgeFlow_row_zero {i} (hi : ¬ 0 < a i) : (∑ k, if src k = i then edgeFlow a b src tgt s k else 0) = 0 := by
  refine sum_eq_zero fun k _ => ?_
  split_ifs with h
  · exact edgeFlow_notMem fun hk => hi (h ▸ (mem_kept.1 hk).1)
  · rfl

theorem edgeFlow_col_zero {j} (hj : ¬ 0 < b j) : (∑ k, if tgt k = j then edgeFlow a b src tgt s k else 0) = 0 := by
  refine sum_eq_zero fun k _ => ?_
  split_ifs with h
  · exact edgeFlow_notMem fun hk => hj (h ▸ (mem_kept.1 hk).2)
  · rfl

theorem edgeFlow_row_bound (h : Good (sparseProblem a b src tgt c) s) (ha : ∀ i, 0 ≤ a i) {δ : R} (hδ0 : 0 ≤ δ) (hδ : ∀ u, s.flow (.inr u) ≤ δ) (i) :
    (∑ k, if src k = i then edgeFlow a b src tgt s k else 0) ≤ a i ∧ a i - δ ≤ ∑ k, if src k = i then edgeFlow a b src tgt s k else 0 := by
  by_cases hi : 0 < a i
  · obtain ⟨r, rfl⟩ := List.get_of_mem ((mem_posIdx a i).2 hi)
    rw [edgeFlow_row h]
    have h1 := art_nonneg h (.inr (nodeAt _ _ (.inl r)))
    have h2 := hδ (nodeAt _ _ (.inl r))
    constructor <;> linarith
  · rw [edgeFlow_row_zero hi]; have := ha i; constructor <;> linarith

theorem edgeFlow_col_bound (h : Good (sparseProblem a b src tgt c) s) (hb : ∀ j, 0 ≤ b j) {δ : R} (hδ0 : 0 ≤ δ) (hδ : ∀ u, s.flow (.inr u) ≤ δ) (j) :
    (∑ k, if tgt k = j then edgeFlow a b src tgt s k else 0) ≤ b j ∧ b j - δ ≤ ∑ k, if tgt k = j then edgeFlow a b src tgt s k else 0 := by
  by_cases hj : 0 < b j
  · obtain ⟨r, rfl⟩ := List.get_of_mem ((mem_posIdx b j).2 hj)
    rw [edgeFlow_col h]
    have h1 := art_nonneg h (.inr (nodeAt _ _ (.inr r)))
    have h2 := hδ (nodeAt _ _ (.inr r))
    constructor <;> linarith
  · rw [edgeFlow_col_zero hj]; have := hb j; constructor <;> linarith

theorem sp_dual {τ : R} (ho : TolOpt (sparseProblem a b src tgt c) τ s) (k) :
    alphaOf _ _ s.pi (toGraph a (src ((keptEdges a b src tgt).get k)) (kept_src k).1)
      + betaOf _ _ s.pi (toGraph b (tgt ((keptEdges a b src tgt).get k)) (kept_src k).2) ≤ c ((keptEdges a b src tgt).get k) + τ := by
  have := ho (arcPerm true _ k)
  unfold redCost at this
  simp only [initNet, sp_src, sp_tgt, sp_cost] at this
  unfold alphaOf betaOf
  linarith

theorem sp_slack (h : Good (sparseProblem a b src tgt c) s) (k) (hne : s.flow (.inl (arcPerm true _ k)) ≠ 0) :
    alphaOf _ _ s.pi (toGraph a (src ((keptEdges a b src tgt).get k)) (kept_src k).1)
      + betaOf _ _ s.pi (toGraph b (tgt ((keptEdges a b src tgt).get k)) (kept_src k).2) = c ((keptEdges a b src tgt).get k) := by
  have := redCost_of_flow h hne
  unfold redCost at this
  simp only [initNet, sp_src, sp_tgt, sp_cost] at this
  unfold alphaOf betaOf
  linarith

/-- the artificial cost is large enough -/
theorem sp_dear {eps C junk : R} (heps : 0 ≤ eps) (hC0 : 0 ≤ C) (hc : ∀ k, 0 ≤ c k ∧ c k ≤ C) (hsmall : eps * (2 * (C + 1) * (n1 + n2)) < 1)
    (ho : OptimalFrom (sparseProblem a b src tgt c) eps junk s) :
    TolOpt (sparseProblem a b src tgt c) (eps * (2 * (C + 1) * (n1 + n2))) s ∧
      ((∃ F, IsEdgePlan src tgt a b F) → ∀ u, s.flow (.inr u) = 0) := by
  have hcost : ∀ e, 0 ≤ (sparseProblem a b src tgt c).cost e ∧ (sparseProblem a b src tgt c).cost e ≤ C := by
    intro e
    obtain ⟨k, rfl⟩ := (arcPerm true _).surjective e
    rw [sp_cost]; exact hc _
  obtain ⟨mx, hmx⟩ : ∃ mx, mx = maxRealArcCost (sparseProblem a b src tgt c).cost := ⟨_, rfl⟩
  have hle : ∀ e, (sparseProblem a b src tgt c).cost e ≤ mx := fun e => by rw [hmx]; exact (maxRealArcCost_spec _).1 e
  have hmx0 : 0 ≤ mx ∧ mx ≤ C := by
    by_cases hN : 0 < (keptEdges a b src tgt).length
    · obtain ⟨e, he⟩ := (maxRealArcCost_spec (sparseProblem a b src tgt c).cost).2 hN
      rw [hmx, he]; exact hcost e
    · have : mx = 0 := by
        rw [hmx]
        unfold maxRealArcCost
        have : List.finRange (keptEdges a b src tgt).length = [] := by
          rw [← List.length_eq_zero_iff, List.length_finRange]; omega
        rw [this]; rfl
      rw [this]; exact ⟨le_refl _, hC0⟩
  obtain ⟨N, hN⟩ : ∃ N : R, (((posIdx a).length + (posIdx b).length : ℕ) : R) = N := ⟨_, rfl⟩
  have hN1 : (1 : R) ≤ N := by
    have : 1 ≤ (posIdx a).length + (posIdx b).length := Nat.one_le_iff_ne_zero.2 (NeZero.ne _)
    rw [← hN]; exact_mod_cast this
  have hNle : N ≤ n1 + n2 := by
    have h1 := posIdx_length_le a
    have h2 := posIdx_length_le b
    have : (posIdx a).length + (posIdx b).length ≤ n1 + n2 := by omega
    rw [← hN]; exact_mod_cast this
  have hart : (sparseProblem a b src tgt c).art = (mx + 1) * N := by rw [hmx, ← hN]; rfl
  have hart0 : 0 ≤ (sparseProblem a b src tgt c).art := by rw [hart]; exact mul_nonneg (by linarith) (by linarith)
  have hb := ho.bound heps hmx0.1 fun e => by rw [abs_of_nonneg (hcost e).1]; exact hle e
  rw [abs_of_nonneg hart0, hN] at hb
  have hscale : max mx ((sparseProblem a b src tgt c).art + N * mx) ≤ 2 * (C + 1) * (n1 + n2) := by
    have h3 : (mx + 1) * N ≤ (C + 1) * (n1 + n2) := mul_le_mul (by linarith [hmx0.2]) hNle (by linarith) (by linarith)
    have h4 : N * mx ≤ (mx + 1) * N := by nlinarith
    have h5 : mx ≤ (mx + 1) * N := by nlinarith [hmx0.1]
    rw [hart]
    exact max_le (by nlinarith) (by linarith)
  have hτ : eps * max mx ((sparseProblem a b src tgt c).art + N * mx) ≤ eps * (2 * (C + 1) * (n1 + n2)) := mul_le_mul_of_nonneg_left hscale heps
  have hτ0 : 0 ≤ eps * max mx ((sparseProblem a b src tgt c).art + N * mx) := mul_nonneg heps (le_trans hmx0.1 (le_max_left _ _))
  refine ⟨fun e => ?_, ?_⟩
  · have := hb e; linarith
  · rintro ⟨F, hF⟩
    refine art_zero ho.good hτ0 hb (fun e => (hcost e).1) hmx0.1 hle ?_ (flow_of_plan hF)
    obtain ⟨τ, hτe⟩ : ∃ τ, τ = eps * max mx ((sparseProblem a b src tgt c).art + N * mx) := ⟨_, rfl⟩
    rw [← hτe] at hτ ⊢
    rw [hN, hart]
    nlinarith

end problem

/-! ### Extraction -/

theorem extractSparse_spec (mixing : Bool) (indI : List (Fin n1)) (indJ : List (Fin n2)) (N : ℕ) (s : Fin N → Fin indI.length) (t : Fin N → Fin indJ.length) (c : Fin N → R)
    (flow : Fin N → R) (minFlow : R) (maxOut : ℕ) 
    (hmax : ((List.finRange N).filter fun k => minFlow < flow (arcPerm mixing N k)).length ≤ maxOut) :
    ∃ e, extractSparse mixing indI indJ N s t c flow minFlow maxOut = some e ∧ e.1 = ∑ k, flow (arcPerm mixing N k) * c k ∧
      e.2.length = ((List.finRange N).filter fun k => minFlow < flow (arcPerm mixing N k)).length ∧
      ∀ i j, cooEntry e.2 i j = ∑ k, if indI.get (s k) = i ∧ indJ.get (t k) = j ∧ minFlow < flow (arcPerm mixing N k) then flow (arcPerm mixing N k) else 0 := by
  have key : ∀ (l : List (Fin N)) (co : R) (out : List (Fin n1 × Fin n2 × R)), out.length + (l.filter fun k => minFlow < flow (arcPerm mixing N k)).length ≤ maxOut →
      ∃ e : R × List (Fin n1 × Fin n2 × R), l.foldl (fun (acc : Option (R × List (Fin n1 × Fin n2 × R))) (k : Fin N) =>
        match acc with
        | none => none
        | some (cost, out) =>
          let f := readAt flow (arcId mixing N k.val)
          let cost' := if f ≠ 0 then cost + f * c k else cost
          if minFlow < f then
            if maxOut ≤ out.length then none
            else some (cost', out ++ [(indI.get (s k), indJ.get (t k), f)])
          else some (cost', out)) (some (co, out)) = some e ∧ e.2.length = out.length + (l.filter fun k => minFlow < flow (arcPerm mixing N k)).length ∧ e.1 = co + (l.map fun k => flow (arcPerm mixing N k) * c k).sum ∧
        ∀ i j, cooEntry e.2 i j = cooEntry out i j + (l.map fun k => if indI.get (s k) = i ∧ indJ.get (t k) = j ∧ minFlow < flow (arcPerm mixing N k)
          then flow (arcPerm mixing N k) else 0).sum := by
    intro l
    induction l with
    | nil => intro co out _; exact ⟨(co, out), rfl, by simp, by simp, fun i j => by simp⟩
    | cons k l ih =>
      intro co out hlen
      rw [List.filter_cons] at hlen ⊢
      have hread : readAt flow (arcId mixing N k.val) = flow (arcPerm mixing N k) := by
        unfold readAt
        rw [dif_pos (arcId_lt k.isLt)]; rfl
      simp only [List.foldl_cons, hread, List.map_cons, List.sum_cons]
      generalize hf : flow (arcPerm mixing N k) = f at hlen ⊢
      have hco : (if f ≠ 0 then co + f * c k else co) = co + f * c k := by
        split_ifs with h0
        · rfl
        · push Not at h0; rw [h0]; ring
      rw [hco]
      by_cases hm : minFlow < f
      · simp only [hm, decide_true, if_true, List.length_cons] at hlen ⊢
        rw [if_neg (by omega)]
        obtain ⟨e, h1, h0, h2, h3⟩ := ih (co + f * c k) (out ++ [(indI.get (s k), indJ.get (t k), f)]) (by simp; omega)
        refine ⟨e, h1, by rw [h0]; simp; omega, by rw [h2]; ring, fun i j => ?_⟩
        rw [h3]
        simp only [cooEntry, List.map_append, List.sum_append, List.map_cons, List.map_nil, List.sum_cons, List.sum_nil, add_zero, hm, and_true]
        ring
      · simp only [hm, decide_false, Bool.false_eq_true, if_false] at hlen ⊢
        obtain ⟨e, h1, h0, h2, h3⟩ := ih (co + f * c k) out (by omega)
        refine ⟨e, h1, h0, by rw [h2]; ring, fun i j => ?_⟩
        rw [h3]
        simp only [hm, and_false, if_false, zero_add]
  obtain ⟨e, h1, h0, h2, h3⟩ := key (List.finRange N).reverse 0 [] (by rw [List.filter_reverse, List.length_reverse]; simpa using hmax)
  refine ⟨e, h1, ?_, by rw [h0, List.filter_reverse, List.length_reverse]; simp, fun i j => ?_⟩
  · rw [h2, zero_add, List.map_reverse, List.sum_reverse, ← List.ofFn_eq_map, List.sum_ofFn]
  · rw [h3]
    simp only [cooEntry, List.map_nil, List.sum_nil, zero_add]
    rw [List.map_reverse, List.sum_reverse, ← List.ofFn_eq_map, List.sum_ofFn]

end POT.Simplex
