import Verif.Lemmas.Tree
import Verif.Model.WarmStart
import Mathlib.Data.List.Nodup
import Mathlib.Data.List.Perm.Basic
import Mathlib.Algebra.BigOperators.Group.List.Basic
import Mathlib.Data.Fintype.Card
import Mathlib.Data.Fintype.Option
import Mathlib.Data.List.GetD
import Mathlib.Tactic.Linarith
import Mathlib.Tactic.Ring

/-! # The arrays built by `warmstartInit` from the parents describe the tree -/

set_option linter.unusedSectionVars false

namespace POT.Simplex

open Spec POT.Tree Relation

variable {n : ℕ} {p : Fin n → Option (Fin n)}

/-- Parents have smaller rank: no cycles. -/
structure Ranked (p : Fin n → Option (Fin n)) (rk : Fin n → ℕ) : Prop where
  lt : ∀ u v, p u = some v → rk v < rk u
  bound : ∀ u, rk u < n

/-- rank with the root -/
def hgt (rk : Fin n → ℕ) : Node n → ℕ
  | none => 0
  | some u => rk u + 1

theorem mem_childList {x v : Node n} : x ∈ childList p v ↔ liftParent p x = some v := by
  unfold childList
  simp only [List.mem_map, List.mem_filter, List.mem_finRange, true_and, decide_eq_true_eq]
  constructor
  · rintro ⟨u, h1, rfl⟩; simp [liftParent, h1]
  · intro h
    cases x with
    | none => cases h
    | some u => exact ⟨u, by simpa [liftParent] using h, rfl⟩

theorem nodup_childList (v : Node n) : (childList p v).Nodup :=
  ((List.nodup_finRange n).filter _).map (Option.some_injective _)

section
variable {rk : Fin n → ℕ} (hr : Ranked p rk)
include hr

theorem hgt_lt {x q : Node n} (h : liftParent p x = some q) : hgt rk q < hgt rk x := by
  cases x with
  | none => cases h
  | some u =>
    have h' : p u = q := Option.some.inj h
    cases q with
    | none => simp [hgt]
    | some v => have := hr.lt u v h'; simp only [hgt]; omega

theorem hgt_le_n (x : Node n) : hgt rk x ≤ n := by
  cases x with
  | none => simp [hgt]
  | some u => have := hr.bound u; simp only [hgt]; omega

theorem hgt_anc {u x : Node n} (h : Anc (liftParent p) u x) : hgt rk u ≤ hgt rk x := by
  induction h using ReflTransGen.head_induction_on with
  | refl => exact le_refl _
  | head h1 _ ih => exact le_trans ih (hgt_lt hr h1).le

theorem root_anc_lift (x : Node n) : Anc (liftParent p) none x := by
  generalize hk : hgt rk x = k
  induction k using Nat.strong_induction_on generalizing x with
  | _ k ih =>
    cases x with
    | none => exact anc_refl _
    | some u => exact anc_of_parent (v := p u) rfl (ih _ (hk ▸ hgt_lt hr (x := some u) (q := p u) rfl) _ rfl)

/-- nodes below `v` in depth first order, to depth `k` -/
def preT (p : Fin n → Option (Fin n)) : ℕ → Node n → List (Node n)
  | 0, v => [v]
  | k + 1, v => v :: (childList p v).flatMap (preT p k)

theorem no_child {v : Node n} (h : n ≤ hgt rk v) : childList p v = [] := by
  rw [List.eq_nil_iff_forall_not_mem]
  intro c hc
  have h1 := hgt_lt hr (mem_childList.1 hc)
  have h2 := hgt_le_n hr c
  omega

theorem preT_stable (k : ℕ) (v : Node n) (h : n ≤ hgt rk v + k) : preT p (k + 1) v = preT p k v := by
  induction k generalizing v with
  | zero => simp [preT, no_child hr (by simpa using h)]
  | succ k ih =>
    rw [preT, preT]
    congr 1
    refine List.flatMap_congr fun c hc => ih c ?_
    have := hgt_lt hr (mem_childList.1 hc)
    omega

/-- the nodes below `v` in depth first order -/
def subT (p : Fin n → Option (Fin n)) (v : Node n) : List (Node n) := preT p n v

theorem subT_eq (v : Node n) : subT p v = v :: (childList p v).flatMap (subT p) := by
  unfold subT
  rw [← preT_stable hr n v (by omega), preT]

theorem mem_preT (k : ℕ) (v x : Node n) (h : n ≤ hgt rk v + k) : x ∈ preT p k v ↔ Anc (liftParent p) v x := by
  induction k generalizing v with
  | zero =>
    simp only [preT, List.mem_singleton]
    constructor
    · rintro rfl; exact anc_refl _
    · intro h'
      by_contra hne
      obtain ⟨c, hc, _⟩ := anc_child h' (Ne.symm hne)
      have := no_child hr (v := v) (by simpa using h)
      have hc' := mem_childList.2 hc
      rw [this] at hc'; cases hc'
  | succ k ih =>
    simp only [preT, List.mem_cons, List.mem_flatMap]
    constructor
    · rintro (rfl | ⟨c, hc, hx⟩)
      · exact anc_refl _
      · have hc' := mem_childList.1 hc
        have := hgt_lt hr hc'
        exact anc_trans (anc_parent hc') ((ih c (by omega)).1 hx)
    · intro h'
      by_cases hne : x = v
      · exact Or.inl hne
      · obtain ⟨c, hc, hx⟩ := anc_child h' (Ne.symm hne)
        have := hgt_lt hr hc
        exact Or.inr ⟨c, mem_childList.2 hc, (ih c (by omega)).2 hx⟩

theorem mem_subT (v x : Node n) : x ∈ subT p v ↔ Anc (liftParent p) v x := mem_preT hr n v x (by omega)

theorem nodup_preT (k : ℕ) (v : Node n) (h : n ≤ hgt rk v + k) : (preT p k v).Nodup := by
  induction k generalizing v with
  | zero => simp [preT]
  | succ k ih =>
    rw [preT, List.nodup_cons, List.nodup_flatMap]
    have hk : ∀ c ∈ childList p v, n ≤ hgt rk c + k := fun c hc => by
      have := hgt_lt hr (mem_childList.1 hc); omega
    refine ⟨?_, fun c hc => ih c (hk c hc), ?_⟩
    · rw [List.mem_flatMap]
      rintro ⟨c, hc, hv⟩
      have h1 := hgt_anc hr ((mem_preT hr k c v (hk c hc)).1 hv)
      have h2 := hgt_lt hr (mem_childList.1 hc)
      omega
    · refine (nodup_childList v).imp_of_mem ?_
      intro c d hc hd hne x hx hy
      have h1 := (mem_preT hr k c x (hk c hc)).1 hx
      have h2 := (mem_preT hr k d x (hk d hd)).1 hy
      have key : ∀ {c d : Node n}, c ∈ childList p v → d ∈ childList p v → c ≠ d → ¬ Anc (liftParent p) c d := by
        intro c d hc hd hne h3
        have h4 := anc_of_ne h3 hne (mem_childList.1 hd)
        have h5 := hgt_anc hr h4
        have h6 := hgt_lt hr (mem_childList.1 hc)
        omega
      rcases anc_total h1 h2 with h3 | h3
      · exact key hc hd hne h3
      · exact key hd hc (Ne.symm hne) h3

theorem nodup_subT (v : Node n) : (subT p v).Nodup := nodup_preT hr n v (by omega)

theorem dfsLoop_eq (k : ℕ) (st : List (Node n)) (h : (st.flatMap (subT p)).length < k) : dfsLoop (childList p) k st = st.flatMap (subT p) := by
  induction k generalizing st with
  | zero => omega
  | succ k ih =>
    cases st with
    | nil => rfl
    | cons v st =>
      have e : (v :: st).flatMap (subT p) = v :: (childList p v ++ st).flatMap (subT p) := by
        rw [List.flatMap_cons, subT_eq hr v, List.flatMap_append, List.cons_append]
      rw [e] at h ⊢
      rw [dfsLoop, ih _ (by simpa using h)]

theorem subT_root_length : (subT p none).length = n + 1 := by
  have h1 : (subT p none).toFinset = Finset.univ := Finset.eq_univ_iff_forall.2 fun x => by
    rw [List.mem_toFinset, mem_subT hr]; exact root_anc_lift hr x
  have h2 := List.toFinset_card_of_nodup (nodup_subT hr none)
  rw [h1, Finset.card_univ, Fintype.card_option, Fintype.card_fin] at h2
  exact h2.symm

theorem preorder_eq : preorder p = subT p none := by
  unfold preorder
  rw [dfsLoop_eq hr]
  · simp
  · simp [subT_root_length hr]

theorem subT_infix {v u : Node n} (h : Anc (liftParent p) v u) : ∃ A B, subT p v = A ++ subT p u ++ B := by
  induction h using ReflTransGen.head_induction_on with
  | refl => exact ⟨[], [], by simp⟩
  | head h1 _ ih =>
    rename_i a c _
    obtain ⟨A, B, hAB⟩ := ih
    obtain ⟨l1, l2, hl⟩ := List.append_of_mem (mem_childList.2 h1)
    refine ⟨A ++ c :: l1.flatMap (subT p), l2.flatMap (subT p) ++ B, ?_⟩
    rw [hAB, subT_eq hr c, hl]
    simp

end

/-! ### Thread -/

theorem getD_idx {l : List (Node n)} (hl : l.Nodup) {A B : List (Node n)} {x : Node n} (h : l = A ++ x :: B) : l.idxOf x = A.length := by
  subst h
  have hx : x ∉ A := fun hx => (List.disjoint_of_nodup_append hl) hx (by simp)
  rw [List.idxOf_append_of_notMem hx]
  simp

theorem threadOf_next {l : List (Node n)} (hl : l.Nodup) {A B : List (Node n)} {x y : Node n} (h : l = A ++ x :: y :: B) : threadOf l x = y := by
  unfold threadOf
  rw [getD_idx hl h]
  have hlen : l.length = A.length + (B.length + 2) := by rw [h]; simp
  rw [Nat.mod_eq_of_lt (by omega), h]
  simp [List.getD_eq_getElem?_getD]

theorem threadOf_last {l : List (Node n)} (hl : l.Nodup) {A : List (Node n)} {x : Node n} (h : l = A ++ [x]) : threadOf l x = l.getD 0 none := by
  unfold threadOf
  rw [getD_idx hl (B := []) h]
  have hlen : l.length = A.length + 1 := by rw [h]; simp
  rw [hlen, Nat.mod_self]

theorem walk_threadOf {l : List (Node n)} (hl : l.Nodup) (A B : List (Node n)) (x : Node n) (h : l = A ++ x :: B) :
    Walk (threadOf l) x (x :: B) (l.getD 0 none) := by
  induction B generalizing A x with
  | nil => exact ⟨rfl, threadOf_last hl h⟩
  | cons y B ih =>
    refine ⟨rfl, ?_⟩
    rw [threadOf_next hl h]
    exact ih (A ++ [x]) y (by rw [h]; simp)

theorem threadOf_inj {l : List (Node n)} (hl : l.Nodup) (hm : ∀ x, x ∈ l) {x y : Node n} (h : threadOf l x = threadOf l y) : x = y := by
  unfold threadOf at h
  have hpos : 0 < l.length := List.length_pos_of_mem (hm x)
  have hx := List.idxOf_lt_length_of_mem (hm x)
  have hy := List.idxOf_lt_length_of_mem (hm y)
  have h1 := Nat.mod_lt (l.idxOf x + 1) hpos
  have h2 := Nat.mod_lt (l.idxOf y + 1) hpos
  rw [List.getD_eq_getElem _ _ h1, List.getD_eq_getElem _ _ h2, hl.getElem_inj_iff] at h
  have hxy : l.idxOf x = l.idxOf y := by
    rcases Nat.lt_or_ge (l.idxOf x + 1) l.length with a | a <;> rcases Nat.lt_or_ge (l.idxOf y + 1) l.length with b | b
    · rw [Nat.mod_eq_of_lt a, Nat.mod_eq_of_lt b] at h; omega
    · rw [Nat.mod_eq_of_lt a, show l.idxOf y + 1 = l.length by omega, Nat.mod_self] at h; omega
    · rw [Nat.mod_eq_of_lt b, show l.idxOf x + 1 = l.length by omega, Nat.mod_self] at h; omega
    · omega
  exact (List.idxOf_inj (hm x)).1 hxy

theorem foldl_inverse {th : Node n → Node n} (hinj : Function.Injective th) (nodes : List (Node n)) (r0 : Node n → Node n) (x : Node n)
    (hx : x ∈ nodes ∨ r0 (th x) = x) : nodes.foldl (fun r u => Function.update r (th u) u) r0 (th x) = x := by
  induction nodes generalizing r0 with
  | nil => simpa using hx
  | cons a l ih =>
    rw [List.foldl_cons]
    apply ih
    by_cases hax : x = a
    · right; rw [hax, Function.update_self]
    · rcases hx with hx | hx
      · rcases List.mem_cons.1 hx with h | h
        · exact absurd h hax
        · exact Or.inl h
      · right; rw [Function.update_of_ne fun h => hax (hinj h), hx]

/-! ### Sums over subtrees -/

/-- what the loop for `_succ_num` computes, for nodes processed before their parents -/
theorem accumulate (p : Fin n → Option (Fin n)) (w : Node n → ℤ) (M : List (Node n)) (hM : M.Nodup)
    (hord : ∀ A x B, M = A ++ x :: B → ∀ q, liftParent p x = some q → q ∉ A ++ [x]) (y : Node n) :
    M.foldl (succStep p) w y = w y + ((M.filter fun x => liftParent p x = some y).map (M.foldl (succStep p) w)).sum := by
  induction M using List.reverseRecOn generalizing y with
  | nil => simp
  | append_singleton A x ih =>
    have ih' := ih (List.nodup_append.1 hM).1 (fun A' z B h => hord A' z (B ++ [x]) (by rw [h]; simp))
    have hx := hord A x [] rfl
    set F := A.foldl (succStep p) w with hF
    rw [List.foldl_append, List.foldl_cons, List.foldl_nil, ← hF, List.filter_append, List.map_append, List.sum_append]
    cases x with
    | none => simpa [liftParent, List.filter, succStep] using ih' y
    | some i =>
      have hq := hx (p i) rfl
      have hqA : p i ∉ A := fun h => hq (by simp [h])
      have hqi : p i ≠ some i := fun h => hq (by simp [h])
      have e1 : (A.filter fun x => liftParent p x = some y).map (Function.update F (p i) (F (p i) + F (some i)))
          = (A.filter fun x => liftParent p x = some y).map F := by
        refine List.map_congr_left fun c hc => ?_
        rw [Function.update_of_ne]
        rintro rfl
        exact hqA (List.mem_filter.1 hc).1
      simp only [succStep]
      rw [e1]
      by_cases hy : p i = y
      · subst hy
        rw [Function.update_self, ih' (p i)]
        simp [List.filter, liftParent, Function.update_of_ne hqi.symm]
        ring
      · rw [Function.update_of_ne (Ne.symm hy), ih' y]
        simp [List.filter, liftParent, hy]

variable {rk : Fin n → ℕ} (hr : Ranked p rk)
include hr

/-- in the depth first order a parent comes before its children -/
theorem parent_before {A B : List (Node n)} {x q : Node n} (h : subT p none = A ++ x :: B) (hq : liftParent p x = some q) : q ∈ A := by
  obtain ⟨A', B', h1⟩ := subT_infix hr (root_anc_lift hr q)
  obtain ⟨A2, B2, h2⟩ := subT_infix hr (anc_parent hq)
  have hnd := nodup_subT hr none
  rw [subT_eq hr q] at h1 h2
  rw [subT_eq hr x] at h2
  cases A2 with
  | nil =>
    have : q = x := by simpa using congrArg List.head? h2
    subst this
    exact absurd (hgt_lt hr hq) (lt_irrefl _)
  | cons a A2 =>
    rw [List.cons_append, List.cons_append, List.cons.injEq] at h2
    obtain ⟨h3, h2⟩ := h2
    subst h3
    rw [h2] at h1
    have h4 : subT p none = (A' ++ q :: A2) ++ x :: ((childList p x).flatMap (subT p) ++ B2 ++ B') := by rw [h1]; simp
    have h5 := getD_idx hnd h4
    have h6 := getD_idx hnd h
    have h7 : A = A' ++ q :: A2 := by
      have := congrArg (List.take A.length) (h.symm.trans h4)
      rw [List.take_left, List.take_append_of_le_length (by omega), List.take_of_length_le (by omega)] at this
      exact this
    rw [h7]; simp

theorem reverse_order {A B : List (Node n)} {x : Node n} (h : (subT p none).reverse = A ++ x :: B) (q : Node n) (hq : liftParent p x = some q) :
    q ∉ A ++ [x] := by
  have hnd := nodup_subT hr none
  have h1 : subT p none = B.reverse ++ x :: A.reverse := by
    have := congrArg List.reverse h
    rw [List.reverse_reverse] at this
    rw [this]; simp
  have h2 := parent_before hr h1 hq
  rw [h1] at hnd
  intro h3
  refine (List.disjoint_of_nodup_append hnd) h2 ?_
  rw [List.mem_append, List.mem_singleton] at h3
  rcases h3 with h3 | rfl
  · simp [h3]
  · simp

theorem succNumOf_eq (u : Node n) : succNumOf p (subT p none) u = (subT p u).length := by
  have key : ∀ y, succNumOf p (subT p none) y = 1 + ((childList p y).map (succNumOf p (subT p none))).sum := by
    intro y
    have h1 := accumulate p (fun _ => 1) (subT p none).reverse (List.nodup_reverse.2 (nodup_subT hr none))
      (fun A x B h q hq => reverse_order hr h q hq) y
    have h2 : ((subT p none).reverse.filter fun x => liftParent p x = some y).Perm (childList p y) := by
      rw [List.perm_ext_iff_of_nodup ((List.nodup_reverse.2 (nodup_subT hr none)).filter _) (nodup_childList y)]
      intro a
      rw [List.mem_filter, mem_childList, List.mem_reverse, mem_subT hr, decide_eq_true_eq]
      exact ⟨fun h => h.2, fun h => ⟨root_anc_lift hr a, h⟩⟩
    unfold succNumOf
    rw [h1, (h2.map _).sum_eq]
  generalize hk : n - hgt rk u = k
  induction k using Nat.strong_induction_on generalizing u with
  | _ k ih =>
    rw [key, subT_eq hr u, List.length_cons, List.length_flatMap]
    have : (childList p u).map (succNumOf p (subT p none)) = (childList p u).map fun c => ((subT p c).length : ℤ) := by
      refine List.map_congr_left fun c hc => ih (n - hgt rk c) ?_ c rfl
      have h1 := hgt_lt hr (mem_childList.1 hc)
      have h2 := hgt_le_n hr c
      omega
    rw [this]
    push_cast
    have : ∀ l : List (Node n), (l.map fun c => ((subT p c).length : ℤ)).sum = (((l.map fun c => (subT p c).length).sum : ℕ) : ℤ) := by
      intro l
      induction l with
      | nil => simp
      | cons a l ih => simp [ih]
    rw [this]
    push_cast
    ring

/-- **The tree arrays of the warm start.** -/
theorem warm_treeRep : TreeRep none (liftParent p) (threadOf (preorder p)) (revThreadOf (preorder p)) (succNumOf p (preorder p))
    (lastSuccOf p (preorder p)) (preorder p) := by
  rw [preorder_eq hr]
  have hnd := nodup_subT hr none
  have hm : ∀ x, x ∈ subT p none := fun x => (mem_subT hr none x).2 (root_anc_lift hr x)
  have hhead : (subT p none).getD 0 none = none := by rw [subT_eq hr]; rfl
  refine ⟨rfl, root_anc_lift hr, hnd, hm, ?_, fun x => ?_, fun u => ?_⟩
  · have := walk_threadOf hnd [] ((childList p none).flatMap (subT p)) none (by rw [List.nil_append]; exact subT_eq hr none)
    rw [hhead, ← subT_eq hr none] at this
    exact this
  · unfold revThreadOf
    refine foldl_inverse (fun a b h => threadOf_inj hnd hm h) _ _ x (Or.inl ?_)
    cases x with
    | none => simp
    | some i => simp
  · obtain ⟨A, B, hAB⟩ := subT_infix hr (root_anc_lift hr u)
    have hu := subT_eq hr u
    refine ⟨A, (childList p u).flatMap (subT p), B, by rw [← hu, hAB], fun x => by rw [← hu]; exact mem_subT hr u x, ?_, by rw [← hu]; exact succNumOf_eq hr u⟩
    rw [← hu]
    unfold lastSuccOf
    rw [succNumOf_eq hr u, Int.toNat_natCast]
    have hidx : (subT p none).idxOf u = A.length := getD_idx hnd (B := (childList p u).flatMap (subT p) ++ B) (by rw [hAB, hu]; simp)
    rw [hidx]
    have hpos : 0 < (subT p u).length := by rw [hu]; simp
    rw [List.getLast?_eq_getElem?, List.getD_eq_getElem?_getD, hAB]
    have e1 : A.length + (subT p u).length - 1 = A.length + ((subT p u).length - 1) := by omega
    rw [e1, List.append_assoc, List.getElem?_append_right (by omega), Nat.add_sub_cancel_left, List.getElem?_append_left (by omega)]
    rw [List.getElem?_eq_getElem (by omega)]
    rfl

end POT.Simplex
