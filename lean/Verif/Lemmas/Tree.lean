import Verif.Spec.Tree
import Mathlib.Logic.Function.Basic

/-! # Walks, ancestors and blocks -/

set_option linter.unusedSectionVars false

namespace POT.Tree

open Spec Relation

variable {V : Type*}

/-! ### Walks -/

theorem walk_append (f : V → V) (l1 l2 : List V) (x y : V) :
    Walk f x (l1 ++ l2) y ↔ ∃ z, Walk f x l1 z ∧ Walk f z l2 y := by
  induction l1 generalizing x with
  | nil => simp [Walk]
  | cons a l ih => simp only [List.cons_append, Walk, ih]; grind

theorem walk_congr {f g : V → V} {l : List V} (h : ∀ a ∈ l, f a = g a) {x y : V} (hw : Walk f x l y) : Walk g x l y := by
  induction l generalizing x with
  | nil => exact hw
  | cons a l ih =>
    refine ⟨hw.1, ?_⟩
    rw [← h a (by simp)]
    exact ih (fun b hb => h b (by simp [hb])) hw.2

theorem walk_concat (f : V → V) (l : List V) (a x y : V) : Walk f x (l ++ [a]) y ↔ Walk f x l a ∧ f a = y := by
  rw [walk_append]
  constructor
  · rintro ⟨z, h1, h2, h3⟩
    subst h2
    exact ⟨h1, h3⟩
  · rintro ⟨h1, h2⟩
    exact ⟨a, h1, rfl, h2⟩

theorem getLast?_split {l : List V} {a : V} (h : l.getLast? = some a) : ∃ l', l = l' ++ [a] :=
  List.getLast?_eq_some_iff.1 h

theorem walk_last {f : V → V} {l : List V} {x y a : V} (hw : Walk f x l y) (h : l.getLast? = some a) : f a = y := by
  obtain ⟨l', rfl⟩ := getLast?_split h
  exact ((walk_concat _ _ _ _ _).1 hw).2

theorem walk_update_last [DecidableEq V] {f : V → V} {l : List V} {x y a : V} (hw : Walk f x l y) (hn : l.Nodup)
    (h : l.getLast? = some a) (z : V) : Walk (Function.update f a z) x l z := by
  obtain ⟨l', rfl⟩ := getLast?_split h
  rw [walk_concat] at hw ⊢
  have hna : a ∉ l' := by
    have := List.disjoint_of_nodup_append hn
    intro ha
    exact this ha (by simp)
  refine ⟨walk_congr (fun b hb => ?_) hw.1, by simp⟩
  rw [Function.update_of_ne]
  rintro rfl; exact hna hb

theorem walk_update_notMem [DecidableEq V] {f : V → V} {l : List V} {x y a : V} (hw : Walk f x l y) (h : a ∉ l) (z : V) :
    Walk (Function.update f a z) x l y := by
  refine walk_congr (fun b hb => ?_) hw
  rw [Function.update_of_ne]
  rintro rfl; exact h hb

theorem walk_end {f : V → V} {l : List V} {x y z : V} (h1 : Walk f x l y) (h2 : Walk f x l z) : y = z := by
  induction l generalizing x with
  | nil => exact h1.symm.trans h2
  | cons a l ih => exact ih h1.2 h2.2

theorem walk_start {f : V → V} {l : List V} {x y a : V} (h : Walk f x (a :: l) y) : x = a := h.1

/-! ### Ancestors -/

section anc
variable {p : V → Option V}

theorem anc_refl (u : V) : Anc p u u := ReflTransGen.refl

theorem anc_trans {u v w : V} (h1 : Anc p u v) (h2 : Anc p v w) : Anc p u w := ReflTransGen.trans h2 h1

theorem anc_of_parent {u v w : V} (h : p w = some v) (h1 : Anc p u v) : Anc p u w := ReflTransGen.head h h1

theorem anc_parent {v w : V} (h : p w = some v) : Anc p v w := anc_of_parent h (anc_refl v)

theorem anc_iff {u x : V} : Anc p u x ↔ u = x ∨ ∃ q, p x = some q ∧ Anc p u q := by
  constructor
  · intro h
    rcases ReflTransGen.cases_head h with h | h
    · exact Or.inl h.symm
    · exact Or.inr h
  · rintro (rfl | ⟨q, h1, h2⟩)
    · exact anc_refl _
    · exact anc_of_parent h1 h2

theorem anc_of_ne {u x q : V} (h : Anc p u x) (hne : u ≠ x) (hq : p x = some q) : Anc p u q := by
  rcases anc_iff.1 h with h | ⟨q', h1, h2⟩
  · exact absurd h hne
  · rw [hq] at h1; cases h1; exact h2

theorem anc_total {u v x : V} (h1 : Anc p u x) (h2 : Anc p v x) : Anc p u v ∨ Anc p v u := by
  have hU : Relator.RightUnique (fun a b => p a = some b) := by
    intro a b c h1 h2
    rw [h1] at h2
    exact Option.some.inj h2
  rcases ReflTransGen.total_of_right_unique hU h1 h2 with h | h
  · exact Or.inr h
  · exact Or.inl h

/-- the last step of an upward path: `u` is reached from a child -/
theorem anc_child {u x : V} (h : Anc p u x) (hne : u ≠ x) : ∃ c, p c = some u ∧ Anc p c x := by
  rcases ReflTransGen.cases_tail h with h | ⟨c, h1, h2⟩
  · exact absurd h hne
  · exact ⟨c, h2, h1⟩

theorem anc_none {root u : V} (hr : p root = none) (h : Anc p u root) : u = root := by
  rcases anc_iff.1 h with h | ⟨q, h1, h2⟩
  · exact h
  · rw [hr] at h1; cases h1

theorem anc_antisymm {root : V} (hr : p root = none) (hroot : ∀ x, Anc p root x) {u v : V} (h1 : Anc p u v) (h2 : Anc p v u) :
    u = v := by
  have key : ∀ x : V, ∀ q, p x = some q → ¬ Anc p x q := by
    intro x
    induction hroot x using ReflTransGen.head_induction_on with
    | refl => intro q hq; rw [hr] at hq; cases hq
    | head h' h ih =>
      rename_i a c
      intro q hq hanc
      rw [h'] at hq; cases hq
      -- the cycle through `a` also passes through `c`
      rcases anc_iff.1 hanc with h3 | ⟨q', h3, h4⟩
      · subst h3; exact ih a h' (anc_refl a)
      · exact ih q' h3 (anc_trans (anc_parent h') h4)
  by_contra hne
  obtain ⟨q, hq, hq'⟩ : ∃ q, p v = some q ∧ Anc p u q := by
    rcases anc_iff.1 h1 with h | h
    · exact absurd h hne
    · exact h
  exact key v q hq (anc_trans h2 hq')

theorem not_anc_parent {root : V} (hr : p root = none) (hroot : ∀ x, Anc p root x) {x q : V} (h : p x = some q) : ¬ Anc p x q := by
  intro h1
  have := anc_antisymm hr hroot h1 (anc_parent h)
  subst this
  -- `x` is its own parent: then the root is unreachable
  have : ∀ y, Anc p y x → y = x := by
    intro y hy
    induction hy with
    | refl => rfl
    | tail h1 h2 ih =>
      subst ih
      rw [h] at h2
      exact (Option.some.inj h2).symm
  have := this root (hroot x)
  rw [← this, hr] at h
  cases h

end anc

/-! ### Blocks -/

open Classical in
/-- the descendants of `u` in thread order -/
noncomputable def blk (L : List V) (p : V → Option V) (u : V) : List V := L.filter (fun x => Anc p u x)

section blocks
variable {root : V} {p : V → Option V} {th rv : V → V} {sn : V → ℤ} {ls : V → V} {L : List V}

theorem mem_blk (h : TreeRep root p th rv sn ls L) (u x : V) : x ∈ blk L p u ↔ Anc p u x := by
  simp [blk, h.mem]

theorem nodup_blk (h : TreeRep root p th rv sn ls L) (u : V) : (blk L p u).Nodup := h.nodup.filter _

/-- a contiguous set of nodes is a block -/
theorem filter_contiguous {L P B Q : List V} (hL : L = P ++ B ++ Q) (hn : L.Nodup) (φ : V → Bool) (hB : ∀ x ∈ L, x ∈ B ↔ φ x) :
    L.filter φ = B := by
  subst hL
  rw [List.filter_append, List.filter_append]
  have h1 : P.filter φ = [] := by
    rw [List.filter_eq_nil_iff]
    intro a ha hφ
    have := (hB a (by simp [ha])).2 hφ
    have hd := List.disjoint_of_nodup_append (List.nodup_append.1 hn).1
    exact hd ha this
  have h2 : Q.filter φ = [] := by
    rw [List.filter_eq_nil_iff]
    intro a ha hφ
    have := (hB a (by simp [ha])).2 hφ
    have hd := List.disjoint_of_nodup_append hn
    exact hd (by simp [this]) ha
  have h3 : B.filter φ = B := by
    rw [List.filter_eq_self]
    intro a ha
    exact (hB a (by simp [ha])).1 ha
  rw [h1, h2, h3]; simp

theorem blk_spec (h : TreeRep root p th rv sn ls L) (u : V) :
    ∃ P Q, L = P ++ blk L p u ++ Q ∧ (∃ B, blk L p u = u :: B) ∧ (blk L p u).getLast? = some (ls u) ∧
      sn u = (blk L p u).length ∧ Walk th root P u ∧ Walk th u (blk L p u) (th (ls u)) ∧ Walk th (th (ls u)) Q root := by
  obtain ⟨P, B, Q, hL, hm, hl, hs⟩ := h.block u
  have hB : blk L p u = u :: B := by
    unfold blk
    refine filter_contiguous hL h.nodup _ fun x _ => ?_
    rw [hm x]; simp
  refine ⟨P, Q, by rw [hB]; exact hL, ⟨B, hB⟩, by rw [hB]; exact hl, by rw [hB]; exact hs, ?_⟩
  have hw := h.walk
  rw [hL] at hw
  obtain ⟨z, hw1, hw3⟩ := (walk_append _ _ _ _ _).1 hw
  obtain ⟨z', hw0, hw2⟩ := (walk_append _ _ _ _ _).1 hw1
  have : z' = u := walk_start hw2
  subst this
  have hz := walk_last hw2 hl
  rw [hB, hz]
  exact ⟨hw0, hw2, hw3⟩

/-- a subtree inside a set of nodes is a block of the list of that set -/
theorem filter_block (h : TreeRep root p th rv sn ls L) (v : V) (φ : V → Bool) (hφ : ∀ x, Anc p v x → φ x) :
    ∃ X Y, L.filter φ = X ++ blk L p v ++ Y := by
  obtain ⟨P, Q, hL, -⟩ := blk_spec h v
  refine ⟨P.filter φ, Q.filter φ, ?_⟩
  conv_lhs => rw [hL]
  rw [List.filter_append, List.filter_append]
  have : (blk L p v).filter φ = blk L p v := by
    rw [List.filter_eq_self]
    intro a ha
    exact hφ a ((mem_blk h v a).1 ha)
  rw [this]

theorem blk_nested (h : TreeRep root p th rv sn ls L) {u v : V} (huv : Anc p u v) :
    ∃ X Y, blk L p u = X ++ blk L p v ++ Y := by
  classical
  have := filter_block h v (fun x => decide (Anc p u x)) (fun x hx => by simpa using anc_trans huv hx)
  exact this

theorem sn_le_of_anc (h : TreeRep root p th rv sn ls L) {u v : V} (huv : Anc p u v) : sn v ≤ sn u := by
  obtain ⟨X, Y, hXY⟩ := blk_nested h huv
  obtain ⟨_, _, _, _, _, hu, _⟩ := blk_spec h u
  obtain ⟨_, _, _, _, _, hv, _⟩ := blk_spec h v
  rw [hu, hv, hXY]
  simp only [List.length_append]
  push_cast
  omega

theorem sn_lt_of_anc (h : TreeRep root p th rv sn ls L) {u v : V} (huv : Anc p u v) (hne : u ≠ v) : sn v < sn u := by
  obtain ⟨X, Y, hXY⟩ := blk_nested h huv
  obtain ⟨_, _, _, ⟨B, hB⟩, _, hu, _⟩ := blk_spec h u
  obtain ⟨_, _, _, ⟨B', hB'⟩, _, hv, _⟩ := blk_spec h v
  have hX : X ≠ [] := by
    rintro rfl
    rw [hB, hB'] at hXY
    simp at hXY
    exact hne hXY.1
  have := List.length_pos_iff.2 hX
  rw [hu, hv, hXY]
  simp only [List.length_append]
  push_cast
  omega

theorem rev_eq (h : TreeRep root p th rv sn ls L) {x y : V} (hxy : th x = y) : rv y = x := by
  rw [← hxy, h.rev]

theorem th_inj (h : TreeRep root p th rv sn ls L) {x y : V} (hxy : th x = th y) : x = y := by
  rw [← h.rev x, hxy, h.rev]

end blocks

end POT.Tree

namespace POT.Tree

open Spec Relation

variable {V : Type*} {root : V} {p : V → Option V} {th rv : V → V} {sn : V → ℤ} {ls : V → V} {L : List V}

open Classical in
/-- number of ancestors -/
noncomputable def rank (L : List V) (p : V → Option V) (x : V) : ℕ := (L.filter fun y => Anc p y x).length

theorem rank_le (x : V) : rank L p x ≤ L.length := List.length_filter_le _ _

theorem rank_lt (h : TreeRep root p th rv sn ls L) {x q : V} (hq : p x = some q) : rank L p q < rank L p x := by
  classical
  unfold rank
  obtain ⟨l1, l2, hl⟩ := List.append_of_mem (h.mem x)
  have hmono : ∀ l : List V, (l.filter fun y => decide (Anc p y q)).length ≤ (l.filter fun y => decide (Anc p y x)).length := by
    intro l
    refine (List.monotone_filter_right l ?_).length_le
    intro y hy
    simp only [decide_eq_true_eq] at hy ⊢
    exact anc_of_parent hq hy
  have h1 := hmono l1
  have h2 := hmono l2
  rw [hl, List.filter_append, List.filter_append, List.filter_cons, List.filter_cons, if_neg, if_pos]
  · simp only [List.length_append, List.length_cons]
    omega
  · simpa using anc_refl x
  · simpa using not_anc_parent h.root_none h.root_anc hq

end POT.Tree
