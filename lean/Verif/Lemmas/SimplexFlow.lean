import Verif.Lemmas.SimplexTree
import Verif.Spec.Flow
import Mathlib.Tactic.Abel
import Mathlib.Algebra.BigOperators.Ring.Finset
import Mathlib.Algebra.Order.BigOperators.Ring.Finset

/-! # Join node, leaving arc and flow change -/

set_option linter.unusedSectionVars false

namespace POT.Simplex

open Spec POT.Tree Relation

variable {V A R : Type*} [DecidableEq V]

section join
variable {root : V} {p : V → Option V} {th rv : V → V} {sn : V → ℤ} {ls : V → V} {L : List V}

theorem findJoinNode_spec (h : TreeRep root p th rv sn ls L) (fuel : ℕ) (u v : V)
    (hf : rank L p u + rank L p v < fuel) : ∃ j, findJoinNode p sn fuel u v = some j ∧ IsJoin p j u v := by
  induction fuel generalizing u v with
  | zero => omega
  | succ k ih =>
    by_cases huv : u = v
    · subst huv
      exact ⟨u, by simp [findJoinNode], anc_refl _, anc_refl _, fun w h1 _ => h1⟩
    · by_cases hs : sn u < sn v
      · have hna : ¬ Anc p u v := fun h' => absurd (sn_le_of_anc h h') (by omega)
        rcases anc_iff.1 (h.root_anc u) with h' | ⟨q, hq, _⟩
        · exact absurd (h.root_anc v) (h' ▸ hna)
        · obtain ⟨j, h1, h2⟩ := ih q v (by have := rank_lt h hq; omega)
          refine ⟨j, by simp only [findJoinNode, huv, if_false, hs, if_true, hq]; exact h1,
            anc_trans h2.left (anc_parent hq), h2.right, fun w hwu hwv => h2.least w ?_ hwv⟩
          refine anc_of_ne hwu ?_ hq
          rintro rfl; exact hna hwv
      · have hna : ¬ Anc p v u := fun h' => hs (sn_lt_of_anc h h' (Ne.symm huv))
        rcases anc_iff.1 (h.root_anc v) with h' | ⟨q, hq, _⟩
        · exact absurd (h.root_anc u) (h' ▸ hna)
        · obtain ⟨j, h1, h2⟩ := ih u q (by have := rank_lt h hq; omega)
          refine ⟨j, by simp only [findJoinNode, huv, if_false, hs, hq]; exact h1,
            h2.left, anc_trans h2.right (anc_parent hq), fun w hwu hwv => h2.least w hwu ?_⟩
          refine anc_of_ne hwv ?_ hq
          rintro rfl; exact hna hwu

theorem pathTo_pairwise {stop : V} (fuel : ℕ) {u : V} {l : List V} (hl : pathTo p stop fuel u = some l) :
    (∀ x ∈ l, Anc p x u) ∧ l.Pairwise fun x y => Anc p y x := by
  induction fuel generalizing u l with
  | zero => simp [pathTo] at hl
  | succ k ih =>
    rw [pathTo] at hl
    split_ifs at hl with h1
    · cases hl; simp
    · cases hq : p u with
      | none => rw [hq] at hl; cases hl
      | some q =>
        rw [hq] at hl
        dsimp only at hl
        cases hl' : pathTo p stop k q with
        | none => rw [hl'] at hl; cases hl
        | some l' =>
          rw [hl'] at hl
          cases hl
          obtain ⟨h2, h3⟩ := ih hl'
          refine ⟨?_, ?_⟩
          · intro x hx
            rcases List.mem_cons.1 hx with rfl | hx
            · exact anc_refl _
            · exact anc_trans (h2 x hx) (anc_parent hq)
          · rw [List.pairwise_cons]
            exact ⟨fun y hy => anc_trans (h2 y hy) (anc_parent hq), h3⟩

end join

/-! ### Scans -/

section scan
variable [LinearOrder R]

/-- residual capacity seen by the first scan -/
def cap1 (s : State V A R) (u : V) : WithTop R := if s.forward u then ((s.flow (s.pred u) : R) : WithTop R) else ⊤

/-- residual capacity seen by the second scan -/
def cap2 (s : State V A R) (u : V) : WithTop R := if s.forward u then ⊤ else ((s.flow (s.pred u) : R) : WithTop R)

theorem scanFirst_spec (s : State V A R) (u0 : V) (l : List V) :
    let r := l.foldl (scanFirst s) ⟨⊤, u0, 0⟩
    (r.result = 0 ∧ r.delta = ⊤ ∧ ∀ x ∈ l, cap1 s x = ⊤) ∨
    (r.result = 1 ∧ ∃ l1 l2, l = l1 ++ r.uOut :: l2 ∧ r.delta = cap1 s r.uOut ∧ r.delta < ⊤ ∧
      (∀ x ∈ l1, r.delta < cap1 s x) ∧ ∀ x ∈ l2, r.delta ≤ cap1 s x) := by
  induction l using List.reverseRecOn with
  | nil => simp
  | append_singleton l a ih =>
    simp only [List.foldl_append, List.foldl_cons, List.foldl_nil]
    set r := l.foldl (scanFirst s) ⟨⊤, u0, 0⟩ with hr
    dsimp only at ih ⊢
    have hd : scanFirst s r a = if cap1 s a < r.delta then ⟨cap1 s a, a, 1⟩ else r := rfl
    rw [hd]
    by_cases hlt : cap1 s a < r.delta
    · rw [if_pos hlt]
      right
      refine ⟨rfl, l, [], rfl, rfl, lt_of_lt_of_le hlt le_top, ?_, by simp⟩
      intro x hx
      rcases ih with ⟨_, _, h3⟩ | ⟨_, l1, l2, h2, h3, _, h5, h6⟩
      · rw [h3 x hx]; exact lt_of_lt_of_le hlt le_top
      · rw [h2] at hx
        simp only [List.mem_append, List.mem_cons] at hx
        rcases hx with hx | rfl | hx
        · exact lt_trans hlt (h5 x hx)
        · rw [h3] at hlt; exact hlt
        · exact lt_of_lt_of_le hlt (h6 x hx)
    · rw [if_neg hlt]
      push Not at hlt
      rcases ih with ⟨h1, h2, h3⟩ | ⟨h1, l1, l2, h2, h3, h4, h5, h6⟩
      · refine Or.inl ⟨h1, h2, ?_⟩
        intro x hx
        simp only [List.mem_append, List.mem_singleton] at hx
        rcases hx with hx | rfl
        · exact h3 x hx
        · rw [h2] at hlt; exact top_le_iff.1 hlt
      · refine Or.inr ⟨h1, l1, l2 ++ [a], by rw [h2]; simp, h3, h4, h5, ?_⟩
        intro x hx
        simp only [List.mem_append, List.mem_singleton] at hx
        rcases hx with hx | rfl
        · exact h6 x hx
        · exact hlt

theorem scanSecond_spec (s : State V A R) (acc : Leaving V R) (l : List V) :
    let r := l.foldl (scanSecond s) acc
    (r = acc ∧ ∀ x ∈ l, acc.delta < cap2 s x) ∨
    (r.result = 2 ∧ ∃ l1 l2, l = l1 ++ r.uOut :: l2 ∧ r.delta = cap2 s r.uOut ∧ r.delta ≤ acc.delta ∧
      (∀ x ∈ l1, r.delta ≤ cap2 s x) ∧ ∀ x ∈ l2, r.delta < cap2 s x) := by
  induction l using List.reverseRecOn with
  | nil => simp
  | append_singleton l a ih =>
    simp only [List.foldl_append, List.foldl_cons, List.foldl_nil]
    set r := l.foldl (scanSecond s) acc with hr
    dsimp only at ih ⊢
    have hd : scanSecond s r a = if cap2 s a ≤ r.delta then ⟨cap2 s a, a, 2⟩ else r := rfl
    rw [hd]
    by_cases hle : cap2 s a ≤ r.delta
    · rw [if_pos hle]
      right
      refine ⟨rfl, l, [], rfl, rfl, ?_, ?_, by simp⟩
      · rcases ih with ⟨h1, _⟩ | ⟨_, _, _, _, _, h4, _⟩
        · rw [h1] at hle; exact hle
        · exact le_trans hle h4
      · intro x hx
        rcases ih with ⟨h1, h3⟩ | ⟨_, l1, l2, h2, h3, _, h5, h6⟩
        · rw [h1] at hle; exact le_of_lt (lt_of_le_of_lt hle (h3 x hx))
        · rw [h2] at hx
          simp only [List.mem_append, List.mem_cons] at hx
          rcases hx with hx | rfl | hx
          · exact le_trans hle (h5 x hx)
          · rw [h3] at hle; exact hle
          · exact le_of_lt (lt_of_le_of_lt hle (h6 x hx))
    · rw [if_neg hle]
      push Not at hle
      rcases ih with ⟨h1, h3⟩ | ⟨h1, l1, l2, h2, h3, h4, h5, h6⟩
      · refine Or.inl ⟨h1, ?_⟩
        intro x hx
        simp only [List.mem_append, List.mem_singleton] at hx
        rcases hx with hx | rfl
        · exact h3 x hx
        · rw [h1] at hle; exact hle
      · refine Or.inr ⟨h1, l1, l2 ++ [a], by rw [h2]; simp, h3, h4, h5, ?_⟩
        intro x hx
        simp only [List.mem_append, List.mem_singleton] at hx
        rcases hx with hx | rfl
        · exact h6 x hx
        · exact hle

end scan

/-! ### Flow along a path -/

section flow
variable [DecidableEq A] [Ring R] [LinearOrder R]

theorem addFlow_foldl_notMem (l : List V) (g : V → A) (y : V → R) (f : A → R) (a : A) (ha : ∀ u ∈ l, g u ≠ a) :
    l.foldl (fun f u => addFlow f (g u) (y u)) f a = f a := by
  induction l generalizing f with
  | nil => rfl
  | cons b l ih =>
    rw [List.foldl_cons, ih _ (fun u hu => ha u (by simp [hu]))]
    unfold addFlow
    rw [Function.update_of_ne (ha b (by simp)).symm]

theorem addFlow_foldl_mem (l : List V) (g : V → A) (y : V → R) (f : A → R) (hl : l.Nodup)
    (hinj : ∀ u ∈ l, ∀ w ∈ l, g u = g w → u = w) {u : V} (hu : u ∈ l) :
    l.foldl (fun f u => addFlow f (g u) (y u)) f (g u) = f (g u) + y u := by
  induction l generalizing f with
  | nil => cases hu
  | cons b l ih =>
    rw [List.foldl_cons]
    rw [List.nodup_cons] at hl
    by_cases hub : u = b
    · subst hub
      rw [addFlow_foldl_notMem _ _ _ _ _ (fun w hw h' => hl.1 (by
        rw [← hinj w (by simp [hw]) u (by simp) h']; exact hw))]
      simp [addFlow]
    · have hu' : u ∈ l := by simpa [hub] using hu
      rw [ih _ hl.2 (fun w hw w' hw' => hinj w (by simp [hw]) w' (by simp [hw'])) hu']
      have : g u ≠ g b := fun h' => hub (hinj u hu b (by simp) h')
      simp [addFlow, Function.update_of_ne this]

variable [Fintype A]

theorem netFlow_addFlow (src tgt : A → V) (f : A → R) (e : A) (x : R) (v : V) :
    netFlow src tgt (addFlow f e x) v = netFlow src tgt f v + (if src e = v then x else 0) - (if tgt e = v then x else 0) := by
  have key : ∀ (φ : A → Prop) [DecidablePred φ], (∑ a, if φ a then addFlow f e x a else 0) = (∑ a, if φ a then f a else 0) + if φ e then x else 0 := by
    intro φ _
    have : ∀ a, (if φ a then addFlow f e x a else 0) = (if φ a then f a else 0) + (if a = e then (if φ e then x else 0) else 0) := by
      intro a
      by_cases hae : a = e
      · subst hae
        by_cases h : φ a <;> simp [addFlow, h]
      · by_cases h : φ a <;> simp [addFlow, h, hae]
    rw [Finset.sum_congr rfl fun a _ => this a, Finset.sum_add_distrib, Finset.sum_ite_eq' Finset.univ e]
    simp
  unfold netFlow
  rw [key, key]
  abel

/-- pushing `y` up the tree from `u` to `stop` -/
theorem netFlow_path (src tgt : A → V) (p : V → Option V) (pr : V → A) (fw : V → Bool)
    (harc : ∀ v q, p v = some q → if fw v then src (pr v) = v ∧ tgt (pr v) = q else src (pr v) = q ∧ tgt (pr v) = v)
    {stop : V} (fuel : ℕ) {u : V} {l : List V} (hl : pathTo p stop fuel u = some l) (f : A → R) (y : R) (v : V) :
    netFlow src tgt (l.foldl (fun f u => addFlow f (pr u) (if fw u then y else -y)) f) v
      = netFlow src tgt f v + (if u = v then y else 0) - (if stop = v then y else 0) := by
  induction fuel generalizing u l f with
  | zero => simp [pathTo] at hl
  | succ k ih =>
    rw [pathTo] at hl
    split_ifs at hl with h1
    · cases hl; subst h1; simp
    · cases hq : p u with
      | none => rw [hq] at hl; cases hl
      | some q =>
        rw [hq] at hl
        dsimp only at hl
        cases hl' : pathTo p stop k q with
        | none => rw [hl'] at hl; cases hl
        | some l' =>
          rw [hl'] at hl
          cases hl
          rw [List.foldl_cons, ih hl', netFlow_addFlow]
          have h2 := harc u q hq
          by_cases hfw : fw u
          · rw [if_pos hfw] at h2 ⊢
            rw [h2.1, h2.2]
            abel
          · rw [if_neg hfw] at h2 ⊢
            rw [h2.1, h2.2]
            by_cases e1 : q = v <;> by_cases e2 : u = v <;> simp [e1, e2]

end flow

end POT.Simplex
