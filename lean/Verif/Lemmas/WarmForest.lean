import Verif.Lemmas.WarmStart
import Mathlib.Data.Finset.Card

/-! # The forest of the warm start: every node with an arc gets one, and no source is the top of a component -/

set_option linter.unusedSectionVars false

namespace POT.Simplex

open Spec POT.Tree Relation Finset

variable {R : Type*} [CommRing R] [LinearOrder R] [IsStrictOrderedRing R] {n m : ℕ}

/-! ### Kruskal's algorithm -/

/-- some arc of the list touches `x` -/
def Touched (P : Problem n m R) (l : List (Fin m)) (x : Fin n) : Prop := ∃ e ∈ l, P.src e = x ∨ P.tgt e = x

structure KruskalOk (P : Problem n m R) (A : List (Fin m)) (acc : (Fin n → Fin n) × List (Fin m)) : Prop where
  alone : ∀ x, ¬ Touched P acc.2 x → ∀ y, acc.1 y = acc.1 x → y = x
  count : (univ.image acc.1).card + acc.2.length = n
  touch : ∀ e ∈ A, Touched P acc.2 (P.src e)

theorem kruskalStep_ok {P : Problem n m R} (hne : ∀ e, P.src e ≠ P.tgt e) {A : List (Fin m)} {acc : (Fin n → Fin n) × List (Fin m)} (h : KruskalOk P A acc) (e : Fin m) :
    KruskalOk P (A ++ [e]) (kruskalStep P acc e) := by
  have hlast : ∀ acc' : (Fin n → Fin n) × List (Fin m), (∀ x, Touched P acc.2 x → Touched P acc'.2 x) → Touched P acc'.2 (P.src e) →
      ∀ e' ∈ A ++ [e], Touched P acc'.2 (P.src e') := by
    intro acc' h1 h2 e' he'
    rcases List.mem_append.1 he' with h3 | h3
    · exact h1 _ (h.touch e' h3)
    · rw [List.mem_singleton] at h3; subst h3; exact h2
  unfold kruskalStep
  split_ifs with hfull hsame
  · refine ⟨h.alone, h.count, hlast acc (fun _ hx => hx) ?_⟩
    by_contra hcon
    have h1 := h.alone _ hcon
    have h2 : (univ.image acc.1).card ≤ 1 := by have := h.count; omega
    rw [Finset.card_le_one] at h2
    have h3 := h2 (acc.1 (P.tgt e)) (by simp) (acc.1 (P.src e)) (by simp)
    exact hne e (h1 _ h3).symm
  · refine ⟨h.alone, h.count, hlast acc (fun _ hx => hx) ?_⟩
    by_contra hcon
    exact hne e (h.alone _ hcon _ hsame.symm).symm
  · refine ⟨fun x hx y hy => ?_, ?_, hlast _ (fun x ⟨e', h1, h2⟩ => ⟨e', by simp [h1], h2⟩) ⟨e, by simp, Or.inl rfl⟩⟩
    · dsimp only at hx hy
      have hx1 : ¬ Touched P acc.2 x := fun ⟨e', h1, h2⟩ => hx ⟨e', by simp [h1], h2⟩
      have hxs : P.src e ≠ x := fun h1 => hx ⟨e, by simp, Or.inl h1⟩
      have hxt : P.tgt e ≠ x := fun h1 => hx ⟨e, by simp, Or.inr h1⟩
      have a1 := h.alone x hx1
      have n1 : acc.1 x ≠ acc.1 (P.tgt e) := fun h1 => hxt (a1 _ h1.symm)
      have n2 : acc.1 (P.src e) ≠ acc.1 x := fun h1 => hxs (a1 _ h1)
      rw [if_neg n1] at hy
      split_ifs at hy with h1
      · exact absurd hy n2
      · exact a1 y hy
    · dsimp only
      have himg : (univ.image fun x => if acc.1 x = acc.1 (P.tgt e) then acc.1 (P.src e) else acc.1 x) = (univ.image acc.1).erase (acc.1 (P.tgt e)) := by
        ext z
        simp only [Finset.mem_image, Finset.mem_univ, true_and, Finset.mem_erase]
        constructor
        · rintro ⟨x, rfl⟩
          split_ifs with h1
          · exact ⟨hsame, P.src e, rfl⟩
          · exact ⟨h1, x, rfl⟩
        · rintro ⟨h1, x, rfl⟩
          exact ⟨x, if_neg h1⟩
      rw [himg, Finset.card_erase_of_mem (by simp), List.length_append, List.length_singleton]
      have h1 := h.count
      have h2 : 0 < (univ.image acc.1).card := Finset.card_pos.2 ⟨acc.1 (P.tgt e), by simp⟩
      omega

/-- every source with an arc is touched by the forest -/
theorem treeArcs_touch {P : Problem n m R} (hne : ∀ e, P.src e ≠ P.tgt e) (cand : List (Fin m)) (e : Fin m) : Touched P (treeArcs P cand) (P.src e) := by
  have key : ∀ l : List (Fin m), KruskalOk P l (l.foldl (kruskalStep P) (id, [])) := by
    intro l
    induction l using List.reverseRecOn with
    | nil => exact ⟨fun x _ y hy => hy, by simp, by simp⟩
    | append_singleton l e ih =>
      rw [List.foldl_append]
      exact kruskalStep_ok hne ih e
  refine (key _).touch e ?_
  by_cases he : e ∈ cand
  · simp [he]
  · simp [he]

/-! ### The search reaches all neighbours -/

theorem bfsVisit_closed {P : Problem n m R} {v : Fin n} (acc : Bfs n m × List (Fin n)) (x : Fin n × Fin m) :
    x.1 ∈ (bfsVisit P v acc x).1.visited ∧ (∀ u ∈ acc.1.visited, u ∈ (bfsVisit P v acc x).1.visited) ∧
    (∀ u ∈ (bfsVisit P v acc x).1.visited, u ∈ acc.1.visited ∨ u ∈ (bfsVisit P v acc x).2) ∧ (∀ u ∈ acc.2, u ∈ (bfsVisit P v acc x).2) ∧
    (bfsVisit P v acc x).1.visited.length + acc.2.length = (bfsVisit P v acc x).2.length + acc.1.visited.length := by
  unfold bfsVisit
  split_ifs with h
  · exact ⟨h, fun u hu => hu, fun u hu => Or.inl hu, fun u hu => hu, Nat.add_comm _ _⟩
  · refine ⟨by simp, fun u hu => by simp [hu], fun u hu => ?_, fun u hu => by simp [hu], ?_⟩
    · simp only [List.mem_append, List.mem_singleton] at hu ⊢
      tauto
    · simp only [List.length_append, List.length_singleton]
      omega

theorem bfsFold_closed {P : Problem n m R} {v : Fin n} (l : List (Fin n × Fin m)) (acc : Bfs n m × List (Fin n)) :
    (∀ x ∈ l, x.1 ∈ (l.foldl (bfsVisit P v) acc).1.visited) ∧ (∀ u ∈ acc.1.visited, u ∈ (l.foldl (bfsVisit P v) acc).1.visited) ∧
    (∀ u ∈ (l.foldl (bfsVisit P v) acc).1.visited, u ∈ acc.1.visited ∨ u ∈ (l.foldl (bfsVisit P v) acc).2) ∧
    (∀ u ∈ acc.2, u ∈ (l.foldl (bfsVisit P v) acc).2) ∧
    (l.foldl (bfsVisit P v) acc).1.visited.length + acc.2.length = (l.foldl (bfsVisit P v) acc).2.length + acc.1.visited.length := by
  induction l generalizing acc with
  | nil => exact ⟨by simp, fun u hu => hu, fun u hu => Or.inl hu, fun u hu => hu, Nat.add_comm _ _⟩
  | cons x l ih =>
    rw [List.foldl_cons]
    obtain ⟨a1, a2, a3, a4, a5⟩ := bfsVisit_closed (P := P) (v := v) acc x
    obtain ⟨b1, b2, b3, b4, b5⟩ := ih (bfsVisit P v acc x)
    refine ⟨fun y hy => ?_, fun u hu => b2 u (a2 u hu), fun u hu => ?_, fun u hu => b4 u (a4 u hu), by omega⟩
    · rcases List.mem_cons.1 hy with rfl | hy
      · exact b2 _ a1
      · exact b1 y hy
    · rcases b3 u hu with h | h
      · rcases a3 u h with h | h
        · exact Or.inl h
        · exact Or.inr (b4 u h)
      · exact Or.inr h

/-- all neighbours of visited nodes are visited -/
def Closed (P : Problem n m R) (arcs : List (Fin m)) (b : Bfs n m) (q : List (Fin n)) : Prop :=
  ∀ v ∈ b.visited, v ∉ q → ∀ x ∈ treeAdj P arcs v, x.1 ∈ b.visited

theorem bfsLoop_closed {P : Problem n m R} {arcs : List (Fin m)} (k : ℕ) (q : List (Fin n)) (b : Bfs n m) (h : BfsOk P b) (hq : ∀ u ∈ q, u ∈ b.visited)
    (hc : Closed P arcs b q) (hk : n + q.length ≤ k + b.visited.length) : Closed P arcs (bfsLoop P arcs k q b) [] := by
  induction k generalizing q b with
  | zero =>
    have h1 := h.nodup.length_le_card
    rw [Fintype.card_fin] at h1
    have h2 : q = [] := List.length_eq_zero_iff.1 (by omega)
    subst h2
    exact hc
  | succ k ih =>
    cases q with
    | nil => exact hc
    | cons v q =>
      rw [bfsLoop]
      obtain ⟨h1, _, h3⟩ := bfsFold_ok (treeAdj P arcs v) (fun x hx => treeAdj_mem hx) (acc := (b, q)) h (hq v (by simp)) (fun u hu => hq u (by simp [hu]))
      obtain ⟨b1, b2, b3, b4, b5⟩ := bfsFold_closed (P := P) (v := v) (treeAdj P arcs v) (b, q)
      refine ih _ _ h1 h3 (fun w hw hwq x hx => ?_) ?_
      · have hwb : w ∈ b.visited := (b3 w hw).resolve_right hwq
        by_cases hwv : w = v
        · subst hwv; exact b1 x hx
        · exact b2 _ (hc w hwb (fun h' => by
            rcases List.mem_cons.1 h' with h' | h'
            · exact hwv h'
            · exact hwq (b4 w h')) x hx)
      · rw [List.length_cons] at hk
        dsimp only at b5 ⊢
        omega

theorem bfsRep_closed {P : Problem n m R} {arcs : List (Fin m)} {b : Bfs n m} (h : BfsOk P b) (hc : Closed P arcs b []) (u : Fin n) :
    Closed P arcs (bfsRep P arcs b u) [] := by
  unfold bfsRep
  split_ifs with hu
  · exact hc
  · refine bfsLoop_closed n [u] _ (h.extend hu none (.inr u) (decide (0 ≤ P.supply u)) (Or.inl ⟨rfl, rfl, rfl⟩)) (by simp) (fun v hv hvq x hx => ?_) ?_
    · dsimp only at hv ⊢
      rw [List.mem_append] at hv
      have := hc v (hv.resolve_right hvq) (by simp) x hx
      simp [this]
    · simp only [List.length_append, List.length_singleton]; omega

/-! ### Tops of components -/

/-- visited nodes with the property `Q` have a parent that is not the root -/
def NotTop (Q : Fin n → Prop) (b : Bfs n m) : Prop := ∀ u ∈ b.visited, Q u → b.parent u ≠ none

theorem bfsVisit_notTop {P : Problem n m R} {Q : Fin n → Prop} {v : Fin n} {acc : Bfs n m × List (Fin n)} (x : Fin n × Fin m) (h : NotTop Q acc.1) :
    NotTop Q (bfsVisit P v acc x).1 := by
  unfold bfsVisit
  split_ifs with hx
  · exact h
  · intro u hu hQ
    dsimp only at hu ⊢
    by_cases hux : u = x.1
    · subst hux; simp
    · rw [Function.update_of_ne hux]
      exact h u (by simpa [hux] using hu) hQ

theorem bfsLoop_notTop {P : Problem n m R} {Q : Fin n → Prop} {arcs : List (Fin m)} (k : ℕ) (q : List (Fin n)) (b : Bfs n m) (h : NotTop Q b) :
    NotTop Q (bfsLoop P arcs k q b) := by
  induction k generalizing q b with
  | zero => exact h
  | succ k ih =>
    cases q with
    | nil => exact h
    | cons v q =>
      rw [bfsLoop]
      refine ih _ _ ?_
      have : ∀ (l : List (Fin n × Fin m)) (acc : Bfs n m × List (Fin n)), NotTop Q acc.1 → NotTop Q (l.foldl (bfsVisit P v) acc).1 := by
        intro l
        induction l with
        | nil => intro acc h; exact h
        | cons x l ih => intro acc h; exact ih _ (bfsVisit_notTop x h)
      exact this _ _ h

/-- no node with a forest arc to a node before it is the top of a component -/
theorem bfs_notTop (P : Problem n m R) (arcs : List (Fin m)) (u : Fin n) (e : Fin m) (he : e ∈ arcs) (hu : P.src e = u) (hlt : P.tgt e < u) :
    (bfs P arcs).parent u ≠ none := by
  have key : ∀ A B : List (Fin n), List.finRange n = A ++ B →
      let b := A.foldl (bfsRep P arcs) ⟨[], fun _ => none, fun u => .inr u, fun _ => true⟩
      BfsOk P b ∧ Closed P arcs b [] ∧ (∀ x ∈ A, x ∈ b.visited) ∧ NotTop (fun x => x = u) b := by
    intro A
    induction A using List.reverseRecOn with
    | nil => intro B _; exact ⟨⟨by simp, by simp⟩, fun v hv => by simp at hv, by simp, fun v hv => by simp at hv⟩
    | append_singleton A a ih =>
      intro B hB
      have hB' : List.finRange n = A ++ a :: B := by rw [hB]; simp
      have ih' := ih _ hB'
      dsimp only at ih' ⊢
      rw [List.foldl_append, List.foldl_cons, List.foldl_nil]
      generalize List.foldl (bfsRep P arcs) _ A = b at ih' ⊢
      obtain ⟨h1, h2, h3, h4⟩ := ih'
      obtain ⟨r1, r2, r3⟩ := bfsRep_ok (arcs := arcs) h1 a
      refine ⟨r1, bfsRep_closed h1 h2 a, fun x hx => ?_, ?_⟩
      · rcases List.mem_append.1 hx with hx | hx
        · exact r2 x (h3 x hx)
        · rw [List.mem_singleton] at hx; subst hx; exact r3
      · unfold bfsRep
        split_ifs with hav
        · exact h4
        · refine bfsLoop_notTop _ _ _ fun x hx hxu => ?_
          dsimp only at hx hxu ⊢
          have hau : a ≠ u := by
            rintro rfl
            -- the target of the arc was visited before
            have hpw := List.pairwise_lt_finRange n
            rw [hB', List.pairwise_append] at hpw
            have hm : P.tgt e ∈ A ++ a :: B := by rw [← hB']; exact List.mem_finRange _
            have hA : P.tgt e ∈ A := by
              rcases List.mem_append.1 hm with h5 | h5
              · exact h5
              · rcases List.mem_cons.1 h5 with h5 | h5
                · exact absurd h5 (ne_of_lt hlt)
                · exact absurd ((List.pairwise_cons.1 hpw.2.1).1 _ h5) (not_lt.2 hlt.le)
            have h5 := h2 _ (h3 _ hA) (by simp) (P.src e, e) (by
              unfold treeAdj
              rw [List.mem_flatMap]
              exact ⟨e, he, by simp⟩)
            dsimp only at h5
            rw [hu] at h5
            exact hav h5
          subst hxu
          rw [Function.update_of_ne (Ne.symm hau)]
          exact h4 x (by simpa [Ne.symm hau] using hx) rfl
  obtain ⟨_, _, h3, h4⟩ := key (List.finRange n) [] (by simp)
  exact h4 u (h3 u (List.mem_finRange u)) rfl

/-- **no source with an arc is a top of the warm start**, if targets come first -/
theorem warm_notTop {P : Problem n m R} (hb : Bipartite P) (hord : ∀ e, P.tgt e < P.src e) (cand : List (Fin m)) (e : Fin m) :
    (bfs P (treeArcs P cand)).parent (P.src e) ≠ none := by
  obtain ⟨e', h1, h2⟩ := treeArcs_touch (fun e => (hord e).ne') cand e
  rcases h2 with h2 | h2
  · exact bfs_notTop P _ _ e' h1 h2 (h2 ▸ hord e')
  · have h3 := (hb e').2
    rw [h2] at h3
    exact absurd (hb e).1 (not_le.2 h3)

end POT.Simplex
