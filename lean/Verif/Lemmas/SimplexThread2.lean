import Verif.Lemmas.SimplexThread

/-! # The new thread and the new parents after `updateThreads` -/

set_option linter.unusedSectionVars false

namespace POT.Simplex

open Spec Tree

variable {V A R : Type*} [DecidableEq V]
variable {root : V} {p : V → Option V} {th rv : V → V} {sn : V → ℤ} {ls : V → V} {L : List V}

theorem stemLoop_spec (h : TreeRep root p th rv sn ls L) {uIn vIn uOut : V} (hv : ¬ Anc p uOut vIn)
    (fuel : ℕ) {c : Stem V} {N : List V} (hI : StemInv L p th rv ls uIn vIn uOut c N) (hf : rank L p c.stem < fuel) :
    ∃ c' N', stemLoop ls uOut fuel c = some c' ∧ StemInv L p th rv ls uIn vIn uOut c' N' ∧ c'.stem = uOut := by
  induction fuel generalizing c N with
  | zero => exact absurd hf (Nat.not_lt_zero _)
  | succ k ih =>
    by_cases hs : c.stem = uOut
    · exact ⟨c, N, by simp [stemLoop, hs], hI, hs⟩
    · obtain ⟨c1, N1, h1, h2, h3⟩ := stemInv_step h hv hI hs
      have := rank_lt h h3
      obtain ⟨c', N', h4, h5, h6⟩ := ih h2 (by omega)
      exact ⟨c', N', by simp [stemLoop, hs, h1, h4], h5, h6⟩

/-- the moved subtree is replaced by nothing at its old place and listed in its new order `N` behind `vIn` -/
def mv (S : V → Prop) [DecidablePred S] (vIn : V) (N : List V) (l : List V) : List V :=
  l.flatMap fun x => if S x then [] else if x = vIn then vIn :: N else [x]

section mv
variable (S : V → Prop) [DecidablePred S] (vIn : V) (N : List V)

theorem mv_append (l1 l2 : List V) : mv S vIn N (l1 ++ l2) = mv S vIn N l1 ++ mv S vIn N l2 := by simp [mv]

theorem mv_same {l : List V} (h1 : ∀ x ∈ l, ¬ S x) (h2 : vIn ∉ l) : mv S vIn N l = l := by
  induction l with
  | nil => rfl
  | cons a l ih =>
    have : mv S vIn N (a :: l) = (if S a then [] else if a = vIn then vIn :: N else [a]) ++ mv S vIn N l := rfl
    rw [this, ih (fun x hx => h1 x (by simp [hx])) (fun h => h2 (by simp [h])), if_neg (h1 a (by simp)), if_neg]
    · rfl
    · rintro rfl; exact h2 (by simp)

theorem mv_gone {l : List V} (h1 : ∀ x ∈ l, S x) : mv S vIn N l = [] := by
  simp only [mv, List.flatMap_eq_nil_iff]
  intro x hx
  rw [if_pos (h1 x hx)]

theorem mv_vin (h : ¬ S vIn) : mv S vIn N [vIn] = vIn :: N := by simp [mv, h]

theorem mem_mv (hv : ¬ S vIn) (l : List V) (x : V) :
    x ∈ mv S vIn N l ↔ (¬ S x ∧ x ∈ l) ∨ (x ∈ N ∧ vIn ∈ l) := by
  simp only [mv, List.mem_flatMap]
  constructor
  · rintro ⟨a, ha, hx⟩
    split_ifs at hx with h1 h2
    · simp at hx
    · rcases List.mem_cons.1 hx with rfl | h3
      · exact Or.inl ⟨hv, by rw [← h2]; exact ha⟩
      · exact Or.inr ⟨h3, h2 ▸ ha⟩
    · simp at hx; subst hx; exact Or.inl ⟨h1, ha⟩
  · rintro (⟨h1, h2⟩ | ⟨h1, h2⟩)
    · refine ⟨x, h2, ?_⟩
      rw [if_neg h1]
      split_ifs with h3
      · simp [h3]
      · simp
    · exact ⟨vIn, h2, by simp [hv, h1]⟩

end mv

/-- What `updateThreads` achieves. -/
structure ThreadsSpec (root : V) (L : List V) (p : V → Option V) (uIn vIn uOut : V) (t : Threads V) (N : List V) : Prop where
  mem : ∀ x, x ∈ N ↔ Anc p uOut x
  nodup : N.Nodup
  last : N.getLast? = some t.lastOut
  newList : ∃ L' : List V, Walk t.thread root L' root ∧
    ∀ (S : V → Prop) [DecidablePred S], (∀ x, S x ↔ Anc p uOut x) → L' = mv S vIn N L
  rev : ∀ x, t.rev (t.thread x) = x
  par_same : ∀ x, ¬ (Anc p x uIn ∧ Anc p uOut x) → t.parent x = p x
  par_in : t.parent uIn = some vIn
  par_rev : ∀ x y, p x = some y → Anc p x uIn → Anc p uOut y → t.parent y = some x
  block_off : ∀ u, Anc p uOut u → ¬ Anc p u uIn → ∃ P Q, N = P ++ blk L p u ++ Q
  block_on : ∀ u, Anc p uOut u → Anc p u uIn → ∃ P B, N = P ++ u :: B ∧
    ∀ x, x ∈ u :: B ↔ Anc p uOut x ∧ ∀ t, p t = some u → Anc p t uIn → ¬ Anc p t x

/-- writing `rev` along an injective thread -/
theorem dirty_fold (thread : V → V) (hinj : Function.Injective thread) (D : List V) (r : V → V)
    (hr : ∀ x, x ∉ D → r (thread x) = x) (x : V) :
    (D.foldl (fun r d => Function.update r (thread d) d) r) (thread x) = x := by
  induction D generalizing r with
  | nil => exact hr x (by simp)
  | cons d D ih =>
    simp only [List.foldl_cons]
    refine ih _ fun y hy => ?_
    by_cases hyd : y = d
    · subst hyd; simp
    · have : thread y ≠ thread d := fun h => hyd (hinj h)
      rw [Function.update_of_ne this]
      exact hr y (by simp [hyd, hy])

theorem walk_inj {f : V → V} {l : List V} {x : V} (hn : l.Nodup) (hw : Walk f x l x) {a b : V} (ha : a ∈ l) (hb : b ∈ l)
    (hab : f a = f b) : a = b := by
  -- predecessor of a position is unique in a duplicate-free cyclic list
  obtain ⟨l1, l2, rfl⟩ := List.append_of_mem ha
  by_contra hne
  have hcase : b ∈ l1 ∨ b ∈ l2 := by
    simp only [List.mem_append, List.mem_cons] at hb
    tauto
  -- a general fact: in a walk through a duplicate-free list, two different positions followed by the same node
  have key : ∀ (a b : V) (l1 l2 l3 : List V), (l1 ++ a :: (l2 ++ b :: l3)).Nodup →
      Walk f x (l1 ++ a :: (l2 ++ b :: l3)) x → f a = f b → False := by
    intro a b l1 l2 l3 hn hw hab
    obtain ⟨z, h1, h2⟩ := (walk_append _ _ _ _ _).1 hw
    obtain ⟨hz, h2⟩ := h2
    subst hz
    obtain ⟨z', h3, h4⟩ := (walk_append _ _ _ _ _).1 h2
    obtain ⟨hz', h4⟩ := h4
    subst hz'
    rcases l3 with _ | ⟨c3, l3⟩
    · -- `f b = x`, the head of the list
      have hx : f z' = x := h4
      rcases l1 with _ | ⟨c1, l1⟩
      · have h1x : x = z := h1
        rw [← hab] at hx
        rcases l2 with _ | ⟨c2, l2⟩
        · have : f z = z' := h3
          rw [hx, h1x] at this
          subst this
          simp at hn
        · have := walk_start h3
          rw [hx, h1x] at this
          subst this
          simp at hn
      · have h1x : x = c1 := walk_start h1
        rw [← hab] at hx
        rcases l2 with _ | ⟨c2, l2⟩
        · have : f z = z' := h3
          rw [hx, h1x] at this
          subst this
          simp at hn
        · have := walk_start h3
          rw [hx, h1x] at this
          subst this
          simp at hn
    · have h5 : f z' = c3 := walk_start h4
      rw [← hab] at h5
      rcases l2 with _ | ⟨c2, l2⟩
      · have : f z = z' := h3
        rw [h5] at this
        subst this
        rw [List.nodup_append'] at hn
        simp at hn
      · have := walk_start h3
        rw [h5] at this
        subst this
        rw [List.nodup_append'] at hn
        simp at hn
  rcases hcase with h | h
  · obtain ⟨k1, k2, rfl⟩ := List.append_of_mem h
    rw [List.append_assoc, List.cons_append] at hn hw
    exact key b a k1 k2 l2 hn hw hab.symm
  · obtain ⟨k1, k2, rfl⟩ := List.append_of_mem h
    exact key a b l1 k1 k2 hn hw hab

theorem updateThreads_spec (s : State V A R) (h : TreeRep root s.parent s.thread s.revThread s.succNum s.lastSucc L)
    {uIn vIn uOut : V} (hin : Anc s.parent uOut uIn) (hv : ¬ Anc s.parent uOut vIn) (hroot : uOut ≠ root)
    (fuel : ℕ) (hf : L.length < fuel) :
    ∃ t N, updateThreads s fuel uIn vIn uOut = some t ∧ ThreadsSpec root L s.parent uIn vIn uOut t N := by
  classical
  set p := s.parent with hp
  have hroot' : ¬ Anc p uOut root := fun h' => hroot (anc_none h.root_none h')
  obtain ⟨c, N, hc, hI, hstem⟩ := stemLoop_spec h hv fuel (stemInv_init h hin hv)
    (lt_of_le_of_lt (rank_le _) hf)
  obtain ⟨P, Q, hL, ⟨B, hB⟩, hl, hs, hwP, hwB, hwQ⟩ := blk_spec h uOut
  have hND := h.nodup
  rw [hL] at hND
  have hdPB : List.Disjoint P (blk L p uOut) := List.disjoint_of_nodup_append (List.nodup_append.1 hND).1
  have hdPBQ : List.Disjoint (P ++ blk L p uOut) Q := List.disjoint_of_nodup_append hND
  have hPS : ∀ x ∈ P, ¬ Anc p uOut x := fun x hx hx' => hdPB hx ((mem_blk h _ _).2 hx')
  have hQS : ∀ x ∈ Q, ¬ Anc p uOut x := fun x hx hx' => hdPBQ (by simp [(mem_blk h _ _).2 hx']) hx
  have hPne : P ≠ [] := by
    rintro rfl
    have : root = uOut := hwP
    exact hroot this.symm
  obtain ⟨P', w, rfl⟩ : ∃ P' w, P = P' ++ [w] := ⟨P.dropLast, P.getLast hPne, (List.dropLast_append_getLast hPne).symm⟩
  have hthw : s.thread w = uOut := ((walk_concat _ _ _ _ _).1 hwP).2
  have hold : s.revThread uOut = w := rev_eq h hthw
  have hwS : ¬ Anc p uOut w := hPS w (by simp)
  have hstemS : ∀ x, Anc p c.stem x ↔ Anc p uOut x := fun x => by rw [hstem]
  have huN : c.u ∈ N := List.mem_of_getLast? hI.last
  have huS : Anc p uOut c.u := (hstemS _).1 ((hI.mem _).1 huN)
  have huvin : c.u ≠ vIn := by rintro h'; exact hv (h' ▸ huS)
  have huw : c.u ≠ w := by rintro h'; exact hwS (h' ▸ huS)
  have hright : c.right = s.thread (s.lastSucc uOut) := by rw [hI.right, hstem]
  have hlsS : Anc p uOut (s.lastSucc uOut) := (mem_blk h _ _).1 (List.mem_of_getLast? hl)
  set last : V := if w = vIn then s.thread (s.lastSucc uOut) else s.thread vIn with hlast
  set thread1 : V → V := Function.update c.thread c.u last with hthread1
  set thread2 : V → V := if w ≠ vIn then Function.update thread1 w c.right else thread1 with hthread2
  set rev1 : V → V := Function.update c.rev last c.u with hrev1
  set rev2 : V → V := if w ≠ vIn then Function.update rev1 c.right w else rev1 with hrev2
  -- the new thread, pointwise
  have t_u : thread2 c.u = last := by
    rw [hthread2]; split_ifs
    · rw [Function.update_of_ne huw, hthread1, Function.update_self]
    · rw [hthread1, Function.update_self]
  have t_in : ∀ x, x ≠ c.u → x ≠ w → thread2 x = c.thread x := by
    intro x h1 h2
    rw [hthread2]; split_ifs
    · rw [Function.update_of_ne h2, hthread1, Function.update_of_ne h1]
    · rw [hthread1, Function.update_of_ne h1]
  have t_vin : thread2 vIn = uIn := by
    by_cases hw : w = vIn
    · rw [hthread2, if_neg (by simpa using hw), hthread1, Function.update_of_ne huvin.symm, hI.vin]
    · rw [t_in vIn huvin.symm (Ne.symm hw), hI.vin]
  have t_w : w ≠ vIn → thread2 w = c.right := by
    intro hw
    rw [hthread2, if_pos hw, Function.update_self]
  have t_out : ∀ x, ¬ Anc p uOut x → x ≠ vIn → x ≠ w → thread2 x = s.thread x := by
    intro x h1 h2 h3
    rw [t_in x (by rintro rfl; exact h1 huS) h3, hI.frame x (by rw [hstemS]; exact h1) h2]
  have wN : Walk thread2 uIn N last := by
    have h1 := walk_update_last hI.walk hI.nodup hI.last last
    refine walk_congr (fun a ha => ?_) h1
    have haw : a ≠ w := by rintro rfl; exact hwS ((hstemS _).1 ((hI.mem _).1 ha))
    change thread1 a = _
    rw [hthread2]; split_ifs
    · rw [Function.update_of_ne haw]
    · rfl
  -- nodup facts
  have hwP' : w ∉ P' := by
    intro h'
    have := List.disjoint_of_nodup_append (List.nodup_append.1 (List.nodup_append.1 hND).1).1
    exact this h' (by simp)
  have hwQ' : w ∉ Q := fun h' => hdPBQ (by simp) h'
  -- the new list
  have hwalk : ∃ L', Walk thread2 root L' root ∧
      ∀ (S : V → Prop) [DecidablePred S], (∀ x, S x ↔ Anc p uOut x) → L' = mv S vIn N L := by
    have hvL : vIn ∈ P' ++ [w] ∨ vIn ∈ Q := by
      have := h.mem vIn
      rw [hL] at this
      have h2 : vIn ∉ blk L p uOut := fun h' => hv ((mem_blk h _ _).1 h')
      simp only [List.mem_append] at this ⊢
      tauto
    rcases hvL with hvP | hvQ
    · -- `vIn` before the block
      have hvQ : vIn ∉ Q := fun h' => hdPBQ (by simp at hvP ⊢; tauto) h'
      by_cases hw : w = vIn
      · -- directly before
        subst hw
        refine ⟨P' ++ [w] ++ N ++ Q, ?_, ?_⟩
        · rw [walk_append]
          refine ⟨last, ?_, ?_⟩
          · rw [walk_append]
            refine ⟨uIn, ?_, wN⟩
            rw [walk_concat] at hwP ⊢
            refine ⟨walk_congr (fun a ha => ?_) hwP.1, t_vin⟩
            have haw : a ≠ w := by rintro rfl; exact hwP' ha
            rw [t_out a (hPS a (by simp [ha])) haw haw]
          · rw [hlast, if_pos rfl]
            refine walk_congr (fun a ha => ?_) hwQ
            have haw : a ≠ w := by rintro rfl; exact hwQ' ha
            rw [t_out a (hQS a ha) haw haw]
        · intro S _ hS
          rw [hL, mv_append, mv_append, mv_append, mv_same S w N (l := P') (fun x hx => by rw [hS]; exact hPS x (by simp [hx])) hwP',
            mv_vin S w N (by rw [hS]; exact hv), mv_gone S w N (l := blk L p uOut) (fun x hx => by rw [hS]; exact (mem_blk h _ _).1 hx),
            mv_same S w N (l := Q) (fun x hx => by rw [hS]; exact hQS x hx) hwQ']
          simp
      · -- further before
        have hvP' : vIn ∈ P' := by
          rcases List.mem_append.1 hvP with h' | h'
          · exact h'
          · simp at h'; exact absurd h'.symm hw
        obtain ⟨U, W, rfl⟩ := List.append_of_mem hvP'
        have hlast' : last = s.thread vIn := by rw [hlast, if_neg hw]
        have hnP : (U ++ vIn :: W).Nodup := (List.nodup_append.1 (List.nodup_append.1 (List.nodup_append.1 hND).1).1).1
        have hvU : vIn ∉ U := fun h' => (List.disjoint_of_nodup_append hnP) h' (by simp)
        have hvW : vIn ∉ W := fun h' => by
          have := (List.nodup_append.1 hnP).2.1
          simp at this; exact this.1 h'
        have hsplit : (U ++ vIn :: W) ++ [w] = U ++ [vIn] ++ (W ++ [w]) := by simp
        rw [hsplit] at hwP
        obtain ⟨z, hw1, hw2⟩ := (walk_append _ _ _ _ _).1 hwP
        rw [walk_concat] at hw1
        obtain ⟨hw1, hz⟩ := hw1
        rw [walk_concat] at hw2
        refine ⟨U ++ [vIn] ++ N ++ (W ++ [w]) ++ Q, ?_, ?_⟩
        · rw [walk_append]
          refine ⟨c.right, ?_, ?_⟩
          · rw [walk_append]
            refine ⟨last, ?_, ?_⟩
            · rw [walk_append]
              refine ⟨uIn, ?_, wN⟩
              rw [walk_concat]
              refine ⟨walk_congr (fun a ha => ?_) hw1, t_vin⟩
              have haw : a ≠ w := by rintro rfl; exact hwP' (by simp [ha])
              rw [t_out a (hPS a (by simp [ha])) (by rintro rfl; exact hvU ha) haw]
            · rw [hlast', hz, walk_concat]
              refine ⟨walk_congr (fun a ha => ?_) hw2.1, t_w hw⟩
              have haw : a ≠ w := by rintro rfl; exact hwP' (by simp [ha])
              rw [t_out a (hPS a (by simp [ha])) (by rintro rfl; exact hvW ha) haw]
          · rw [hright]
            refine walk_congr (fun a ha => ?_) hwQ
            have haw : a ≠ w := by rintro rfl; exact hwQ' ha
            rw [t_out a (hQS a ha) (by rintro rfl; exact hvQ ha) haw]
        · intro S _ hS
          rw [hL, hsplit, mv_append, mv_append, mv_append, mv_append,
            mv_same S vIn N (l := U) (fun x hx => by rw [hS]; exact hPS x (by simp [hx])) hvU,
            mv_vin S vIn N (by rw [hS]; exact hv),
            mv_same S vIn N (l := W ++ [w]) (fun x hx => by rw [hS]; exact hPS x (by simp at hx ⊢; tauto)) (by
              simp only [List.mem_append, List.mem_singleton, not_or]; exact ⟨hvW, Ne.symm hw⟩),
            mv_gone S vIn N (l := blk L p uOut) (fun x hx => by rw [hS]; exact (mem_blk h _ _).1 hx),
            mv_same S vIn N (l := Q) (fun x hx => by rw [hS]; exact hQS x hx) hvQ]
          simp
    · -- `vIn` behind the block
      have hvP : vIn ∉ P' ++ [w] := fun h' => hdPBQ (by simp at h' ⊢; tauto) hvQ
      have hw : w ≠ vIn := by rintro rfl; exact hvP (by simp)
      obtain ⟨U, W, rfl⟩ := List.append_of_mem hvQ
      have hlast' : last = s.thread vIn := by rw [hlast, if_neg hw]
      have hnQ : (U ++ vIn :: W).Nodup := (List.nodup_append.1 hND).2.1
      have hvU : vIn ∉ U := fun h' => (List.disjoint_of_nodup_append hnQ) h' (by simp)
      have hvW : vIn ∉ W := fun h' => by
        have := (List.nodup_append.1 hnQ).2.1
        simp at this; exact this.1 h'
      have hsplit : (U ++ vIn :: W) = U ++ [vIn] ++ W := by simp
      rw [hsplit] at hwQ
      obtain ⟨z, hw1, hw2⟩ := (walk_append _ _ _ _ _).1 hwQ
      rw [walk_concat] at hw1
      obtain ⟨hw1, hz⟩ := hw1
      refine ⟨P' ++ [w] ++ U ++ [vIn] ++ N ++ W, ?_, ?_⟩
      · rw [walk_append]
        refine ⟨last, ?_, ?_⟩
        · rw [walk_append]
          refine ⟨uIn, ?_, wN⟩
          rw [walk_concat]
          refine ⟨?_, t_vin⟩
          rw [walk_append]
          refine ⟨c.right, ?_, ?_⟩
          · rw [walk_concat] at hwP ⊢
            refine ⟨walk_congr (fun a ha => ?_) hwP.1, t_w hw⟩
            have haw : a ≠ w := by rintro rfl; exact hwP' ha
            rw [t_out a (hPS a (by simp [ha])) (by rintro rfl; exact hvP (by simp [ha])) haw]
          · rw [hright]
            refine walk_congr (fun a ha => ?_) hw1
            have haw : a ≠ w := by rintro rfl; exact hwQ' (by simp [ha])
            rw [t_out a (hQS a (by simp [ha])) (by rintro rfl; exact hvU ha) haw]
        · rw [hlast', hz]
          refine walk_congr (fun a ha => ?_) hw2
          have haw : a ≠ w := by rintro rfl; exact hwQ' (by simp [ha])
          rw [t_out a (hQS a (by simp [ha])) (by rintro rfl; exact hvW ha) haw]
      · intro S _ hS
        rw [hL, hsplit, mv_append S vIn N (P' ++ [w] ++ blk L p uOut), mv_append S vIn N (P' ++ [w]), mv_append S vIn N (U ++ [vIn]),
          mv_append S vIn N U,
          mv_same S vIn N (l := U) (fun x hx => by rw [hS]; exact hQS x (by simp [hx])) hvU,
          mv_vin S vIn N (by rw [hS]; exact hv),
          mv_same S vIn N (l := W) (fun x hx => by rw [hS]; exact hQS x (by simp [hx])) hvW,
          mv_gone S vIn N (l := blk L p uOut) (fun x hx => by rw [hS]; exact (mem_blk h _ _).1 hx),
          mv_same S vIn N (l := P' ++ [w]) (fun x hx => by rw [hS]; exact hPS x hx) hvP]
        simp
  obtain ⟨L', hL'w, hL'eq⟩ := hwalk
  have hL'S := hL'eq (fun x => Anc p uOut x) (fun _ => Iff.rfl)
  have hNS : ∀ x, x ∈ N ↔ Anc p uOut x := fun x => by rw [hI.mem, hstemS]
  have hmemL' : ∀ x, x ∈ L' := by
    intro x
    rw [hL'S, mem_mv _ _ _ hv]
    by_cases hx : Anc p uOut x
    · exact Or.inr ⟨(hNS x).2 hx, h.mem _⟩
    · exact Or.inl ⟨hx, h.mem _⟩
  have hnodupL' : L'.Nodup := by
    rw [hL'S, mv, List.nodup_flatMap]
    refine ⟨fun x _ => ?_, ?_⟩
    · split_ifs with h1 h2
      · simp
      · rw [List.nodup_cons]
        exact ⟨fun h' => hv ((hNS _).1 h'), hI.nodup⟩
      · simp
    · refine h.nodup.imp ?_
      intro a b hab x hxa hxb
      dsimp only at hxa hxb
      have form : ∀ y, x ∈ (if Anc p uOut y then [] else if y = vIn then vIn :: N else [y]) →
          (x = y ∧ ¬ Anc p uOut y) ∨ (y = vIn ∧ x ∈ N) := by
        intro y hy
        split_ifs at hy with h1 h2
        · simp at hy
        · rcases List.mem_cons.1 hy with h3 | h3
          · exact Or.inl ⟨h3.trans h2.symm, h1⟩
          · exact Or.inr ⟨h2, h3⟩
        · exact Or.inl ⟨by simpa using hy, h1⟩
      rcases form a hxa with ⟨h1, h2⟩ | ⟨h1, h2⟩ <;> rcases form b hxb with ⟨h3, h4⟩ | ⟨h3, h4⟩
      · exact hab (h1.symm.trans h3)
      · rw [← h1] at h2; exact h2 ((hNS _).1 h4)
      · rw [← h3] at h4; exact h4 ((hNS _).1 h2)
      · exact hab (h1.trans h3.symm)
  have hinj : Function.Injective thread2 := fun a b hab => walk_inj hnodupL' hL'w (hmemL' a) (hmemL' b) hab
  -- reverse thread
  have hrev_clean : ∀ x, x ∉ c.dirty → rev2 (thread2 x) = x := by
    intro x hx
    have hxv : x ≠ vIn := by rintro rfl; exact hx hI.dvin
    by_cases hxw : x = w
    · subst hxw
      rw [t_w hxv, hrev2, if_pos hxv, Function.update_self]
    · have hne2 : w ≠ vIn → thread2 x ≠ c.right := by
        intro hw h'
        rw [← t_w hw] at h'
        exact hxw (hinj h')
      have hred : rev2 (thread2 x) = rev1 (thread2 x) := by
        rw [hrev2]; split_ifs with hw
        · rw [Function.update_of_ne (hne2 hw)]
        · rfl
      rw [hred]
      by_cases hxu : x = c.u
      · subst hxu
        rw [t_u, hrev1, Function.update_self]
      · have : thread2 x ≠ last := by
          intro h'
          rw [← t_u] at h'
          exact hxu (hinj h')
        rw [hrev1, Function.update_of_ne this, t_in x hxu hxw, hI.rev x hx]
  have hrev_final : ∀ x, (c.dirty.foldl (fun r d => Function.update r (thread2 d) d) rev2) (thread2 x) = x :=
    fun x => dirty_fold thread2 hinj c.dirty rev2 hrev_clean x
  refine ⟨{ parent := Function.update c.parent uOut (some c.parStem), thread := thread2,
            rev := c.dirty.foldl (fun r d => Function.update r (thread2 d) d) rev2, lastOut := c.u }, N, ?_, ?_⟩
  · unfold updateThreads
    simp only [← hp, hold]
    rw [hc]
  · refine
      { mem := hNS, nodup := hI.nodup, last := hI.last, newList := ⟨L', hL'w, hL'eq⟩, rev := hrev_final, par_same := ?_, par_in := ?_,
        par_rev := ?_, block_off := ?_, block_on := ?_ }
    · intro x hx
      simp only
      have hxo : x ≠ uOut := by rintro rfl; exact hx ⟨hin, anc_refl _⟩
      rw [Function.update_of_ne hxo]
      exact hI.par_same x fun h' => hx ⟨h'.1, (hstemS _).1 h'.2.1⟩
    · simp only
      by_cases hio : uIn = uOut
      · rcases hI.par_stem with h' | h'
        · rw [hio, Function.update_self, h'.2]
        · exfalso
          rw [hstem] at h'
          refine not_anc_parent h.root_none h.root_anc h'.1 ?_
          rw [← hio]; exact h'.2
      · rw [Function.update_of_ne hio]
        exact hI.par_in (by rw [hstem]; exact Ne.symm hio)
    · intro x y hxy hx hy
      simp only
      by_cases hyo : y = uOut
      · subst hyo
        rw [Function.update_self]
        rcases hI.par_stem with h' | h'
        · exfalso
          refine not_anc_parent h.root_none h.root_anc hxy ?_
          rw [← hstem, h'.1]; exact hx
        · rw [hstem] at h'
          rcases anc_total hx h'.2 with h2 | h2
          · by_cases hxp : x = c.parStem
            · rw [hxp]
            · exact absurd (anc_of_ne h2 hxp h'.1) (not_anc_parent h.root_none h.root_anc hxy)
          · by_cases hxp : c.parStem = x
            · rw [hxp]
            · exact absurd (anc_of_ne h2 hxp hxy) (not_anc_parent h.root_none h.root_anc h'.1)
      · rw [Function.update_of_ne hyo]
        exact hI.par_rev x y hxy hx (by rw [hstemS]; exact hy) (by rw [hstem]; exact hyo)
    · intro u hu hu'
      exact hI.block_off u ((hstemS _).2 hu) hu'
    · intro u hu hu'
      obtain ⟨P, B, h1, h2⟩ := hI.block_on u ((hstemS _).2 hu) hu'
      exact ⟨P, B, h1, fun x => by rw [h2 x, hstemS]⟩

end POT.Simplex
