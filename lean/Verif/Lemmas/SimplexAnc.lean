import Verif.Lemmas.SimplexThread2
import Mathlib.Tactic.Ring
import Mathlib.Tactic.Linarith

/-! # Ancestors and blocks in the new tree -/

set_option linter.unusedSectionVars false

namespace POT.Simplex

open Spec POT.Tree Relation

variable {V A R : Type*} [DecidableEq V]
variable {root : V} {p : V → Option V} {th rv : V → V} {sn : V → ℤ} {ls : V → V} {L : List V}
variable {uIn vIn uOut : V} {t : Threads V} {N : List V}

/-- a node of the stem: on the old path from `uIn` up to `uOut` -/
def OnStem (p : V → Option V) (uIn uOut x : V) : Prop := Anc p x uIn ∧ Anc p uOut x

section
variable (h : TreeRep root p th rv sn ls L) (T : ThreadsSpec root L p uIn vIn uOut t N)
  (hin : Anc p uOut uIn) (hv : ¬ Anc p uOut vIn)
include h T hin hv

omit hin hv h in
theorem par_out {x : V} (hx : ¬ Anc p uOut x) : t.parent x = p x := T.par_same x fun h' => hx h'.2

omit h hin hv in
theorem par_off {x : V} (hx : ¬ OnStem p uIn uOut x) : t.parent x = p x := T.par_same x hx

/-- parents of stem nodes -/
theorem par_on {x : V} (hx : OnStem p uIn uOut x) :
    (x = uIn ∧ t.parent x = some vIn) ∨ ∃ c, p c = some x ∧ OnStem p uIn uOut c ∧ t.parent x = some c := by
  by_cases hxu : x = uIn
  · exact Or.inl ⟨hxu, by rw [hxu]; exact T.par_in⟩
  · obtain ⟨c, hc, hcu⟩ := anc_child hx.1 hxu
    exact Or.inr ⟨c, hc, ⟨hcu, anc_of_parent hc hx.2⟩, T.par_rev c x hc hcu hx.2⟩

/-- (b) outside the subtree nothing changes -/
theorem anc_out {u x : V} (hx : ¬ Anc p uOut x) : Anc t.parent u x ↔ Anc p u x := by
  constructor
  · intro hu
    induction hu using ReflTransGen.head_induction_on with
    | refl => exact anc_refl _
    | head h1 h2 ih =>
      rename_i a c
      rw [par_out T hx] at h1
      exact anc_of_parent h1 (ih fun h' => hx (anc_of_parent h1 h'))
  · intro hu
    induction hu using ReflTransGen.head_induction_on with
    | refl => exact anc_refl _
    | head h1 h2 ih =>
      rename_i a c
      have h1' := h1
      rw [← par_out T hx] at h1'
      exact anc_of_parent h1' (ih fun h' => hx (anc_of_parent h1 h'))

/-- along the stem the direction is reversed -/
theorem anc_stem {y u : V} (hy : OnStem p uIn uOut y) (hu : OnStem p uIn uOut u) (hyu : Anc p y u) : Anc t.parent u y := by
  unfold Anc at hyu
  induction hyu with
  | refl => exact anc_refl _
  | tail h1 h2 ih =>
    rename_i b c
    have hb : OnStem p uIn uOut b := ⟨anc_trans h1 hu.1, anc_of_parent h2 hy.2⟩
    have := T.par_rev b c h2 hb.1 hy.2
    exact anc_of_parent this (ih hb)

/-- from a node of the subtree one reaches the stem without leaving old parents -/
theorem anc_to_stem {x : V} (hx : Anc p uOut x) : ∃ y, OnStem p uIn uOut y ∧ Anc p y x ∧ Anc t.parent y x := by
  induction hx using ReflTransGen.head_induction_on with
  | refl => exact ⟨uOut, ⟨hin, anc_refl _⟩, anc_refl _, anc_refl _⟩
  | head h1 h2 ih =>
    rename_i a c
    by_cases ha : OnStem p uIn uOut a
    · exact ⟨a, ha, anc_refl _, anc_refl _⟩
    · obtain ⟨y, hy1, hy2, hy3⟩ := ih
      refine ⟨y, hy1, anc_of_parent h1 hy2, ?_⟩
      rw [← par_off T ha] at h1
      exact anc_of_parent h1 hy3

theorem stem_uIn : OnStem p uIn uOut uIn := ⟨anc_refl _, hin⟩

/-- (c) the new attachment point is an ancestor of the whole subtree -/
theorem anc_vIn {x : V} (hx : Anc p uOut x) : Anc t.parent vIn x := by
  obtain ⟨y, hy1, _, hy3⟩ := anc_to_stem h T hin hv hx
  exact anc_trans (anc_trans (anc_parent T.par_in) (anc_stem h T hin hv hy1 (stem_uIn h T hin hv) hy1.1)) hy3

theorem step_in {x q : V} (hx : Anc p uOut x) (hq : t.parent x = some q) :
    (x = uIn ∧ q = vIn) ∨ Anc p uOut q := by
  by_cases hs : OnStem p uIn uOut x
  · rcases par_on h T hin hv hs with ⟨h1, h2⟩ | ⟨c, _, h2, h3⟩
    · rw [hq] at h2; exact Or.inl ⟨h1, Option.some.inj h2⟩
    · rw [hq] at h3; rw [Option.some.inj h3]; exact Or.inr h2.2
  · rw [par_off T hs] at hq
    refine Or.inr (anc_of_ne hx ?_ hq)
    rintro rfl
    exact hs ⟨hin, anc_refl _⟩

theorem anc_leave {u x : V} (hx : Anc p uOut x) (hu : Anc t.parent u x) : Anc p uOut u ∨ Anc p u vIn := by
  induction hu using ReflTransGen.head_induction_on with
  | refl => exact Or.inl hx
  | head h1 h2 ih =>
    rcases step_in h T hin hv hx h1 with ⟨_, h4⟩ | h3
    · right
      rw [h4] at h2
      exact (anc_out h T hin hv hv).1 h2
    · exact ih h3

/-- (d) -/
theorem anc_out_in {u x : V} (hu : ¬ Anc p uOut u) (hx : Anc p uOut x) : Anc t.parent u x ↔ Anc p u vIn := by
  constructor
  · intro h1
    rcases anc_leave h T hin hv hx h1 with h2 | h2
    · exact absurd h2 hu
    · exact h2
  · intro h1
    exact anc_trans ((anc_out h T hin hv hv).2 h1) (anc_vIn h T hin hv hx)

/-- (e) -/
theorem anc_in_out {u x : V} (hu : Anc p uOut u) (hx : ¬ Anc p uOut x) : ¬ Anc t.parent u x := by
  intro h1
  exact hx (anc_trans hu ((anc_out h T hin hv hx).1 h1))

/-- (f) -/
theorem anc_off {u x : V} (hu : Anc p uOut u) (hu' : ¬ Anc p u uIn) : Anc t.parent u x ↔ Anc p u x := by
  constructor
  · intro h1
    induction h1 using ReflTransGen.head_induction_on with
    | refl => exact anc_refl _
    | head h1 h2 ih =>
      rename_i a c
      by_cases hs : OnStem p uIn uOut a
      · exfalso
        rcases par_on h T hin hv hs with ⟨_, h4⟩ | ⟨d, _, h4, h5⟩
        · rw [h1] at h4; rw [Option.some.inj h4] at ih
          exact hv (anc_trans hu ih)
        · rw [h1] at h5; rw [Option.some.inj h5] at ih
          exact hu' (anc_trans ih h4.1)
      · rw [par_off T hs] at h1
        exact anc_of_parent h1 ih
  · intro h1
    induction h1 using ReflTransGen.head_induction_on with
    | refl => exact anc_refl _
    | head h1 h2 ih =>
      rename_i a c
      have hs : ¬ OnStem p uIn uOut a := fun hs => hu' (anc_trans (anc_of_parent h1 h2) hs.1)
      rw [← par_off T hs] at h1
      exact anc_of_parent h1 ih

/-- (g) -/
theorem anc_on {u x : V} (hu : OnStem p uIn uOut u) :
    Anc t.parent u x ↔ Anc p uOut x ∧ ∀ c, p c = some u → Anc p c uIn → ¬ Anc p c x := by
  constructor
  · intro h1
    have hx : Anc p uOut x := by
      by_contra hx
      exact anc_in_out h T hin hv hu.2 hx h1
    refine ⟨hx, fun c hc hcu hcx => ?_⟩
    -- the subtree of `c` is closed under new parents, except for leaving the subtree of `uOut`
    have key : ∀ a, Anc t.parent u a → Anc p c a → Anc p c u ∨ ¬ Anc p uOut u := by
      intro a ha
      induction ha using ReflTransGen.head_induction_on with
      | refl => exact fun h' => Or.inl h'
      | head h1 h2 ih =>
        rename_i b d
        intro hcb
        have hcS : Anc p uOut c := anc_of_parent hc hu.2
        by_cases hs : OnStem p uIn uOut b
        · rcases par_on h T hin hv hs with ⟨_, h4⟩ | ⟨e, he, _, h5⟩
          · rw [h1] at h4; rw [Option.some.inj h4] at h2
            right
            intro h6
            exact hv (anc_trans h6 ((anc_out h T hin hv hv).1 h2))
          · rw [h1] at h5; rw [Option.some.inj h5] at ih
            exact ih (anc_of_parent he hcb)
        · rw [par_off T hs] at h1
          refine ih (anc_of_ne hcb ?_ h1)
          rintro rfl
          exact hs ⟨hcu, hcS⟩
    rcases key x h1 hcx with h2 | h2
    · exact not_anc_parent h.root_none h.root_anc hc h2
    · exact h2 hu.2
  · rintro ⟨hx, hc⟩
    obtain ⟨y, hy1, hy2, hy3⟩ := anc_to_stem h T hin hv hx
    rcases anc_total hy1.1 hu.1 with h1 | h1
    · exact anc_trans (anc_stem h T hin hv hy1 hu h1) hy3
    · by_cases huy : u = y
      · rw [huy]; exact hy3
      · obtain ⟨c, hc1, hc2⟩ := anc_child h1 huy
        exact absurd (anc_trans hc2 hy2) (hc c hc1 (anc_trans hc2 hy1.1))

/-- the root stays an ancestor of everything -/
theorem root_anc_new (hroot : uOut ≠ root) (x : V) : Anc t.parent root x := by
  have hr : ¬ Anc p uOut root := fun h' => hroot (anc_none h.root_none h')
  by_cases hx : Anc p uOut x
  · exact (anc_out_in h T hin hv hr hx).2 (h.root_anc _)
  · exact (anc_out h T hin hv hx).2 (h.root_anc _)

theorem root_none_new (hroot : uOut ≠ root) : t.parent root = none := by
  have hr : ¬ Anc p uOut root := fun h' => hroot (anc_none h.root_none h')
  rw [par_out T hr]
  exact h.root_none

/-- length of the moved block -/
theorem length_N : (N.length : ℤ) = sn uOut := by
  obtain ⟨_, _, _, _, _, hs, _⟩ := blk_spec h uOut
  rw [hs]
  have hp : N.Perm (blk L p uOut) := by
    rw [List.perm_ext_iff_of_nodup T.nodup (nodup_blk h uOut)]
    intro a
    rw [T.mem, mem_blk h]
  rw [hp.length_eq]

open Classical in
/-- The blocks of the new tree for nodes outside the moved subtree. -/
theorem block_out (L' : List V) (hL' : L' = mv (fun x => Anc p uOut x) vIn N L) {u : V} (hu : ¬ Anc p uOut u) :
    ∃ P B Q, L' = P ++ (u :: B) ++ Q ∧ (∀ x, x ∈ u :: B ↔ Anc t.parent u x) ∧
      u :: B = mv (fun x => Anc p uOut x) vIn N (blk L p u) ∧
      ((u :: B).length : ℤ) = sn u - (if Anc p u uOut then sn uOut else 0) + (if Anc p u vIn then sn uOut else 0) := by
  obtain ⟨P, Q, hL, ⟨B, hB⟩, _, hs, _⟩ := blk_spec h u
  set S : V → Prop := fun x => Anc p uOut x with hS
  obtain ⟨B', hB'⟩ : ∃ B', mv S vIn N (blk L p u) = u :: B' := by
    rw [hB]
    have : mv S vIn N (u :: B) = (if S u then [] else if u = vIn then vIn :: N else [u]) ++ mv S vIn N B := rfl
    rw [this, if_neg hu]
    split_ifs with h1
    · rw [h1]; exact ⟨_, rfl⟩
    · exact ⟨_, rfl⟩
  refine ⟨mv S vIn N P, B', mv S vIn N Q, ?_, ?_, hB'.symm, ?_⟩
  · rw [hL', hL, mv_append, mv_append, hB']
  · intro x
    rw [← hB', mem_mv S vIn N hv, mem_blk h, mem_blk h, T.mem]
    by_cases hx : Anc p uOut x
    · rw [anc_out_in h T hin hv hu hx]
      simp [hS, hx]
    · rw [anc_out h T hin hv hx]
      simp [hS, hx]
  · rw [← hB', hs]
    -- length of a moved list
    have hlen : ∀ l : List V, l.Nodup → ((mv S vIn N l).length : ℤ)
        = (l.length : ℤ) - ((l.filter (fun x => decide (S x))).length : ℤ) + (if vIn ∈ l then (N.length : ℤ) else 0) := by
      intro l hl
      induction l with
      | nil => simp [mv]
      | cons a l ih =>
        have ha : a ∉ l := (List.nodup_cons.1 hl).1
        have : mv S vIn N (a :: l) = (if S a then [] else if a = vIn then vIn :: N else [a]) ++ mv S vIn N l := rfl
        rw [this, List.length_append, List.filter_cons]
        have ih' := ih (List.nodup_cons.1 hl).2
        push_cast
        rw [ih']
        by_cases h1 : S a
        · have hav : vIn ≠ a := by rintro rfl; exact hv h1
          simp only [h1, if_true, decide_true, List.length_nil, List.length_cons, List.mem_cons, hav, false_or]
          push_cast; ring
        · by_cases h2 : a = vIn
          · subst h2
            simp only [h1, if_false, decide_false, if_true, List.length_cons, List.mem_cons, true_or, ha]
            simp
            ring
          · have h2' : vIn ≠ a := fun h' => h2 h'.symm
            simp only [h1, if_false, decide_false, h2, List.length_cons, List.mem_cons, h2', false_or, List.length_nil]
            simp
            ring
    rw [hlen _ (nodup_blk h u), length_N h T hin hv]
    congr 1
    · congr 1
      by_cases hc : Anc p u uOut
      · rw [if_pos hc]
        obtain ⟨_, _, _, _, _, hs', _⟩ := blk_spec h uOut
        rw [hs']
        have : (blk L p u).filter (fun x => decide (S x)) = blk L p uOut := by
          unfold blk
          rw [List.filter_filter]
          congr 1
          funext x
          rw [← Bool.decide_and]
          refine decide_eq_decide.2 ⟨fun h' => h'.1, fun h' => ⟨h', anc_trans hc h'⟩⟩
        rw [this]
      · rw [if_neg hc]
        have : (blk L p u).filter (fun x => decide (S x)) = [] := by
          rw [List.filter_eq_nil_iff]
          intro x hx
          rw [decide_eq_true_eq]
          intro hx'
          rcases anc_total ((mem_blk h _ _).1 hx) hx' with h' | h'
          · exact hc h'
          · exact hu h'
        rw [this]; rfl
    · simp only [mem_blk h]

/-- last element of the new block of a node outside the moved subtree -/
theorem last_out [DecidablePred fun x => Anc p uOut x] {u : V} (hu : ¬ Anc p uOut u) :
    (mv (fun x => Anc p uOut x) vIn N (blk L p u)).getLast? = some
      (if ls u = vIn then t.lastOut else if ls u = ls uOut then (if rv uOut = vIn then t.lastOut else rv uOut) else ls u) := by
  obtain ⟨_, _, _, ⟨B, hB⟩, hl, _, _, hw, _⟩ := blk_spec h u
  obtain ⟨_, _, _, ⟨B1, hB1⟩, hl1, _⟩ := blk_spec h uOut
  have hlsS : Anc p uOut (ls uOut) := (mem_blk h _ _).1 (List.mem_of_getLast? hl1)
  have hNne : ∀ l : List V, (l ++ vIn :: N).getLast? = some t.lastOut := by
    intro l
    have : l ++ vIn :: N = (l ++ [vIn]) ++ N := by simp
    rw [this, List.getLast?_append, T.last]; rfl
  -- a list ending in a node outside the moved subtree
  have hend : ∀ (X : List V) (w : V), ¬ Anc p uOut w →
      (mv (fun x => Anc p uOut x) vIn N (X ++ [w])).getLast? = some (if w = vIn then t.lastOut else w) := by
    intro X w hw
    rw [mv_append]
    by_cases hwv : w = vIn
    · subst hwv
      rw [mv_vin _ _ _ hw, hNne, if_pos rfl]
    · rw [mv_same _ vIn N (l := [w]) (by simpa using hw) (by simpa using Ne.symm hwv), if_neg hwv]
      simp
  obtain ⟨X, hX⟩ := getLast?_split hl
  have hlsu : Anc p u (ls u) := (mem_blk h _ _).1 (List.mem_of_getLast? hl)
  by_cases hS : Anc p uOut (ls u)
  · -- the moved subtree is at the end
    have hvne : ls u ≠ vIn := by rintro h'; rw [h'] at hS; exact hv hS
    have huo : Anc p u uOut := by
      rcases anc_total hlsu hS with h' | h'
      · exact h'
      · exact absurd h' hu
    obtain ⟨X0, Y0, hXY⟩ := blk_nested h huo
    have hnd := nodup_blk h u
    have hY0 : Y0 = [] := by
      rcases List.eq_nil_or_concat Y0 with h' | ⟨Y', y, h'⟩
      · exact h'
      · exfalso
        rw [hXY, h', List.concat_eq_append, ← List.append_assoc, List.getLast?_concat] at hl
        have : y = ls u := Option.some.inj hl
        rw [hXY] at hnd
        exact (List.disjoint_of_nodup_append hnd) (by
          rw [List.mem_append]; right; rw [mem_blk h]; exact hS) (by rw [h', ← this]; simp)
    rw [hY0, List.append_nil] at hXY
    have hls : ls u = ls uOut := by
      rw [hXY, List.getLast?_append, hl1] at hl
      exact (Option.some.inj hl).symm
    have hX0 : X0 ≠ [] := by
      rintro rfl
      rw [hB, hB1] at hXY
      simp at hXY
      exact hu (hXY.1 ▸ anc_refl _)
    obtain ⟨X1, w, rfl⟩ : ∃ X' w, X0 = X' ++ [w] := ⟨X0.dropLast, X0.getLast hX0, (List.dropLast_append_getLast hX0).symm⟩
    rw [hXY] at hw hnd
    obtain ⟨z, hw1, hw2⟩ := (walk_append _ _ _ _ _).1 hw
    have hz : z = uOut := by rw [hB1] at hw2; exact walk_start hw2
    subst hz
    have hthw : th w = z := ((walk_concat _ _ _ _ _).1 hw1).2
    have hrv : rv z = w := rev_eq h hthw
    have hwS : ¬ Anc p z w := fun h' => (List.disjoint_of_nodup_append hnd) (by simp) ((mem_blk h _ _).2 h')
    rw [if_neg hvne, if_pos hls, hXY, mv_append, mv_gone _ vIn N (l := blk L p z) (fun x hx => (mem_blk h _ _).1 hx), List.append_nil,
      hend _ _ hwS, hrv]
  · have hlsne : ls u ≠ ls uOut := by rintro h'; rw [h'] at hS; exact hS hlsS
    rw [hX, hend X _ hS, if_neg hlsne]

end

end POT.Simplex
