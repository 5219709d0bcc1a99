import Verif.Lemmas.Tree
import Verif.Model.Simplex
import Mathlib.Tactic.ByContra

/-! # The stem loop: parents and thread inside the moved subtree -/

set_option linter.unusedSectionVars false

namespace POT.Simplex

open Spec Tree

variable {V A R : Type*} [DecidableEq V]

/-- Invariant of the stem loop.  `N` is the part of the new depth-first order built so far: the old subtree of `c.stem`, listed in the new order. -/
structure StemInv (L : List V) (p : V → Option V) (th rv ls : V → V) (uIn vIn uOut : V) (c : Stem V) (N : List V) : Prop where
  below : Anc p c.stem uIn
  above : Anc p uOut c.stem
  mem : ∀ x, x ∈ N ↔ Anc p c.stem x
  nodup : N.Nodup
  last : N.getLast? = some c.u
  walk : Walk c.thread uIn N c.right
  vin : c.thread vIn = uIn
  frame : ∀ x, ¬ Anc p c.stem x → x ≠ vIn → c.thread x = th x
  right : c.right = th (ls c.stem)
  rev : ∀ x, x ∉ c.dirty → c.rev (c.thread x) = x
  revframe : ∀ y, ¬ Anc p c.stem (rv y) → c.rev y = rv y
  dirty : ∀ x ∈ c.dirty, x = vIn ∨ (Anc p c.stem x)
  dvin : vIn ∈ c.dirty
  udirty : c.u ∉ c.dirty
  par_same : ∀ x, ¬ (Anc p x uIn ∧ Anc p c.stem x ∧ x ≠ c.stem) → c.parent x = p x
  par_stem : (c.stem = uIn ∧ c.parStem = vIn) ∨ (p c.parStem = some c.stem ∧ Anc p c.parStem uIn)
  par_in : c.stem ≠ uIn → c.parent uIn = some vIn
  par_rev : ∀ x y, p x = some y → Anc p x uIn → Anc p c.stem y → y ≠ c.stem → c.parent y = some x
  block_off : ∀ u, Anc p c.stem u → ¬ Anc p u uIn → ∃ P Q, N = P ++ blk L p u ++ Q
  block_on : ∀ u, Anc p c.stem u → Anc p u uIn → ∃ P B, N = P ++ u :: B ∧
    ∀ x, x ∈ u :: B ↔ Anc p c.stem x ∧ ∀ t, p t = some u → Anc p t uIn → ¬ Anc p t x

section
variable {root : V} {p : V → Option V} {th rv : V → V} {sn : V → ℤ} {ls : V → V} {L : List V}

/-- the invariant holds at the start of the loop -/
theorem stemInv_init (h : TreeRep root p th rv sn ls L) {uIn vIn uOut : V} (hin : Anc p uOut uIn) (hv : ¬ Anc p uOut vIn) :
    StemInv L p th rv ls uIn vIn uOut
      { parent := p, thread := Function.update th vIn uIn, rev := rv, stem := uIn, parStem := vIn,
        u := ls uIn, right := th (ls uIn), dirty := [vIn] } (blk L p uIn) := by
  obtain ⟨P, Q, hL, ⟨B, hB⟩, hl, hs, hw1, hw2, hw3⟩ := blk_spec h uIn
  have hv' : ¬ Anc p uIn vIn := fun h' => hv (anc_trans hin h')
  have hls : Anc p uIn (ls uIn) := by
    rw [← mem_blk h]
    exact List.mem_of_getLast? hl
  refine
    { below := anc_refl _, above := hin, mem := fun x => mem_blk h uIn x, nodup := nodup_blk h uIn, last := hl,
      walk := ?_, vin := by simp, frame := ?_, right := rfl, rev := ?_, revframe := fun _ _ => rfl, dirty := by simp,
      dvin := by simp, udirty := ?_, par_same := fun _ _ => rfl, par_stem := Or.inl ⟨rfl, rfl⟩, par_in := fun h => absurd rfl h,
      par_rev := ?_, block_off := ?_, block_on := ?_ }
  · exact walk_update_notMem hw2 (by rw [mem_blk h]; exact hv') _
  · intro x _ hx
    exact Function.update_of_ne hx _ _
  · intro x hx
    simp only [List.mem_singleton] at hx
    simp only [Function.update_of_ne hx]
    exact h.rev x
  · simp only [List.mem_singleton]
    rintro h'
    rw [h'] at hls
    exact hv' hls
  · intro x y hxy hx hy hne
    exact absurd (anc_antisymm h.root_none h.root_anc hy (anc_trans (anc_parent hxy) hx)).symm hne
  · intro u hu _
    exact blk_nested h hu
  · intro u hu hu'
    have : u = uIn := anc_antisymm h.root_none h.root_anc hu' hu
    subst this
    refine ⟨[], B, by simpa using hB, fun x => ?_⟩
    rw [← hB, mem_blk h]
    constructor
    · intro hx
      refine ⟨hx, fun t ht htu => ?_⟩
      exact absurd htu (not_anc_parent h.root_none h.root_anc ht)
    · exact fun hx => hx.1

/-- one turn of the stem loop preserves the invariant -/
theorem stemInv_step (h : TreeRep root p th rv sn ls L) {uIn vIn uOut : V} (hv : ¬ Anc p uOut vIn)
    {c : Stem V} {N : List V} (hI : StemInv L p th rv ls uIn vIn uOut c N) (hne : c.stem ≠ uOut) :
    ∃ c' N', stemStep ls c = some c' ∧ StemInv L p th rv ls uIn vIn uOut c' N' ∧ p c.stem = some c'.stem := by
  classical
  obtain ⟨ns, hns, hns'⟩ : ∃ q, p c.stem = some q ∧ Anc p uOut q := by
    rcases anc_iff.1 hI.above with h' | h'
    · exact absurd h'.symm hne
    · exact h'
  have hstemne : c.stem ≠ ns := by
    rintro h'
    have := not_anc_parent h.root_none h.root_anc hns
    rw [← h'] at this
    exact this (anc_refl _)
  have hpar : c.parent c.stem = some ns := by
    rw [hI.par_same c.stem (by simp), hns]
  have hanc : Anc p ns c.stem := anc_parent hns
  have hnotns : ¬ Anc p c.stem ns := not_anc_parent h.root_none h.root_anc hns
  -- the block of the new stem node around the block of the old one
  obtain ⟨X, Y, hXY⟩ := blk_nested h hanc
  obtain ⟨_, _, _, ⟨B0, hB0⟩, hl0, _, _, hw0, _⟩ := blk_spec h c.stem
  obtain ⟨_, _, _, ⟨B1, hB1⟩, hl1, _, _, hw1, _⟩ := blk_spec h ns
  have hnd : (X ++ blk L p c.stem ++ Y).Nodup := hXY ▸ nodup_blk h ns
  have hX : X ≠ [] := by
    rintro rfl
    rw [hB1, hB0] at hXY
    simp at hXY
    exact hstemne hXY.1.symm
  obtain ⟨X', w, rfl⟩ : ∃ X' w, X = X' ++ [w] := by
    exact ⟨X.dropLast, X.getLast hX, (List.dropLast_append_getLast hX).symm⟩
  have hdXB : List.Disjoint (X' ++ [w]) (blk L p c.stem) := List.disjoint_of_nodup_append (List.nodup_append.1 hnd).1
  have hdXBY : List.Disjoint ((X' ++ [w]) ++ blk L p c.stem) Y := List.disjoint_of_nodup_append hnd
  have hXstem : ∀ x ∈ X' ++ [w], ¬ Anc p c.stem x := fun x hx hx' => hdXB hx ((mem_blk h _ _).2 hx')
  have hYstem : ∀ x ∈ Y, ¬ Anc p c.stem x := fun x hx hx' => hdXBY (by simp [(mem_blk h _ _).2 hx']) hx
  have hXns : ∀ x ∈ X' ++ [w], Anc p ns x := fun x hx => (mem_blk h ns x).1 (by rw [hXY]; simp at hx ⊢; tauto)
  have hYns : ∀ x ∈ Y, Anc p ns x := fun x hx => (mem_blk h ns x).1 (by rw [hXY]; simp [hx])
  have hnsvin : ∀ x, Anc p ns x → x ≠ vIn := by
    rintro x hx rfl
    exact hv (anc_trans hns' hx)
  -- walks in the old thread
  rw [hXY] at hw1
  obtain ⟨z, hwXB, hwY⟩ := (walk_append _ _ _ _ _).1 hw1
  obtain ⟨z', hwX, hwB⟩ := (walk_append _ _ _ _ _).1 hwXB
  have hz' : z' = c.stem := by rw [hB0] at hwB; exact walk_start hwB
  subst hz'
  have hz : z = th (ls c.stem) := walk_end hwB hw0
  subst hz
  have hthw : th w = c.stem := ((walk_concat _ _ _ _ _).1 hwX).2
  have hrvstem : rv c.stem = w := rev_eq h hthw
  have hw_notstem : ¬ Anc p c.stem w := hXstem w (by simp)
  have hcrev : c.rev c.stem = w := by
    rw [hI.revframe c.stem (by rw [hrvstem]; exact hw_notstem), hrvstem]
  have huN : c.u ∈ N := List.mem_of_getLast? hI.last
  have hu_stem : Anc p c.stem c.u := (hI.mem _).1 huN
  have hwu : w ≠ c.u := by
    rintro h'; rw [h'] at hw_notstem; exact hw_notstem hu_stem
  have hwvin : w ≠ vIn := hnsvin w (hXns w (by simp))
  have huvin : c.u ≠ vIn := hnsvin c.u (anc_trans hanc hu_stem)
  have hthu : c.thread c.u = c.right := walk_last hI.walk hI.last
  -- the new thread
  set thread' : V → V := Function.update (Function.update c.thread c.u ns) w c.right with hthread'
  set rev' : V → V := Function.update c.rev c.right w with hrev'
  have ht_w : thread' w = c.right := by simp [hthread']
  have ht_u : thread' c.u = ns := by simp [hthread', Function.update_of_ne hwu.symm]
  have ht_o : ∀ x, x ≠ w → x ≠ c.u → thread' x = c.thread x := by
    intro x h1 h2
    simp [hthread', Function.update_of_ne h1, Function.update_of_ne h2]
  have hrvright : rv c.right = ls c.stem := by rw [hI.right]; exact h.rev _
  have hls_stem : Anc p c.stem (ls c.stem) := (mem_blk h _ _).1 (List.mem_of_getLast? hl0)
  have hright_ne : c.stem ≠ c.right := by
    intro h'
    rw [← h', hrvstem] at hrvright
    rw [hrvright] at hw_notstem
    exact hw_notstem hls_stem
  have hrev_stem : rev' c.stem = w := by
    rw [hrev', Function.update_of_ne hright_ne, hcrev]
  -- the three walks of the new thread
  have wN : Walk thread' uIn N ns := by
    have h1 := walk_update_last hI.walk hI.nodup hI.last ns
    exact walk_update_notMem h1 (by rw [hI.mem]; exact hw_notstem) _
  have wX : Walk thread' ns (X' ++ [w]) c.right := by
    rw [walk_concat] at hwX ⊢
    refine ⟨walk_congr (fun a ha => ?_) hwX.1, ht_w⟩
    have ha' : ¬ Anc p c.stem a := hXstem a (by simp [ha])
    have haw : a ≠ w := by
      rintro rfl
      have := (List.nodup_append.1 (List.nodup_append.1 hnd).1).1
      have := List.disjoint_of_nodup_append this
      exact this ha (by simp)
    have hau : a ≠ c.u := by rintro rfl; exact ha' hu_stem
    rw [ht_o a haw hau, hI.frame a ha' (hnsvin a (hXns a (by simp [ha])))]
  have wY : Walk thread' c.right Y (th (ls ns)) := by
    rw [hI.right]
    refine walk_congr (fun a ha => ?_) hwY
    have ha' : ¬ Anc p c.stem a := hYstem a ha
    have haw : a ≠ w := by
      rintro rfl
      exact hdXBY (by simp) ha
    have hau : a ≠ c.u := by rintro rfl; exact ha' hu_stem
    rw [ht_o a haw hau, hI.frame a ha' (hnsvin a (hYns a ha))]
  have wAll : Walk thread' uIn (N ++ ((X' ++ [w]) ++ Y)) (th (ls ns)) := by
    rw [walk_append]
    refine ⟨ns, wN, ?_⟩
    rw [walk_append]
    exact ⟨c.right, wX, wY⟩
  -- the new last element
  set u' : V := if ls ns = ls c.stem then rev' c.stem else ls ns with hu'
  have hlast_stem : (X' ++ [w] ++ blk L p c.stem).getLast? = some (ls c.stem) := by
    rw [List.getLast?_append, hl0]; rfl
  have hu'last : ((X' ++ [w]) ++ Y).getLast? = some u' := by
    rcases List.eq_nil_or_concat Y with rfl | ⟨Y', y, rfl⟩
    · rw [List.append_nil] at hXY
      rw [hXY, hlast_stem] at hl1
      have : ls ns = ls c.stem := (Option.some.inj hl1).symm
      rw [hu', if_pos this, hrev_stem]
      simp
    · rw [hXY] at hl1
      have hy : ls ns = y := by
          rw [List.concat_eq_append, ← List.append_assoc, List.getLast?_concat] at hl1; exact (Option.some.inj hl1).symm
      have : ls ns ≠ ls c.stem := by
        intro h'
        rw [hy] at h'
        exact hYstem y (by simp) (h' ▸ hls_stem)
      rw [hu', if_neg this, hy, List.concat_eq_append, ← List.append_assoc, List.getLast?_concat]
  have hN'last : (N ++ ((X' ++ [w]) ++ Y)).getLast? = some u' := by
    rw [List.getLast?_append, hu'last]; rfl
  have hu'mem : u' ∈ (X' ++ [w]) ++ Y := List.mem_of_getLast? hu'last
  have hu'stem : ¬ Anc p c.stem u' := by
    rcases List.mem_append.1 hu'mem with h' | h'
    · exact hXstem _ h'
    · exact hYstem _ h'
  have hu'ns : Anc p ns u' := by
    rcases List.mem_append.1 hu'mem with h' | h'
    · exact hXns _ h'
    · exact hYns _ h'
  have hright' : thread' u' = th (ls ns) := walk_last wAll hN'last
  -- layer membership
  have hlayer : ∀ x, x ∈ (X' ++ [w]) ++ Y ↔ Anc p ns x ∧ ¬ Anc p c.stem x := by
    intro x
    constructor
    · intro hx
      rcases List.mem_append.1 hx with h' | h'
      · exact ⟨hXns _ h', hXstem _ h'⟩
      · exact ⟨hYns _ h', hYstem _ h'⟩
    · rintro ⟨h1, h2⟩
      have := (mem_blk h ns x).2 h1
      rw [hXY] at this
      have h3 : x ∉ blk L p c.stem := fun h' => h2 ((mem_blk h _ _).1 h')
      simp only [List.mem_append] at this ⊢
      tauto
  have hlayer_eq : (X' ++ [w]) ++ Y = L.filter (fun x => decide (Anc p ns x ∧ ¬ Anc p c.stem x)) := by
    have e1 : L.filter (fun x => decide (Anc p ns x ∧ ¬ Anc p c.stem x)) = (blk L p ns).filter (fun x => decide (¬ Anc p c.stem x)) := by
      rw [blk, List.filter_filter]
      congr 1
      funext x
      rw [Bool.decide_and, Bool.and_comm]
    rw [e1, hXY, List.filter_append, List.filter_append]
    have f1 : (X' ++ [w]).filter (fun x => decide (¬ Anc p c.stem x)) = X' ++ [w] := by
      rw [List.filter_eq_self]; intro a ha; simpa using hXstem a ha
    have f2 : (blk L p c.stem).filter (fun x => decide (¬ Anc p c.stem x)) = [] := by
      rw [List.filter_eq_nil_iff]; intro a ha; simpa using (mem_blk h _ _).1 ha
    have f3 : Y.filter (fun x => decide (¬ Anc p c.stem x)) = Y := by
      rw [List.filter_eq_self]; intro a ha; simpa using hYstem a ha
    rw [f1, f2, f3, List.append_nil]
  have hmemN' : ∀ x, x ∈ N ++ ((X' ++ [w]) ++ Y) ↔ Anc p ns x := by
    intro x
    rw [List.mem_append, hI.mem, hlayer]
    constructor
    · rintro (h' | h')
      · exact anc_trans hanc h'
      · exact h'.1
    · intro h'
      by_cases h2 : Anc p c.stem x
      · exact Or.inl h2
      · exact Or.inr ⟨h', h2⟩
  refine ⟨{ parent := Function.update c.parent c.stem (some c.parStem), thread := thread', rev := rev', stem := ns,
            parStem := c.stem, u := u', right := thread' u', dirty := c.dirty ++ [c.u] }, N ++ ((X' ++ [w]) ++ Y), ?_, ?_, hns⟩
  · simp only [stemStep, hpar, hcrev]
    rw [hu', hrev', hthread']
  · refine
      { below := anc_trans hanc hI.below, above := hns', mem := hmemN', nodup := ?_, last := hN'last, walk := ?_, vin := ?_,
        frame := ?_, right := hright', rev := ?_, revframe := ?_, dirty := ?_, dvin := by simp [hI.dvin], udirty := ?_, par_same := ?_,
        par_stem := Or.inr ⟨hns, hI.below⟩, par_in := ?_, par_rev := ?_, block_off := ?_, block_on := ?_ }
    · rw [List.nodup_append']
      refine ⟨hI.nodup, ?_, ?_⟩
      · have hs : ((X' ++ [w]) ++ Y).Sublist (X' ++ [w] ++ blk L p c.stem ++ Y) := by
          rw [List.append_assoc (X' ++ [w])]
          exact (List.sublist_append_right _ _).append_left _
        exact hnd.sublist hs
      · intro x hx hx'
        exact ((hlayer x).1 hx').2 ((hI.mem x).1 hx)
    · simp only
      rw [hright']
      exact wAll
    · simp only
      rw [ht_o vIn hwvin.symm huvin.symm, hI.vin]
    · intro x hx hxv
      have hx' : ¬ Anc p c.stem x := fun h' => hx (anc_trans hanc h')
      have hxw : x ≠ w := by rintro rfl; exact hx (hXns x (by simp))
      have hxu : x ≠ c.u := by rintro rfl; exact hx' hu_stem
      simp only
      rw [ht_o x hxw hxu, hI.frame x hx' hxv]
    · intro x hx
      simp only [List.mem_append, List.mem_singleton, not_or] at hx
      simp only
      by_cases hxw : x = w
      · subst hxw
        rw [ht_w, hrev', Function.update_self]
      · rw [ht_o x hxw hx.2]
        have h1 := hI.rev x hx.1
        have h2 := hI.rev c.u hI.udirty
        have : c.thread x ≠ c.right := by
          intro h'
          rw [h', ← hthu, h2] at h1
          exact hx.2 h1.symm
        rw [hrev', Function.update_of_ne this, h1]
    · intro y hy
      simp only at hy ⊢
      have h1 : ¬ Anc p c.stem (rv y) := fun h' => hy (anc_trans hanc h')
      have : y ≠ c.right := by
        rintro rfl
        rw [hrvright] at h1
        exact h1 hls_stem
      rw [hrev', Function.update_of_ne this, hI.revframe y h1]
    · intro x hx
      simp only [List.mem_append, List.mem_singleton] at hx
      simp only
      rcases hx with hx | rfl
      · rcases hI.dirty x hx with h' | h'
        · exact Or.inl h'
        · exact Or.inr (anc_trans hanc h')
      · exact Or.inr (anc_trans hanc hu_stem)
    · simp only [List.mem_append, List.mem_singleton, not_or]
      refine ⟨fun h' => ?_, fun h' => ?_⟩
      · rcases hI.dirty _ h' with h'' | h''
        · exact hnsvin _ hu'ns h''
        · exact hu'stem h''
      · rw [h'] at hu'stem; exact hu'stem hu_stem
    · intro x hx
      simp only at hx ⊢
      have hxs : x ≠ c.stem := by
        rintro rfl
        exact hx ⟨hI.below, hanc, hstemne⟩
      rw [Function.update_of_ne hxs]
      refine hI.par_same x fun h' => hx ⟨h'.1, anc_trans hanc h'.2.1, ?_⟩
      rintro rfl
      exact hnotns h'.2.1
    · intro _
      simp only
      by_cases hs : c.stem = uIn
      · rcases hI.par_stem with h' | h'
        · rw [← hs, Function.update_self, h'.2]
        · exfalso
          exact not_anc_parent h.root_none h.root_anc h'.1 (by rw [hs]; exact h'.2)
      · rw [Function.update_of_ne (Ne.symm hs)]
        exact hI.par_in hs
    · intro x y hxy hx hy hne'
      simp only at hy hne' ⊢
      have hyuIn : Anc p y uIn := anc_trans (anc_parent hxy) hx
      have hys : Anc p c.stem y := by
        rcases anc_total hyuIn hI.below with h' | h'
        · -- `y` above the stem node and below the new one
          by_cases hyc : y = c.stem
          · rw [hyc]; exact anc_refl _
          · have := anc_of_ne h' hyc hns
            exact absurd (anc_antisymm h.root_none h.root_anc this hy) hne'
        · exact h'
      by_cases hyc : y = c.stem
      · subst hyc
        rw [Function.update_self]
        rcases hI.par_stem with h' | h'
        · exfalso
          exact not_anc_parent h.root_none h.root_anc hxy (by rw [h'.1]; exact hx)
        · -- both `x` and `parStem` are children of the stem node on the path to `uIn`
          rcases anc_total hx h'.2 with h2 | h2
          · by_cases hxp : x = c.parStem
            · rw [hxp]
            · exact absurd (anc_of_ne h2 hxp h'.1) (not_anc_parent h.root_none h.root_anc hxy)
          · by_cases hxp : c.parStem = x
            · rw [hxp]
            · exact absurd (anc_of_ne h2 hxp hxy) (not_anc_parent h.root_none h.root_anc h'.1)
      · rw [Function.update_of_ne hyc]
        exact hI.par_rev x y hxy hx hys hyc
    · intro u hu hu'
      simp only at hu
      by_cases hus : Anc p c.stem u
      · obtain ⟨P, Q, hPQ⟩ := hI.block_off u hus hu'
        exact ⟨P, Q ++ ((X' ++ [w]) ++ Y), by rw [hPQ]; simp⟩
      · -- `u` in the layer: its block avoids the subtree of the stem node
        have hφ : ∀ x, Anc p u x → (decide (Anc p ns x ∧ ¬ Anc p c.stem x)) = true := by
          intro x hx
          rw [decide_eq_true_eq]
          refine ⟨anc_trans hu hx, fun hx' => ?_⟩
          rcases anc_total hx hx' with h' | h'
          · exact hu' (anc_trans h' hI.below)
          · exact hus h'
        obtain ⟨P, Q, hPQ⟩ := filter_block h u _ hφ
        rw [← hlayer_eq] at hPQ
        refine ⟨N ++ P, Q, ?_⟩
        rw [hPQ]; simp
    · intro u hu huIn
      simp only at hu ⊢
      by_cases hus : Anc p c.stem u
      · obtain ⟨P, B, hPB, hm⟩ := hI.block_on u hus huIn
        refine ⟨P, B ++ ((X' ++ [w]) ++ Y), by rw [hPB]; simp, fun x => ?_⟩
        rw [← List.cons_append, List.mem_append, hm x, hlayer]
        constructor
        · rintro (⟨h1, h2⟩ | ⟨h1, h2⟩)
          · exact ⟨anc_trans hanc h1, h2⟩
          · exact ⟨h1, fun t ht _ htx => h2 (anc_trans (anc_trans hus (anc_parent ht)) htx)⟩
        · rintro ⟨h1, h2⟩
          by_cases h3 : Anc p c.stem x
          · exact Or.inl ⟨h3, h2⟩
          · exact Or.inr ⟨h1, h3⟩
      · have hun : u = ns := by
          rcases anc_total huIn hI.below with h' | h'
          · by_cases huc : u = c.stem
            · rw [huc] at hus; exact absurd (anc_refl _) hus
            · exact anc_antisymm h.root_none h.root_anc (anc_of_ne h' huc hns) hu
          · exact absurd h' hus
        subst hun
        obtain ⟨B', hB'⟩ : ∃ B', (X' ++ [w]) ++ Y = u :: B' := by
          rcases X' with _ | ⟨a, X''⟩
          · simp only [List.nil_append] at hwX ⊢
            exact ⟨Y, by rw [walk_start hwX]; rfl⟩
          · simp only [List.cons_append] at hwX ⊢
            exact ⟨X'' ++ [w] ++ Y, by rw [walk_start hwX]⟩
        refine ⟨N, B', by rw [hB'], fun x => ?_⟩
        rw [← hB', hlayer]
        constructor
        · rintro ⟨h1, h2⟩
          refine ⟨h1, fun t ht htu htx => h2 ?_⟩
          -- `t` is the stem node
          rcases anc_total htu hI.below with h' | h'
          · by_cases htc : t = c.stem
            · rw [← htc]; exact htx
            · exact absurd (anc_of_ne h' htc hns) (not_anc_parent h.root_none h.root_anc ht)
          · exact anc_trans h' htx
        · rintro ⟨h1, h2⟩
          exact ⟨h1, h2 c.stem hns hI.below⟩

end

end POT.Simplex
