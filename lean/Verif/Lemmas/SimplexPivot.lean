import Verif.Lemmas.SimplexFlow

/-! # The invariant of the network simplex and its preservation by pivots -/

set_option linter.unusedSectionVars false

namespace POT.Simplex

open Spec POT.Tree Relation

variable {V A R : Type*} [DecidableEq V] [DecidableEq A] [Fintype A] [CommRing R] [LinearOrder R] [IsStrictOrderedRing R]

/-- Feasible spanning tree solutions. -/
structure InvW (net : Net V A R) (root : V) (supply : V → R) (s : State V A R) (L : List V) : Prop where
  tree : TreeRep root s.parent s.thread s.revThread s.succNum s.lastSucc L
  arc : ∀ v q, s.parent v = some q →
    if s.forward v then net.src (s.pred v) = v ∧ net.tgt (s.pred v) = q else net.src (s.pred v) = q ∧ net.tgt (s.pred v) = v
  treeState : ∀ v q, s.parent v = some q → s.state (s.pred v) = .tree
  treeArc : ∀ a, s.state a = .tree → ∃ v q, s.parent v = some q ∧ s.pred v = a
  nontree : ∀ a, s.state a ≠ .tree → s.state a = .lower ∧ s.flow a = 0
  nonneg : ∀ a, 0 ≤ s.flow a
  conserve : ∀ v, netFlow net.src net.tgt s.flow v = supply v
  pot : ∀ v q, s.parent v = some q → redCost net s (s.pred v) = 0
  piRoot : s.pi root = 0

/-- Tree arcs without flow point to the root. -/
def StrongTree (s : State V A R) : Prop := ∀ v q, s.parent v = some q → s.flow (s.pred v) = 0 → s.forward v = true

/-- Strongly feasible spanning tree solutions. -/
structure Inv (net : Net V A R) (root : V) (supply : V → R) (s : State V A R) (L : List V) : Prop extends InvW net root supply s L where
  strong : ∀ v q, s.parent v = some q → s.flow (s.pred v) = 0 → s.forward v = true

variable {net : Net V A R} {root : V} {supply : V → R} {s : State V A R} {L : List V}

theorem InvW.pred_inj (h : InvW net root supply s L) {v w q r : V} (hv : s.parent v = some q) (hw : s.parent w = some r)
    (he : s.pred v = s.pred w) : v = w := by
  have a1 := h.arc v q hv
  have a2 := h.arc w r hw
  by_contra hne
  have hcyc : s.parent v = some w → s.parent w = some v → False := fun h1 h2 =>
    not_anc_parent h.tree.root_none h.tree.root_anc h1 (anc_parent h2)
  by_cases f1 : s.forward v <;> by_cases f2 : s.forward w
  · simp only [f1, if_true, f2, ← he] at a1 a2
    exact hne (a1.1.symm.trans a2.1)
  · simp only [f1, if_true, f2, ← he] at a1 a2
    simp only [Bool.false_eq_true, if_false] at a2
    have e1 : v = r := a1.1.symm.trans a2.1
    have e2 : q = w := a1.2.symm.trans a2.2
    subst e1 e2
    exact hcyc hv hw
  · simp only [f1, if_true, f2, ← he] at a1 a2
    simp only [Bool.false_eq_true, if_false] at a1
    have e1 : v = r := a1.2.symm.trans a2.2
    have e2 : q = w := a1.1.symm.trans a2.1
    subst e1 e2
    exact hcyc hv hw
  · simp only [f1, f2, ← he] at a1 a2
    simp only [Bool.false_eq_true, if_false] at a1 a2
    exact hne (a1.2.symm.trans a2.2)

omit [DecidableEq A] [Fintype A] [LinearOrder R] [IsStrictOrderedRing R] in
theorem shiftLoop_spec (thread : V → V) (stop : V) (sigma : R) (l : List V) (hl : l.Nodup) (hst : stop ∉ l) (fuel : ℕ)
    (u : V) (pi : V → R) (hw : Walk thread u l stop) (hf : l.length < fuel) :
    ∃ pi', shiftLoop thread stop sigma fuel u pi = some pi' ∧ ∀ x, pi' x = pi x + if x ∈ l then sigma else 0 := by
  induction l generalizing fuel u pi with
  | nil =>
    cases fuel with
    | zero => simp at hf
    | succ k =>
      have : u = stop := hw
      exact ⟨pi, by simp [shiftLoop, this], by simp⟩
  | cons a l ih =>
    cases fuel with
    | zero => simp at hf
    | succ k =>
      obtain ⟨rfl, hw2⟩ := hw
      have hne : u ≠ stop := by rintro rfl; exact hst (by simp)
      obtain ⟨pi', h1, h2⟩ := ih (List.nodup_cons.1 hl).2 (fun h' => hst (by simp [h'])) k (thread u)
        (Function.update pi u (pi u + sigma)) hw2 (by simp at hf; omega)
      refine ⟨pi', by simp only [shiftLoop, hne, if_false]; exact h1, fun x => ?_⟩
      rw [h2]
      have hul := (List.nodup_cons.1 hl).1
      by_cases hxu : x = u
      · subst hxu; simp [hul]
      · simp [hxu]

open Classical in
/-- `updatePotential` adds a constant on the subtree of `uIn`. -/
theorem updatePotential_spec (net : Net V A R) {uIn vIn : V}
    (h : TreeRep root s.parent s.thread s.revThread s.succNum s.lastSucc L) (hu : uIn ≠ root) (fuel : ℕ) (hf : L.length < fuel) :
    ∃ pi', updatePotential net s fuel uIn vIn = some { s with pi := pi' } ∧ ∀ x, pi' x = s.pi x +
      if Anc s.parent uIn x then (if s.forward uIn then s.pi vIn - s.pi uIn - net.cost (s.pred uIn)
        else s.pi vIn - s.pi uIn + net.cost (s.pred uIn)) else 0 := by
  obtain ⟨P, Q, hL, ⟨B, hB⟩, hl, hs, hwP, hwB, hwQ⟩ := blk_spec h uIn
  have hnd := h.nodup
  have hstop : s.thread (s.lastSucc uIn) ∉ blk L s.parent uIn := by
    cases Q with
    | nil =>
      have : s.thread (s.lastSucc uIn) = root := hwQ
      rw [this, mem_blk h]
      exact fun h' => hu (anc_none h.root_none h')
    | cons a Q =>
      have : s.thread (s.lastSucc uIn) = a := walk_start hwQ
      rw [this]
      intro h'
      rw [hL] at hnd
      have := List.disjoint_of_nodup_append hnd
      exact this (List.mem_append_right _ h') (by simp)
  have hlen : (blk L s.parent uIn).length ≤ L.length := List.length_filter_le _ _
  obtain ⟨pi', h1, h2⟩ := shiftLoop_spec s.thread (s.thread (s.lastSucc uIn))
    (if s.forward uIn then s.pi vIn - s.pi uIn - net.cost (s.pred uIn) else s.pi vIn - s.pi uIn + net.cost (s.pred uIn))
    (blk L s.parent uIn) (nodup_blk h uIn) hstop fuel uIn s.pi hwB (by omega)
  refine ⟨pi', ?_, fun x => ?_⟩
  · unfold updatePotential
    dsimp only
    rw [h1]
    rfl
  · rw [h2]
    simp only [mem_blk h]

/-- cases of an arc of the new tree -/
theorem Reroot.cases {p : V → Option V} {pr : V → A} {fw : V → Bool} {uIn vIn uOut : V} {e : A} {b : Bool}
    {p' : V → Option V} {pr' : V → A} {fw' : V → Bool} (h : Reroot p pr fw uIn vIn uOut e b p' pr' fw') {v q : V} (hv : p' v = some q) :
    (¬ OnStem p uIn uOut v ∧ p v = some q ∧ pr' v = pr v ∧ fw' v = fw v) ∨
    (v = uIn ∧ q = vIn ∧ pr' v = e ∧ fw' v = b) ∨
    (p q = some v ∧ Anc p q uIn ∧ Anc p uOut v ∧ pr' v = pr q ∧ fw' v = !fw q) := by
  by_cases hs : OnStem p uIn uOut v
  · by_cases hvu : v = uIn
    · subst hvu
      have := h.head
      rw [hv] at this
      exact Or.inr (Or.inl ⟨rfl, Option.some.inj this.1, this.2.1, this.2.2⟩)
    · obtain ⟨c, hc, hcu⟩ := anc_child hs.1 hvu
      have := h.on c v hc hcu hs.2
      rw [hv] at this
      have hqc : q = c := Option.some.inj this.1
      subst hqc
      exact Or.inr (Or.inr ⟨hc, hcu, hs.2, this.2.1, this.2.2⟩)
  · have := h.off v hs
    rw [hv] at this
    exact Or.inl ⟨hs, this.1.symm, this.2.1, this.2.2⟩

/-- The tree part of a pivot. -/
theorem pivot_coreW (h : InvW net root supply s L) {e : A} (he : s.state e ≠ .tree) {join uIn vIn uOut : V}
    (hends : (net.src e = uIn ∧ net.tgt e = vIn) ∨ (net.src e = vIn ∧ net.tgt e = uIn))
    (hj : IsJoin s.parent join uIn vIn) (hin : Anc s.parent uOut uIn) (hjo : ¬ Anc s.parent uOut join)
    (f' : A → R) (hf0 : ∀ a, 0 ≤ f' a) (hfc : ∀ v, netFlow net.src net.tgt f' v = supply v) (hfo : f' (s.pred uOut) = 0)
    (hfn : ∀ a, a ≠ e → s.state a ≠ .tree → f' a = s.flow a)
    (fuel : ℕ) (hf : L.length + 1 < fuel) :
    ∃ t2 t3 L', updateTreeStructure net { s with
        flow := f', state := Function.update (Function.update s.state e .tree) (s.pred uOut) .lower } fuel e join uIn vIn uOut = some t2 ∧
      updatePotential net t2 fuel uIn vIn = some t3 ∧ InvW net root supply t3 L' ∧ L'.length = L.length ∧ t3.flow = f' ∧
      ((∀ x q, s.parent x = some q → ¬ OnStem s.parent uIn uOut x → f' (s.pred x) = 0 → s.forward x = true) →
        (∀ c z, s.parent c = some z → Anc s.parent c uIn → Anc s.parent uOut z → f' (s.pred c) = 0 → s.forward c = false) →
        (f' e = 0 → uIn = net.src e) → StrongTree t3) ∧
      (∀ x, Anc s.parent uOut x → t3.pi x = s.pi x + if uIn = net.src e then -redCost net s e else redCost net s e) ∧
      ∀ x, ¬ Anc s.parent uOut x → t3.pi x = s.pi x := by
  classical
  have hv : ¬ Anc s.parent uOut vIn := fun h' => hjo (hj.least uOut hin h')
  have hne : uIn ≠ vIn := by rintro rfl; exact hv hin
  have hroot : uOut ≠ root := by rintro rfl; exact hjo (h.tree.root_anc _)
  have hinroot : uIn ≠ root := by
    rintro rfl
    exact hroot (anc_none h.tree.root_none hin)
  set st := Function.update (Function.update s.state e .tree) (s.pred uOut) .lower with hst
  set s1' : State V A R := { s with flow := f', state := st } with hs1'
  obtain ⟨t2, L', ht2, hT, hlen, hflow, hstate, hpi, hR⟩ := updateTreeStructure_spec (A := A) net s1' h.tree hj hin hjo (e := e) fuel hf
  have hflow' : t2.flow = f' := hflow
  have hstate' : t2.state = st := hstate
  have hpi' : t2.pi = s.pi := hpi
  have hR' : Reroot s.parent s.pred s.forward uIn vIn uOut e (decide (uIn = net.src e)) t2.parent t2.pred t2.forward := hR
  obtain ⟨pi', hp1, hp2⟩ := updatePotential_spec (s := t2) (uIn := uIn) (vIn := vIn) net hT hinroot fuel (by omega)
  have hsig : (if t2.forward uIn then t2.pi vIn - t2.pi uIn - net.cost (t2.pred uIn)
        else t2.pi vIn - t2.pi uIn + net.cost (t2.pred uIn)) = if uIn = net.src e then -redCost net s e else redCost net s e := by
    rw [hR'.head.2.1, hR'.head.2.2, hpi']
    unfold redCost
    by_cases hsrc : uIn = net.src e
    · have htgt : net.tgt e = vIn := by
        rcases hends with h' | h'
        · exact h'.2
        · exact absurd (hsrc.trans h'.1) hne
      rw [htgt, ← hsrc]
      simp
      ring
    · rcases hends with h' | h'
      · exact absurd h'.1.symm hsrc
      · rw [h'.1, h'.2]
        have : ¬ uIn = vIn := hne
        simp [this]
        ring
  rw [hsig] at hp2
  simp only [hR'.sub, hpi'] at hp2
  set sg : R := if uIn = net.src e then -redCost net s e else redCost net s e with hsg
  obtain ⟨vOut, hvOut⟩ : ∃ q, s.parent uOut = some q := by
    rcases anc_iff.1 (h.tree.root_anc uOut) with h' | ⟨q, h', _⟩
    · exact absurd h'.symm hroot
    · exact ⟨q, h'⟩
  have hstemO : OnStem s.parent uIn uOut uOut := ⟨hin, anc_refl _⟩
  have hpe : s.pred uOut ≠ e := by
    rintro rfl
    exact he (h.treeState _ _ hvOut)
  have hstT : ∀ a, s.state a = .tree → a ≠ s.pred uOut → st a = .tree := by
    intro a ha hne'
    rw [hst, Function.update_of_ne hne']
    by_cases hae : a = e
    · rw [hae, Function.update_self]
    · rw [Function.update_of_ne hae, ha]
  have hstE : st e = .tree := by
    rw [hst, Function.update_of_ne (Ne.symm hpe), Function.update_self]
  have hcne : ∀ c z, s.parent c = some z → Anc s.parent uOut z → s.pred c ≠ s.pred uOut := by
    intro c z hc hz h'
    have := h.pred_inj hc hvOut h'
    subst this
    exact not_anc_parent h.tree.root_none h.tree.root_anc hc hz
  refine ⟨t2, { t2 with pi := pi' }, L', ht2, hp1, ⟨hT, ?_, ?_, ?_, ?_, ?_, ?_, ?_, ?_⟩, hlen, hflow', ?_, ?_, ?_⟩
  · -- arcs
    intro v q hvq
    dsimp only at hvq ⊢
    rcases hR'.cases hvq with ⟨_, h2, h3, h4⟩ | ⟨h1, h2, h3, h4⟩ | ⟨h1, _, _, h3, h4⟩
    · rw [h3, h4]; exact h.arc v q h2
    · rw [h3, h4, h1, h2]
      by_cases hsrc : uIn = net.src e
      · rcases hends with h' | h'
        · simp [h'.1, h'.2]
        · exact absurd (hsrc.trans h'.1) hne
      · rcases hends with h' | h'
        · exact absurd h'.1.symm hsrc
        · simp [h'.1, h'.2, hne]
    · rw [h3, h4]
      have := h.arc q v h1
      by_cases hfq : s.forward q
      · simpa [hfq] using this
      · simpa [hfq] using this
  · intro v q hvq
    dsimp only at hvq ⊢
    rw [hstate']
    rcases hR'.cases hvq with ⟨h1, h2, h3, h4⟩ | ⟨h1, h2, h3, h4⟩ | ⟨h1, _, h2, h3, h4⟩
    · rw [h3]
      refine hstT _ (h.treeState v q h2) fun h' => h1 ?_
      rw [h.pred_inj h2 hvOut h']
      exact hstemO
    · rw [h3]; exact hstE
    · rw [h3]
      exact hstT _ (h.treeState q v h1) (hcne q v h1 h2)
  · intro a ha
    dsimp only at ha ⊢
    rw [hstate'] at ha
    by_cases hao : a = s.pred uOut
    · rw [hao, hst, Function.update_self] at ha; cases ha
    · by_cases hae : a = e
      · exact ⟨uIn, vIn, hR'.head.1, by rw [hR'.head.2.1, hae]⟩
      · rw [hst, Function.update_of_ne hao, Function.update_of_ne hae] at ha
        obtain ⟨v, q, h1, h2⟩ := h.treeArc a ha
        by_cases hs : OnStem s.parent uIn uOut v
        · have hvo : v ≠ uOut := by rintro rfl; exact hao h2.symm
          have hq := hR'.on v q h1 hs.1 (anc_of_ne hs.2 hvo.symm h1)
          exact ⟨q, v, hq.1, by rw [hq.2.1, h2]⟩
        · have := hR'.off v hs
          exact ⟨v, q, by rw [this.1, h1], by rw [this.2.1, h2]⟩
  · intro a ha
    dsimp only at ha ⊢
    rw [hstate'] at ha ⊢
    rw [hflow']
    by_cases hao : a = s.pred uOut
    · rw [hao, hfo, hst, Function.update_self]; exact ⟨rfl, rfl⟩
    · by_cases hae : a = e
      · rw [hae] at ha; exact absurd hstE ha
      · rw [hst, Function.update_of_ne hao, Function.update_of_ne hae] at ha ⊢
        rw [hfn a hae ha]
        exact h.nontree a ha
  · intro a; dsimp only; rw [hflow']; exact hf0 a
  · intro v; dsimp only; rw [hflow']; exact hfc v
  · intro v q hvq
    dsimp only at hvq
    have hrc : ∀ a, redCost net { t2 with pi := pi' } a = redCost net s a +
        (if Anc s.parent uOut (net.src a) then sg else 0) - (if Anc s.parent uOut (net.tgt a) then sg else 0) := by
      intro a
      unfold redCost
      dsimp only
      rw [hp2, hp2]
      ring
    dsimp only
    rw [hrc]
    rcases hR'.cases hvq with ⟨h1, h2, h3, h4⟩ | ⟨h1, h2, h3, h4⟩ | ⟨h1, h1', h2, h3, h4⟩
    · rw [h3, h.pot v q h2]
      have hiff : Anc s.parent uOut v ↔ Anc s.parent uOut q := by
        refine ⟨fun h' => anc_of_ne h' ?_ h2, fun h' => anc_of_parent h2 h'⟩
        rintro rfl; exact h1 hstemO
      have hends' := h.arc v q h2
      by_cases hfv : s.forward v
      · rw [if_pos hfv] at hends'
        rw [hends'.1, hends'.2]; simp only [hiff]; ring
      · rw [if_neg hfv] at hends'
        rw [hends'.1, hends'.2]; simp only [hiff]; ring
    · rw [h3]
      by_cases hsrc : uIn = net.src e
      · rcases hends with h' | h'
        · rw [← hsrc, h'.2, if_pos hin, if_neg hv, hsg, if_pos hsrc]; ring
        · exact absurd (hsrc.trans h'.1) hne
      · rcases hends with h' | h'
        · exact absurd h'.1.symm hsrc
        · rw [h'.1, h'.2, if_pos hin, if_neg hv, hsg, if_neg hsrc]; ring
    · rw [h3, h.pot q v h1]
      have hq : Anc s.parent uOut q := anc_of_parent h1 h2
      have hends' := h.arc q v h1
      by_cases hfv : s.forward q
      · rw [if_pos hfv] at hends'
        rw [hends'.1, hends'.2, if_pos hq, if_pos h2]; ring
      · rw [if_neg hfv] at hends'
        rw [hends'.1, hends'.2, if_pos hq, if_pos h2]; ring
  · dsimp only
    rw [hp2, h.piRoot, if_neg fun h' => hroot (anc_none h.tree.root_none h')]
    simp
  · intro s1 s2 s3 v q hvq
    dsimp only at hvq ⊢
    rw [hflow']
    rcases hR'.cases hvq with ⟨h1, h2, h3, h4⟩ | ⟨h1, h2, h3, h4⟩ | ⟨h1, h1', h2, h3, h4⟩
    · rw [h3, h4]; exact s1 v q h2 h1
    · rw [h3, h4]
      intro h0
      simp [← s3 h0]
    · rw [h3, h4]
      intro h0
      rw [s2 q v h1 h1' h2 h0]; rfl
  · intro x hx
    dsimp only
    rw [hp2, if_pos hx]
  · intro x hx
    dsimp only
    rw [hp2, if_neg hx]; simp

end POT.Simplex
