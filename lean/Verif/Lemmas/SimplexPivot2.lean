import Verif.Lemmas.SimplexPivot

/-! # One pivot -/

set_option linter.unusedSectionVars false

namespace POT.Simplex

open Spec POT.Tree Relation

variable {V A R : Type*} [DecidableEq V] [DecidableEq A] [Fintype A] [CommRing R] [LinearOrder R] [IsStrictOrderedRing R]
variable {net : Net V A R} {root : V} {supply : V → R} {s : State V A R} {L : List V}

theorem violation_neg (h : InvW net root supply s L) {e : A} (he : violation net s e < 0) : s.state e = .lower ∧ redCost net s e < 0 := by
  unfold violation at he
  have h1 : s.state e ≠ .tree := by
    intro h'
    rw [h'] at he
    simp [ArcState.sign] at he
  have h2 := (h.nontree e h1).1
  rw [h2] at he
  simp only [ArcState.sign, one_mul] at he
  exact ⟨h2, he⟩

/-- the flow after pushing `delta` around the cycle of `e` -/
theorem changeFlow_spec (h : InvW net root supply s L) {e : A} (he : s.state e = .lower) {join : V}
    (hj : IsJoin s.parent join (net.src e) (net.tgt e)) {delta : R} (hd : 0 ≤ delta) (fuel : ℕ) (hf : L.length < fuel) (uOut : V) :
    ∃ f', changeFlow net s fuel e join delta uOut true = some { s with
        flow := f', state := Function.update (Function.update s.state e .tree) (s.pred uOut) (if f' (s.pred uOut) = 0 then .lower else .upper) } ∧
      f' e = delta ∧
      (∀ x, Anc s.parent x (net.src e) → Anc s.parent join x → x ≠ join →
        f' (s.pred x) = s.flow (s.pred x) + if s.forward x then -delta else delta) ∧
      (∀ x, Anc s.parent x (net.tgt e) → Anc s.parent join x → x ≠ join →
        f' (s.pred x) = s.flow (s.pred x) + if s.forward x then delta else -delta) ∧
      (∀ a, a ≠ e → (∀ x, (Anc s.parent x (net.src e) ∨ Anc s.parent x (net.tgt e)) → Anc s.parent join x → x ≠ join → s.pred x ≠ a) →
        f' a = s.flow a) ∧
      ∀ v, netFlow net.src net.tgt f' v = netFlow net.src net.tgt s.flow v := by
  have rk := fun u x q (_ : Anc s.parent x u) (hq : s.parent x = some q) => rank_lt h.tree hq
  obtain ⟨ps, hps, hpsn, hpsm⟩ := pathTo_spec h.tree.root_none h.tree.root_anc (rank L s.parent) fuel (rk _) hj.left
    (by have := rank_le (L := L) (p := s.parent) (net.src e); omega)
  obtain ⟨pt, hpt, hptn, hptm⟩ := pathTo_spec h.tree.root_none h.tree.root_anc (rank L s.parent) fuel (rk _) hj.right
    (by have := rank_le (L := L) (p := s.parent) (net.tgt e); omega)
  have hsome : ∀ x, Anc s.parent join x → x ≠ join → ∃ q, s.parent x = some q := by
    intro x hx hne
    rcases anc_iff.1 hx with h' | ⟨q, h', _⟩
    · exact absurd h'.symm hne
    · exact ⟨q, h'⟩
  have hpne : ∀ x, Anc s.parent join x → x ≠ join → s.pred x ≠ e := by
    intro x hx hne h'
    obtain ⟨q, hq⟩ := hsome x hx hne
    have := h.treeState x q hq
    rw [h', he] at this
    cases this
  have hinj : ∀ x y, Anc s.parent join x → x ≠ join → Anc s.parent join y → y ≠ join → s.pred x = s.pred y → x = y := by
    intro x y hx hxn hy hyn hxy
    obtain ⟨q, hq⟩ := hsome x hx hxn
    obtain ⟨r, hr⟩ := hsome y hy hyn
    exact h.pred_inj hq hr hxy
  have hdisj : ∀ x ∈ ps, x ∉ pt := by
    intro x hx hx'
    rw [hpsm] at hx
    rw [hptm] at hx'
    exact hx.2.2 (anc_antisymm h.tree.root_none h.tree.root_anc (hj.least x hx.1 hx'.1) hx.2.1)
  rcases eq_or_lt_of_le hd with hd0 | hd0
  · subst hd0
    refine ⟨s.flow, ?_, ?_, ?_, ?_, ?_, fun v => rfl⟩
    · simp [changeFlow]
    · have := h.nontree e (by rw [he]; simp)
      exact this.2
    · intro x _ _ _; simp
    · intro x _ _ _; simp
    · intro a _ _; rfl
  · set f1 := addFlow s.flow e delta with hf1
    set f2 := ps.foldl (fun f u => addFlow f (s.pred u) (if s.forward u then -delta else delta)) f1 with hf2
    set f3 := pt.foldl (fun f u => addFlow f (s.pred u) (if s.forward u then delta else -delta)) f2 with hf3
    refine ⟨f3, ?_, ?_, ?_, ?_, ?_, ?_⟩
    · simp only [changeFlow, hd0, if_true, hps, hpt, he, ArcState.sign, one_mul]
      rfl
    · rw [hf3, addFlow_foldl_notMem _ _ _ _ _ (fun u hu => hpne u ((hptm u).1 hu).2.1 ((hptm u).1 hu).2.2), hf2,
        addFlow_foldl_notMem _ _ _ _ _ (fun u hu => hpne u ((hpsm u).1 hu).2.1 ((hpsm u).1 hu).2.2), hf1]
      have := h.nontree e (by rw [he]; simp)
      simp [addFlow, this.2]
    · intro x hx hjx hxj
      have hm := (hpsm x).2 ⟨hx, hjx, hxj⟩
      rw [hf3, addFlow_foldl_notMem _ _ _ _ _ (fun u hu h' => hdisj x hm (by
        rw [← hinj u x ((hptm u).1 hu).2.1 ((hptm u).1 hu).2.2 hjx hxj h']; exact hu)), hf2,
        addFlow_foldl_mem _ _ _ _ hpsn (fun u hu w hw => hinj u w ((hpsm u).1 hu).2.1 ((hpsm u).1 hu).2.2 ((hpsm w).1 hw).2.1 ((hpsm w).1 hw).2.2) hm,
        hf1]
      simp [addFlow, Function.update_of_ne (hpne x hjx hxj)]
    · intro x hx hjx hxj
      have hm := (hptm x).2 ⟨hx, hjx, hxj⟩
      rw [hf3, addFlow_foldl_mem _ _ _ _ hptn (fun u hu w hw => hinj u w ((hptm u).1 hu).2.1 ((hptm u).1 hu).2.2 ((hptm w).1 hw).2.1 ((hptm w).1 hw).2.2) hm,
        hf2, addFlow_foldl_notMem _ _ _ _ _ (fun u hu h' => hdisj u hu (by
        rw [hinj u x ((hpsm u).1 hu).2.1 ((hpsm u).1 hu).2.2 hjx hxj h']; exact hm)), hf1]
      simp [addFlow, Function.update_of_ne (hpne x hjx hxj)]
    · intro a hae ha
      rw [hf3, addFlow_foldl_notMem _ _ _ _ _ (fun u hu => ha u (Or.inr ((hptm u).1 hu).1) ((hptm u).1 hu).2.1 ((hptm u).1 hu).2.2), hf2,
        addFlow_foldl_notMem _ _ _ _ _ (fun u hu => ha u (Or.inl ((hpsm u).1 hu).1) ((hpsm u).1 hu).2.1 ((hpsm u).1 hu).2.2), hf1]
      simp [addFlow, hae]
    · intro v
      have e1 := netFlow_path net.src net.tgt s.parent s.pred s.forward h.arc fuel hpt f2 delta v
      have e2 := netFlow_path net.src net.tgt s.parent s.pred s.forward h.arc fuel hps f1 (-delta) v
      rw [hf3, e1]
      have : f2 = ps.foldl (fun f u => addFlow f (s.pred u) (if s.forward u then -delta else - -delta)) f1 := by
        rw [hf2]; simp only [neg_neg]
      rw [this, e2, hf1, netFlow_addFlow]
      by_cases c1 : net.src e = v <;> by_cases c2 : net.tgt e = v <;> by_cases c3 : join = v <;> simp [c1, c2, c3]

/-- costs of two flows with the same divergence differ by their reduced costs -/
theorem flowCost_diff [Fintype V] (net : Net V A R) (pi : V → R) (f g : A → R)
    (hfg : ∀ v, netFlow net.src net.tgt f v = netFlow net.src net.tgt g v) :
    flowCost net.cost g - flowCost net.cost f = ∑ a, (net.cost a + pi (net.src a) - pi (net.tgt a)) * (g a - f a) := by
  have key : ∀ f : A → R, ∑ a, (pi (net.src a) - pi (net.tgt a)) * f a = ∑ v, pi v * netFlow net.src net.tgt f v := by
    intro f
    unfold netFlow
    have : ∀ v, pi v * ((∑ a, if net.src a = v then f a else 0) - ∑ a, if net.tgt a = v then f a else 0)
        = ∑ a, ((if net.src a = v then pi v * f a else 0) - if net.tgt a = v then pi v * f a else 0) := by
      intro v
      rw [mul_sub, Finset.mul_sum, Finset.mul_sum, ← Finset.sum_sub_distrib]
      simp only [mul_ite, mul_zero]
    rw [Finset.sum_congr rfl fun v _ => this v, Finset.sum_comm]
    refine Finset.sum_congr rfl fun a _ => ?_
    rw [Finset.sum_sub_distrib, Finset.sum_ite_eq, Finset.sum_ite_eq]
    simp
    ring
  have h1 := key f
  have h2 := key g
  have h3 : ∑ v, pi v * netFlow net.src net.tgt f v = ∑ v, pi v * netFlow net.src net.tgt g v :=
    Finset.sum_congr rfl fun v _ => by rw [hfg]
  have h4 : ∑ a, (net.cost a + pi (net.src a) - pi (net.tgt a)) * (g a - f a)
      = (∑ a, net.cost a * g a) - (∑ a, net.cost a * f a) + ((∑ a, (pi (net.src a) - pi (net.tgt a)) * g a) - ∑ a, (pi (net.src a) - pi (net.tgt a)) * f a) := by
    rw [← Finset.sum_sub_distrib, ← Finset.sum_sub_distrib, ← Finset.sum_add_distrib]
    exact Finset.sum_congr rfl fun a _ => by ring
  rw [h4, h1, h2, h3]
  unfold flowCost
  ring

/-- **One pivot.** -/
theorem pivot_specW [Fintype V] (h : InvW net root supply s L) {e : A} (hviol : violation net s e < 0) (fuel : ℕ) (hf : 2 * L.length + 1 < fuel) :
    (pivot net fuel s e = some .unbounded ∧ (∀ ht : V → ℕ, ¬ ∀ a, ht (net.src a) < ht (net.tgt a)) ∧ ¬ ∀ a, 0 ≤ net.cost a) ∨
    ∃ s' L', pivot net fuel s e = some (.next s') ∧ InvW net root supply s' L' ∧ L'.length = L.length ∧
      (StrongTree s → StrongTree s' ∧ (flowCost net.cost s'.flow < flowCost net.cost s.flow ∨ (s'.flow = s.flow ∧ s.pi < s'.pi))) := by
  obtain ⟨he, hrc⟩ := violation_neg h hviol
  have heT : s.state e ≠ .tree := by rw [he]; simp
  have hr := h.tree.root_none
  have hra := h.tree.root_anc
  obtain ⟨join, hjn, hj⟩ := findJoinNode_spec h.tree fuel (net.src e) (net.tgt e) (by
    have := rank_le (L := L) (p := s.parent) (net.src e)
    have := rank_le (L := L) (p := s.parent) (net.tgt e)
    omega)
  have rk := fun u x q (_ : Anc s.parent x u) (hq : s.parent x = some q) => rank_lt h.tree hq
  obtain ⟨ps, hps, hpsn, hpsm⟩ := pathTo_spec hr hra (rank L s.parent) fuel (rk _) hj.left
    (by have := rank_le (L := L) (p := s.parent) (net.src e); omega)
  obtain ⟨pt, hpt, hptn, hptm⟩ := pathTo_spec hr hra (rank L s.parent) fuel (rk _) hj.right
    (by have := rank_le (L := L) (p := s.parent) (net.tgt e); omega)
  obtain ⟨_, hpsw⟩ := pathTo_pairwise fuel hps
  obtain ⟨_, hptw⟩ := pathTo_pairwise fuel hpt
  have hfst : firstNode net s e = net.src e := by simp [firstNode, he]
  have hsnd : secondNode net s e = net.tgt e := by simp [secondNode, he]
  set r1 := ps.foldl (scanFirst s) ⟨⊤, net.src e, 0⟩ with hr1
  set r2 := pt.foldl (scanSecond s) r1 with hr2
  have hleave : findLeavingArc net s fuel e join = some r2 := by
    simp only [findLeavingArc, hfst, hsnd, hps, hpt]
    rfl
  have hsp1 := scanFirst_spec s (net.src e) ps
  dsimp only at hsp1
  rw [← hr1] at hsp1
  have hsp2 := scanSecond_spec s r1 pt
  dsimp only at hsp2
  rw [← hr2] at hsp2
  have hsome : ∀ x, Anc s.parent join x → x ≠ join → ∃ q, s.parent x = some q := by
    intro x hx hne
    rcases anc_iff.1 hx with h' | ⟨q, h', _⟩
    · exact absurd h'.symm hne
    · exact ⟨q, h'⟩
  have hanti : ∀ x, Anc s.parent join x → x ≠ join → ¬ Anc s.parent x join := fun x h1 h2 h3 => h2 (anc_antisymm hr hra h3 h1)
  -- arcs that are neither `e` nor on the cycle
  have hcyc : ∀ x, (Anc s.parent x (net.src e) ∨ Anc s.parent x (net.tgt e)) ∧ Anc s.parent join x ∧ x ≠ join ∨
      ¬ ((Anc s.parent x (net.src e) ∨ Anc s.parent x (net.tgt e)) ∧ Anc s.parent join x ∧ x ≠ join) := fun x => Classical.em _
  cases hdelta : r2.delta with
  | top =>
    left
    refine ⟨?_, ?_⟩
    · unfold pivot
      rw [hjn]
      simp only [hleave, hdelta]
    · have key : ∀ r : V → V → Prop, (∀ x, r x x) → (∀ x y z, r x y → r y z → r x z) →
          (∀ v q, s.parent v = some q → r (net.src (s.pred v)) (net.tgt (s.pred v))) → r (net.tgt e) (net.src e) := ?_
      · refine ⟨fun ht hht => ?_, fun hcost => ?_⟩
        · have h1 := key (fun x y => ht x ≤ ht y) (fun x => le_refl _) (fun x y z => le_trans) fun v q _ => (hht _).le
          exact absurd (hht e) (not_lt.2 h1)
        · have h1 := key (fun x y => s.pi x ≤ s.pi y) (fun x => le_refl _) (fun x y z => le_trans) fun v q hv => by
            have h2 := h.pot v q hv
            have h3 := hcost (s.pred v)
            unfold redCost at h2
            linarith
          have h2 := hcost e
          unfold redCost at hrc
          linarith
      intro r rrefl rtrans rtree
      -- all capacities are infinite
      have c1 : ∀ x ∈ ps, s.forward x = false := by
        have hr1top : r1.delta = ⊤ := by
          rcases hsp2 with ⟨h1, _⟩ | ⟨_, _, _, _, _, h4, _⟩
          · rw [← h1]; exact hdelta
          · rw [hdelta] at h4; exact top_le_iff.1 h4
        rcases hsp1 with ⟨_, _, h3⟩ | ⟨_, _, _, _, _, h4, _⟩
        · intro x hx
          have := h3 x hx
          unfold cap1 at this
          by_contra hfx
          simp [hfx] at this
        · rw [hr1top] at h4; exact absurd h4 (lt_irrefl _)
      have c2 : ∀ x ∈ pt, s.forward x = true := by
        intro x hx
        by_contra hfx
        have hcap : cap2 s x < ⊤ := by
          unfold cap2
          simp [hfx]
        rcases hsp2 with ⟨h1, h2⟩ | ⟨_, l1, l2, hl, hde, _, h5, h6⟩
        · have := h2 x hx
          rw [← h1, hdelta] at this
          exact absurd this (not_lt.2 le_top)
        · rw [hdelta] at hde h5 h6
          rw [hl] at hx
          simp only [List.mem_append, List.mem_cons] at hx
          rcases hx with hx | rfl | hx
          · exact absurd hcap (not_lt.2 (h5 x hx))
          · rw [← hde] at hcap; exact lt_irrefl _ hcap
          · exact absurd (h6 x hx) (not_lt.2 le_top)
      have k1 : ∀ x, Anc s.parent x (net.src e) → Anc s.parent join x → r join x := by
        intro x
        have : ∀ y, Anc s.parent join y → Anc s.parent y (net.src e) → r join y := by
          intro y hy
          induction hy using ReflTransGen.head_induction_on with
          | refl => intro _; exact rrefl _
          | head h1 h2 ih =>
            rename_i a c
            intro ha
            have hne : a ≠ join := by
              rintro rfl
              exact not_anc_parent hr hra h1 h2
            have hb := c1 a ((hpsm a).2 ⟨ha, anc_of_parent h1 h2, hne⟩)
            have := h.arc a c h1
            rw [hb] at this
            simp only [Bool.false_eq_true, if_false] at this
            have h3 := rtree a c h1
            rw [this.1, this.2] at h3
            exact rtrans _ _ _ (ih (anc_trans (anc_parent h1) ha)) h3
        exact fun h1 h2 => this x h2 h1
      have k2 : ∀ y, Anc s.parent join y → Anc s.parent y (net.tgt e) → r y join := by
        intro y hy
        induction hy using ReflTransGen.head_induction_on with
        | refl => intro _; exact rrefl _
        | head h1 h2 ih =>
          rename_i a c
          intro ha
          have hne : a ≠ join := by
            rintro rfl
            exact not_anc_parent hr hra h1 h2
          have hb := c2 a ((hptm a).2 ⟨ha, anc_of_parent h1 h2, hne⟩)
          have := h.arc a c h1
          rw [hb] at this
          simp only [if_true] at this
          have h3 := rtree a c h1
          rw [this.1, this.2] at h3
          exact rtrans _ _ _ h3 (ih (anc_trans (anc_parent h1) ha))
      exact rtrans _ _ _ (k2 _ hj.right (anc_refl _)) (k1 _ (anc_refl _) hj.left)
  | coe delta =>
    right
    -- nonnegativity of `delta` and the bounds on the cycle
    have hb1 : ∀ x ∈ ps, s.forward x = true → delta ≤ s.flow (s.pred x) := by
      intro x hx hfx
      have hcap : cap1 s x = ((s.flow (s.pred x) : R) : WithTop R) := by simp [cap1, hfx]
      have hle : r2.delta ≤ r1.delta := by
        rcases hsp2 with ⟨h1, _⟩ | ⟨_, _, _, _, _, h4, _⟩
        · rw [h1]
        · exact h4
      have hle1 : r1.delta ≤ cap1 s x := by
        rcases hsp1 with ⟨_, _, h3⟩ | ⟨_, l1, l2, hl, hde, _, h5, h6⟩
        · rw [h3 x hx]; exact le_top
        · rw [hl] at hx
          simp only [List.mem_append, List.mem_cons] at hx
          rcases hx with hx | rfl | hx
          · exact le_of_lt (h5 x hx)
          · exact le_of_eq hde
          · exact h6 x hx
      have := le_trans hle hle1
      rw [hcap, hdelta] at this
      exact WithTop.coe_le_coe.1 this
    have hb2 : ∀ x ∈ pt, s.forward x = false → delta ≤ s.flow (s.pred x) := by
      intro x hx hfx
      have hcap : cap2 s x = ((s.flow (s.pred x) : R) : WithTop R) := by simp [cap2, hfx]
      have : r2.delta ≤ cap2 s x := by
        rcases hsp2 with ⟨h1, h2⟩ | ⟨_, l1, l2, hl, hde, _, h5, h6⟩
        · rw [h1]; exact le_of_lt (h2 x hx)
        · rw [hl] at hx
          simp only [List.mem_append, List.mem_cons] at hx
          rcases hx with hx | rfl | hx
          · exact h5 x hx
          · exact le_of_eq hde
          · exact le_of_lt (h6 x hx)
      rw [hcap, hdelta] at this
      exact WithTop.coe_le_coe.1 this
    -- common facts about the new flow
    have common : ∀ uOut : V, 0 ≤ delta → ∃ f', changeFlow net s fuel e join delta uOut true = some { s with
        flow := f', state := Function.update (Function.update s.state e .tree) (s.pred uOut) (if f' (s.pred uOut) = 0 then .lower else .upper) } ∧
        f' e = delta ∧
        (∀ x, Anc s.parent x (net.src e) → Anc s.parent join x → x ≠ join →
          f' (s.pred x) = s.flow (s.pred x) + if s.forward x then -delta else delta) ∧
        (∀ x, Anc s.parent x (net.tgt e) → Anc s.parent join x → x ≠ join →
          f' (s.pred x) = s.flow (s.pred x) + if s.forward x then delta else -delta) ∧
        (∀ a, a ≠ e → s.state a ≠ .tree → f' a = s.flow a) ∧
        (∀ x q, s.parent x = some q → ¬ ((Anc s.parent x (net.src e) ∨ Anc s.parent x (net.tgt e)) ∧ Anc s.parent join x ∧ x ≠ join) →
          f' (s.pred x) = s.flow (s.pred x)) ∧
        (∀ v, netFlow net.src net.tgt f' v = supply v) ∧ (∀ a, 0 ≤ f' a) ∧
        flowCost net.cost f' = flowCost net.cost s.flow + redCost net s e * delta := by
      intro uOut hd
      obtain ⟨f', hc, h1, h2, h3, h4, h5⟩ := changeFlow_spec h he hj hd fuel (by omega) uOut
      have h6 : ∀ a, a ≠ e → s.state a ≠ .tree → f' a = s.flow a := by
        intro a hae ha
        refine h4 a hae fun x _ hx hne h' => ?_
        obtain ⟨q, hq⟩ := hsome x hx hne
        exact ha (by rw [← h']; exact h.treeState x q hq)
      have h7 : ∀ x q, s.parent x = some q → ¬ ((Anc s.parent x (net.src e) ∨ Anc s.parent x (net.tgt e)) ∧ Anc s.parent join x ∧ x ≠ join) →
          f' (s.pred x) = s.flow (s.pred x) := by
        intro x q hq hx
        refine h4 _ ?_ fun y hy hjy hyj h' => ?_
        · intro h'
          have := h.treeState x q hq
          rw [h'] at this
          exact heT this
        · obtain ⟨q', hq'⟩ := hsome y hjy hyj
          have := h.pred_inj hq' hq h'
          subst this
          exact hx ⟨hy, hjy, hyj⟩
      refine ⟨f', hc, h1, h2, h3, h6, h7, fun v => by rw [h5, h.conserve], ?_, ?_⟩
      · intro a
        by_cases hae : a = e
        · rw [hae, h1]; exact hd
        · by_cases ha : s.state a = .tree
          · obtain ⟨v, q, hvq, rfl⟩ := h.treeArc a ha
            by_cases hv : (Anc s.parent v (net.src e) ∨ Anc s.parent v (net.tgt e)) ∧ Anc s.parent join v ∧ v ≠ join
            · rcases hv with ⟨hv | hv, hjv, hne⟩
              · rw [h2 v hv hjv hne]
                have := h.nonneg (s.pred v)
                by_cases hfv : s.forward v
                · have := hb1 v ((hpsm v).2 ⟨hv, hjv, hne⟩) hfv
                  simp [hfv]; linarith
                · simp [hfv]; linarith
              · rw [h3 v hv hjv hne]
                have := h.nonneg (s.pred v)
                by_cases hfv : s.forward v
                · simp [hfv]; linarith
                · have := hb2 v ((hptm v).2 ⟨hv, hjv, hne⟩) (by simpa using hfv)
                  simp [hfv]; linarith
            · rw [h7 v q hvq hv]; exact h.nonneg _
          · rw [h6 a hae ha]; exact h.nonneg a
      · have hdiff := flowCost_diff net s.pi s.flow f' (fun v => (h5 v).symm)
        have : ∑ a, (net.cost a + s.pi (net.src a) - s.pi (net.tgt a)) * (f' a - s.flow a) = redCost net s e * delta := by
          rw [Finset.sum_eq_single e]
          · rw [h1, (h.nontree e heT).2]; simp [redCost]
          · intro a _ hae
            by_cases ha : s.state a = .tree
            · obtain ⟨v, q, hvq, rfl⟩ := h.treeArc a ha
              have := h.pot v q hvq
              unfold redCost at this
              rw [this]; ring
            · rw [h6 a hae ha]; ring
          · intro h'; exact absurd (Finset.mem_univ _) h'
        rw [this] at hdiff
        rw [← hdiff]; ring
    rcases hsp2 with ⟨h1, h2⟩ | ⟨hres, l1, l2, hl, hde, hle, h5, h6⟩
    · -- the leaving arc is on the first path
      rcases hsp1 with ⟨_, h3, _⟩ | ⟨hres, l1, l2, hl, hde, _, h5, h6⟩
      · rw [← h1, hdelta] at h3; cases h3
      · rw [← h1] at hres hl hde h5 h6 h2
        rw [hdelta] at hde h2 h5 h6
        set uOut := r2.uOut with huOut
        have hmem : uOut ∈ ps := by rw [hl]; simp
        obtain ⟨hu1, hu2, hu3⟩ := (hpsm uOut).1 hmem
        have hfu : s.forward uOut = true := by
          by_contra hfu
          unfold cap1 at hde
          simp [hfu] at hde
        have hde' : delta = s.flow (s.pred uOut) := by
          unfold cap1 at hde
          rw [if_pos hfu] at hde
          exact WithTop.coe_inj.1 hde
        have hd : 0 ≤ delta := by rw [hde']; exact h.nonneg _
        obtain ⟨f', hc, g1, g2, g3, g4, g5, g6, g7, g8⟩ := common uOut hd
        have hfo : f' (s.pred uOut) = 0 := by
          rw [g2 uOut hu1 hu2 hu3, hfu, hde']; simp
        -- nodes below `uOut` on the first path
        have hbelow : ∀ c z, s.parent c = some z → Anc s.parent c (net.src e) → Anc s.parent uOut z → c ∈ l1 := by
          intro c z hcz hcu huz
          have hcm : c ∈ ps := (hpsm c).2 ⟨hcu, anc_of_parent hcz (anc_trans hu2 huz), by
            rintro rfl; exact hanti uOut hu2 hu3 (anc_of_parent hcz huz)⟩
          rw [hl] at hcm hpsw
          simp only [List.mem_append, List.mem_cons] at hcm
          rcases hcm with h' | rfl | h'
          · exact h'
          · exact absurd huz (not_anc_parent hr hra hcz)
          · -- above `uOut`: then `c` is an ancestor of `uOut`
            have := (List.pairwise_append.1 hpsw).2.1
            rw [List.pairwise_cons] at this
            exact absurd (anc_trans (this.1 c h') huz) (not_anc_parent hr hra hcz)
        obtain ⟨t2, t3, L', k1, k2, k3, k4, k5, k8, k6, k7⟩ := pivot_coreW h heT (join := join) (uIn := net.src e) (vIn := net.tgt e) (uOut := uOut)
          (Or.inl ⟨rfl, rfl⟩) hj hu1 (hanti uOut hu2 hu3) f' g7 g6 hfo g4 fuel (by omega)
        have k8 : StrongTree s → StrongTree t3 := fun hstr => k8
          (by
            intro x q hq hx h0
            by_contra hfx
            have hfx' : s.forward x = false := by simpa using hfx
            have hpos : 0 < s.flow (s.pred x) := lt_of_le_of_ne (h.nonneg _) fun h' => hfx (hstr x q hq h'.symm)
            rcases hcyc x with ⟨hx1 | hx1, hx2, hx3⟩ | hx1
            · rw [g2 x hx1 hx2 hx3, hfx'] at h0
              simp at h0
              linarith
            · rw [g3 x hx1 hx2 hx3, hfx'] at h0
              have := h2 x ((hptm x).2 ⟨hx1, hx2, hx3⟩)
              have hcap : cap2 s x = ((s.flow (s.pred x) : R) : WithTop R) := by simp [cap2, hfx']
              rw [hcap] at this
              have := WithTop.coe_lt_coe.1 this
              simp at h0
              linarith
            · rw [g5 x q hq hx1] at h0
              linarith)
          (by
            intro c z hcz hcu huz h0
            by_contra hfc
            have hfc' : s.forward c = true := by simpa using hfc
            have hm := hbelow c z hcz hcu huz
            have hcm : c ∈ ps := by rw [hl]; simp [hm]
            obtain ⟨q1, q2, q3⟩ := (hpsm c).1 hcm
            rw [g2 c q1 q2 q3, hfc'] at h0
            have := h5 c hm
            have hcap : cap1 s c = ((s.flow (s.pred c) : R) : WithTop R) := by simp [cap1, hfc']
            rw [hcap] at this
            have := WithTop.coe_lt_coe.1 this
            simp at h0
            linarith)
          (fun _ => rfl)
        refine ⟨t3, L', ?_, k3, k4, fun hstr => ⟨k8 hstr, ?_⟩⟩
        · unfold pivot
          rw [hjn]
          simp only [hleave, hdelta, hres, hfst, hsnd, if_true, ne_eq, one_ne_zero, not_false_eq_true, decide_true]
          rw [hfo, if_pos rfl] at hc
          simp only [← huOut, hc, k1, k2]
          rfl
        · rcases eq_or_lt_of_le hd with hd0 | hd0
          · right
            refine ⟨?_, ?_⟩
            · rw [k5]
              funext a
              by_cases hae : a = e
              · rw [hae, g1, (h.nontree e heT).2, hd0]
              · by_cases ha : s.state a = .tree
                · obtain ⟨v, q, hvq, rfl⟩ := h.treeArc a ha
                  rcases hcyc v with ⟨hx1 | hx1, hx2, hx3⟩ | hx1
                  · rw [g2 v hx1 hx2 hx3, ← hd0]; simp
                  · rw [g3 v hx1 hx2 hx3, ← hd0]; simp
                  · exact g5 v q hvq hx1
                · exact g4 a hae ha
            · refine lt_of_le_of_ne ?_ ?_
              · intro x
                by_cases hx : Anc s.parent uOut x
                · rw [k6 x hx, if_pos rfl]; linarith
                · rw [k7 x hx]
              · intro heq
                have := k6 uOut (anc_refl _)
                rw [if_pos rfl, ← heq] at this
                linarith
          · left
            rw [k5, g8]
            have := mul_neg_of_neg_of_pos hrc hd0
            linarith
    · -- the leaving arc is on the second path
      rw [hdelta] at hde hle h5 h6
      set uOut := r2.uOut with huOut
      have hmem : uOut ∈ pt := by rw [hl]; simp
      obtain ⟨hu1, hu2, hu3⟩ := (hptm uOut).1 hmem
      have hfu : s.forward uOut = false := by
        by_contra hfu
        unfold cap2 at hde
        have hfu' : s.forward uOut = true := by simpa using hfu
        simp [hfu'] at hde
      have hde' : delta = s.flow (s.pred uOut) := by
        unfold cap2 at hde
        rw [hfu] at hde
        simp only [Bool.false_eq_true, if_false] at hde
        exact WithTop.coe_inj.1 hde
      obtain ⟨vOut, hvOut⟩ := hsome uOut hu2 hu3
      have hd : 0 ≤ delta := by rw [hde']; exact h.nonneg _
      have hd0 : StrongTree s → 0 < delta := by
        intro hstr
        rw [hde']
        refine lt_of_le_of_ne (h.nonneg _) fun h' => ?_
        have := hstr uOut vOut hvOut h'.symm
        rw [hfu] at this; cases this
      obtain ⟨f', hc, g1, g2, g3, g4, g5, g6, g7, g8⟩ := common uOut hd
      have hfo : f' (s.pred uOut) = 0 := by
        rw [g3 uOut hu1 hu2 hu3, hfu, hde']; simp
      have hj' : IsJoin s.parent join (net.tgt e) (net.src e) := ⟨hj.right, hj.left, fun w a b => hj.least w b a⟩
      have hne : net.tgt e ≠ net.src e := by
        intro h'
        rw [h'] at hu1
        exact hanti uOut hu2 hu3 (hj.least uOut hu1 (h' ▸ hu1))
      obtain ⟨t2, t3, L', k1, k2, k3, k4, k5, k8, k6, k7⟩ := pivot_coreW h heT (join := join) (uIn := net.tgt e) (vIn := net.src e) (uOut := uOut)
        (Or.inr ⟨rfl, rfl⟩) hj' hu1 (hanti uOut hu2 hu3) f' g7 g6 hfo g4 fuel (by omega)
      have k8 : StrongTree s → StrongTree t3 := fun hstr => have hd0 := hd0 hstr; k8
        (by
          intro x q hq hx h0
          by_contra hfx
          have hfx' : s.forward x = false := by simpa using hfx
          have hpos : 0 < s.flow (s.pred x) := lt_of_le_of_ne (h.nonneg _) fun h' => hfx (hstr x q hq h'.symm)
          rcases hcyc x with ⟨hx1 | hx1, hx2, hx3⟩ | hx1
          · rw [g2 x hx1 hx2 hx3, hfx'] at h0
            simp at h0
            linarith
          · rw [g3 x hx1 hx2 hx3, hfx'] at h0
            -- `x` is strictly above `uOut`
            have hxm : x ∈ pt := (hptm x).2 ⟨hx1, hx2, hx3⟩
            have hxl2 : x ∈ l2 := by
              rw [hl] at hxm hptw
              simp only [List.mem_append, List.mem_cons] at hxm
              rcases hxm with h' | rfl | h'
              · have := (List.pairwise_append.1 hptw).2.2 x h' uOut (by simp)
                exact absurd ⟨hx1, this⟩ hx
              · exact absurd ⟨hx1, anc_refl _⟩ hx
              · exact h'
            have := h6 x hxl2
            have hcap : cap2 s x = ((s.flow (s.pred x) : R) : WithTop R) := by simp [cap2, hfx']
            rw [hcap] at this
            have := WithTop.coe_lt_coe.1 this
            simp at h0
            linarith
          · rw [g5 x q hq hx1] at h0
            linarith)
        (by
          intro c z hcz hcu huz h0
          by_contra hfc
          have hfc' : s.forward c = true := by simpa using hfc
          have q2 : Anc s.parent join c := anc_of_parent hcz (anc_trans hu2 huz)
          have q3 : c ≠ join := by
            rintro rfl; exact hanti uOut hu2 hu3 (anc_of_parent hcz huz)
          rw [g3 c hcu q2 q3, hfc'] at h0
          have := h.nonneg (s.pred c)
          simp at h0
          linarith)
        (fun h0 => by rw [g1] at h0; exact absurd h0 hd0.ne')
      refine ⟨t3, L', ?_, k3, k4, fun hstr => ⟨k8 hstr, Or.inl ?_⟩⟩
      · unfold pivot
        rw [hjn]
        have h21 : (2 : ℕ) ≠ 1 := by omega
        have h20 : (2 : ℕ) ≠ 0 := by omega
        simp only [hleave, hdelta, hres, hfst, hsnd, h21, if_false, ne_eq, h20, not_false_eq_true, decide_true]
        rw [hfo, if_pos rfl] at hc
        simp only [← huOut, hc, k1, k2, if_true]
        rfl
      · rw [k5, g8]
        have := mul_neg_of_neg_of_pos hrc (hd0 hstr)
        linarith

/-- **One pivot** of a strongly feasible tree. -/
theorem pivot_spec [Fintype V] (h : Inv net root supply s L) {e : A} (hviol : violation net s e < 0) (fuel : ℕ) (hf : 2 * L.length + 1 < fuel) :
    (pivot net fuel s e = some .unbounded ∧ ∀ ht : V → ℕ, ¬ ∀ a, ht (net.src a) < ht (net.tgt a)) ∨
    ∃ s' L', pivot net fuel s e = some (.next s') ∧ Inv net root supply s' L' ∧ L'.length = L.length ∧
      (flowCost net.cost s'.flow < flowCost net.cost s.flow ∨ (s'.flow = s.flow ∧ s.pi < s'.pi)) := by
  rcases pivot_specW h.toInvW hviol fuel hf with h1 | ⟨s', L', h1, h2, h3, h4⟩
  · exact Or.inl ⟨h1.1, h1.2.1⟩
  · obtain ⟨h5, h6⟩ := h4 h.strong
    exact Or.inr ⟨s', L', h1, ⟨h2, h5⟩, h3, h6⟩

end POT.Simplex
