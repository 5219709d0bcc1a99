import Verif.Lemmas.WarmForest
import Verif.Lemmas.EmdWrap2

/-! # Runs with a warm start -/

set_option linter.unusedSectionVars false

namespace POT.Simplex

open Spec POT.Tree Relation Finset

section runs
variable {R : Type*} [CommRing R] [LinearOrder R] [IsStrictOrderedRing R] {n m : ℕ} [NeZero n]

/-- real arcs are the same in both networks, so are the pivots -/
theorem pivot_turned (P : Problem n m R) (d : Fin n → Bool) (fuel : ℕ) (s : State (Node n) (Arc n m) R) (e : Fin m) :
    pivot (initNet P) fuel s (.inl e) = pivot (turnedNet P d) fuel s (.inl e) := rfl

/-- feasible spanning tree solutions of the network with turned artificial arcs -/
def WarmGood (P : Problem n m R) (d : Fin n → Bool) (s : State (Node n) (Arc n m) R) : Prop :=
  ∃ L : List (Node n), L.length = n + 1 ∧ InvW (turnedNet P d) none (extSupply P) s L

theorem turned_cost_nonneg {P : Problem n m R} (hcost : ∀ e, 0 ≤ P.cost e) (hart : 0 ≤ P.art) (d : Fin n → Bool) (a : Arc n m) : 0 ≤ (turnedNet P d).cost a := by
  cases a with
  | inl e => exact hcost e
  | inr u =>
    show 0 ≤ if 0 ≤ P.supply u then (0 : R) else P.art
    split_ifs
    · exact le_refl _
    · exact hart

theorem warm_pivot_good {P : Problem n m R} (hcost : ∀ e, 0 ≤ P.cost e) (hart : 0 ≤ P.art) {d : Fin n → Bool} {s : State (Node n) (Arc n m) R} (hs : WarmGood P d s) {e : Fin m}
    (hv : violation (initNet P) s (.inl e) < 0) :
    ∃ s', pivot (initNet P) (2 * (n + 1) + 2) s (.inl e) = some (.next s') ∧ WarmGood P d s' := by
  obtain ⟨L, hL, hI⟩ := hs
  rw [pivot_turned P d]
  rcases pivot_specW hI (e := .inl e) hv (2 * (n + 1) + 2) (by omega) with ⟨_, _, h2⟩ | ⟨s', L', h1, h2, h3, _⟩
  · exact absurd (turned_cost_nonneg hcost hart d) h2
  · exact ⟨s', h1, L', by rw [h3, hL], h2⟩

/-- What a finished main loop has established. -/
def WarmLoopPost (P : Problem n m R) (d : Fin n → Bool) (junk eps : R) (maxIter : ℕ) (st : Status) (s : State (Node n) (Arc n m) R) : Prop :=
  match st with
  | .optimal => WarmGood P d s ∧ ∃ τ, 0 ≤ τ ∧ (τ = 0 ∨ ∃ e, τ = eps * searchScale P junk s (some e)) ∧
      ∀ e : Fin m, -τ ≤ violation (initNet P) s (.inl e)
  | .maxIter => 0 < maxIter ∧ WarmGood P d s
  | .unbounded => False
  | .infeasible => False

theorem warm_mainLoop_spec {P : Problem n m R} (hcost : ∀ e, 0 ≤ P.cost e) (hart : 0 ≤ P.art) {d : Fin n → Bool} (junk eps : R) (heps : 0 ≤ eps) (bs maxIter : ℕ) (k : ℕ)
    (iters : ℕ) (r : Rule m) {s : State (Node n) (Arc n m) R} (hs : WarmGood P d s) :
    (∀ st s', mainLoop P junk eps bs maxIter (2 * (n + 1) + 2) k iters r s = some (st, s') → WarmLoopPost P d junk eps maxIter st s') ∧
    (iters < maxIter → maxIter ≤ iters + k → (mainLoop P junk eps bs maxIter (2 * (n + 1) + 2) k iters r s).isSome) := by
  induction k generalizing iters r s with
  | zero => exact ⟨fun st s' h => (by cases h), fun h1 h2 => absurd h1 (by omega)⟩
  | succ k ih =>
    rw [mainLoop]
    cases hfe : findEnteringArc (fun e => violation (initNet P) s (.inl e)) (searchScale P junk s) eps bs r with
    | none =>
      obtain ⟨ia, h1, h2⟩ := findEnteringArc_none _ _ _ _ _ hfe
      refine ⟨fun st s' h => ?_, fun _ _ => rfl⟩
      cases h
      refine ⟨hs, ?_⟩
      by_cases hneg : ∃ e : Fin m, violation (initNet P) s (.inl e) < 0
      · obtain ⟨e, he, _⟩ := h2 hneg
        refine ⟨eps * searchScale P junk s ia, mul_nonneg heps (searchScale_nonneg P junk s ia), Or.inr ⟨e, by rw [he]⟩, fun e' => ?_⟩
        rw [← neg_mul]; exact h1 e'
      · push Not at hneg
        exact ⟨0, le_refl _, Or.inl rfl, fun e' => by rw [neg_zero]; exact hneg e'⟩
    | some r' =>
      dsimp only
      by_cases hit : 0 < maxIter ∧ maxIter ≤ iters + 1
      · rw [if_pos hit]
        refine ⟨fun st s' h => ?_, fun _ _ => rfl⟩
        cases h
        exact ⟨hit.1, hs⟩
      · rw [if_neg hit]
        obtain ⟨e, h1, h2, _⟩ := findEnteringArc_some _ _ _ heps (searchScale_nonneg P junk s) _ _ _ hfe
        rw [h1]
        dsimp only
        obtain ⟨s', h3, h4⟩ := warm_pivot_good hcost hart hs h2
        rw [h3]
        dsimp only
        obtain ⟨h5, h6⟩ := ih (iters + 1) r' h4
        refine ⟨h5, fun h7 h8 => h6 ?_ (by omega)⟩
        by_contra h9
        exact hit ⟨by omega, by omega⟩

/-! ### What the final state is -/

theorem warm_redCost_of_flow {P : Problem n m R} {d : Fin n → Bool} {s : State (Node n) (Arc n m) R} (h : WarmGood P d s) {a : Arc n m}
    (ha : s.flow a ≠ 0) : redCost (turnedNet P d) s a = 0 := by
  obtain ⟨L, _, hI⟩ := h
  have ht : s.state a = .tree := by
    by_contra hne
    exact ha (hI.nontree a hne).2
  obtain ⟨v, q, hv, rfl⟩ := hI.treeArc a ht
  exact hI.pot v q hv

theorem warm_tolOpt {P : Problem n m R} {d : Fin n → Bool} {s : State (Node n) (Arc n m) R} (h : WarmGood P d s) {τ : R} (hτ : 0 ≤ τ)
    (hv : ∀ e : Fin m, -τ ≤ violation (initNet P) s (.inl e)) : TolOpt P τ s := by
  intro e
  obtain ⟨L, _, hI⟩ := h
  by_cases hs : s.state (.inl e) = .tree
  · obtain ⟨v, q, hv', hp⟩ := hI.treeArc _ hs
    have := hI.pot v q hv'
    rw [hp] at this
    have h2 : redCost (initNet P) s (.inl e) = 0 := this
    rw [h2]; linarith
  · have h1 := (hI.nontree _ hs).1
    have := hv e
    unfold violation at this
    rw [h1] at this
    simpa [ArcState.sign] using this

/-- real arcs leave each node the supply minus what its artificial arc carries away -/
theorem warm_net {P : Problem n m R} {d : Fin n → Bool} {s : State (Node n) (Arc n m) R} (h : WarmGood P d s) (u : Fin n) :
    netFlow P.src P.tgt (fun i => s.flow (.inl i)) u = P.supply u - if d u then s.flow (.inr u) else -s.flow (.inr u) := by
  obtain ⟨L, _, hI⟩ := h
  have h1 := hI.conserve (some u)
  have h2 : extSupply P (some u) = P.supply u := rfl
  rw [h2] at h1
  unfold netFlow at h1 ⊢
  rw [Fintype.sum_sum_type, Fintype.sum_sum_type] at h1
  have e1 : ∑ i : Fin m, (if (turnedNet P d).src (Sum.inl i) = some u then s.flow (Sum.inl i) else 0)
      = ∑ i : Fin m, if P.src i = u then s.flow (Sum.inl i) else 0 :=
    Finset.sum_congr rfl fun i _ => by simp [turnedNet]
  have e2 : ∑ i : Fin m, (if (turnedNet P d).tgt (Sum.inl i) = some u then s.flow (Sum.inl i) else 0)
      = ∑ i : Fin m, if P.tgt i = u then s.flow (Sum.inl i) else 0 :=
    Finset.sum_congr rfl fun i _ => by simp [turnedNet]
  have e3 : ∑ w : Fin n, (if (turnedNet P d).src (Sum.inr w) = some u then s.flow (Sum.inr w) else 0)
      = if d u then s.flow (.inr u) else 0 := by
    rw [Finset.sum_eq_single u]
    · cases hu : d u <;> simp [turnedNet, hu]
    · intro w _ hne
      cases hu : d w <;> simp [turnedNet, hu, hne]
    · intro h'; exact absurd (Finset.mem_univ _) h'
  have e4 : ∑ w : Fin n, (if (turnedNet P d).tgt (Sum.inr w) = some u then s.flow (Sum.inr w) else 0)
      = if d u then 0 else s.flow (.inr u) := by
    rw [Finset.sum_eq_single u]
    · cases hu : d u <;> simp [turnedNet, hu]
    · intro w _ hne
      cases hu : d w <;> simp [turnedNet, hu, hne]
    · intro h'; exact absurd (Finset.mem_univ _) h'
  rw [e1, e2, e3, e4] at h1
  split_ifs at h1 ⊢ with hu <;> linarith

/-- balance at the root -/
theorem warm_root {P : Problem n m R} {d : Fin n → Bool} {s : State (Node n) (Arc n m) R} (h : WarmGood P d s) :
    (∑ u, if d u then s.flow (.inr u) else 0) - (∑ u, if d u then 0 else s.flow (.inr u)) = ∑ u, P.supply u := by
  obtain ⟨L, _, hI⟩ := h
  have h1 := hI.conserve none
  have h2 : extSupply P none = -∑ u, P.supply u := rfl
  rw [h2] at h1
  unfold netFlow at h1
  rw [Fintype.sum_sum_type, Fintype.sum_sum_type] at h1
  have e1 : ∑ i : Fin m, (if (turnedNet P d).src (Sum.inl i) = none then s.flow (Sum.inl i) else 0) = 0 :=
    Finset.sum_eq_zero fun i _ => by simp [turnedNet]
  have e2 : ∑ i : Fin m, (if (turnedNet P d).tgt (Sum.inl i) = none then s.flow (Sum.inl i) else 0) = 0 :=
    Finset.sum_eq_zero fun i _ => by simp [turnedNet]
  have e3 : ∑ w : Fin n, (if (turnedNet P d).src (Sum.inr w) = none then s.flow (Sum.inr w) else 0)
      = ∑ w : Fin n, if d w then 0 else s.flow (.inr w) :=
    Finset.sum_congr rfl fun w _ => by cases hu : d w <;> simp [turnedNet, hu]
  have e4 : ∑ w : Fin n, (if (turnedNet P d).tgt (Sum.inr w) = none then s.flow (Sum.inr w) else 0)
      = ∑ w : Fin n, if d w then s.flow (.inr w) else 0 :=
    Finset.sum_congr rfl fun w _ => by cases hu : d w <;> simp [turnedNet, hu]
  rw [e1, e2, e3, e4] at h1
  linarith

/-- potentials are bounded by the cost of a path to the root -/
theorem warm_pi_bound {P : Problem n m R} {d : Fin n → Bool} {s : State (Node n) (Arc n m) R} (h : WarmGood P d s) {C : R} (hC0 : 0 ≤ C) (hC : ∀ i, |P.cost i| ≤ C)
    (x : Node n) : |s.pi x| ≤ |P.art| + n * C := by
  obtain ⟨L, hL, hI⟩ := h
  -- a stronger statement along the tree
  have key : ∀ x : Node n, |s.pi x| ≤ if x = none then 0 else |P.art| + ((rank L s.parent x : R) - 1) * C := by
    intro x
    induction hI.tree.root_anc x using ReflTransGen.head_induction_on with
    | refl => simp [hI.piRoot]
    | head h1 h2 ih =>
      rename_i a c
      have hane : a ≠ none := fun h' => by rw [h', hI.tree.root_none] at h1; cases h1
      rw [if_neg hane]
      have hp := hI.pot a c h1
      have harc := hI.arc a c h1
      have hdiff : |s.pi a - s.pi c| ≤ |(turnedNet P d).cost (s.pred a)| := by
        unfold redCost at hp
        by_cases hf : s.forward a
        · rw [if_pos hf] at harc
          rw [harc.1, harc.2] at hp
          have : s.pi a - s.pi c = -(turnedNet P d).cost (s.pred a) := by linarith
          rw [this, abs_neg]
        · rw [if_neg hf] at harc
          rw [harc.1, harc.2] at hp
          have : s.pi a - s.pi c = (turnedNet P d).cost (s.pred a) := by linarith
          rw [this]
      have htri : |s.pi a| ≤ |s.pi c| + |(turnedNet P d).cost (s.pred a)| := by
        have := abs_add_le (s.pi c) (s.pi a - s.pi c)
        rw [add_sub_cancel] at this
        linarith
      have hrk := rank_lt hI.tree h1
      cases hpa : s.pred a with
      | inl i =>
        have hcost : |(turnedNet P d).cost (s.pred a)| ≤ C := by rw [hpa]; exact hC i
        have hcne : c ≠ none := by
          intro h'
          by_cases hf : s.forward a
          · rw [if_pos hf, hpa] at harc
            rw [h'] at harc
            cases harc.2
          · rw [if_neg hf, hpa] at harc
            rw [h'] at harc
            cases harc.1
        rw [if_neg hcne] at ih
        have hrk' : (rank L s.parent c : R) + 1 ≤ rank L s.parent a := by exact_mod_cast hrk
        nlinarith
      | inr u =>
        have hcost : |(turnedNet P d).cost (s.pred a)| ≤ |P.art| := by
          rw [hpa]
          show |if 0 ≤ P.supply u then (0 : R) else P.art| ≤ |P.art|
          split_ifs
          · simp
          · exact le_refl _
        have hcn : c = none := by
          by_cases hf : s.forward a
          · rw [if_pos hf, hpa] at harc
            cases hu : d u with
            | true => have := harc.2; simp [turnedNet, hu] at this; exact this.symm
            | false => have := harc.1; simp [turnedNet, hu] at this; exact absurd this.symm hane
          · rw [if_neg hf, hpa] at harc
            cases hu : d u with
            | true => have := harc.2; simp [turnedNet, hu] at this; exact absurd this.symm hane
            | false => have := harc.1; simp [turnedNet, hu] at this; exact this.symm
        rw [if_pos hcn] at ih
        have hrk' : (1 : R) ≤ rank L s.parent a := by
          have : 1 ≤ rank L s.parent a := by omega
          exact_mod_cast this
        nlinarith [mul_nonneg (sub_nonneg.2 hrk') hC0]
  have h1 := key x
  have hn0 : (0 : R) ≤ n * C := mul_nonneg (Nat.cast_nonneg _) hC0
  split_ifs at h1
  · have := abs_nonneg P.art; linarith
  · have h2 := rank_le (L := L) (p := s.parent) x
    rw [hL] at h2
    have h3 : (rank L s.parent x : R) ≤ n + 1 := by exact_mod_cast h2
    nlinarith

theorem warm_searchScale_le {P : Problem n m R} {d : Fin n → Bool} {s : State (Node n) (Arc n m) R} (h : WarmGood P d s) {C : R} (hC0 : 0 ≤ C) (hC : ∀ i, |P.cost i| ≤ C)
    (junk : R) (e : Fin m) : searchScale P junk s (some e) ≤ max C (|P.art| + n * C) := by
  unfold searchScale
  dsimp only
  have h1 := warm_pi_bound h hC0 hC (some (P.src e))
  have h2 := warm_pi_bound h hC0 hC (some (P.tgt e))
  split_ifs
  · exact le_trans h1 (le_max_right _ _)
  · exact le_trans (hC e) (le_max_left _ _)
  · exact le_trans h2 (le_max_right _ _)
  · exact le_trans (hC e) (le_max_left _ _)

/-- **No mass is left on artificial arcs**: complete bipartite graph, costs not negative, dear artificial arcs, equal masses, no source on a free arc to the root. -/
theorem warm_art_zero {P : Problem n m R} {d : Fin n → Bool} {s : State (Node n) (Arc n m) R} (h : WarmGood P d s) {τ : R} (ho : TolOpt P τ s)
    (hb : Bipartite P) (hcomplete : ∀ u v, 0 ≤ P.supply u → P.supply v < 0 → ∃ e, P.src e = u ∧ P.tgt e = v)
    (hart : ∀ e, P.cost e + τ < P.art) (hτ : 0 ≤ τ) (hcost : ∀ e, 0 ≤ P.cost e) (hsum : ∑ u, P.supply u = 0) (hd : ∀ e, d (P.src e) = false) (w : Fin n) :
    s.flow (.inr w) = 0 := by
  have hnn : ∀ a, 0 ≤ s.flow a := fun a => h.choose_spec.2.nonneg a
  have hpi0 : s.pi none = 0 := h.choose_spec.2.piRoot
  have hroot := warm_root h
  rw [hsum] at hroot
  -- flow into and out of the root
  by_contra hw
  have hwpos : 0 < s.flow (.inr w) := lt_of_le_of_ne (hnn _) (Ne.symm hw)
  have hex : (∃ t, d t = true ∧ 0 < s.flow (.inr t)) ∧ ∃ u, d u = false ∧ 0 < s.flow (.inr u) := by
    have n1 : ∀ u, 0 ≤ (if d u then s.flow (.inr u) else 0 : R) := fun u => by split_ifs; exacts [hnn _, le_refl _]
    have n2 : ∀ u, 0 ≤ (if d u then 0 else s.flow (.inr u) : R) := fun u => by split_ifs; exacts [le_refl _, hnn _]
    have p1 : 0 < (∑ u, if d u then s.flow (.inr u) else 0) ∧ 0 < ∑ u, if d u then 0 else s.flow (.inr u) := by
      cases hdw : d w with
      | true =>
        have := Finset.single_le_sum (f := fun u => (if d u then s.flow (.inr u) else 0 : R)) (fun u _ => n1 u) (Finset.mem_univ w)
        simp only [hdw, if_true] at this
        constructor <;> linarith
      | false =>
        have := Finset.single_le_sum (f := fun u => (if d u then 0 else s.flow (.inr u) : R)) (fun u _ => n2 u) (Finset.mem_univ w)
        simp only [hdw, Bool.false_eq_true, if_false] at this
        constructor <;> linarith
    constructor
    · by_contra hcon
      push Not at hcon
      refine absurd p1.1 (not_lt.2 (Finset.sum_nonpos fun u _ => ?_))
      split_ifs with hu
      · exact hcon u hu
      · exact le_refl _
    · by_contra hcon
      push Not at hcon
      refine absurd p1.2 (not_lt.2 (Finset.sum_nonpos fun u _ => ?_))
      split_ifs with hu
      · exact le_refl _
      · exact hcon u (by simpa using hu)
  obtain ⟨⟨t, hdt, hft⟩, ⟨u, hdu, hfu⟩⟩ := hex
  -- arcs with flow at a node whose real arcs carry a net amount
  have hout : ∀ v, 0 < netFlow P.src P.tgt (fun i => s.flow (.inl i)) v → ∃ e, P.src e = v ∧ s.flow (.inl e) ≠ 0 := by
    intro v hv
    by_contra hcon
    push Not at hcon
    unfold netFlow at hv
    have z : (∑ i : Fin m, if P.src i = v then s.flow (.inl i) else 0) = 0 := Finset.sum_eq_zero fun i _ => by
      split_ifs with hi
      · exact hcon i hi
      · rfl
    have z2 : 0 ≤ ∑ i : Fin m, if P.tgt i = v then s.flow (.inl i) else 0 := Finset.sum_nonneg fun i _ => by split_ifs; exacts [hnn _, le_refl _]
    linarith
  have hin : ∀ v, netFlow P.src P.tgt (fun i => s.flow (.inl i)) v < 0 → ∃ e, P.tgt e = v ∧ s.flow (.inl e) ≠ 0 := by
    intro v hv
    by_contra hcon
    push Not at hcon
    unfold netFlow at hv
    have z : (∑ i : Fin m, if P.tgt i = v then s.flow (.inl i) else 0) = 0 := Finset.sum_eq_zero fun i _ => by
      split_ifs with hi
      · exact hcon i hi
      · rfl
    have z2 : 0 ≤ ∑ i : Fin m, if P.src i = v then s.flow (.inl i) else 0 := Finset.sum_nonneg fun i _ => by split_ifs; exacts [hnn _, le_refl _]
    linarith
  have hnu := warm_net h u
  rw [hdu] at hnu
  simp only [Bool.false_eq_true, if_false] at hnu
  have hnt := warm_net h t
  rw [hdt] at hnt
  simp only [if_true] at hnt
  have hreal : ∀ e, s.flow (.inl e) ≠ 0 → P.cost e + s.pi (some (P.src e)) - s.pi (some (P.tgt e)) = 0 := fun e he => warm_redCost_of_flow h he
  have htol : ∀ e, -τ ≤ P.cost e + s.pi (some (P.src e)) - s.pi (some (P.tgt e)) := ho
  -- there is a target
  obtain ⟨v0, hv0⟩ : ∃ v, P.supply v < 0 := by
    by_cases hu : 0 ≤ P.supply u
    · obtain ⟨e, _, _⟩ := hout u (by rw [hnu]; linarith)
      exact ⟨_, (hb e).2⟩
    · exact ⟨u, not_le.1 hu⟩
  have hst : P.supply t < 0 := by
    by_contra hcon
    obtain ⟨e, he, _⟩ := hcomplete t v0 (not_lt.1 hcon) hv0
    have := hd e
    rw [he, hdt] at this
    cases this
  have rt := warm_redCost_of_flow h hft.ne'
  have ru := warm_redCost_of_flow h hfu.ne'
  unfold redCost turnedNet initNet at rt ru
  simp only [hdt, hdu, if_true, Bool.false_eq_true, if_false, hpi0, not_le.2 hst] at rt ru
  obtain ⟨e1, he1, hf1⟩ := hin t (by rw [hnt]; linarith)
  have r1 := hreal e1 hf1
  rw [he1] at r1
  by_cases hu : 0 ≤ P.supply u
  · rw [if_pos hu] at ru
    obtain ⟨e3, he3, hf3⟩ := hout u (by rw [hnu]; linarith)
    have r3 := hreal e3 hf3
    rw [he3] at r3
    obtain ⟨e4, he4, he4'⟩ := hcomplete (P.src e1) (P.tgt e3) (hb e1).1 (hb e3).2
    have r4 := htol e4
    rw [he4, he4'] at r4
    have := hart e4
    have := hcost e1
    have := hcost e3
    linarith
  · rw [if_neg hu] at ru
    obtain ⟨e4, he4, he4'⟩ := hcomplete (P.src e1) u (hb e1).1 (not_le.1 hu)
    have r4 := htol e4
    rw [he4, he4'] at r4
    have := hart e4
    have := hcost e1
    have := hcost e4
    linarith

end runs

end POT.Simplex
