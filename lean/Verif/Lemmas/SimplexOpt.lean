import Verif.Lemmas.SimplexRun
import Mathlib.Tactic.Positivity
import Mathlib.Algebra.Order.BigOperators.Group.Finset

/-! # What a finished run has established -/

set_option linter.unusedSectionVars false

namespace POT.Simplex

open Spec POT.Tree Relation Finset

variable {R : Type*} [CommRing R] [LinearOrder R] [IsStrictOrderedRing R] {n m : ℕ} [NeZero n]

/-- all real arcs pass the optimality test up to `τ` -/
def TolOpt (P : Problem n m R) (τ : R) (s : State (Node n) (Arc n m) R) : Prop :=
  ∀ e : Fin m, -τ ≤ redCost (initNet P) s (.inl e)

theorem redCost_tree {V A : Type*} [DecidableEq V] [DecidableEq A] [Fintype A] {net : Net V A R} {root : V} {supply : V → R}
    {s : State V A R} {L : List V} (h : Inv net root supply s L) {a : A}
    (ha : s.state a = .tree) : redCost net s a = 0 := by
  obtain ⟨v, q, hv, rfl⟩ := h.treeArc a ha
  exact h.pot v q hv

theorem redCost_of_flow {P : Problem n m R} {s : State (Node n) (Arc n m) R} (h : Good P s) {a : Arc n m}
    (ha : s.flow a ≠ 0) : redCost (initNet P) s a = 0 := by
  obtain ⟨L, _, hI⟩ := h
  apply redCost_tree hI
  by_contra hne
  exact ha (hI.nontree a hne).2

theorem tolOpt_of_violation {P : Problem n m R} {s : State (Node n) (Arc n m) R} (h : Good P s) {τ : R} (hτ : 0 ≤ τ)
    (hv : ∀ e : Fin m, -τ ≤ violation (initNet P) s (.inl e)) : TolOpt P τ s := by
  intro e
  obtain ⟨L, _, hI⟩ := h
  by_cases hs : s.state (.inl e) = .tree
  · rw [redCost_tree hI hs]; linarith
  · have h1 := (hI.nontree _ hs).1
    have := hv e
    unfold violation at this
    rw [h1] at this
    simpa [ArcState.sign] using this

theorem art_nonneg {P : Problem n m R} {s : State (Node n) (Arc n m) R} (h : Good P s) (a : Arc n m) : 0 ≤ s.flow a := by
  obtain ⟨L, _, hI⟩ := h
  exact hI.nonneg a

/-- real arcs leave each node the supply minus what its artificial arc carries -/
theorem good_net {P : Problem n m R} {s : State (Node n) (Arc n m) R} (h : Good P s) (u : Fin n) :
    netFlow P.src P.tgt (fun i => s.flow (.inl i)) u
      = P.supply u - if 0 ≤ P.supply u then s.flow (.inr u) else -s.flow (.inr u) := by
  obtain ⟨L, _, hI⟩ := h
  have h1 := hI.conserve (some u)
  have h2 : extSupply P (some u) = P.supply u := rfl
  rw [h2] at h1
  unfold netFlow at h1 ⊢
  rw [Fintype.sum_sum_type, Fintype.sum_sum_type] at h1
  have e1 : ∑ i : Fin m, (if (initNet P).src (Sum.inl i) = some u then s.flow (Sum.inl i) else 0)
      = ∑ i : Fin m, if P.src i = u then s.flow (Sum.inl i) else 0 :=
    Finset.sum_congr rfl fun i _ => by simp [initNet]
  have e2 : ∑ i : Fin m, (if (initNet P).tgt (Sum.inl i) = some u then s.flow (Sum.inl i) else 0)
      = ∑ i : Fin m, if P.tgt i = u then s.flow (Sum.inl i) else 0 :=
    Finset.sum_congr rfl fun i _ => by simp [initNet]
  have e3 : ∑ w : Fin n, (if (initNet P).src (Sum.inr w) = some u then s.flow (Sum.inr w) else 0)
      = if 0 ≤ P.supply u then s.flow (.inr u) else 0 := by
    rw [Finset.sum_eq_single u]
    · by_cases hu : 0 ≤ P.supply u <;> simp [initNet, hu]
    · intro w _ hne
      by_cases hu : 0 ≤ P.supply w <;> simp [initNet, hu, hne]
    · intro h'; exact absurd (Finset.mem_univ _) h'
  have e4 : ∑ w : Fin n, (if (initNet P).tgt (Sum.inr w) = some u then s.flow (Sum.inr w) else 0)
      = if 0 ≤ P.supply u then 0 else s.flow (.inr u) := by
    rw [Finset.sum_eq_single u]
    · by_cases hu : 0 ≤ P.supply u <;> simp [initNet, hu]
    · intro w _ hne
      by_cases hu : 0 ≤ P.supply w <;> simp [initNet, hu, hne]
    · intro h'; exact absurd (Finset.mem_univ _) h'
  rw [e1, e2, e3, e4] at h1
  split_ifs at h1 ⊢ with hu <;> linarith

/-- what the extraction of plans needs to know of a state -/
structure SoftGood (P : Problem n m R) (s : State (Node n) (Arc n m) R) : Prop where
  nonneg : ∀ a, 0 ≤ s.flow a
  net : ∀ u, netFlow P.src P.tgt (fun i => s.flow (.inl i)) u = P.supply u - if 0 ≤ P.supply u then s.flow (.inr u) else -s.flow (.inr u)
  slack : ∀ i, s.flow (.inl i) ≠ 0 → redCost (initNet P) s (.inl i) = 0

theorem Good.soft {P : Problem n m R} {s : State (Node n) (Arc n m) R} (h : Good P s) : SoftGood P s :=
  ⟨art_nonneg h, good_net h, fun _ => redCost_of_flow h⟩

/-- balance at the root -/
theorem good_root {P : Problem n m R} {s : State (Node n) (Arc n m) R} (h : Good P s) :
    (∑ u, if 0 ≤ P.supply u then s.flow (.inr u) else 0) - (∑ u, if 0 ≤ P.supply u then 0 else s.flow (.inr u)) = ∑ u, P.supply u := by
  obtain ⟨L, _, hI⟩ := h
  have h1 := hI.conserve none
  have h2 : extSupply P none = -∑ u, P.supply u := rfl
  rw [h2] at h1
  unfold netFlow at h1
  rw [Fintype.sum_sum_type, Fintype.sum_sum_type] at h1
  have e1 : ∑ i : Fin m, (if (initNet P).src (Sum.inl i) = none then s.flow (Sum.inl i) else 0) = 0 :=
    Finset.sum_eq_zero fun i _ => by simp [initNet]
  have e2 : ∑ i : Fin m, (if (initNet P).tgt (Sum.inl i) = none then s.flow (Sum.inl i) else 0) = 0 :=
    Finset.sum_eq_zero fun i _ => by simp [initNet]
  have e3 : ∑ w : Fin n, (if (initNet P).src (Sum.inr w) = none then s.flow (Sum.inr w) else 0)
      = ∑ w : Fin n, if 0 ≤ P.supply w then 0 else s.flow (.inr w) :=
    Finset.sum_congr rfl fun w _ => by by_cases hu : 0 ≤ P.supply w <;> simp [initNet, hu]
  have e4 : ∑ w : Fin n, (if (initNet P).tgt (Sum.inr w) = none then s.flow (Sum.inr w) else 0)
      = ∑ w : Fin n, if 0 ≤ P.supply w then s.flow (.inr w) else 0 :=
    Finset.sum_congr rfl fun w _ => by by_cases hu : 0 ≤ P.supply w <;> simp [initNet, hu]
  rw [e1, e2, e3, e4] at h1
  linarith

/-- potentials are bounded by the cost of a path to the root -/
theorem pi_bound {P : Problem n m R} {s : State (Node n) (Arc n m) R} (h : Good P s) {C : R} (hC0 : 0 ≤ C) (hC : ∀ i, |P.cost i| ≤ C)
    (x : Node n) : |s.pi x| ≤ |P.art| + n * C := by
  obtain ⟨L, hL, hI⟩ := h
  -- a stronger statement along the tree
  have key : ∀ x : Node n, |s.pi x| ≤ if x = none then 0 else |P.art| + ((rank L s.parent x : R) - 1) * C := by
    intro x
    induction hI.tree.root_anc x using ReflTransGen.head_induction_on with
    | refl => simp [hI.piRoot]
    | head h1 h2 ih =>
      rename_i a c
      have hane : a ≠ none := fun h' => by rw [h', hI.tree.root_none] at h1; cases h1
      rw [if_neg hane]
      have hp := hI.pot a c h1
      have harc := hI.arc a c h1
      have hdiff : |s.pi a - s.pi c| ≤ |(initNet P).cost (s.pred a)| := by
        unfold redCost at hp
        by_cases hf : s.forward a
        · rw [if_pos hf] at harc
          rw [harc.1, harc.2] at hp
          have : s.pi a - s.pi c = -(initNet P).cost (s.pred a) := by linarith
          rw [this, abs_neg]
        · rw [if_neg hf] at harc
          rw [harc.1, harc.2] at hp
          have : s.pi a - s.pi c = (initNet P).cost (s.pred a) := by linarith
          rw [this]
      have htri : |s.pi a| ≤ |s.pi c| + |(initNet P).cost (s.pred a)| := by
        have := abs_add_le (s.pi c) (s.pi a - s.pi c)
        rw [add_sub_cancel] at this
        linarith
      have hrk := rank_lt hI.tree h1
      cases hpa : s.pred a with
      | inl i =>
        have hcost : |(initNet P).cost (s.pred a)| ≤ C := by rw [hpa]; exact hC i
        have hcne : c ≠ none := by
          intro h'
          by_cases hf : s.forward a
          · rw [if_pos hf, hpa] at harc
            rw [h'] at harc
            cases harc.2
          · rw [if_neg hf, hpa] at harc
            rw [h'] at harc
            cases harc.1
        rw [if_neg hcne] at ih
        have hrk' : (rank L s.parent c : R) + 1 ≤ rank L s.parent a := by exact_mod_cast hrk
        nlinarith
      | inr u =>
        have hcost : |(initNet P).cost (s.pred a)| ≤ |P.art| := by
          rw [hpa]
          show |if 0 ≤ P.supply u then (0 : R) else P.art| ≤ |P.art|
          split_ifs
          · simp
          · exact le_refl _
        have hcn : c = none := by
          by_cases hf : s.forward a
          · rw [if_pos hf, hpa] at harc
            by_cases hu : 0 ≤ P.supply u
            · have := harc.2; simp [initNet, hu] at this; exact this.symm
            · have := harc.1; simp [initNet, hu] at this; exact absurd this.symm hane
          · rw [if_neg hf, hpa] at harc
            by_cases hu : 0 ≤ P.supply u
            · have := harc.2; simp [initNet, hu] at this; exact absurd this.symm hane
            · have := harc.1; simp [initNet, hu] at this; exact this.symm
        rw [if_pos hcn] at ih
        have hrk' : (1 : R) ≤ rank L s.parent a := by
          have : 1 ≤ rank L s.parent a := by omega
          exact_mod_cast this
        nlinarith [mul_nonneg (sub_nonneg.2 hrk') hC0]
  have h1 := key x
  have hn0 : (0 : R) ≤ n * C := mul_nonneg (Nat.cast_nonneg _) hC0
  split_ifs at h1
  · have := abs_nonneg P.art; linarith
  · have h2 := rank_le (L := L) (p := s.parent) x
    rw [hL] at h2
    have h3 : (rank L s.parent x : R) ≤ n + 1 := by exact_mod_cast h2
    nlinarith

theorem searchScale_le {P : Problem n m R} {s : State (Node n) (Arc n m) R} (h : Good P s) {C : R} (hC0 : 0 ≤ C) (hC : ∀ i, |P.cost i| ≤ C)
    (junk : R) (e : Fin m) : searchScale P junk s (some e) ≤ max C (|P.art| + n * C) := by
  unfold searchScale
  dsimp only
  have h1 := pi_bound h hC0 hC (some (P.src e))
  have h2 := pi_bound h hC0 hC (some (P.tgt e))
  split_ifs
  · exact le_trans h1 (le_max_right _ _)
  · exact le_trans (hC e) (le_max_left _ _)
  · exact le_trans h2 (le_max_right _ _)
  · exact le_trans (hC e) (le_max_left _ _)

/-- With a complete bipartite graph and dear artificial arcs, supply and demand artificial arcs are not used at the same time. -/
theorem art_one_side {P : Problem n m R} {s : State (Node n) (Arc n m) R} (h : Good P s) {τ : R} (ho : TolOpt P τ s)
    (hcomplete : ∀ u v, 0 ≤ P.supply u → P.supply v < 0 → ∃ e, P.src e = u ∧ P.tgt e = v)
    (hart : ∀ e, P.cost e + τ < P.art) :
    (∀ u, 0 ≤ P.supply u → s.flow (.inr u) = 0) ∨ (∀ v, P.supply v < 0 → s.flow (.inr v) = 0) := by
  by_contra hcon
  push Not at hcon
  obtain ⟨⟨u, hu, hfu⟩, ⟨v, hv, hfv⟩⟩ := hcon
  obtain ⟨e, he1, he2⟩ := hcomplete u v hu hv
  have r1 := redCost_of_flow h hfu
  have r2 := redCost_of_flow h hfv
  obtain ⟨L, _, hI⟩ := h
  have h0 := hI.piRoot
  have r3 := ho e
  have h4 := hart e
  unfold redCost at r1 r2 r3
  have hv' := not_le.2 hv
  simp only [initNet, hu, hv', if_true, if_false, he1, he2, h0] at r1 r2 r3
  linarith

/-- Then each artificial arc carries at most the imbalance of the supplies. -/
theorem art_le {P : Problem n m R} {s : State (Node n) (Arc n m) R} (h : Good P s) {τ : R} (ho : TolOpt P τ s)
    (hcomplete : ∀ u v, 0 ≤ P.supply u → P.supply v < 0 → ∃ e, P.src e = u ∧ P.tgt e = v)
    (hart : ∀ e, P.cost e + τ < P.art) (u : Fin n) : s.flow (.inr u) ≤ |∑ u, P.supply u| := by
  have hroot := good_root h
  have hnn : ∀ u : Fin n, 0 ≤ s.flow (.inr u) := fun u => art_nonneg h _
  rcases art_one_side h ho hcomplete hart with h1 | h1
  · by_cases hu : 0 ≤ P.supply u
    · rw [h1 u hu]; exact abs_nonneg _
    · have z : (∑ u, if 0 ≤ P.supply u then s.flow (.inr u) else 0) = 0 :=
        Finset.sum_eq_zero fun w _ => by split_ifs with hw; exacts [h1 w hw, rfl]
      rw [z, zero_sub] at hroot
      rw [← hroot, abs_neg]
      refine le_trans ?_ (le_abs_self _)
      have := Finset.single_le_sum (f := fun w : Fin n => if 0 ≤ P.supply w then 0 else s.flow (.inr w))
        (fun w _ => by split_ifs; exacts [le_refl _, hnn w]) (Finset.mem_univ u)
      simp only [hu, if_false] at this
      exact this
  · by_cases hu : 0 ≤ P.supply u
    · have z : (∑ u, if 0 ≤ P.supply u then 0 else s.flow (.inr u)) = 0 :=
        Finset.sum_eq_zero fun w _ => by split_ifs with hw; exacts [rfl, h1 w (not_le.1 hw)]
      rw [z, sub_zero] at hroot
      rw [← hroot]
      refine le_trans ?_ (le_abs_self _)
      have := Finset.single_le_sum (f := fun w : Fin n => if 0 ≤ P.supply w then s.flow (.inr w) else 0)
        (fun w _ => by split_ifs; exacts [hnn w, le_refl _]) (Finset.mem_univ u)
      simp only [hu, if_true] at this
      exact this
    · rw [h1 u (not_le.1 hu)]; exact abs_nonneg _

/-! ### The result of `run` -/

/-- `sol` comes from a state that passed the optimality test -/
structure OptimalFrom (P : Problem n m R) (eps : R) (junk : R) (s : State (Node n) (Arc n m) R) : Prop where
  good : Good P s
  tol : ∃ τ, 0 ≤ τ ∧ (τ = 0 ∨ ∃ e, τ = eps * searchScale P junk s (some e)) ∧ TolOpt P τ s

theorem OptimalFrom.bound {P : Problem n m R} {eps junk : R} {s : State (Node n) (Arc n m) R} (h : OptimalFrom P eps junk s) (heps : 0 ≤ eps)
    {C : R} (hC0 : 0 ≤ C) (hC : ∀ i, |P.cost i| ≤ C) : TolOpt P (eps * max C (|P.art| + n * C)) s := by
  obtain ⟨τ, h0, h1, h2⟩ := h.tol
  have : τ ≤ eps * max C (|P.art| + n * C) := by
    rcases h1 with h1 | ⟨e, h1⟩
    · rw [h1]; exact mul_nonneg heps (le_trans hC0 (le_max_left _ _))
    · rw [h1]; exact mul_le_mul_of_nonneg_left (searchScale_le h.good hC0 hC junk e) heps
  intro e
  have := h2 e
  linarith

theorem foldl_sum (P : Problem n m R) : (List.finRange n).foldl (fun x u => x + P.supply u) 0 = ∑ u, P.supply u := by
  rw [← List.foldl_map, ← List.sum_eq_foldl, ← List.ofFn_eq_map, List.sum_ofFn]

/-- What the statuses mean. -/
def RunPost (P : Problem n m R) (junk eps feps : R) (maxIter : ℕ) (sol : Solution n m R) : Prop :=
  match sol.status with
  | .infeasible => feps < |∑ u, P.supply u| ∨ ∃ s, OptimalFrom P eps junk s ∧ ∃ u, feps < s.flow (.inr u)
  | .optimal => |∑ u, P.supply u| ≤ feps ∧ ∃ s, OptimalFrom P eps junk s ∧ (∀ u, s.flow (.inr u) ≤ feps) ∧
      (∀ i, sol.flow (.inl i) = s.flow (.inl i)) ∧ sol.pi = shiftPotentials s.pi
  | .maxIter => 0 < maxIter ∧ |∑ u, P.supply u| ≤ feps ∧ ∃ s, Good P s ∧ (∀ i, sol.flow (.inl i) = s.flow (.inl i)) ∧ sol.pi = shiftPotentials s.pi
  | .unbounded => ¬ Bipartite P

theorem run_spec (P : Problem n m R) (junk eps feps : R) (heps : 0 ≤ eps) (hfeps : 0 ≤ feps) (bs maxIter turns : ℕ) (arcs : List (Fin m)) :
    (∀ sol, run P junk eps feps bs maxIter turns arcs = some sol → RunPost P junk eps feps maxIter sol) ∧
    (2 ^ (m + n) < turns → (run P junk eps feps bs maxIter turns arcs).isSome) := by
  unfold run
  dsimp only
  rw [foldl_sum]
  split_ifs with hsum
  · exact ⟨fun sol h => by cases h; exact Or.inl hsum, fun _ => rfl⟩
  have hsum' := not_lt.1 hsum
  rcases initialPivots_good P arcs (init_good P) with ⟨h1, h2⟩ | ⟨s1, h1, h2⟩
  · rw [h1]
    exact ⟨fun sol h => by cases h; exact h2, fun _ => rfl⟩
  · rw [h1]
    dsimp only
    have hmain := mainLoop_spec P junk eps heps bs maxIter turns 0 ⟨0, arcs.getLast?⟩ h2
    have hstop := mainLoop_stops P junk eps heps bs maxIter turns
    refine ⟨?_, fun ht => ?_⟩
    · intro sol hsol
      rcases hmain with ⟨h3, _⟩ | ⟨st, s2, h3, h4⟩
      · rw [h3] at hsol; cases hsol
      · rw [h3] at hsol
        cases st with
        | infeasible => exact h4.elim
        | unbounded => cases hsol; exact h4
        | maxIter => cases hsol; exact ⟨h4.2, hsum', s2, h4.1, fun _ => rfl, rfl⟩
        | optimal =>
          dsimp only at hsol
          obtain ⟨hg, τ, hτ0, hτ, hv⟩ := h4
          have hof : OptimalFrom P eps junk s2 := ⟨hg, τ, hτ0, hτ, tolOpt_of_violation hg hτ0 hv⟩
          unfold checkFeasible at hsol
          split_ifs at hsol with hfe
          · cases hsol
            obtain ⟨u, _, hu⟩ := hfe
            rw [abs_of_nonneg (art_nonneg hg _)] at hu
            exact Or.inr ⟨s2, hof, u, hu⟩
          · cases hsol
            refine ⟨hsum', s2, hof, fun u => ?_, fun _ => rfl, rfl⟩
            by_contra hlt
            refine hfe ⟨u, fun h0 => ?_, ?_⟩
            · rw [h0] at hlt; exact hlt hfeps
            · rw [abs_of_nonneg (art_nonneg hg _)]; exact not_le.1 hlt
    · obtain ⟨st, s2, h3, h4⟩ := hstop ht 0 ⟨0, arcs.getLast?⟩ h2
      rw [h3]
      cases st with
      | infeasible => rfl
      | unbounded => rfl
      | maxIter => rfl
      | optimal =>
        dsimp only
        cases checkFeasible feps s2 <;> rfl

end POT.Simplex
