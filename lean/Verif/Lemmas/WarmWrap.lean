import Verif.Lemmas.WarmRun

/-! # `EMD_wrap` with a warm start -/

set_option linter.unusedSectionVars false

namespace POT.Simplex

open Spec POT.Tree Relation Finset

section runs
variable {R : Type*} [CommRing R] [LinearOrder R] [IsStrictOrderedRing R] {n m : ℕ} [NeZero n]

/-- the state passed the optimality test -/
def WarmTol (P : Problem n m R) (eps junk : R) (s : State (Node n) (Arc n m) R) : Prop :=
  ∃ τ, 0 ≤ τ ∧ (τ = 0 ∨ ∃ e, τ = eps * searchScale P junk s (some e)) ∧ TolOpt P τ s

/-- What the statuses mean. -/
def WarmRunPost (P : Problem n m R) (d : Fin n → Bool) (s : State (Node n) (Arc n m) R) (junk eps : R) (maxIter : ℕ) (sol : Solution n m R) : Prop :=
  match sol.status with
  | .infeasible => WarmTol P eps junk s ∧ ∃ u, s.flow (.inr u) ≠ 0
  | .optimal => WarmTol P eps junk s ∧ (∀ i, sol.flow (.inl i) = s.flow (.inl i)) ∧ sol.pi = shiftPotentials s.pi
  | .maxIter => 0 < maxIter
  | .unbounded => False

theorem warmRun_spec {P : Problem n m R} (hb : Bipartite P) (hord : ∀ e, P.tgt e < P.src e) (hcost : ∀ e, 0 ≤ P.cost e) (hart : 0 ≤ P.art) (hsum : ∑ u, P.supply u = 0)
    (junk eps feps : R) (heps : 0 ≤ eps) (hfeps : 0 ≤ feps) (bs maxIter turns : ℕ) (cand : List (Fin m)) :
    (∀ sol, warmRun P junk eps feps bs maxIter turns cand = some sol → ∃ d s, (∀ e, d (P.src e) = false) ∧ WarmGood P d s ∧ WarmRunPost P d s junk eps maxIter sol) ∧
    (0 < maxIter → maxIter ≤ turns → (warmRun P junk eps feps bs maxIter turns cand).isSome) := by
  obtain ⟨d, L, hd, hL, hI⟩ := warm_inv P cand
  have hd' : ∀ e, d (P.src e) = false := fun e => hd hb _ (hb e).1 (warm_notTop hb hord cand e)
  obtain ⟨h1, h2⟩ := warm_mainLoop_spec hcost hart junk eps heps bs maxIter turns 0 ⟨0, (List.finRange m).head?⟩ (d := d) ⟨L, hL, hI⟩
  unfold warmRun
  rw [foldl_sum, hsum, abs_zero, if_neg (not_lt.2 hfeps)]
  cases hm : mainLoop P junk eps bs maxIter (2 * (n + 1) + 2) turns 0 ⟨0, (List.finRange m).head?⟩ (warmState P cand) with
  | none =>
    refine ⟨fun sol h => (by cases h), fun h3 h4 => ?_⟩
    have := h2 h3 (by omega)
    rw [hm] at this; cases this
  | some x =>
    obtain ⟨st, s2⟩ := x
    have h3 := h1 st s2 hm
    refine ⟨fun sol hsol => ?_, fun _ _ => ?_⟩
    · cases st with
      | infeasible => exact h3.elim
      | unbounded => exact h3.elim
      | maxIter =>
        cases hsol
        exact ⟨d, s2, hd', h3.2, h3.1⟩
      | optimal =>
        obtain ⟨hg, τ, hτ0, hτ, hv⟩ := h3
        have htol : WarmTol P eps junk s2 := ⟨τ, hτ0, hτ, warm_tolOpt hg hτ0 hv⟩
        dsimp only at hsol
        unfold checkFeasible at hsol
        split_ifs at hsol with hfe
        · cases hsol
          obtain ⟨u, hu, _⟩ := hfe
          exact ⟨d, s2, hd', hg, htol, u, hu⟩
        · cases hsol
          exact ⟨d, s2, hd', hg, htol, fun _ => rfl, rfl⟩
    · cases st with
      | infeasible => rfl
      | unbounded => rfl
      | maxIter => rfl
      | optimal =>
        dsimp only
        cases checkFeasible feps s2 <;> rfl

/-- without flow on artificial arcs the state is as good as one of the cold start -/
theorem warm_soft {P : Problem n m R} {d : Fin n → Bool} {s : State (Node n) (Arc n m) R} (h : WarmGood P d s) (hz : ∀ u, s.flow (.inr u) = 0) : SoftGood P s := by
  refine ⟨fun a => h.choose_spec.2.nonneg a, fun u => ?_, fun i hi => ?_⟩
  · rw [warm_net h u, hz u]; simp
  · exact warm_redCost_of_flow h hi

theorem warmArtCost_spec {m : ℕ} (N : ℕ) (cost : Fin m → R) : ∃ M, warmArtCost N cost = (M + 1) * N ∧ 0 ≤ M ∧ (∀ i, cost i ≤ M) ∧ (M = 0 ∨ ∃ i, M = cost i) := by
  refine ⟨_, rfl, ?_⟩
  have key : ∀ (l : List (Fin m)) (x : R), 0 ≤ x → (x = 0 ∨ ∃ i, x = cost i) →
      let r := l.foldl (fun mx i => if mx < cost i then cost i else mx) x
      x ≤ r ∧ (∀ i ∈ l, cost i ≤ r) ∧ (r = 0 ∨ ∃ i, r = cost i) := by
    intro l
    induction l with
    | nil => intro x hx h; exact ⟨le_refl _, by simp, h⟩
    | cons a l ih =>
      intro x hx h
      dsimp only
      rw [List.foldl_cons]
      by_cases hlt : x < cost a
      · rw [if_pos hlt]
        obtain ⟨h1, h2, h3⟩ := ih (cost a) (hx.trans hlt.le) (Or.inr ⟨a, rfl⟩)
        refine ⟨hlt.le.trans h1, fun i hi => ?_, h3⟩
        rcases List.mem_cons.1 hi with rfl | hi
        · exact h1
        · exact h2 i hi
      · rw [if_neg hlt]
        obtain ⟨h1, h2, h3⟩ := ih x hx h
        refine ⟨h1, fun i hi => ?_, h3⟩
        rcases List.mem_cons.1 hi with rfl | hi
        · exact (not_lt.1 hlt).trans h1
        · exact h2 i hi
  obtain ⟨h1, h2, h3⟩ := key (List.finRange m) 0 (le_refl _) (Or.inl rfl)
  exact ⟨h1, fun i => h2 i (List.mem_finRange i), h3⟩

/-- the tolerance is small against the cost of artificial arcs -/
theorem warm_dear {P : Problem n m R} {d : Fin n → Bool} {s : State (Node n) (Arc n m) R} (h : WarmGood P d s) {M eps junk : R} (heps : 0 ≤ eps) (h8 : 8 * eps ≤ 1)
    (hn : 2 ≤ n) (hM0 : 0 ≤ M) (hM : ∀ i, P.cost i ≤ M) (hcost : ∀ i, 0 ≤ P.cost i) (hart : P.art = (M + 1) * n) (ht : WarmTol P eps junk s) :
    ∃ τ, 0 ≤ τ ∧ τ ≤ eps * (2 * P.art) ∧ TolOpt P τ s ∧ ∀ e, P.cost e + τ < P.art := by
  have hnR : (2 : R) ≤ n := by exact_mod_cast hn
  have hart0 : 0 ≤ P.art := by rw [hart]; positivity
  have habs : ∀ i, |P.cost i| ≤ M := fun i => by rw [abs_of_nonneg (hcost i)]; exact hM i
  obtain ⟨τ, h0, h1, h2⟩ := ht
  have hscale : max M (|P.art| + n * M) ≤ 2 * P.art := by
    rw [abs_of_nonneg hart0, hart]
    refine max_le ?_ ?_ <;> nlinarith
  have hτ : τ ≤ eps * (2 * P.art) := by
    rcases h1 with h1 | ⟨e, h1⟩
    · rw [h1]; positivity
    · rw [h1]
      exact mul_le_mul_of_nonneg_left ((warm_searchScale_le h hM0 habs junk e).trans hscale) heps
  refine ⟨τ, h0, hτ, h2, fun e => ?_⟩
  have h3 : eps * (2 * P.art) * 8 ≤ 2 * P.art := by nlinarith
  have h4 : 2 * M + 2 ≤ P.art := by rw [hart]; nlinarith
  have := hM e
  linarith

end runs

section wrap
variable {R : Type*} [Field R] [LinearOrder R] [IsStrictOrderedRing R] {n1 n2 : ℕ}

theorem nodeAt_lt (n m : ℕ) (i : Fin n) (j : Fin m) : nodeAt n m (.inr j) < nodeAt n m (.inl i) := by
  rw [Fin.lt_def]
  simp [nodeAt, Fin.revPerm, Fin.rev]
  omega

/-- what the arrays extracted from a solution are -/
theorem wrap_extract (a : Fin n1 → R) (b : Fin n2 → R) (D : Fin n1 → Fin n2 → R) [NeZero ((posIdx a).length + (posIdx b).length)] (full : Bool) (art : R)
    (sol : Solution ((posIdx a).length + (posIdx b).length) ((posIdx a).length * (posIdx b).length) R) (s : State _ _ R)
    (hg : SoftGood (bipNet (!full) (supp a) (supp b) (suppCost a b D) art) s) (hfl : ∀ i, sol.flow (.inl i) = s.flow (.inl i)) (hpi : sol.pi = shiftPotentials s.pi) :
    WrapFromA art a b D (!full) s ⟨sol.status, (extractPlan full (!full) D (posIdx a) (posIdx b) fun k => sol.flow (.inl k)).2,
      scatter (posIdx a) fun i => -sol.pi (some (nodeId (Fin.castAdd _ i))),
      scatter (posIdx b) fun j => sol.pi (some (nodeId (Fin.natAdd _ j))),
      (extractPlan full (!full) D (posIdx a) (posIdx b) fun k => sol.flow (.inl k)).1⟩ := by
  obtain ⟨e1, e2, e3⟩ := extractPlan_spec full (!full) D (posIdx a) (posIdx b) (posIdx_nodup a) (posIdx_nodup b) fun k => sol.flow (.inl k)
  refine ⟨hg, fun i j => ?_, fun x y hxy => ?_, ?_, fun i => ?_, fun j => ?_, fun x hx => ?_, fun y hy => ?_⟩
  · refine (e1 i j).trans ?_
    rw [hfl]; rfl
  · exact e2 x y (by rw [mem_posIdx, mem_posIdx]; exact hxy)
  · refine e3.trans ?_
    simp only [hfl]
    rfl
  · refine (scatter_get _ (posIdx_nodup a) _ i).trans ?_
    rw [hpi]; rfl
  · refine (scatter_get _ (posIdx_nodup b) _ j).trans ?_
    rw [hpi]; rfl
  · exact scatter_notMem _ _ _ (by rw [mem_posIdx]; exact hx)
  · exact scatter_notMem _ _ _ (by rw [mem_posIdx]; exact hy)

theorem warm_wrap_spec (a : Fin n1 → R) (b : Fin n2 → R) (D : Fin n1 → Fin n2 → R) {junk eps feps C : R} (heps : 0 ≤ eps) (h8 : 8 * eps ≤ 1) (hfeps : 0 ≤ feps)
    (ha : ∀ i, 0 ≤ a i) (hb : ∀ j, 0 ≤ b j) (hsum : ∑ i, a i = ∑ j, b j) (hpos : 0 < ∑ i, a i) (hD : ∀ i j, 0 ≤ D i j ∧ D i j ≤ C)
    (bs maxIter turns : ℕ) (cand : ∀ N, List (Fin N)) :
    (∀ res, emdWrapWarm a b D junk eps feps bs maxIter turns cand = some res → (res.status = .maxIter ∧ 0 < maxIter) ∨ res.status = .optimal ∧
      ∃ (_ : NeZero ((posIdx a).length + (posIdx b).length)) (mixing : Bool) (art τ : R) (s : _), WrapFromA art a b D mixing s res ∧ (∀ u, s.flow (.inr u) = 0) ∧
        0 ≤ τ ∧ τ ≤ eps * (2 * (C + 1) * (n1 + n2)) ∧ TolOpt (bipNet mixing (supp a) (supp b) (suppCost a b D) art) τ s) ∧
    (0 < maxIter → maxIter ≤ turns → (emdWrapWarm a b D junk eps feps bs maxIter turns cand).isSome) := by
  have hla : 0 < (posIdx a).length := by
    by_contra hcon
    have h1 := supp_sum a ha
    have : IsEmpty (Fin (posIdx a).length) := by rw [Nat.eq_zero_of_not_pos hcon]; infer_instance
    rw [Fintype.sum_empty] at h1
    linarith
  have hlb : 0 < (posIdx b).length := by
    by_contra hcon
    have h1 := supp_sum b hb
    have : IsEmpty (Fin (posIdx b).length) := by rw [Nat.eq_zero_of_not_pos hcon]; infer_instance
    rw [Fintype.sum_empty] at h1
    linarith
  unfold emdWrapWarm
  have hneg : ¬ ((∃ i, a i < 0) ∨ ∃ j, b j < 0) := by
    push Not
    exact ⟨ha, hb⟩
  rw [if_neg hneg]
  dsimp only
  have h0 : (posIdx a).length + (posIdx b).length ≠ 0 := by omega
  rw [dif_neg h0]
  have hne : NeZero ((posIdx a).length + (posIdx b).length) := ⟨h0⟩
  generalize hfull : (decide ((posIdx a).length = n1 ∧ (posIdx b).length = n2)) = full
  set art := warmArtCost ((posIdx a).length + (posIdx b).length) (costArray (!full) fun k => suppCost a b D k.divNat k.modNat) with hartdef
  set P := bipNet (!full) (supp a) (supp b) (suppCost a b D) art with hP
  have hPeq : (bipNet (!full) (fun i => a ((posIdx a).get i)) (fun j => b ((posIdx b).get j)) (fun i j => D ((posIdx a).get i) ((posIdx b).get j))
      (warmArtCost ((posIdx a).length + (posIdx b).length) (costArray (!full) fun k => D ((posIdx a).get k.divNat) ((posIdx b).get k.modNat)))) = P := rfl
  rw [hPeq]
  have hbip : Bipartite P := bip_bipartite _ _ _ _ (supp_pos a) (supp_pos b)
  have hord : ∀ e, P.tgt e < P.src e := by
    intro e
    obtain ⟨x, rfl⟩ := (arcAt (!full) _ _).surjective e
    rw [hP, bip_src, bip_tgt]
    exact nodeAt_lt _ _ _ _
  have hcost : ∀ e, 0 ≤ P.cost e := by
    intro e
    obtain ⟨x, rfl⟩ := (arcAt (!full) _ _).surjective e
    rw [hP, bip_cost]; exact (hD _ _).1
  have hPsum : ∑ u, P.supply u = 0 := by rw [hP, bip_supply_sum, supp_sum a ha, supp_sum b hb, hsum, sub_self]
  obtain ⟨M, hM1, hM0, hMle, hMex⟩ := warmArtCost_spec ((posIdx a).length + (posIdx b).length) (costArray (!full) fun k => suppCost a b D k.divNat k.modNat)
  have hart : P.art = (M + 1) * ((posIdx a).length + (posIdx b).length : ℕ) := hM1
  have hN2 : 2 ≤ (posIdx a).length + (posIdx b).length := by omega
  have hart0 : 0 ≤ P.art := by rw [hart]; positivity
  have hC0 : 0 ≤ C := by
    have i : Fin (posIdx a).length := ⟨0, hla⟩
    have j : Fin (posIdx b).length := ⟨0, hlb⟩
    exact (hD ((posIdx a).get i) ((posIdx b).get j)).1.trans (hD _ _).2
  have hMC : M ≤ C := by
    rcases hMex with h | ⟨e, h⟩
    · rw [h]; exact hC0
    · rw [h]
      have : P.cost e ≤ C := by
        obtain ⟨x, rfl⟩ := (arcAt (!full) _ _).surjective e
        rw [hP, bip_cost]; exact (hD _ _).2
      exact this
  have hartC : 2 * P.art ≤ 2 * (C + 1) * (n1 + n2) := by
    rw [hart]
    have h1 : (((posIdx a).length + (posIdx b).length : ℕ) : R) ≤ n1 + n2 := by
      have := posIdx_length_le a
      have := posIdx_length_le b
      have : (posIdx a).length + (posIdx b).length ≤ n1 + n2 := by omega
      exact_mod_cast this
    have : (M + 1) * (((posIdx a).length + (posIdx b).length : ℕ) : R) ≤ (C + 1) * (n1 + n2) := mul_le_mul (by linarith) h1 (by positivity) (by linarith)
    linarith
  obtain ⟨hspec, hsome⟩ := warmRun_spec hbip hord hcost hart0 hPsum junk eps feps heps hfeps bs maxIter turns (cand _)
  have hzero : ∀ d s, (∀ e, d (P.src e) = false) → WarmGood P d s → WarmTol P eps junk s →
      (∀ u, s.flow (.inr u) = 0) ∧ ∃ τ, 0 ≤ τ ∧ τ ≤ eps * (2 * (C + 1) * (n1 + n2)) ∧ TolOpt P τ s := by
    intro d s hd hg ht
    obtain ⟨τ, t0, t1, t2, t3⟩ := warm_dear hg heps h8 hN2 hM0 hMle hcost hart ht
    exact ⟨warm_art_zero hg t2 hbip (bip_complete _ _ _ _ (supp_pos a) (supp_pos b)) t3 t0 hcost hPsum hd, τ, t0, t1.trans (mul_le_mul_of_nonneg_left hartC heps), t2⟩
  constructor
  · intro res hres
    cases hrun : warmRun P junk eps feps bs maxIter turns (cand _) with
    | none => rw [hrun] at hres; cases hres
    | some sol =>
      rw [hrun] at hres
      dsimp only at hres
      obtain ⟨d, s, hd, hg, hpost⟩ := hspec sol hrun
      unfold WarmRunPost at hpost
      cases hst : sol.status with
      | infeasible =>
        rw [hst] at hpost
        obtain ⟨h1, u, hu⟩ := hpost
        exact absurd ((hzero d s hd hg h1).1 u) hu
      | unbounded =>
        rw [hst] at hpost
        exact hpost.elim
      | maxIter =>
        rw [hst] at hpost hres
        rw [if_pos (Or.inr rfl)] at hres
        cases hres
        exact Or.inl ⟨rfl, hpost⟩
      | optimal =>
        rw [hst] at hpost hres
        rw [if_pos (Or.inl rfl)] at hres
        cases hres
        obtain ⟨h1, h2, h3⟩ := hpost
        obtain ⟨hz, τ, t0, t1, t2⟩ := hzero d s hd hg h1
        have := wrap_extract a b D full art sol s (warm_soft hg hz) h2 h3
        rw [hst] at this
        exact Or.inr ⟨rfl, hne, !full, art, τ, s, this, hz, t0, t1, t2⟩
  · intro h1 h2
    obtain ⟨sol, hsol⟩ := Option.isSome_iff_exists.1 (hsome h1 h2)
    rw [hsol]
    dsimp only
    split_ifs <;> rfl

end wrap

end POT.Simplex
