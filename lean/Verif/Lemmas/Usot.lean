import Verif.Model.Usot
import Verif.Spec.Usot
import Verif.Lemmas.FwDual

/-! # Lemmas: unbalanced sliced transport -/

namespace POT.Usot

open Finset POT.Emd1d POT.Uot1d POT.Sliced POT.Spec

set_option linter.unusedSectionVars false

section Avg

variable {I J : Type*} [Fintype I] [Fintype J] {L : ℕ}

theorem average_const (hL : 0 < L) (c : ℝ) : average (fun _ : Fin L => c) = c := by
  have : (L : ℝ) ≠ 0 := by positivity
  simp only [average, sum_const, card_univ, Fintype.card_fin, nsmul_eq_mul]
  field_simp

theorem average_add (c d : Fin L → ℝ) : average (fun k => c k + d k) = average c + average d := by
  simp only [average, sum_add_distrib, add_div]

theorem average_mul_left (t : ℝ) (c : Fin L → ℝ) : average (fun k => t * c k) = t * average c := by
  simp only [average, ← mul_sum, mul_div_assoc]

theorem average_mul_right (t : ℝ) (c : Fin L → ℝ) : average (fun k => c k * t) = average c * t := by
  simp only [average, ← sum_mul]; ring

theorem average_le {c d : Fin L → ℝ} (h : ∀ k, c k ≤ d k) : average c ≤ average d :=
  div_le_div_of_nonneg_right (sum_le_sum fun k _ => h k) (Nat.cast_nonneg L)

theorem average_nonneg {c : Fin L → ℝ} (h : ∀ k, 0 ≤ c k) : 0 ≤ average c :=
  div_nonneg (sum_nonneg fun k _ => h k) (Nat.cast_nonneg L)

theorem abs_average_le (hL : 0 < L) {c : Fin L → ℝ} {C : ℝ} (h : ∀ k, |c k| ≤ C) : |average c| ≤ C := by
  rw [abs_le]
  constructor
  · rw [← average_const hL (-C)]; exact average_le fun k => (abs_le.1 (h k)).1
  · rw [← average_const hL C]; exact average_le fun k => (abs_le.1 (h k)).2

theorem sum_average (u : I → ℝ) (F : Fin L → I → ℝ) : ∑ i, u i * average (fun k => F k i) = average fun k => ∑ i, u i * F k i := by
  simp only [average, mul_div_assoc', ← sum_div, mul_sum]
  rw [sum_comm]

theorem averageFeasible_translate (hL : 0 < L) {M : Fin L → I → J → ℝ} {f : I → ℝ} {g : J → ℝ} (h : AverageFeasible M f g) (t : ℝ) :
    AverageFeasible M (fun i => f i + t) (fun j => g j - t) := by
  obtain ⟨F, G, h1, h2, h3⟩ := h
  refine ⟨fun k i => F k i + t, fun k j => G k j - t, fun k => feasible_translate (h1 k) t, fun i => ?_, fun j => ?_⟩
  · rw [average_add, average_const hL, ← h2]
  · have := average_add (fun k => G k j) fun _ => -t
    simp only [← sub_eq_add_neg] at this
    rw [this, average_const hL, ← h3]; ring

theorem averageFeasible_convex {M : Fin L → I → J → ℝ} {f f' : I → ℝ} {g g' : J → ℝ} (h : AverageFeasible M f g) (h' : AverageFeasible M f' g') {t : ℝ} (h0 : 0 ≤ t) (h1 : t ≤ 1) :
    AverageFeasible M (fun i => f i + t * (f' i - f i)) (fun j => g j + t * (g' j - g j)) := by
  obtain ⟨F, G, a1, a2, a3⟩ := h
  obtain ⟨F', G', b1, b2, b3⟩ := h'
  have key : ∀ (c d : Fin L → ℝ), average (fun k => c k + t * (d k - c k)) = average c + t * (average d - average c) := fun c d => by
    have e : (fun k => c k + t * (d k - c k)) = fun k => (1 - t) * c k + t * d k := funext fun k => by ring
    rw [e, average_add, average_mul_left, average_mul_left]; ring
  refine ⟨fun k i => F k i + t * (F' k i - F k i), fun k j => G k j + t * (G' k j - G k j), fun k => feasible_convex (a1 k) (b1 k) h0 h1, fun i => ?_, fun j => ?_⟩
  · rw [key, ← a2, ← b2]
  · rw [key, ← a3, ← b3]

theorem averageFeasible_zero (hL : 0 < L) {M : Fin L → I → J → ℝ} (hM : ∀ k i j, 0 ≤ M k i j) : AverageFeasible M (fun _ => 0) fun _ => 0 :=
  ⟨fun _ _ => 0, fun _ _ => 0, fun k i j => by simpa using hM k i j, fun _ => (average_const hL 0).symm, fun _ => (average_const hL 0).symm⟩

theorem average_weak {M : Fin L → I → J → ℝ} {f : I → ℝ} {g : J → ℝ} (h : AverageFeasible M f g) {x : I → ℝ} {y : J → ℝ} {P : Fin L → I → J → ℝ} (hP : ∀ k, IsCoupling x y (P k)) :
    ∑ i, x i * f i + ∑ j, y j * g j ≤ average fun k => cost (M k) (P k) := by
  obtain ⟨F, G, h1, h2, h3⟩ := h
  simp only [h2, h3]
  rw [sum_average, sum_average, ← average_add]
  exact average_le fun k => lp_weak (hP k) (h1 k)

theorem usot_weak_duality {a : I → ℝ} {b : J → ℝ} {M : Fin L → I → J → ℝ} {ρ₁ ρ₂ : Option ℝ} (h₁ : PosParam ρ₁) (h₂ : PosParam ρ₂) (ha : ∀ i, 0 < a i) (hb : ∀ j, 0 < b j)
    {f : I → ℝ} {g : J → ℝ} (h : AverageFeasible M f g) {x : I → ℝ} {y : J → ℝ} (hc : Competes a b ρ₁ ρ₂ x y) {P : Fin L → I → J → ℝ} (hP : ∀ k, IsCoupling x y (P k)) :
    uotDual a b ρ₁ ρ₂ f g ≤ usotObjective a b M ρ₁ ρ₂ x y P := by
  have e1 := dualTerm_le h₁ ha f hc.nonneg₁ hc.fixed₁
  have e2 := dualTerm_le h₂ hb g hc.nonneg₂ hc.fixed₂
  have e3 := average_weak h hP
  simp only [mul_comm (x _), mul_comm (y _)] at e3
  unfold uotDual usotObjective
  linarith

end Avg

section Dir

variable {n m L : ℕ} {srt : Sorter n m} {p : ℝ} {xs : Fin L → Fin n → ℝ} {ys : Fin L → Fin m → ℝ} {σ : Sorters n m L} {ρ₁ ρ₂ : Option ℝ} {a : Fin n → ℝ} {b : Fin m → ℝ}

/-- potentials of slice `k` in the original order -/
noncomputable def slicePot (srt : Sorter n m) (p : ℝ) (xs : Fin L → Fin n → ℝ) (ys : Fin L → Fin m → ℝ) (σ : Sorters n m L) (u : Fin n → ℝ) (v : Fin m → ℝ) (k : Fin L) :
    (Fin n → ℝ) × (Fin m → ℝ) :=
  let us := fun i => u (σ.permA k i)
  let vs := fun j => v (σ.permB k j)
  let d := dualBackprop (srt (keys us vs)) (cost1d p (fun i => xs k (σ.permA k i)) (fun j => ys k (σ.permB k j))) us vs
  (fun i => d.1 ((σ.permA k).symm i), fun j => d.2 ((σ.permB k).symm j))

/-- the direction of a step -/
noncomputable def usotDir (srt : Sorter n m) (p : ℝ) (xs : Fin L → Fin n → ℝ) (ys : Fin L → Fin m → ℝ) (σ : Sorters n m L) (u : Fin n → ℝ) (v : Fin m → ℝ) :
    (Fin n → ℝ) × (Fin m → ℝ) :=
  (fun i => average fun k => (slicePot srt p xs ys σ u v k).1 i, fun j => average fun k => (slicePot srt p xs ys σ u v k).2 j)

/-- the loss of slice `k` -/
noncomputable def sliceW (p : ℝ) (xs : Fin L → Fin n → ℝ) (ys : Fin L → Fin m → ℝ) (σ : Sorters n m L) (u : Fin n → ℝ) (v : Fin m → ℝ) (k : Fin L) : ℝ :=
  (wasserstein1d p (fun i => xs k (σ.permA k i)) (fun j => ys k (σ.permB k j)) (fun i => u (σ.permA k i)) (fun j => v (σ.permB k j)) (Equiv.refl _) (Equiv.refl _)).2

theorem getReweighteds_eq (f : Fin n → ℝ) (g : Fin m → ℝ) :
    let r := getReweighteds σ f g a b ρ₁ ρ₂
    let s := getReweighted f g a b ρ₁ ρ₂
    r.f = s.f ∧ r.g = s.g ∧ (r.u = fun k i => s.u (σ.permA k i)) ∧ (r.v = fun k j => s.v (σ.permB k j)) ∧ r.mass = fun _ => s.mass := by
  have e1 : ∀ (k : Fin L) (w : Fin n → ℝ), ∑ i, w (σ.permA k i) = ∑ i, w i := fun k w => Equiv.sum_comp (σ.permA k) w
  have e2 : ∀ (k : Fin L) (w : Fin m → ℝ), ∑ i, w (σ.permB k i) = ∑ i, w i := fun k w => Equiv.sum_comp (σ.permB k) w
  refine ⟨rfl, rfl, ?_, ?_, ?_⟩
  · funext k i; simp only [getReweighteds, getReweighted]; rw [e1]
  · funext k i; simp only [getReweighteds, getReweighted]; rw [e2]
  · funext k; simp only [getReweighteds, getReweighted]; rw [e1]

theorem usotLoop_eq (N : ℕ) : usotLoop srt p xs ys σ ρ₁ ρ₂ a b N = genLoop (usotDir srt p xs ys σ) ρ₁ ρ₂ a b N := by
  induction N with
  | zero => rfl
  | succ N ih =>
    obtain ⟨e1, e2, e3, e4, _⟩ := getReweighteds_eq (σ := σ) (a := a) (b := b) (ρ₁ := ρ₁) (ρ₂ := ρ₂) (genLoop (usotDir srt p xs ys σ) ρ₁ ρ₂ a b N).1 (genLoop (usotDir srt p xs ys σ) ρ₁ ρ₂ a b N).2
    simp only [usotLoop, genLoop, usotStep, ih, e1, e2, e3, e4]
    rfl

theorem slice_opt (hn : 0 < n) (hm : 0 < m) (hp : 1 ≤ p) (k : Fin L) (hx : Monotone fun i => xs k (σ.permA k i)) (hy : Monotone fun j => ys k (σ.permB k j))
    {u : Fin n → ℝ} {v : Fin m → ℝ} (hu : ∀ i, 0 < u i) (hv : ∀ j, 0 < v j) (hs : ∑ i, u i = ∑ j, v j) :
    ∃ G, IsOptimal u v (dist1d p (xs k) (ys k)) G ∧ sliceW p xs ys σ u v k = cost (dist1d p (xs k) (ys k)) G := by
  have hs' : ∑ i, u (σ.permA k i) = ∑ j, v (σ.permB k j) := by rw [Equiv.sum_comp (σ.permA k) u, Equiv.sum_comp (σ.permB k) v]; exact hs
  obtain ⟨w1, w2⟩ := Props.C04_wasserstein1d_optimal hn hm p hp (fun i => xs k (σ.permA k i)) (fun j => ys k (σ.permB k j)) (fun i => u (σ.permA k i)) (fun j => v (σ.permB k j))
    (Equiv.refl _) (Equiv.refl _) hx hy (fun i => (hu _).le) (fun j => (hv _).le) hs'
  have r1 := w1.reindex (σ.permA k).symm (σ.permB k).symm
  simp only [Equiv.apply_symm_apply] at r1
  refine ⟨_, r1, ?_⟩
  unfold sliceW
  rw [w2, ← cost_reindex (σ.permA k).symm (σ.permB k).symm]
  simp only [Equiv.apply_symm_apply]
  rfl

theorem slicePot_spec (hsrt : ∀ q, Monotone (q ∘ srt q)) (hn : 0 < n) (hm : 0 < m) (hp : 1 ≤ p) (k : Fin L) (hx : Monotone fun i => xs k (σ.permA k i))
    (hy : Monotone fun j => ys k (σ.permB k j)) {u : Fin n → ℝ} {v : Fin m → ℝ} (hu : ∀ i, 0 < u i) (hv : ∀ j, 0 < v j) (hs : ∑ i, u i = ∑ j, v j) :
    let d := slicePot srt p xs ys σ u v k
    (NoTies (fun i => u (σ.permA k i)) (fun j => v (σ.permB k j)) → DualFeasible (dist1d p (xs k) (ys k)) d.1 d.2) ∧
      ∑ i, u i * d.1 i + ∑ j, v j * d.2 j = sliceW p xs ys σ u v k ∧ ∑ i, u i * d.1 i = ∑ j, v j * d.2 j := by
  have hs' : ∑ i, u (σ.permA k i) = ∑ j, v (σ.permB k j) := by rw [Equiv.sum_comp (σ.permA k) u, Equiv.sum_comp (σ.permB k) v]; exact hs
  obtain ⟨d1, d2, d3⟩ := dualBackprop_spec (xs := fun i => xs k (σ.permA k i)) (ys := fun j => ys k (σ.permB k j)) (u := fun i => u (σ.permA k i)) (v := fun j => v (σ.permB k j))
    (hsrt _) hn hm hp hx hy (fun i => hu _) (fun j => hv _) hs'
  intro d
  have e1 : ∑ i, u i * d.1 i = ∑ i, u (σ.permA k i) * (dualBackprop (srt (keys (fun i => u (σ.permA k i)) fun j => v (σ.permB k j)))
      (cost1d p (fun i => xs k (σ.permA k i)) (fun j => ys k (σ.permB k j))) (fun i => u (σ.permA k i)) fun j => v (σ.permB k j)).1 i := by
    rw [← Equiv.sum_comp (σ.permA k)]
    simp only [d, slicePot, Equiv.symm_apply_apply]
  have e2 : ∑ i, v i * d.2 i = ∑ i, v (σ.permB k i) * (dualBackprop (srt (keys (fun i => u (σ.permA k i)) fun j => v (σ.permB k j)))
      (cost1d p (fun i => xs k (σ.permA k i)) (fun j => ys k (σ.permB k j))) (fun i => u (σ.permA k i)) fun j => v (σ.permB k j)).2 i := by
    rw [← Equiv.sum_comp (σ.permB k)]
    simp only [d, slicePot, Equiv.symm_apply_apply]
  rw [e1, e2]
  refine ⟨fun hnt i j => ?_, d2, d3⟩
  have := d1 hnt ((σ.permA k).symm i) ((σ.permB k).symm j)
  simpa [dist1d, d, slicePot] using this

/-- hypotheses of a call of `unbalanced_sliced_ot` -/
structure UCall (srt : Sorter n m) (p : ℝ) (xs : Fin L → Fin n → ℝ) (ys : Fin L → Fin m → ℝ) (σ : Sorters n m L) (ρ₁ ρ₂ : Option ℝ) (a : Fin n → ℝ) (b : Fin m → ℝ) : Prop where
  sorts : ∀ q, Monotone (q ∘ srt q)
  hL : 0 < L
  hn : 0 < n
  hm : 0 < m
  hp : 1 ≤ p
  hx : ∀ k, Monotone fun i => xs k (σ.permA k i)
  hy : ∀ k, Monotone fun j => ys k (σ.permB k j)
  h₁ : PosParam ρ₁
  h₂ : PosParam ρ₂
  ha : ∀ i, 0 < a i
  hb : ∀ j, 0 < b j
  hmass : ρ₁ = none → ρ₂ = none → ∑ i, a i = ∑ j, b j

/-- a bound for all the distances -/
theorem dists_bound (p : ℝ) (xs : Fin L → Fin n → ℝ) (ys : Fin L → Fin m → ℝ) :
    ∃ C, 0 ≤ C ∧ ∀ k i j, 0 ≤ dist1d p (xs k) (ys k) i j ∧ dist1d p (xs k) (ys k) i j ≤ C := by
  choose C h0 hC using fun k => dist_bound p (xs k) (ys k)
  refine ⟨∑ k, C k, sum_nonneg fun k _ => h0 k, fun k i j => ⟨(hC k i j).1, (hC k i j).2.trans (single_le_sum (fun k _ => h0 k) (mem_univ k))⟩⟩

theorem UCall.gen (h : UCall srt p xs ys σ ρ₁ ρ₂ a b) {C : ℝ} (hC0 : 0 ≤ C) : GenCall (AverageFeasible fun k => dist1d p (xs k) (ys k)) C ρ₁ ρ₂ a b where
  zero := averageFeasible_zero h.hL fun k i j => Real.rpow_nonneg (abs_nonneg _) _
  convex _ _ _ _ _ h1 h2 h3 h4 := averageFeasible_convex h1 h2 h3 h4
  translate _ _ _ h1 := averageFeasible_translate h.hL h1 _
  hC0 := hC0
  h₁ := h.h₁
  h₂ := h.h₂
  ha := h.ha
  hb := h.hb
  hsa := sum_pos (fun k _ => h.ha k) ⟨⟨0, h.hn⟩, mem_univ _⟩
  hsb := sum_pos (fun k _ => h.hb k) ⟨⟨0, h.hm⟩, mem_univ _⟩
  hmass := h.hmass

theorem UCall.oracle (h : UCall srt p xs ys σ ρ₁ ρ₂ a b) {C : ℝ} (hC : ∀ k i j, 0 ≤ dist1d p (xs k) (ys k) i j ∧ dist1d p (xs k) (ys k) i j ≤ C)
    {u : Fin n → ℝ} {v : Fin m → ℝ} (hu : ∀ i, 0 < u i) (hv : ∀ j, 0 < v j) (hs : ∑ i, u i = ∑ j, v j)
    (hnt : ∀ k, NoTies (fun i => u (σ.permA k i)) (fun j => v (σ.permB k j))) :
    IsOracle (AverageFeasible fun k => dist1d p (xs k) (ys k)) C u v (usotDir srt p xs ys σ u v) (average fun k => sliceW p xs ys σ u v k) := by
  have sp := fun k => slicePot_spec h.sorts h.hn h.hm h.hp k (h.hx k) (h.hy k) hu hv hs
  choose G hG1 hG2 using fun k => slice_opt (p := p) (σ := σ) h.hn h.hm h.hp k (h.hx k) (h.hy k) hu hv hs
  constructor
  · exact ⟨_, _, fun k => (sp k).1 (hnt k), fun i => rfl, fun j => rfl⟩
  · simp only [usotDir]
    rw [sum_average, sum_average, ← average_add]
    exact congrArg _ (funext fun k => (sp k).2.1)
  · intro f g hfg
    rw [show (fun k => sliceW p xs ys σ u v k) = fun k => cost (dist1d p (xs k) (ys k)) (G k) from funext hG2]
    exact average_weak hfg fun k => (hG1 k).1
  · simp only [usotDir]
    rw [sum_average, sum_average]
    exact congrArg _ (funext fun k => (sp k).2.2)
  · intro i j
    simp only [usotDir]
    rw [← average_add]
    refine abs_average_le h.hL fun k => ?_
    exact bdd_of_tight (hG1 k).1 hu hv (fun i j => (hC k i j).1) (fun i j => (hC k i j).2) ((sp k).1 (hnt k)) ((sp k).2.1.trans (hG2 k)) i j

/-- the reweighted marginals before step `N` -/
noncomputable def rwsAt (srt : Sorter n m) (p : ℝ) (xs : Fin L → Fin n → ℝ) (ys : Fin L → Fin m → ℝ) (σ : Sorters n m L) (ρ₁ ρ₂ : Option ℝ) (a : Fin n → ℝ) (b : Fin m → ℝ) (N : ℕ) :
    Rw (Fin n) (Fin m) := genRw (usotDir srt p xs ys σ) ρ₁ ρ₂ a b N

theorem UCall.oracleAt (h : UCall srt p xs ys σ ρ₁ ρ₂ a b) {C : ℝ} (hC0 : 0 ≤ C) (hC : ∀ k i j, 0 ≤ dist1d p (xs k) (ys k) i j ∧ dist1d p (xs k) (ys k) i j ≤ C) {N : ℕ}
    (hnt : ∀ k, NoTies (fun i => (rwsAt srt p xs ys σ ρ₁ ρ₂ a b N).u (σ.permA k i)) (fun j => (rwsAt srt p xs ys σ ρ₁ ρ₂ a b N).v (σ.permB k j))) :
    OracleAt (AverageFeasible fun k => dist1d p (xs k) (ys k)) C (usotDir srt p xs ys σ) (fun u v => average fun k => sliceW p xs ys σ u v k) ρ₁ ρ₂ a b N := by
  obtain ⟨r1, r2, r3, r4, _⟩ := (h.gen hC0).rw (orc := usotDir srt p xs ys σ) N
  exact h.oracle hC r1 r2 (r3.trans r4.symm) hnt

end Dir

end POT.Usot
