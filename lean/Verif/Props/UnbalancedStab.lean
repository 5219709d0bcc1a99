import Verif.Model.UnbalancedStab
import Verif.Props.Unbalanced

/-!
# C50: the stabilized unbalanced solver

The guard `1e-16` is idealised to `0`.
-/

set_option linter.unusedSectionVars false

namespace POT.Props

open Finset Spec Sinkhorn Unbalanced Filter Topology

variable {I J : Type*} [Fintype I] [Fintype J] [Nonempty I] [Nonempty J]

/-- The total scalings `exp(alpha/reg) u`, `exp(beta/reg) v` of the stabilized solver. -/
noncomputable def totals (reg : ℝ) (u : I → ℝ) (v : J → ℝ) (α : I → ℝ) (β : J → ℝ) : UV I J :=
  { u := fun i => Real.exp (α i / reg) * u i, v := fun j => Real.exp (β j / reg) * v j }

theorem fAlpha_total {reg A S x : ℝ} {ρ : Option ℝ} (hreg : 0 < reg) (hρ : ∀ r, ρ = some r → 0 ≤ r) (hA : 0 < A) (hS : 0 < S) :
    Real.exp (x / reg) * ((A / (Real.exp (x / reg) * S + 0)) ^ fi reg ρ * fAlpha reg ρ x) = (A / S) ^ fi reg ρ := by
  have hE := Real.exp_pos (x / reg)
  rw [add_zero, ← div_div, div_right_comm, Real.div_rpow (div_pos hA hS).le hE.le, ← Real.exp_mul]
  unfold fAlpha fi
  cases ρ with
  | none =>
    simp only [mul_one, Real.rpow_one]
    field_simp
  | some r =>
    have hr := hρ r rfl
    have h1 : r + reg ≠ 0 := by positivity
    have h2 : reg + r ≠ 0 := by positivity
    dsimp only
    rw [div_eq_mul_inv _ (Real.exp (x / reg * (r / (r + reg)))), ← Real.exp_neg]
    have : Real.exp (x / reg) * (Real.exp (-(x / reg * (r / (r + reg)))) * Real.exp (-x / (reg + r))) = 1 := by
      rw [← Real.exp_add, ← Real.exp_add]
      rw [Real.exp_eq_one_iff]
      field_simp
      ring
    linear_combination (A / S) ^ (r / (r + reg)) * this

theorem m0_kernel (M : I → J → ℝ) {reg : ℝ} (hreg : 0 < reg) {c : I → J → ℝ} (hc : ∀ i j, 0 < c i j) (i : I) (j : J) :
    Real.exp (-m0 M reg c i j / reg) = unbKernel M reg c i j := by
  unfold m0 unbKernel
  rw [show -(M i j - reg * Real.log (c i j)) / reg = -M i j / reg + Real.log (c i j) by field_simp; ring, Real.exp_add, Real.exp_log (hc i j)]

theorem stabK_eq (M : I → J → ℝ) {reg : ℝ} (hreg : 0 < reg) {c : I → J → ℝ} (hc : ∀ i j, 0 < c i j) (s : StU I J) (i : I) (j : J) :
    stabK (m0 M reg c) reg s i j = Real.exp (s.α i / reg) * unbKernel M reg c i j * Real.exp (s.β j / reg) := by
  rw [← m0_kernel M hreg hc, ← Real.exp_add, ← Real.exp_add]
  unfold stabK
  congr 1
  ring

/-- **C50, the update.** Whatever potentials have been absorbed, the scalings computed by one iteration of `sinkhorn_stabilized_unbalanced` are, as total scalings, exactly those that one iteration
of `sinkhorn_knopp_unbalanced` computes from the total scalings. -/
theorem C50_update (a : I → ℝ) (b : J → ℝ) (M : I → J → ℝ) (reg : ℝ) (c : I → J → ℝ) (ρ₁ ρ₂ : Option ℝ) (hreg : 0 < reg)
    (h1 : ∀ r, ρ₁ = some r → 0 ≤ r) (h2 : ∀ r, ρ₂ = some r → 0 ≤ r) (ha : ∀ i, 0 < a i) (hb : ∀ j, 0 < b j) (hc : ∀ i j, 0 < c i j) (s : StU I J) (hv : ∀ j, 0 < s.v j) :
    totals reg (stabUpd 0 a b (m0 M reg c) reg ρ₁ ρ₂ s).u (stabUpd 0 a b (m0 M reg c) reg ρ₁ ρ₂ s).v s.α s.β
      = unbStep a b (unbKernel M reg c) (fi reg ρ₁) (fi reg ρ₂) (totals reg s.u s.v s.α s.β) := by
  have hK := unbKernel_pos M reg hc
  have hV : ∀ j, 0 < (totals reg s.u s.v s.α s.β).v j := fun j => mul_pos (Real.exp_pos _) (hv j)
  have e1 : ∀ i, kv (stabK (m0 M reg c) reg s) s.v i = Real.exp (s.α i / reg) * kv (unbKernel M reg c) (totals reg s.u s.v s.α s.β).v i := fun i => by
    unfold kv totals
    rw [mul_sum]
    exact sum_congr rfl fun j _ => by rw [stabK_eq M hreg hc]; ring
  have eu : ∀ i, Real.exp (s.α i / reg) * (stabUpd 0 a b (m0 M reg c) reg ρ₁ ρ₂ s).u i
      = (unbStep a b (unbKernel M reg c) (fi reg ρ₁) (fi reg ρ₂) (totals reg s.u s.v s.α s.β)).u i := fun i => by
    unfold stabUpd unbStep
    dsimp only
    rw [e1]
    exact fAlpha_total hreg h1 (ha i) (kv_pos hK hV i)
  have hU := (unbStep_pos ha hb hK (fi reg ρ₁) (fi reg ρ₂) hV).1
  have e2 : ∀ j, Unbalanced.ktu (stabK (m0 M reg c) reg s) (stabUpd 0 a b (m0 M reg c) reg ρ₁ ρ₂ s).u j
      = Real.exp (s.β j / reg) * Unbalanced.ktu (unbKernel M reg c) (unbStep a b (unbKernel M reg c) (fi reg ρ₁) (fi reg ρ₂) (totals reg s.u s.v s.α s.β)).u j := fun j => by
    unfold Unbalanced.ktu
    rw [mul_sum]
    exact sum_congr rfl fun i _ => by rw [stabK_eq M hreg hc, ← eu]; ring
  refine UV.ext (funext eu) (funext fun j => ?_)
  have := fAlpha_total (x := s.β j) hreg h2 (hb j) (ktu_pos hK hU j)
  rw [← e2] at this
  exact this

theorem stabUpd_pos {a : I → ℝ} {b : J → ℝ} {M0 : I → J → ℝ} {reg : ℝ} {ρ₁ ρ₂ : Option ℝ} (ha : ∀ i, 0 < a i) (hb : ∀ j, 0 < b j) {s : StU I J} (hv : ∀ j, 0 < s.v j) :
    (∀ i, 0 < (stabUpd 0 a b M0 reg ρ₁ ρ₂ s).u i) ∧ ∀ j, 0 < (stabUpd 0 a b M0 reg ρ₁ ρ₂ s).v j := by
  have hf : ∀ (ρ : Option ℝ) x, 0 < fAlpha reg ρ x := fun ρ x => by
    unfold fAlpha
    split
    · exact Real.exp_pos _
    · exact one_pos
  have hK : ∀ i j, 0 < stabK M0 reg s i j := fun i j => Real.exp_pos _
  have hu : ∀ i, 0 < (stabUpd 0 a b M0 reg ρ₁ ρ₂ s).u i := fun i =>
    mul_pos (Real.rpow_pos_of_pos (div_pos (ha i) (by rw [add_zero]; exact kv_pos hK hv i)) _) (hf _ _)
  exact ⟨hu, fun j => mul_pos (Real.rpow_pos_of_pos (div_pos (hb j) (by rw [add_zero]; exact ktu_pos hK hu j)) _) (hf _ _)⟩

/-- The returned plan in terms of the total scalings. -/
theorem stabPlan_totals {M : I → J → ℝ} {reg : ℝ} (hreg : 0 < reg) {c : I → J → ℝ} (hc : ∀ i j, 0 < c i j) {s : StU I J} (hu : ∀ i, 0 < s.u i) (hv : ∀ j, 0 < s.v j) :
    stabPlan (m0 M reg c) reg s = plan (unbKernel M reg c) (totals reg s.u s.v s.α s.β) := by
  funext i j
  unfold stabPlan plan totals
  rw [← m0_kernel M hreg hc, sub_eq_add_neg, Real.exp_add, Real.exp_add, Real.exp_add, Real.exp_add, Real.exp_log (hu i), Real.exp_log (hv j), ← neg_div]
  ring

/-- **C50, absorption.** An iteration that does not absorb leaves, as its plan, the plan of one `sinkhorn_knopp_unbalanced` iteration from the same total scalings.  An iteration that absorbs
**changes** that plan: the entry `(i, j)` is multiplied by `max(u) max(v) / v_j`, because `v` is replaced by ones, `u` is kept although its maximum has been absorbed. -/
theorem C50_absorption (tau : ℝ) (a : I → ℝ) (b : J → ℝ) (M : I → J → ℝ) (reg : ℝ) (c : I → J → ℝ) (ρ₁ ρ₂ : Option ℝ) (hreg : 0 < reg)
    (h1 : ∀ r, ρ₁ = some r → 0 ≤ r) (h2 : ∀ r, ρ₂ = some r → 0 ≤ r) (ha : ∀ i, 0 < a i) (hb : ∀ j, 0 < b j) (hc : ∀ i j, 0 < c i j) (s : StU I J) (hv : ∀ j, 0 < s.v j) (i : I) (j : J) :
    let w := stabUpd 0 a b (m0 M reg c) reg ρ₁ ρ₂ s
    let P := plan (unbKernel M reg c) (unbStep a b (unbKernel M reg c) (fi reg ρ₁) (fi reg ρ₂) (totals reg s.u s.v s.α s.β))
    (¬ absorbs tau w → stabPlan (m0 M reg c) reg (stabStepU 0 tau a b (m0 M reg c) reg ρ₁ ρ₂ s) i j = P i j) ∧
    (absorbs tau w → stabPlan (m0 M reg c) reg (stabStepU 0 tau a b (m0 M reg c) reg ρ₁ ρ₂ s) i j = vmax w.u * (vmax w.v / w.v j) * P i j) := by
  intro w P
  obtain ⟨pu, pv⟩ := stabUpd_pos (M0 := m0 M reg c) (reg := reg) (ρ₁ := ρ₁) (ρ₂ := ρ₂) ha hb hv
  have hP : P = plan (unbKernel M reg c) (totals reg w.u w.v s.α s.β) := by
    rw [C50_update a b M reg c ρ₁ ρ₂ hreg h1 h2 ha hb hc s hv]
  constructor
  · intro h
    have e : stabStepU 0 tau a b (m0 M reg c) reg ρ₁ ρ₂ s = { u := w.u, v := w.v, α := s.α, β := s.β } := if_neg h
    rw [e, stabPlan_totals hreg hc pu pv, hP]
  · intro h
    have e : stabStepU 0 tau a b (m0 M reg c) reg ρ₁ ρ₂ s = { u := w.u, v := fun _ => 1, α := fun i => s.α i + reg * Real.log (vmax w.u), β := fun j => s.β j + reg * Real.log (vmax w.v) } := if_pos h
    rw [e, stabPlan_totals hreg hc pu (fun _ => one_pos), hP]
    unfold plan totals
    dsimp only
    have m1 : 0 < vmax w.u := (pu (Classical.arbitrary I)).trans_le (le_vmax _ _)
    have m2 : 0 < vmax w.v := (pv (Classical.arbitrary J)).trans_le (le_vmax _ _)
    have q : ∀ x m : ℝ, 0 < m → Real.exp ((x + reg * Real.log m) / reg) = Real.exp (x / reg) * m := fun x m hm => by
      rw [show (x + reg * Real.log m) / reg = x / reg + Real.log m by field_simp, Real.exp_add, Real.exp_log hm]
    rw [q _ _ m1, q _ _ m2]
    have := (pv j).ne'
    change w.v j ≠ 0 at this
    field_simp

/-- A loop that tests the change of the state in some iterations only. -/
theorem loop_accuracy_test {S : Type*} {step : S → S} {bad : S → Prop} {err : S → S → ℝ} {s : S} {test : ℕ → S → Prop} (hbad : ∀ n, ¬ bad (step^[n] s)) {Good : S → Prop}
    (hev : ∀ᶠ n in atTop, Good (step^[n] s)) (h0 : ∀ s t, 0 ≤ err s t) (htest : ∀ N, ∃ n ≥ N, test n (step^[n] s))
    (hfix : ∀ n, test n (step^[n] s) → err (step^[n] s) (step^[n + 1] s) = 0 → Good (step^[n + 1] s))
    (herr : Tendsto (fun n => err (step^[n] s) (step^[n + 1] s)) atTop (𝓝 0)) :
    ∃ thr₀ > 0, ∀ thr, 0 < thr → thr ≤ thr₀ → ∃ N, ∀ n ≥ N,
      (loop step bad (fun ii s t => test ii s ∧ err s t ≤ thr) n 0 s).exit = .converged ∧ Good (loop step bad (fun ii s t => test ii s ∧ err s t ≤ thr) n 0 s).s := by
  obtain ⟨N0, hN0⟩ := eventually_atTop.1 hev
  have hex : ∃ thr₀ > 0, ∀ n < N0, err (step^[n] s) (step^[n + 1] s) = 0 ∨ thr₀ < err (step^[n] s) (step^[n + 1] s) := by
    clear hN0
    induction N0 with
    | zero => exact ⟨1, one_pos, fun n hn => by omega⟩
    | succ N ih =>
      obtain ⟨t, ht, h⟩ := ih
      by_cases hz : err (step^[N] s) (step^[N + 1] s) = 0
      · refine ⟨t, ht, fun n hn => ?_⟩
        rcases Nat.lt_succ_iff_lt_or_eq.1 hn with h1 | rfl
        · exact h n h1
        · exact Or.inl hz
      · have hp := lt_of_le_of_ne (h0 (step^[N] s) (step^[N + 1] s)) (Ne.symm hz)
        refine ⟨min t (err (step^[N] s) (step^[N + 1] s) / 2), lt_min ht (by linarith), fun n hn => ?_⟩
        rcases Nat.lt_succ_iff_lt_or_eq.1 hn with h1 | rfl
        · exact (h n h1).imp id fun h => (min_le_left _ _).trans_lt h
        · exact Or.inr ((min_le_right _ _).trans_lt (by linarith))
  obtain ⟨thr₀, h1, h2⟩ := hex
  refine ⟨thr₀, h1, fun thr hthr hle => ?_⟩
  obtain ⟨N1, hN1⟩ := eventually_atTop.1 ((tendsto_order.1 herr).2 thr hthr)
  obtain ⟨N, hNN, hN⟩ := htest N1
  refine ⟨N + 1, fun n hn => ?_⟩
  have hconv : (loop step bad (fun ii s t => test ii s ∧ err s t ≤ thr) n 0 s).exit = .converged :=
    loop_stops (stop := fun ii s t => test ii s ∧ err s t ≤ thr) n 0 s hbad N (by omega) (by rw [zero_add]; exact ⟨hN, (hN1 N hNN).le⟩)
  refine ⟨hconv, ?_⟩
  obtain ⟨k, hk, e, -, -, -, x2, -⟩ := loop_spec (step := step) (bad := bad) (stop := fun ii s t => test ii s ∧ err s t ≤ thr) n 0 s
  obtain ⟨l, rfl, -, h4⟩ := x2 hconv
  rw [zero_add] at h4
  rw [e]
  by_cases hl : N0 ≤ l + 1
  · exact hN0 _ hl
  · rcases h2 l (by omega) with h5 | h5
    · exact hfix l h4.1 h5
    · exact absurd h4.2 (not_le.2 (hle.trans_lt h5))

theorem totals_zero (reg : ℝ) (u : I → ℝ) (v : J → ℝ) : totals reg u v (fun _ => 0) (fun _ => 0) = ⟨u, v⟩ := by
  unfold totals
  simp

/-- The state without absorbed potentials. -/
def lift0 (s : UV I J) : StU I J := { u := s.u, v := s.v, α := fun _ => 0, β := fun _ => 0 }

theorem stabIter {tau : ℝ} {a : I → ℝ} {b : J → ℝ} {M : I → J → ℝ} {reg : ℝ} {c : I → J → ℝ} {ρ₁ ρ₂ : Option ℝ} (hreg : 0 < reg)
    (h1 : ∀ r, ρ₁ = some r → 0 ≤ r) (h2 : ∀ r, ρ₂ = some r → 0 ≤ r) (ha : ∀ i, 0 < a i) (hb : ∀ j, 0 < b j) (hc : ∀ i j, 0 < c i j) (warm : Option ((I → ℝ) × (J → ℝ)))
    (htau : ∀ n, ¬ absorbs tau ((unbStep a b (unbKernel M reg c) (fi reg ρ₁) (fi reg ρ₂))^[n + 1] (unbInit warm))) (n : ℕ) :
    (stabStepU 0 tau a b (m0 M reg c) reg ρ₁ ρ₂)^[n] (stabInit warm) = (lift0 ((unbStep a b (unbKernel M reg c) (fi reg ρ₁) (fi reg ρ₂))^[n] (unbInit warm))) ∧
    stabUpd 0 a b (m0 M reg c) reg ρ₁ ρ₂ ((stabStepU 0 tau a b (m0 M reg c) reg ρ₁ ρ₂)^[n] (stabInit warm))
      = (unbStep a b (unbKernel M reg c) (fi reg ρ₁) (fi reg ρ₂))^[n + 1] (unbInit warm) := by
  obtain ⟨hu0, hv0⟩ := unbInit_pos (I := I) (J := J) warm
  have hp := unbIter_pos ha hb (unbKernel_pos M reg hc) (fi reg ρ₁) (fi reg ρ₂) hu0 hv0
  have upd : ∀ n, stabUpd 0 a b (m0 M reg c) reg ρ₁ ρ₂ (lift0 ((unbStep a b (unbKernel M reg c) (fi reg ρ₁) (fi reg ρ₂))^[n] (unbInit warm)))
      = (unbStep a b (unbKernel M reg c) (fi reg ρ₁) (fi reg ρ₂))^[n + 1] (unbInit warm) := fun n => by
    have := C50_update a b M reg c ρ₁ ρ₂ hreg h1 h2 ha hb hc (lift0 ((unbStep a b (unbKernel M reg c) (fi reg ρ₁) (fi reg ρ₂))^[n] (unbInit warm))) (hp n).2
    unfold lift0 at this ⊢
    rw [totals_zero, totals_zero] at this
    rw [Function.iterate_succ_apply']
    exact this
  have main : ∀ n, (stabStepU 0 tau a b (m0 M reg c) reg ρ₁ ρ₂)^[n] (stabInit warm) = (lift0 ((unbStep a b (unbKernel M reg c) (fi reg ρ₁) (fi reg ρ₂))^[n] (unbInit warm))) := fun n => by
    induction n with
    | zero => rfl
    | succ n ih =>
      rw [Function.iterate_succ_apply', ih]
      unfold stabStepU
      rw [upd n]
      dsimp only
      rw [if_neg (htau n)]
      rfl
  exact ⟨main n, by rw [main n]; exact upd n⟩

theorem bounded_iterates {L : Type*} [Fintype L] {x : ℕ → L → ℝ} {y : L → ℝ} (h : ∀ l, Tendsto (fun n => x n l) atTop (𝓝 (y l))) : ∃ B, ∀ n l, x n l ≤ B := by
  have : ∀ l, ∃ B, ∀ n, x n l ≤ B := fun l => by
    obtain ⟨B, hB⟩ := (h l).bddAbove_range
    exact ⟨B, fun n => hB ⟨n, rfl⟩⟩
  choose B hB using this
  exact ⟨∑ l, |B l|, fun n l => (hB l n).trans ((le_abs_self _).trans (single_le_sum (f := fun l => |B l|) (fun _ _ => abs_nonneg _) (mem_univ l)))⟩

/-- **C50, the call.** If the absorption threshold `tau` is large enough for the problem at hand, and the first iteration changes `u` (see `C50_first_test_refuted`), then
for every accuracy a small enough threshold and enough iterations make the call end by its test with a plan within that accuracy of the unique solution. -/
theorem C50_call (a : I → ℝ) (b : J → ℝ) (M : I → J → ℝ) (reg : ℝ) (ρ₁ ρ₂ : Option ℝ) (entropy : Bool) (c : Option (I → J → ℝ)) (warm : Option ((I → ℝ) × (J → ℝ)))
    (hreg : 0 < reg) (h1 : ∀ r, ρ₁ = some r → 0 ≤ r) (h2 : ∀ r, ρ₂ = some r → 0 ≤ r) (hfin : ρ₁ ≠ none ∨ ρ₂ ≠ none)
    (ha : ∀ i, 0 < a i) (hb : ∀ j, 0 < b j) (hc : ∀ C, c = some C → ∀ i j, 0 < C i j)
    (hfirst : ∃ i, (a i / ∑ j, Real.exp (-M i j / reg) * (if entropy then fun _ _ => 1 else c.getD fun i j => a i * b j) i j * (unbInit warm : UV I J).v j) ^ fi reg ρ₁ ≠ (unbInit warm : UV I J).u i) :
    ∃ P : I → J → ℝ, IsUnbOptimal a b M reg (if entropy then fun _ _ => 1 else c.getD fun i j => a i * b j) ρ₁ ρ₂ P ∧
      ∃ tau₀, ∀ tau ≥ tau₀, ∀ ε > 0, ∃ thr₀ > 0, ∀ thr, 0 < thr → thr ≤ thr₀ → ∃ N, ∀ n ≥ N,
        (stabUnb 0 tau a b M reg ρ₁ ρ₂ entropy c warm n thr).exit = .converged ∧
        ∀ i j, |stabUnbPlan 0 tau a b M reg ρ₁ ρ₂ entropy c warm n thr i j - P i j| < ε := by
  obtain ⟨C, hCd⟩ : ∃ C, C = reference a b entropy c := ⟨_, rfl⟩
  have hC : ∀ i j, 0 < C i j := by rw [hCd]; exact reference_pos ha hb entropy hc
  change ∃ P : I → J → ℝ, IsUnbOptimal a b M reg (reference a b entropy c) ρ₁ ρ₂ P ∧ _
  have hK := unbKernel_pos M reg hC
  obtain ⟨hu0, hv0⟩ := unbInit_pos (I := I) (J := J) warm
  obtain ⟨t, t1, t2, t3, t4⟩ := unb_tendsto ha hb hK (fi_nonneg hreg h1) (fi_nonneg hreg h2) (fi_mul_lt_one hreg h1 h2 hfin)
  obtain ⟨l1, l2⟩ := t4 _ hu0 hv0
  have hp := unbIter_pos ha hb hK (fi reg ρ₁) (fi reg ρ₂) hu0 hv0
  have hopt := C49_fixed_point_optimal a b M reg _ ρ₁ ρ₂ hreg h1 h2 ha hb hC t t2 t3
  obtain ⟨B1, hB1⟩ := bounded_iterates (x := fun n => ((unbStep a b (unbKernel M reg C) (fi reg ρ₁) (fi reg ρ₂))^[n] (unbInit warm)).u) l1
  obtain ⟨B2, hB2⟩ := bounded_iterates (x := fun n => ((unbStep a b (unbKernel M reg C) (fi reg ρ₁) (fi reg ρ₂))^[n] (unbInit warm)).v) l2
  rw [← hCd]
  refine ⟨_, hopt, max B1 B2, fun tau htau ε hε => ?_⟩
  have hna : ∀ n, ¬ absorbs tau ((unbStep a b (unbKernel M reg C) (fi reg ρ₁) (fi reg ρ₂))^[n + 1] (unbInit warm)) := fun n => by
    rintro (⟨i, h⟩ | ⟨j, h⟩)
    · exact absurd h (not_lt.2 ((hB1 (n + 1) i).trans ((le_max_left _ _).trans htau)))
    · exact absurd h (not_lt.2 ((hB2 (n + 1) j).trans ((le_max_right _ _).trans htau)))
  have it := stabIter hreg h1 h2 ha hb hC warm hna
  have hplan : ∀ n, stabPlan (m0 M reg C) reg ((stabStepU 0 tau a b (m0 M reg C) reg ρ₁ ρ₂)^[n] (stabInit warm))
      = plan (unbKernel M reg C) ((unbStep a b (unbKernel M reg C) (fi reg ρ₁) (fi reg ρ₂))^[n] (unbInit warm)) := fun n => by
    rw [(it n).1, stabPlan_totals hreg hC (hp n).1 (hp n).2]
    exact congrArg _ (totals_zero reg _ _)
  have hconv : ∀ i j, Tendsto (fun n => plan (unbKernel M reg C)
      ((unbStep a b (unbKernel M reg C) (fi reg ρ₁) (fi reg ρ₂))^[n] (unbInit warm)) i j) atTop
      (𝓝 (plan (unbKernel M reg C) t i j)) := fun i j => ((l1 i).mul tendsto_const_nhds).mul (l2 j)
  have key := loop_accuracy_test (step := stabStepU 0 tau a b (m0 M reg C) reg ρ₁ ρ₂) (bad := stabBad 0 a b (m0 M reg C) reg ρ₁ ρ₂) (s := stabInit warm)
    (err := fun s t => relErr s.u t.u) (test := fun cpt s => cpt % 10 = 0 ∧ ¬ absorbs tau (stabUpd 0 a b (m0 M reg C) reg ρ₁ ρ₂ s) ∨ cpt = 0)
    (Good := fun s => ∀ i j, |stabPlan (m0 M reg C) reg s i j - plan (unbKernel M reg C) t i j| < ε) ?_ ?_ ?_ ?_ ?_ ?_
  · obtain ⟨thr₀, k1, k2⟩ := key
    refine ⟨min thr₀ (1 / 2), lt_min k1 (by norm_num), fun thr hthr hle => ?_⟩
    obtain ⟨N, hN⟩ := k2 thr hthr (hle.trans (min_le_left _ _))
    refine ⟨N, fun n hn => ?_⟩
    have e : stabUnb 0 tau a b M reg ρ₁ ρ₂ entropy c warm n thr = loop (stabStepU 0 tau a b (m0 M reg C) reg ρ₁ ρ₂) (stabBad 0 a b (m0 M reg C) reg ρ₁ ρ₂)
        (stabStop 0 tau a b (m0 M reg C) reg ρ₁ ρ₂ thr) n 0 (stabInit warm) := by
      unfold stabUnb
      rw [← hCd]
      exact if_neg (not_le.2 ((hle.trans (min_le_right _ _)).trans_lt (by norm_num)))
    unfold stabUnbPlan
    rw [e, ← hCd]
    exact hN n hn
  · intro n
    have hv : ∀ j, 0 < ((stabStepU 0 tau a b (m0 M reg C) reg ρ₁ ρ₂)^[n] (stabInit warm)).v j := by rw [(it n).1]; exact (hp n).2
    rintro (⟨i, h⟩ | ⟨j, h⟩)
    · rw [add_zero] at h
      exact absurd h (kv_pos (fun i j => Real.exp_pos _) hv i).ne'
    · exact absurd h (ktu_pos (fun i j => Real.exp_pos _) (stabUpd_pos ha hb hv).1 j).ne'
  · rw [Filter.eventually_all]
    intro i
    rw [Filter.eventually_all]
    intro j
    simp only [hplan]
    exact (Metric.tendsto_nhds.1 (hconv i j)) ε hε
  · exact fun s t => relErr_nonneg _ _
  · intro N
    refine ⟨10 * N, by omega, Or.inl ⟨by omega, ?_⟩⟩
    rw [(it _).2]
    exact hna _
  · intro n ht h0 i j
    have e1 := eq_of_relErr h0.le
    rw [(it n).1, (it (n + 1)).1] at e1
    change ((unbStep a b (unbKernel M reg C) (fi reg ρ₁) (fi reg ρ₂))^[n + 1] (unbInit warm)).u = ((unbStep a b (unbKernel M reg C) (fi reg ρ₁) (fi reg ρ₂))^[n] (unbInit warm)).u at e1
    cases n with
    | zero =>
      obtain ⟨i, hi⟩ := hfirst
      refine absurd (congrFun e1 i) fun h => hi ?_
      rw [hCd] at h
      exact h
    | succ n =>
      have e2 : (unbStep a b (unbKernel M reg C) (fi reg ρ₁) (fi reg ρ₂))^[n + 1 + 1] (unbInit warm) = (unbStep a b (unbKernel M reg C) (fi reg ρ₁) (fi reg ρ₂))^[n + 1] (unbInit warm) := by
        refine UV.ext e1 ?_
        have vv : ∀ k, ((unbStep a b (unbKernel M reg C) (fi reg ρ₁) (fi reg ρ₂))^[k + 1] (unbInit warm)).v
            = fun j => (b j / Unbalanced.ktu (unbKernel M reg C) ((unbStep a b (unbKernel M reg C) (fi reg ρ₁) (fi reg ρ₂))^[k + 1] (unbInit warm)).u j) ^ fi reg ρ₂ := fun k => by
          rw [Function.iterate_succ_apply']
          rfl
        rw [vv, vv, e1]
      rw [hplan, e2]
      have e3 := e2
      rw [Function.iterate_succ_apply'] at e3
      have o2 := C49_fixed_point_optimal a b M reg _ ρ₁ ρ₂ hreg h1 h2 ha hb hC _ (hp (n + 1)).2 e3
      have e4 := (hopt.2 _ o2.1).2 (o2.2 _ hopt.1).1
      rw [e4]
      simpa using hε
  · have := relErr_tendsto l1
    refine this.congr fun n => ?_
    rw [(it n).1, (it (n + 1)).1]
    rfl

/-- **C50, defect.** The test in the first iteration looks at `u` only, although `u` has not yet seen `b`. If the first `u` equals the initial one, the call ends there, whatever `b` is.
Here: one point on either side, cost 0, `a = 1`, `b = 16`, `reg = reg_m = 1`, reference one. The returned mass is 4; the solution has mass `16^(1/3)`. -/
theorem C50_first_test_refuted (tau : ℝ) (htau : 4 ≤ tau) (n : ℕ) (hn : 0 < n) (thr : ℝ) (h0 : 0 ≤ thr) (h1 : thr < 1) :
    (stabUnb 0 tau (fun _ : Fin 1 => 1) (fun _ : Fin 1 => 16) (fun _ _ => 0) 1 (some 1) (some 1) true none none n thr).exit = .converged ∧
    (∀ i j, stabUnbPlan 0 tau (fun _ : Fin 1 => 1) (fun _ : Fin 1 => 16) (fun _ _ => 0) 1 (some 1) (some 1) true none none n thr i j = 4) ∧
    IsUnbOptimal (fun _ : Fin 1 => 1) (fun _ : Fin 1 => 16) (fun _ _ => 0) 1 (fun _ _ => 1) (some 1) (some 1) (fun _ _ => (16 : ℝ) ^ (1 / 3 : ℝ)) ∧
    (16 : ℝ) ^ (1 / 3 : ℝ) < 3 := by
  have hs : (16 : ℝ) ^ (1 / (1 + 1) : ℝ) = 4 := by
    rw [show (16 : ℝ) = 4 ^ (2 : ℝ) by norm_num, ← Real.rpow_mul (by norm_num)]
    norm_num
  have hw : stabUpd 0 (fun _ : Fin 1 => 1) (fun _ : Fin 1 => (16 : ℝ)) (m0 (fun _ _ => 0) 1 (reference (fun _ : Fin 1 => 1) (fun _ : Fin 1 => 16) true none)) 1 (some 1) (some 1) (stabInit none)
      = ⟨fun _ => 1, fun _ => 4⟩ := by
    unfold stabUpd Unbalanced.stabInit unbInit stabK m0 reference kv Unbalanced.ktu fAlpha fi
    simp
    rw [← one_div, hs]
  have hna : ¬ absorbs tau (⟨fun _ => 1, fun _ => 4⟩ : UV (Fin 1) (Fin 1)) := by
    rintro (⟨_, h⟩ | ⟨_, h⟩) <;> dsimp only at h <;> linarith
  have hst : stabStepU 0 tau (fun _ : Fin 1 => 1) (fun _ : Fin 1 => (16 : ℝ)) (m0 (fun _ _ => 0) 1 (reference (fun _ : Fin 1 => 1) (fun _ : Fin 1 => 16) true none)) 1 (some 1) (some 1) (stabInit none)
      = ⟨fun _ => 1, fun _ => 4, fun _ => 0, fun _ => 0⟩ := by
    unfold stabStepU
    rw [hw]
    dsimp only
    rw [if_neg hna]
    rfl
  obtain ⟨n, rfl⟩ : ∃ k, n = k + 1 := ⟨n - 1, by omega⟩
  have hrun : stabUnb 0 tau (fun _ : Fin 1 => 1) (fun _ : Fin 1 => 16) (fun _ _ => 0) 1 (some 1) (some 1) true none none (n + 1) thr
      = ⟨⟨fun _ => 1, fun _ => 4, fun _ => 0, fun _ => 0⟩, 0, .converged⟩ := by
    unfold stabUnb
    dsimp only
    rw [if_neg (not_le.2 h1)]
    unfold loop
    rw [if_neg, hst, if_pos]
    · refine ⟨Or.inr rfl, ?_⟩
      have : relErr (stabInit none : StU (Fin 1) (Fin 1)).u (fun _ => 1) = 0 := by
        refine le_antisymm ((relErr_le _ _).trans ?_) (relErr_nonneg _ _)
        simp [Unbalanced.stabInit, unbInit]
      dsimp only
      rw [this]
      exact h0
    · rintro (⟨i, h⟩ | ⟨j, h⟩)
      · rw [add_zero] at h
        exact absurd h (kv_pos (fun i j => Real.exp_pos _) (fun _ => one_pos) i).ne'
      · rw [hw] at h
        exact absurd h (ktu_pos (fun i j => Real.exp_pos _) (fun _ => one_pos) j).ne'
  refine ⟨by rw [hrun], fun i j => ?_, ?_, ?_⟩
  · unfold stabUnbPlan
    rw [hrun]
    unfold stabPlan m0 reference
    simp [Real.exp_log]
  · have p1 : (0 : ℝ) < 16 ^ (-(1 / 3) : ℝ) := by positivity
    have p2 : (0 : ℝ) < 16 ^ (2 / 3 : ℝ) := by positivity
    have k : unbKernel (fun _ _ => 0) 1 (fun _ _ => 1) = (fun _ _ => 1 : Fin 1 → Fin 1 → ℝ) := by
      unfold unbKernel
      simp
    have := C49_fixed_point_optimal (fun _ : Fin 1 => 1) (fun _ : Fin 1 => 16) (fun _ _ => 0) 1 (fun _ _ => 1) (some 1) (some 1) one_pos (fun r h => by cases h; norm_num)
      (fun r h => by cases h; norm_num) (fun _ => one_pos) (fun _ => by norm_num) (fun _ _ => one_pos)
      ⟨fun _ => (16 : ℝ) ^ (-(1 / 3) : ℝ), fun _ => (16 : ℝ) ^ (2 / 3 : ℝ)⟩ (fun _ => p2) (by
        rw [k]
        have e1 : ((1 : ℝ) / 16 ^ (2 / 3 : ℝ)) ^ (1 / (1 + 1) : ℝ) = 16 ^ (-(1 / 3) : ℝ) := by
          rw [one_div, ← Real.rpow_neg (by norm_num), ← Real.rpow_mul (by norm_num)]
          norm_num
        have e2 : ((16 : ℝ) / 16 ^ (-(1 / 3) : ℝ)) ^ (1 / (1 + 1) : ℝ) = 16 ^ (2 / 3 : ℝ) := by
          rw [show (16 : ℝ) / 16 ^ (-(1 / 3) : ℝ) = 16 ^ (4 / 3 : ℝ) by
            nth_rewrite 1 [← Real.rpow_one 16]
            rw [← Real.rpow_sub (by norm_num)]
            norm_num, ← Real.rpow_mul (by norm_num)]
          norm_num
        unfold unbStep kv Unbalanced.ktu fi
        simp only [univ_unique, sum_singleton, one_mul]
        rw [e1, e2])
    rw [k] at this
    convert this using 1
    funext i j
    unfold plan
    dsimp only
    rw [mul_one, ← Real.rpow_add (by norm_num)]
    norm_num
  · have : (16 : ℝ) ^ (1 / 3 : ℝ) < 27 ^ (1 / 3 : ℝ) := Real.rpow_lt_rpow (by norm_num) (by norm_num) (by norm_num)
    refine this.trans_le ?_
    rw [show (27 : ℝ) = 3 ^ (3 : ℝ) by norm_num, ← Real.rpow_mul (by norm_num)]
    norm_num

/-- **C50, defect.** A call that ends with an absorbing iteration returns a wrong plan: both marginals prescribed (`reg_m = inf`), `a = 2·10⁶`, `b = (5·10⁵, 15·10⁵)`, cost 0, reference one, `tau = 10⁵` (default), one iteration.
The plan of `sinkhorn_knopp_unbalanced` is `(5·10⁵, 15·10⁵)`, that of the stabilized solver has both entries `15·10¹¹`. -/
theorem C50_absorption_refuted :
    let a : Fin 1 → ℝ := fun _ => 2 * 10 ^ 6
    let b : Fin 2 → ℝ := ![5 * 10 ^ 5, 15 * 10 ^ 5]
    (∀ j, sinkhornUnbPlan a b (fun _ _ => 0) 1 none none true none none 1 0 0 j = b j) ∧
    ∀ j, stabUnbPlan 0 (10 ^ 5) a b (fun _ _ => 0) 1 none none true none none 1 0 0 j = 15 * 10 ^ 11 := by
  intro a b
  have ha : ∀ i, 0 < a i := fun i => by norm_num [a]
  have hb : ∀ j, 0 < b j := fun j => by fin_cases j <;> norm_num [b]
  have hr : reference a b true none = fun _ _ => 1 := rfl
  have k : unbKernel (fun _ _ => 0) 1 (fun _ _ => 1) = (fun _ _ => 1 : Fin 1 → Fin 2 → ℝ) := by
    unfold unbKernel
    simp
  have hstep : unbStep a b (fun _ _ => 1) 1 1 (unbInit none) = ⟨fun _ => 10 ^ 6, fun j => b j / 10 ^ 6⟩ := by
    unfold unbStep kv Unbalanced.ktu unbInit
    refine UV.ext (funext fun i => ?_) (funext fun j => ?_)
    · norm_num [a]
    · norm_num [a]
  constructor
  · intro j
    unfold sinkhornUnbPlan sinkhornUnb
    rw [hr, k]
    unfold loop
    rw [if_neg (not_unbBad ha (fun _ _ => one_pos) _ (unbInit_pos none).2), if_neg]
    · unfold loop
      simp only [fi]
      rw [hstep]
      unfold plan
      field_simp
    · exact not_lt.2 (mul_nonneg (by norm_num) (add_nonneg (relErr_nonneg _ _) (relErr_nonneg _ _)))
  · intro j
    have hup := C50_update a b (fun _ _ => 0) 1 (fun _ _ => 1) none none one_pos (by simp) (by simp) ha hb (fun _ _ => one_pos) (stabInit none) (fun _ => one_pos)
    rw [show (stabInit none : StU (Fin 1) (Fin 2)).α = fun _ => 0 from rfl, show (stabInit none : StU (Fin 1) (Fin 2)).β = fun _ => 0 from rfl, totals_zero, totals_zero, k] at hup
    have hup' : stabUpd 0 a b (m0 (fun _ _ => 0) 1 fun _ _ => 1) 1 none none (stabInit none) = ⟨fun _ => 10 ^ 6, fun j => b j / 10 ^ 6⟩ := hup.trans hstep
    have hab := (C50_absorption (10 ^ 5) a b (fun _ _ => 0) 1 (fun _ _ => 1) none none one_pos (by simp) (by simp) ha hb (fun _ _ => one_pos) (stabInit none) (fun _ => one_pos) 0 j).2
    rw [hup', show (stabInit none : StU (Fin 1) (Fin 2)).α = fun _ => 0 from rfl, show (stabInit none : StU (Fin 1) (Fin 2)).β = fun _ => 0 from rfl, totals_zero, k] at hab
    have hab := hab (Or.inl ⟨0, by norm_num⟩)
    have hs' : unbStep a b (fun _ _ => 1) (fi 1 none) (fi 1 none) ⟨(stabInit none : StU (Fin 1) (Fin 2)).u, (stabInit none : StU (Fin 1) (Fin 2)).v⟩ = ⟨fun _ => 10 ^ 6, fun j => b j / 10 ^ 6⟩ := hstep
    rw [hs'] at hab
    have v1 : vmax (fun _ : Fin 1 => (10 ^ 6 : ℝ)) = 10 ^ 6 := le_antisymm (vmax_le fun _ => le_rfl) (le_vmax (fun _ : Fin 1 => (10 ^ 6 : ℝ)) 0)
    have v2 : vmax (fun j : Fin 2 => b j / 10 ^ 6) = 15 / 10 := by
      refine le_antisymm (vmax_le fun j => ?_) ?_
      · fin_cases j <;> norm_num [b]
      · refine le_trans ?_ (le_vmax (fun j : Fin 2 => b j / 10 ^ 6) 1)
        norm_num [b]
    dsimp only at hab
    rw [v1, v2] at hab
    have e : (stabUnb 0 (10 ^ 5) a b (fun _ _ => 0) 1 none none true none none 1 0).s = stabStepU 0 (10 ^ 5) a b (m0 (fun _ _ => 0) 1 fun _ _ => 1) 1 none none (stabInit none) := by
      unfold stabUnb
      dsimp only
      rw [if_neg (by norm_num), hr]
      unfold loop
      rw [if_neg]
      · split_ifs
        · rfl
        · unfold loop
          rfl
      · rintro (⟨i, h⟩ | ⟨j, h⟩)
        · rw [add_zero] at h
          exact absurd h (kv_pos (fun i j => Real.exp_pos _) (fun _ => one_pos) i).ne'
        · exact absurd h (ktu_pos (fun i j => Real.exp_pos _) (stabUpd_pos ha hb (s := stabInit none) fun _ => one_pos).1 j).ne'
    unfold stabUnbPlan
    rw [e, hr, hab]
    unfold plan
    have := (hb j).ne'
    field_simp

/-- The hypotheses of `C50_call` on a concrete problem: two points on either side, cost 0, weights `(1, 1)` and `(1, 1)`. -/
example : ∃ P : Fin 2 → Fin 2 → ℝ, IsUnbOptimal (fun _ => 1) (fun _ => 1) (fun _ _ => 0) 1 (fun _ _ => 1) none (some 1) P := by
  obtain ⟨P, h, -⟩ := C50_call (I := Fin 2) (J := Fin 2) (fun _ => 1) (fun _ => 1) (fun _ _ => 0) 1 none (some 1) true none none one_pos (fun r h => by cases h)
    (fun r h => by cases h; norm_num) (Or.inr (by simp)) (fun _ => one_pos) (fun _ => one_pos) (by simp) ⟨0, by simp [unbInit, fi]⟩
  exact ⟨P, h⟩

end POT.Props
