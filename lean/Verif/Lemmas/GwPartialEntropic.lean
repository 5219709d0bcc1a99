import Verif.Lemmas.GwEntropic
import Verif.Spec.GwPartialEntropic
import Verif.Model.GwPartialEntropic

/-! # Strong convexity of the entropic objective and descent for the entropic partial Gromov-Wasserstein solver -/

set_option linter.unusedSectionVars false

namespace POT.GwPartialEntropic

open Finset Spec Gromov GwEntropic

variable {I J : Type*} [Fintype I] [Fintype J]

theorem pinsker_entry0 {p q : ℝ} (hp : 0 ≤ p) (hq : 0 ≤ q) (h0 : q = 0 → p = 0) :
    (p - q) ^ 2 ≤ ((2 * p + 4 * q) / 3) * (p * Real.log (p / q) - p + q) := by
  rcases eq_or_lt_of_le hq with h | h
  · have := h0 h.symm
    subst this
    rw [← h]; norm_num
  · exact pinsker_entry hp h

theorem kl1_nonneg0 {p q : ℝ} (hp : 0 ≤ p) (hq : 0 ≤ q) (h0 : q = 0 → p = 0) : 0 ≤ p * Real.log (p / q) - p + q := by
  rcases eq_or_lt_of_le hq with h | h
  · have := h0 h.symm
    subst this
    rw [← h]; norm_num
  · exact kl1_nonneg hp h

theorem pinsker0 {p q : I → ℝ} {S : ℝ} (hp : ∀ i, 0 ≤ p i) (hq : ∀ i, 0 ≤ q i) (h0 : ∀ i, q i = 0 → p i = 0) (hpS : ∑ i, p i = S)
    (hqS : ∑ i, q i = S) : (∑ i, |p i - q i|) ^ 2 ≤ 2 * S * ∑ i, (p i * Real.log (p i / q i) - p i + q i) := by
  have h := sum_sq_le_sum_mul_sum_of_sq_le_mul univ (r := fun i => |p i - q i|) (f := fun i => (2 * p i + 4 * q i) / 3)
    (g := fun i => p i * Real.log (p i / q i) - p i + q i)
    (fun i _ => by have := hp i; have := hq i; positivity) (fun i _ => kl1_nonneg0 (hp i) (hq i) (h0 i))
    (fun i _ => by rw [sq_abs]; exact pinsker_entry0 (hp i) (hq i) (h0 i))
  refine h.trans (le_of_eq ?_)
  have e : ∑ i, (2 * p i + 4 * q i) / 3 = 2 * S := by
    rw [← sum_div, sum_add_distrib, ← mul_sum, ← mul_sum, hpS, hqS]; ring
  rw [e]

theorem js_entry {h p t : ℝ} (hh : 0 ≤ h) (hp : 0 ≤ p) (ht : 0 < t) (ht1 : t < 1) :
    t * (h * Real.log (h / (t * h + (1 - t) * p)) - h + (t * h + (1 - t) * p))
      + (1 - t) * (p * Real.log (p / (t * h + (1 - t) * p)) - p + (t * h + (1 - t) * p))
      = t * (h * Real.log h) + (1 - t) * (p * Real.log p) - (t * h + (1 - t) * p) * Real.log (t * h + (1 - t) * p) := by
  have h1t : 0 < 1 - t := by linarith
  obtain ⟨z, hz⟩ : ∃ z, z = t * h + (1 - t) * p := ⟨_, rfl⟩
  have hle1 : t * h ≤ z := by rw [hz]; nlinarith
  have hle2 : (1 - t) * p ≤ z := by rw [hz]; nlinarith
  have key : ∀ x, 0 ≤ x → (z = 0 → x = 0) → x * Real.log (x / z) = x * Real.log x - x * Real.log z := by
    intro x hx hx0
    rcases eq_or_lt_of_le hx with h | h
    · rw [← h]; simp
    · have hz0 : z ≠ 0 := fun e => h.ne' (hx0 e)
      rw [Real.log_div h.ne' hz0]; ring
  have k1 := key h hh (fun e => by nlinarith)
  have k2 := key p hp (fun e => by nlinarith)
  rw [← hz, k1, k2]
  linear_combination (Real.log z + 1) * hz

theorem js_strong {h p : I → ℝ} {S t : ℝ} (hh : ∀ i, 0 ≤ h i) (hp : ∀ i, 0 ≤ p i) (hS : ∑ i, h i = S) (pS : ∑ i, p i = S) (ht : 0 < t) (ht1 : t < 1) :
    t * (1 - t) * (∑ i, |h i - p i|) ^ 2 ≤ 2 * S * (t * (∑ i, h i * Real.log (h i)) + (1 - t) * (∑ i, p i * Real.log (p i))
      - ∑ i, (t * h i + (1 - t) * p i) * Real.log (t * h i + (1 - t) * p i)) := by
  have h1t : 0 < 1 - t := by linarith
  have hz : ∀ i, 0 ≤ t * h i + (1 - t) * p i := fun i => add_nonneg (mul_nonneg ht.le (hh i)) (mul_nonneg h1t.le (hp i))
  have zS : ∑ i, (t * h i + (1 - t) * p i) = S := by rw [sum_add_distrib, ← mul_sum, ← mul_sum, hS, pS]; ring
  have p1 := pinsker0 hh hz (fun i e => by have := hh i; have := mul_nonneg h1t.le (hp i); nlinarith) hS zS
  have p2 := pinsker0 hp hz (fun i e => by have := hp i; have := mul_nonneg ht.le (hh i); nlinarith) pS zS
  have e1 : ∑ i, |h i - (t * h i + (1 - t) * p i)| = (1 - t) * ∑ i, |h i - p i| := by
    rw [mul_sum]
    refine sum_congr rfl fun i _ => ?_
    rw [show h i - (t * h i + (1 - t) * p i) = (1 - t) * (h i - p i) by ring, abs_mul, abs_of_pos h1t]
  have e2 : ∑ i, |p i - (t * h i + (1 - t) * p i)| = t * ∑ i, |h i - p i| := by
    rw [mul_sum]
    refine sum_congr rfl fun i _ => ?_
    rw [show p i - (t * h i + (1 - t) * p i) = t * (p i - h i) by ring, abs_mul, abs_of_pos ht, abs_sub_comm]
  rw [e1] at p1
  rw [e2] at p2
  have e3 : t * (∑ i, (h i * Real.log (h i / (t * h i + (1 - t) * p i)) - h i + (t * h i + (1 - t) * p i)))
      + (1 - t) * (∑ i, (p i * Real.log (p i / (t * h i + (1 - t) * p i)) - p i + (t * h i + (1 - t) * p i)))
      = t * (∑ i, h i * Real.log (h i)) + (1 - t) * (∑ i, p i * Real.log (p i))
      - ∑ i, (t * h i + (1 - t) * p i) * Real.log (t * h i + (1 - t) * p i) := by
    simp only [mul_sum, ← sum_add_distrib, ← sum_sub_distrib]
    exact sum_congr rfl fun i _ => js_entry (hh i) (hp i) ht ht1
  rw [← e3]
  have q1 := mul_le_mul_of_nonneg_left p1 ht.le
  have q2 := mul_le_mul_of_nonneg_left p2 h1t.le
  refine le_trans (le_of_eq ?_) ((add_le_add q1 q2).trans (le_of_eq ?_)) <;> ring

theorem isPartialOf_convex {p : I → ℝ} {q : J → ℝ} {m t : ℝ} {H P : I → J → ℝ} (hH : IsPartialOf p q m H) (hP : IsPartialOf p q m P) (h0 : 0 ≤ t) (h1 : t ≤ 1) :
    IsPartialOf p q m fun i j => t * H i j + (1 - t) * P i j := by
  have h2 : 0 ≤ 1 - t := by linarith
  refine ⟨fun i j => add_nonneg (mul_nonneg h0 (hH.nonneg i j)) (mul_nonneg h2 (hP.nonneg i j)), fun i => ?_, fun j => ?_, ?_⟩
  · rw [sum_add_distrib, ← mul_sum, ← mul_sum]
    nlinarith [hH.row i, hP.row i]
  · rw [sum_add_distrib, ← mul_sum, ← mul_sum]
    nlinarith [hH.col j, hP.col j]
  · simp only [sum_add_distrib, ← mul_sum]
    rw [hH.mass, hP.mass]; ring

/-- Growth of the entropic objective away from its minimiser. -/
theorem entropic_growth {p : I → ℝ} {q : J → ℝ} {m ε : ℝ} {N P H : I → J → ℝ} (hε : 0 ≤ ε) (hP : IsPartialOf p q m P)
    (hmin : ∀ H, IsPartialOf p q m H → entropicObjective N ε P ≤ entropicObjective N ε H) (hH : IsPartialOf p q m H) :
    ε * l1dist H P ^ 2 ≤ 2 * m * (entropicObjective N ε H - entropicObjective N ε P) := by
  have hm0 : 0 ≤ m := by rw [← hP.mass]; exact sum_nonneg fun i _ => sum_nonneg fun j _ => hP.nonneg i j
  have key : ∀ t : ℝ, 0 < t → t < 1 → (1 - t) * (ε * l1dist H P ^ 2) ≤ 2 * m * (entropicObjective N ε H - entropicObjective N ε P) := by
    intro t ht ht1
    have hs : ∀ F : I → J → ℝ, ∑ i, ∑ j, F i j = ∑ x : I × J, F x.1 x.2 := fun F => (Fintype.sum_prod_type' F).symm
    have hj := js_strong (I := I × J) (h := fun x => H x.1 x.2) (p := fun x => P x.1 x.2) (S := m) (t := t) (fun x => hH.nonneg _ _) (fun x => hP.nonneg _ _)
      (by rw [← hs H]; exact hH.mass) (by rw [← hs P]; exact hP.mass) ht ht1
    have hq := hmin _ (isPartialOf_convex hH hP ht.le ht1.le)
    have hl : l1dist H P = ∑ x : I × J, |H x.1 x.2 - P x.1 x.2| := hs fun i j => |H i j - P i j|
    rw [← hl] at hj
    rw [← hs (fun i j => H i j * Real.log (H i j)), ← hs (fun i j => P i j * Real.log (P i j)),
      ← hs (fun i j => (t * H i j + (1 - t) * P i j) * Real.log (t * H i j + (1 - t) * P i j))] at hj
    have hc : cost N (fun i j => t * H i j + (1 - t) * P i j) = t * cost N H + (1 - t) * cost N P := by
      simp only [cost, mul_sum, ← sum_add_distrib]
      exact sum_congr rfl fun i _ => sum_congr rfl fun j _ => by ring
    unfold entropicObjective at hq ⊢
    rw [hc] at hq
    generalize ∑ i, ∑ j, H i j * Real.log (H i j) = a at *
    generalize ∑ i, ∑ j, P i j * Real.log (P i j) = b at *
    generalize (∑ i, ∑ j, (t * H i j + (1 - t) * P i j) * Real.log (t * H i j + (1 - t) * P i j)) = c at *
    generalize cost N H = x at *
    generalize cost N P = y at *
    have h1 := mul_le_mul_of_nonneg_left hj hε
    have h2 := mul_le_mul_of_nonneg_left hq (by positivity : 0 ≤ 2 * m)
    have h3 : t * ((1 - t) * (ε * l1dist H P ^ 2)) ≤ t * (2 * m * (x + ε * a - (y + ε * b))) := by nlinarith
    exact le_of_mul_le_mul_left h3 ht
  have hlim : Filter.Tendsto (fun t : ℝ => (1 - t) * (ε * l1dist H P ^ 2)) (nhdsWithin 0 (Set.Ioi 0)) (nhds ((1 - 0) * (ε * l1dist H P ^ 2))) := by
    have : Continuous fun t : ℝ => (1 - t) * (ε * l1dist H P ^ 2) := by fun_prop
    exact (this.tendsto 0).mono_left nhdsWithin_le_nhds
  have := le_of_tendsto hlim (b := 2 * m * (entropicObjective N ε H - entropicObjective N ε P)) (by
    filter_upwards [Ioo_mem_nhdsGT (zero_lt_one' ℝ)] with t ht
    exact key t ht.1 ht.2)
  simpa using this

theorem gwEnergy_osc_mass {L : ℝ → ℝ → ℝ} {C1 : I → I → ℝ} {C2 : J → J → ℝ} {m d : ℝ}
    (h : ∀ i k j l, m ≤ L (C1 i k) (C2 j l) ∧ L (C1 i k) (C2 j l) ≤ m + d) {Δ : I → J → ℝ} (hr : ∑ i, ∑ j, Δ i j = 0) :
    gwEnergy L C1 C2 Δ ≤ d / 2 * (∑ i, ∑ j, |Δ i j|) ^ 2 := by
  have h0 : ∑ i, ∑ j, ∑ k, ∑ l, (m + d / 2) * Δ i j * Δ k l = 0 := by
    simp only [← mul_sum]
    rw [hr]
    simp
  have e : gwEnergy L C1 C2 Δ = (∑ i, ∑ j, ∑ k, ∑ l, (m + d / 2) * Δ i j * Δ k l)
      + gwB (fun a b => L a b - (m + d / 2)) C1 C2 Δ Δ := by
    unfold gwB gwEnergy
    simp only [← sum_add_distrib]
    refine sum_congr rfl fun i _ => sum_congr rfl fun j _ => sum_congr rfl fun k _ => sum_congr rfl fun l _ => ?_
    ring
  rw [e, h0, zero_add]
  have hb := gwB_abs_le (L := fun a b => L a b - (m + d / 2)) (C1 := C1) (C2 := C2) (K := d / 2)
    (fun i k j l => abs_le.2 ⟨by linarith [(h i k j l).1], by linarith [(h i k j l).2]⟩) Δ Δ
  refine (le_abs_self _).trans (hb.trans (le_of_eq (by ring)))

/-- One step with the gradient of `α` times the energy plus a constant. -/
theorem ep_dec {symmetric : Bool} {D : Decomp ℝ} {C1 : I → I → ℝ} {C2 : J → J → ℝ} {p : I → ℝ} {q : J → ℝ} {m ε α κ c : ℝ}
    (hsym : symmetric = true → (∀ i k, C1 i k = C1 k i) ∧ (∀ j l, C2 j l = C2 l j)) (hε : 0 ≤ ε) (hα : 0 ≤ α) (hm : 0 < m)
    (hκ : MassCurvatureLe D.loss C1 C2 κ) {sk : (I → J → ℝ) → I → J → ℝ} (hsk : SolvesEntropicPartial p q ε m sk) {T : I → J → ℝ} (hT : IsPartialOf p q m T) :
    fgwEntropic D.loss C1 C2 (fun _ _ => 0) α ε (sk fun i j => α * pgDf symmetric D C1 C2 T i j + c)
      ≤ fgwEntropic D.loss C1 C2 (fun _ _ => 0) α ε T
        - (ε / (2 * m) - α * κ) * l1dist (sk fun i j => α * pgDf symmetric D C1 C2 T i j + c) T ^ 2 := by
  obtain ⟨hP, hmin⟩ := hsk fun i j => α * pgDf symmetric D C1 C2 T i j + c
  generalize (sk fun i j => α * pgDf symmetric D C1 C2 T i j + c) = P at *
  have hg := entropic_growth hε hP hmin hT
  have hΔ : ∑ i, ∑ j, (P i j - T i j) = 0 := by simp only [sum_sub_distrib]; rw [hP.mass, hT.mass, sub_self]
  have hκ' := mul_le_mul_of_nonneg_left (hκ (fun i j => P i j - T i j) hΔ) hα
  have hline := gwEnergy_line D.loss C1 C2 T (fun i j => P i j - T i j) 1
  have eT : (fun i j => T i j + 1 * (P i j - T i j)) = P := by funext i j; ring
  rw [eT] at hline
  have hin := inner_pgDf symmetric D C1 C2 T hsym fun i j => P i j - T i j
  have hcost : cost (fun i j => α * pgDf symmetric D C1 C2 T i j + c) P - cost (fun i j => α * pgDf symmetric D C1 C2 T i j + c) T
      = α * ∑ i, ∑ j, pgDf symmetric D C1 C2 T i j * (P i j - T i j) := by
    have : cost (fun i j => α * pgDf symmetric D C1 C2 T i j + c) P - cost (fun i j => α * pgDf symmetric D C1 C2 T i j + c) T
        = α * (∑ i, ∑ j, pgDf symmetric D C1 C2 T i j * (P i j - T i j)) + c * ∑ i, ∑ j, (P i j - T i j) := by
      simp only [cost, mul_sum, ← sum_add_distrib, ← sum_sub_distrib]
      exact sum_congr rfl fun i _ => sum_congr rfl fun j _ => by ring
    rw [this, hΔ, mul_zero, add_zero]
  rw [hin] at hcost
  have hz : ∀ U : I → J → ℝ, cost (fun _ _ => (0 : ℝ)) U = 0 := fun U => by simp [cost]
  unfold fgwEntropic fgwCost
  rw [hz, hz]
  unfold entropicObjective at hg
  have hl : l1dist T P = ∑ i, ∑ j, |P i j - T i j| := by
    rw [l1dist_comm]; rfl
  have hl' : l1dist P T = ∑ i, ∑ j, |P i j - T i j| := rfl
  rw [hl] at hg
  rw [hl']
  generalize ∑ i, ∑ j, |P i j - T i j| = l at *
  have hg' : ε / (2 * m) * l ^ 2 ≤ cost (fun i j => α * pgDf symmetric D C1 C2 T i j + c) T + ε * ∑ i, ∑ j, T i j * Real.log (T i j)
      - (cost (fun i j => α * pgDf symmetric D C1 C2 T i j + c) P + ε * ∑ i, ∑ j, P i j * Real.log (P i j)) := by
    rw [div_mul_eq_mul_div, div_le_iff₀ (by positivity)]
    linarith
  rw [hline]
  nlinarith

/-- The start is feasible. -/
theorem epStart_ok {p : I → ℝ} {q : J → ℝ} {m : ℝ} (hp : ∀ i, 0 ≤ p i) (hq : ∀ j, 0 ≤ q j) (hp0 : 0 < ∑ i, p i) (hq0 : 0 < ∑ j, q j)
    (hm : 0 ≤ m) (hmp : m ≤ ∑ i, p i) (hmq : m ≤ ∑ j, q j) :
    IsPartialOf p q m fun i j => p i * q j * m / ((∑ i, p i) * ∑ j, q j) := by
  refine ⟨fun i j => div_nonneg (mul_nonneg (mul_nonneg (hp i) (hq j)) hm) (mul_pos hp0 hq0).le, fun i => ?_, fun j => ?_, ?_⟩
  · have e : ∑ j, p i * q j * m / ((∑ i, p i) * ∑ j, q j) = p i * (m / ∑ i, p i) := by
      rw [← sum_div, ← sum_mul, ← mul_sum]
      field_simp
    rw [e]
    exact mul_le_of_le_one_right (hp i) ((div_le_one hp0).2 hmp)
  · have e : ∑ i, p i * q j * m / ((∑ i, p i) * ∑ j, q j) = q j * (m / ∑ j, q j) := by
      rw [← sum_div, ← sum_mul, ← sum_mul]
      field_simp
    rw [e]
    exact mul_le_of_le_one_right (hq j) ((div_le_one hq0).2 hmq)
  · have e : ∀ i, ∑ j, p i * q j * m / ((∑ i, p i) * ∑ j, q j) = p i * (m / ∑ i, p i) := fun i => by
      rw [← sum_div, ← sum_mul, ← mul_sum]
      field_simp
    simp only [e]
    rw [← sum_mul]
    field_simp

end POT.GwPartialEntropic
