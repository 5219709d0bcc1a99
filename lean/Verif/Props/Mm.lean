import Verif.Lemmas.Mm
import Verif.Props.Unbalanced

/-! # C48: `mm_unbalanced` -/

set_option linter.unusedSectionVars false

namespace POT.Props

open Finset Spec Sinkhorn Filter Topology Unbalanced Mm

variable {I J : Type*} [Fintype I] [Fintype J]

theorem mmErr_nonneg (G G' : I → J → ℝ) : 0 ≤ mmErr G G' := Real.sqrt_nonneg _

theorem eq_of_mmErr {G G' : I → J → ℝ} (h : mmErr G G' = 0) : G' = G := by
  have hz := (Real.sqrt_eq_zero (sum_nonneg fun i _ => sum_nonneg fun j _ => sq_nonneg _)).1 h
  funext i j
  have h1 := (sum_eq_zero_iff_of_nonneg fun i _ => sum_nonneg fun j _ => sq_nonneg _).1 hz i (mem_univ i)
  have h2 := (sum_eq_zero_iff_of_nonneg fun j _ => sq_nonneg _).1 h1 j (mem_univ j)
  nlinarith [h2]

theorem iterate_const {S : Type*} {step : S → S} {s : S} {n : ℕ} (h : step^[n + 1] s = step^[n] s) (k : ℕ) : step^[k + (n + 1)] s = step^[n + 1] s := by
  induction k with
  | zero => rw [Nat.zero_add]
  | succ k ih => rw [show k + 1 + (n + 1) = (k + (n + 1)) + 1 by ring, Function.iterate_succ_apply', ih, h, ← Function.iterate_succ_apply' step n s, h]

/-- bounded decreasing sequences have vanishing steps -/
theorem tendsto_step_zero {f : ℕ → ℝ} {B : ℝ} (hd : ∀ n, f (n + 1) ≤ f n) (hb : ∀ n, B ≤ f n) : Tendsto (fun n => f n - f (n + 1)) atTop (𝓝 0) := by
  have h := tendsto_atTop_ciInf (antitone_nat_of_succ_le hd) ⟨B, by rintro _ ⟨n, rfl⟩; exact hb n⟩
  have := h.sub ((tendsto_add_atTop_iff_nat 1).2 h)
  simpa using this

/-- accuracy of the objective from the rate -/
theorem eventually_of_rate {f : ℕ → ℝ} {x C ε : ℝ} (h : ∀ n : ℕ, (n : ℝ) * (f n - x) ≤ C) (hε : 0 < ε) : ∀ᶠ n in atTop, f n < x + ε := by
  obtain ⟨N, hN⟩ := exists_nat_gt (C / ε)
  refine eventually_atTop.2 ⟨N + 1, fun n hn => ?_⟩
  have hn' : (N : ℝ) + 1 ≤ n := by exact_mod_cast hn
  by_contra hc
  push Not at hc
  have h1 : (n : ℝ) * ε ≤ (n : ℝ) * (f n - x) := mul_le_mul_of_nonneg_left (by linarith) (Nat.cast_nonneg n)
  have h2 := (div_lt_iff₀ hε).1 hN
  have h3 : (N : ℝ) * ε < n * ε := mul_lt_mul_of_pos_right (by linarith) hε
  have := h n
  linarith

section kl
variable [Nonempty I] [Nonempty J]

/-- **C48, KL, monotone.** An iteration of `mm_unbalanced(div="kl")` does not increase the objective, except for an error of at most `eps * sum_r * sum(G ** r)` caused by the guard `eps = 1e-16` in the
denominator. -/
theorem C48_kl_monotone (a : I → ℝ) (b : J → ℝ) (M c G : I → J → ℝ) (reg ρ₁ ρ₂ eps : ℝ) (hs : 0 < reg + ρ₁ + ρ₂) (h0 : 0 ≤ reg) (h1 : 0 ≤ ρ₁) (h2 : 0 ≤ ρ₂)
    (ha : ∀ i, 0 < a i) (hb : ∀ j, 0 < b j) (hc : reg = 0 ∨ ∀ i j, 0 < c i j) (he : 0 ≤ eps) (hG : ∀ i j, 0 < G i j) :
    (∀ i j, 0 < mmStepKl eps (mmKernelKl a b M reg c ρ₁ ρ₂) reg ρ₁ ρ₂ G i j) ∧
    unbObjective a b M reg c (some ρ₁) (some ρ₂) (mmStepKl eps (mmKernelKl a b M reg c ρ₁ ρ₂) reg ρ₁ ρ₂ G)
      ≤ unbObjective a b M reg c (some ρ₁) (some ρ₂) G + eps * ((reg + ρ₁ + ρ₂) * ∑ i, ∑ j, G i j ^ (reg / (reg + ρ₁ + ρ₂))) := by
  have hT := mmStepKl_pos (reg := reg) (ρ₁ := ρ₁) (ρ₂ := ρ₂) (mmKernelKl_pos (M := M) (ρ₁ := ρ₁) (ρ₂ := ρ₂) ha hb hc) he hG
  refine ⟨hT, ?_⟩
  have st := mm_kl_step (M := M) hs h1 h2 ha hb hc he hG fun i j => (hG i j).le
  rw [klPlan_self] at st
  have n := mul_nonneg hs.le (klPlan_nonneg (fun i j => (hG i j).le) hT)
  have le : ∑ i, ∑ j, G i j / ((∑ j', G i j') ^ (ρ₁ / (reg + ρ₁ + ρ₂)) * (∑ i', G i' j) ^ (ρ₂ / (reg + ρ₁ + ρ₂))) ≤ ∑ i, ∑ j, G i j ^ (reg / (reg + ρ₁ + ρ₂)) := by
    refine sum_le_sum fun i _ => sum_le_sum fun j _ => ?_
    have g1 : G i j ≤ ∑ j', G i j' := single_le_sum (f := fun j' => G i j') (fun j' _ => (hG i j').le) (mem_univ j)
    have g2 : G i j ≤ ∑ i', G i' j := single_le_sum (f := fun i' => G i' j) (fun i' _ => (hG i' j).le) (mem_univ i)
    have e1 := Real.rpow_le_rpow (hG i j).le g1 (div_nonneg h1 hs.le)
    have e2 := Real.rpow_le_rpow (hG i j).le g2 (div_nonneg h2 hs.le)
    have p1 := Real.rpow_pos_of_pos (hG i j) (ρ₁ / (reg + ρ₁ + ρ₂))
    have p2 := Real.rpow_pos_of_pos (hG i j) (ρ₂ / (reg + ρ₁ + ρ₂))
    rw [div_le_iff₀ (mul_pos (p1.trans_le e1) (p2.trans_le e2))]
    calc G i j = G i j ^ (reg / (reg + ρ₁ + ρ₂)) * (G i j ^ (ρ₁ / (reg + ρ₁ + ρ₂)) * G i j ^ (ρ₂ / (reg + ρ₁ + ρ₂))) := by
          rw [← Real.rpow_add (hG i j), ← Real.rpow_add (hG i j), ← add_div, ← add_div, ← add_assoc, div_self hs.ne', Real.rpow_one]
      _ ≤ _ := mul_le_mul_of_nonneg_left (mul_le_mul e1 e2 p2.le (p1.trans_le e1).le) (Real.rpow_pos_of_pos (hG i j) _).le
  have := mul_le_mul_of_nonneg_left le (mul_nonneg hs.le he)
  linarith

/-- **C48, KL, rate.** After `n` iterations the objective exceeds its value at any plan `P` by at most `(reg_m1 + reg_m2) KL(P | G0) / n` (guard `0`). -/
theorem C48_kl_rate (a : I → ℝ) (b : J → ℝ) (M c G P : I → J → ℝ) (reg ρ₁ ρ₂ : ℝ) (hs : 0 < reg + ρ₁ + ρ₂) (h0 : 0 ≤ reg) (h1 : 0 ≤ ρ₁) (h2 : 0 ≤ ρ₂)
    (ha : ∀ i, 0 < a i) (hb : ∀ j, 0 < b j) (hc : reg = 0 ∨ ∀ i j, 0 < c i j) (hG : ∀ i j, 0 < G i j) (hP : ∀ i j, 0 ≤ P i j) (n : ℕ) :
    (n : ℝ) * (unbObjective a b M reg c (some ρ₁) (some ρ₂) ((mmStepKl 0 (mmKernelKl a b M reg c ρ₁ ρ₂) reg ρ₁ ρ₂)^[n] G) - unbObjective a b M reg c (some ρ₁) (some ρ₂) P)
      ≤ (ρ₁ + ρ₂) * klPlan P G := by
  have hK := mmKernelKl_pos (M := M) (ρ₁ := ρ₁) (ρ₂ := ρ₂) ha hb hc
  have key : (n : ℝ) * (unbObjective a b M reg c (some ρ₁) (some ρ₂) ((mmStepKl 0 (mmKernelKl a b M reg c ρ₁ ρ₂) reg ρ₁ ρ₂)^[n] G) - unbObjective a b M reg c (some ρ₁) (some ρ₂) P)
      + (ρ₁ + ρ₂) * klPlan P ((mmStepKl 0 (mmKernelKl a b M reg c ρ₁ ρ₂) reg ρ₁ ρ₂)^[n] G) ≤ (ρ₁ + ρ₂) * klPlan P G := by
    induction n with
    | zero => simp
    | succ n ih =>
      have hp := mmIterKl_pos (reg := reg) (ρ₁ := ρ₁) (ρ₂ := ρ₂) hK le_rfl hG n
      have hp' := mmIterKl_pos (reg := reg) (ρ₁ := ρ₁) (ρ₂ := ρ₂) hK le_rfl hG (n + 1)
      have st := mm_kl_step (M := M) hs h1 h2 ha hb hc le_rfl hp hP
      have mo := (C48_kl_monotone a b M c _ reg ρ₁ ρ₂ 0 hs h0 h1 h2 ha hb hc le_rfl hp).2
      rw [← Function.iterate_succ_apply' (mmStepKl 0 (mmKernelKl a b M reg c ρ₁ ρ₂) reg ρ₁ ρ₂) n G] at st mo
      have k0 := mul_nonneg h0 (klPlan_nonneg hP hp')
      have mn := mul_le_mul_of_nonneg_left mo (Nat.cast_nonneg (α := ℝ) n)
      push_cast
      linarith
  have := mul_nonneg (add_nonneg h1 h2) (klPlan_nonneg hP (mmIterKl_pos (reg := reg) (ρ₁ := ρ₁) (ρ₂ := ρ₂) hK le_rfl hG n))
  linarith

/-- **C48, KL, regularised: linear convergence.** For `reg > 0` the divergence of the solution from the current plan shrinks by the factor `(reg_m1 + reg_m2) / (reg + reg_m1 + reg_m2)` (guard `0`). -/
theorem C48_kl_linear (a : I → ℝ) (b : J → ℝ) (M c G P : I → J → ℝ) (reg ρ₁ ρ₂ : ℝ) (h0 : 0 < reg) (h1 : 0 ≤ ρ₁) (h2 : 0 ≤ ρ₂)
    (ha : ∀ i, 0 < a i) (hb : ∀ j, 0 < b j) (hc : ∀ i j, 0 < c i j) (hG : ∀ i j, 0 < G i j) (hP : IsUnbOptimal a b M reg c (some ρ₁) (some ρ₂) P) (n : ℕ) :
    klPlan P ((mmStepKl 0 (mmKernelKl a b M reg c ρ₁ ρ₂) reg ρ₁ ρ₂)^[n] G) ≤ ((ρ₁ + ρ₂) / (reg + ρ₁ + ρ₂)) ^ n * klPlan P G := by
  have hs : 0 < reg + ρ₁ + ρ₂ := by linarith
  have hK := mmKernelKl_pos (M := M) (reg := reg) (ρ₁ := ρ₁) (ρ₂ := ρ₂) ha hb (Or.inr hc)
  induction n with
  | zero => simp
  | succ n ih =>
    have hp := mmIterKl_pos (reg := reg) (ρ₁ := ρ₁) (ρ₂ := ρ₂) hK le_rfl hG n
    have hp' := mmIterKl_pos (reg := reg) (ρ₁ := ρ₁) (ρ₂ := ρ₂) hK le_rfl hG (n + 1)
    have st := mm_kl_step (M := M) hs h1 h2 ha hb (Or.inr hc) le_rfl hp hP.1.nonneg
    rw [← Function.iterate_succ_apply' (mmStepKl 0 (mmKernelKl a b M reg c ρ₁ ρ₂) reg ρ₁ ρ₂) n G] at st
    have opt := (hP.2 _ ⟨fun i j => (hp' i j).le, by simp, by simp⟩).1
    have m := mul_le_mul_of_nonneg_left ih (add_nonneg h1 h2)
    rw [pow_succ, mul_right_comm, ← mul_div_assoc, le_div_iff₀ hs]
    linarith

theorem tendsto_of_klPlan {P : I → J → ℝ} {G : ℕ → I → J → ℝ} (hP : ∀ i j, 0 ≤ P i j) (hG : ∀ n i j, 0 < G n i j) (h : Tendsto (fun n => klPlan P (G n)) atTop (𝓝 0)) (i : I) (j : J) :
    Tendsto (fun n => G n i j) atTop (𝓝 (P i j)) := by
  have h1 : Tendsto (fun n => (Real.sqrt (P i j) - Real.sqrt (G n i j)) ^ 2) atTop (𝓝 0) :=
    squeeze_zero (fun n => sq_nonneg _) (fun n => (kl1_ge (hP i j) (hG n i j)).trans (klPlan_entry hP (hG n) i j)) h
  have h2 : Tendsto (fun n => |Real.sqrt (P i j) - Real.sqrt (G n i j)|) atTop (𝓝 0) := by
    have := (Real.continuous_sqrt.tendsto _).comp h1
    simpa [Function.comp_def, Real.sqrt_sq_eq_abs] using this
  have h3 := tendsto_zero_iff_abs_tendsto_zero _ |>.2 h2
  have h4 : Tendsto (fun n => Real.sqrt (G n i j)) atTop (𝓝 (Real.sqrt (P i j))) := by
    have := (tendsto_const_nhds (x := Real.sqrt (P i j))).sub h3
    simpa using this
  have h5 := h4.mul h4
  rw [Real.mul_self_sqrt (hP i j)] at h5
  exact h5.congr fun n => Real.mul_self_sqrt (hG n i j).le

/-- **C48, KL, the call with `reg > 0`.** For every accuracy a small enough threshold and enough iterations make `mm_unbalanced(div="kl")` stop by its test with a plan within that accuracy of the unique
minimiser, from any positive initial plan (guard `0`). -/
theorem C48_kl_call (a : I → ℝ) (b : J → ℝ) (M : I → J → ℝ) (c : Option (I → J → ℝ)) (reg ρ₁ ρ₂ : ℝ) (G0 : Option (I → J → ℝ)) (h0 : 0 < reg) (h1 : 0 ≤ ρ₁) (h2 : 0 ≤ ρ₂)
    (ha : ∀ i, 0 < a i) (hb : ∀ j, 0 < b j) (hc : ∀ C, c = some C → ∀ i j, 0 < C i j) (hG0 : ∀ G, G0 = some G → ∀ i j, 0 < G i j) :
    ∃ P : I → J → ℝ, IsUnbOptimal a b M reg (c.getD fun i j => a i * b j) (some ρ₁) (some ρ₂) P ∧
      ∀ ε > 0, ∃ thr₀ > 0, ∀ thr, 0 < thr → thr ≤ thr₀ → ∃ N, ∀ n ≥ N,
        (mm 0 true a b M reg c ρ₁ ρ₂ G0 n thr).exit = .converged ∧ ∀ i j, |(mm 0 true a b M reg c ρ₁ ρ₂ G0 n thr).s i j - P i j| < ε := by
  obtain ⟨C, hCd⟩ : ∃ C, C = c.getD fun i j => a i * b j := ⟨_, rfl⟩
  have hC : ∀ i j, 0 < C i j := fun i j => by
    rw [hCd]
    cases c with
    | none => exact mul_pos (ha i) (hb j)
    | some c => exact hc c rfl i j
  obtain ⟨G, hGd⟩ : ∃ G, G = G0.getD fun i j => a i * b j := ⟨_, rfl⟩
  have hG : ∀ i j, 0 < G i j := fun i j => by
    rw [hGd]
    cases G0 with
    | none => exact mul_pos (ha i) (hb j)
    | some c => exact hG0 c rfl i j
  obtain ⟨-, P, hP, -⟩ := C49_geometric a b M reg C (some ρ₁) (some ρ₂) h0 (fun r h => by cases h; exact h1) (fun r h => by cases h; exact h2) (Or.inl (by simp)) ha hb hC
  rw [← hCd]
  refine ⟨P, hP, fun ε hε => ?_⟩
  have hK := mmKernelKl_pos (M := M) (reg := reg) (ρ₁ := ρ₁) (ρ₂ := ρ₂) ha hb (Or.inr hC)
  have hp := mmIterKl_pos (reg := reg) (ρ₁ := ρ₁) (ρ₂ := ρ₂) hK le_rfl hG
  have hconv : ∀ i j, Tendsto (fun n => (mmStepKl 0 (mmKernelKl a b M reg C ρ₁ ρ₂) reg ρ₁ ρ₂)^[n] G i j) atTop (𝓝 (P i j)) := by
    refine fun i j => tendsto_of_klPlan hP.1.nonneg hp ?_ i j
    have hr : (ρ₁ + ρ₂) / (reg + ρ₁ + ρ₂) < 1 := by rw [div_lt_one (by linarith)]; linarith
    have lim := (tendsto_pow_atTop_nhds_zero_of_lt_one (div_nonneg (add_nonneg h1 h2) (by linarith)) hr).mul_const (klPlan P G)
    rw [zero_mul] at lim
    exact squeeze_zero (fun n => klPlan_nonneg hP.1.nonneg (hp n)) (fun n => C48_kl_linear a b M C G P reg ρ₁ ρ₂ h0 h1 h2 ha hb hC hG hP n) lim
  have hrun : ∀ n thr, mm 0 true a b M reg c ρ₁ ρ₂ G0 n thr = loop (mmStepKl 0 (mmKernelKl a b M reg C ρ₁ ρ₂) reg ρ₁ ρ₂) (fun _ => False) (fun _ G G' => mmErr G G' < thr) n 0 G := fun n thr => by
    unfold mm mmRef
    rw [if_pos h0, ← hCd, ← hGd]
    rfl
  simp only [hrun]
  refine loop_accuracy (err := mmErr) (Good := fun G => ∀ i j, |G i j - P i j| < ε) (fun _ h => h) ?_ mmErr_nonneg ?_ ?_
  · rw [Filter.eventually_all]
    intro i
    rw [Filter.eventually_all]
    intro j
    exact (Metric.tendsto_nhds.1 (hconv i j)) ε hε
  · intro n he i j
    have hk := iterate_const (eq_of_mmErr he)
    have hcst : Tendsto (fun k => (mmStepKl 0 (mmKernelKl a b M reg C ρ₁ ρ₂) reg ρ₁ ρ₂)^[k + (n + 1)] G i j) atTop
        (𝓝 ((mmStepKl 0 (mmKernelKl a b M reg C ρ₁ ρ₂) reg ρ₁ ρ₂)^[n + 1] G i j)) := tendsto_const_nhds.congr fun k => by rw [hk k]
    rw [tendsto_nhds_unique hcst ((tendsto_add_atTop_iff_nat (n + 1)).2 (hconv i j))]
    simpa using hε
  · have l : Tendsto (fun n => ∑ i, ∑ j, ((mmStepKl 0 (mmKernelKl a b M reg C ρ₁ ρ₂) reg ρ₁ ρ₂)^[n + 1] G i j - (mmStepKl 0 (mmKernelKl a b M reg C ρ₁ ρ₂) reg ρ₁ ρ₂)^[n] G i j) ^ 2) atTop (𝓝 0) := by
      have := tendsto_finsetSum (univ : Finset I) fun i _ => tendsto_finsetSum (univ : Finset J) fun j _ =>
        (((tendsto_add_atTop_iff_nat 1).2 (hconv i j)).sub (hconv i j)).pow 2
      simpa using this
    have := (Real.continuous_sqrt.tendsto _).comp l
    simpa [mmErr, Function.comp_def] using this

/-- the objective controls the mass -/
theorem kl_coercive (a : I → ℝ) (b : J → ℝ) (M : I → J → ℝ) {ρ₁ ρ₂ : ℝ} (h1 : 0 < ρ₁) (h2 : 0 ≤ ρ₂) (ha : ∀ i, 0 < a i) (hb : ∀ j, 0 < b j) (c : I → J → ℝ) :
    ∃ B, ∀ G : I → J → ℝ, (∀ i j, 0 ≤ G i j) → mass G ≤ unbObjective a b M 0 c (some ρ₁) (some ρ₂) G + B := by
  obtain ⟨m, hm⟩ : ∃ m, m = 1 + ∑ i, ∑ j, |M i j| := ⟨_, rfl⟩
  refine ⟨∑ i, ρ₁ * (a i * Real.exp (m / ρ₁) - a i), fun G hG => ?_⟩
  have hM : ∀ i j, |M i j| ≤ m - 1 := fun i j => by
    have e1 := single_le_sum (f := fun j => |M i j|) (fun j _ => abs_nonneg _) (mem_univ j)
    have e2 := single_le_sum (f := fun i => ∑ j, |M i j|) (fun i _ => sum_nonneg fun j _ => abs_nonneg _) (mem_univ i)
    linarith
  have c1 : -((m - 1) * mass G) ≤ cost M G := by
    unfold cost mass
    rw [mul_sum, ← sum_neg_distrib]
    refine sum_le_sum fun i _ => ?_
    rw [mul_sum, ← sum_neg_distrib]
    refine sum_le_sum fun j _ => ?_
    have := mul_le_mul_of_nonneg_right (abs_le.1 (hM i j)).1 (hG i j)
    linarith
  have c2 : m * mass G ≤ ρ₁ * klDivergence (fun i => ∑ j, G i j) a + ∑ i, ρ₁ * (a i * Real.exp (m / ρ₁) - a i) := by
    unfold mass klDivergence
    rw [mul_sum, mul_sum, ← sum_add_distrib]
    refine sum_le_sum fun i _ => ?_
    have hx : 0 ≤ ∑ j, G i j := sum_nonneg fun j _ => hG i j
    have k := kl1_nonneg hx (mul_pos (ha i) (Real.exp_pos (m / ρ₁)))
    rw [log_scale (ha i) (Real.exp_pos _), Real.log_exp] at k
    have := mul_nonneg h1.le k
    have e : ρ₁ * ((∑ j, G i j) * (m / ρ₁)) = m * ∑ j, G i j := by field_simp
    linarith
  have c3 := mul_nonneg h2 (klDivergence_nonneg (p := fun j => ∑ i, G i j) (fun j => sum_nonneg fun i _ => hG i j) hb)
  unfold unbObjective marginalTerm
  dsimp only
  linarith

/-- **C48, KL, the call with `reg = 0`.** For every accuracy a small enough threshold and enough iterations make `mm_unbalanced(div="kl")` stop by its test with a positive plan whose objective is within that
accuracy of the value at any given plan `P`, e.g. at a minimiser (guard `0`). -/
theorem C48_kl_call_unregularised (a : I → ℝ) (b : J → ℝ) (M : I → J → ℝ) (c : Option (I → J → ℝ)) (ρ₁ ρ₂ : ℝ) (G0 : Option (I → J → ℝ)) (h1 : 0 < ρ₁) (h2 : 0 ≤ ρ₂)
    (ha : ∀ i, 0 < a i) (hb : ∀ j, 0 < b j) (hG0 : ∀ G, G0 = some G → ∀ i j, 0 < G i j) (P : I → J → ℝ) (hP : ∀ i j, 0 ≤ P i j) :
    ∀ ε > 0, ∃ thr₀ > 0, ∀ thr, 0 < thr → thr ≤ thr₀ → ∃ N, ∀ n ≥ N,
      (mm 0 true a b M 0 c ρ₁ ρ₂ G0 n thr).exit = .converged ∧
      (∀ i j, 0 < (mm 0 true a b M 0 c ρ₁ ρ₂ G0 n thr).s i j) ∧
      unbObjective a b M 0 (fun i j => a i * b j) (some ρ₁) (some ρ₂) (mm 0 true a b M 0 c ρ₁ ρ₂ G0 n thr).s < unbObjective a b M 0 (fun i j => a i * b j) (some ρ₁) (some ρ₂) P + ε := by
  intro ε hε
  have hs : 0 < 0 + ρ₁ + ρ₂ := by linarith
  obtain ⟨C, hCd⟩ : ∃ C, C = mmRef a b 0 c := ⟨_, rfl⟩
  obtain ⟨G, hGd⟩ : ∃ G, G = G0.getD fun i j => a i * b j := ⟨_, rfl⟩
  have hG : ∀ i j, 0 < G i j := fun i j => by
    rw [hGd]
    cases G0 with
    | none => exact mul_pos (ha i) (hb j)
    | some c => exact hG0 c rfl i j
  have hobj : ∀ Q, unbObjective a b M 0 (fun i j => a i * b j) (some ρ₁) (some ρ₂) Q = unbObjective a b M 0 C (some ρ₁) (some ρ₂) Q := fun Q => by
    simp [unbObjective]
  have hK := mmKernelKl_pos (M := M) (reg := 0) (c := C) (ρ₁ := ρ₁) (ρ₂ := ρ₂) ha hb (Or.inl rfl)
  have hp := mmIterKl_pos (reg := 0) (ρ₁ := ρ₁) (ρ₂ := ρ₂) hK le_rfl hG
  have hB := C48_kl_rate a b M C G P 0 ρ₁ ρ₂ hs le_rfl h1.le h2 ha hb (Or.inl rfl) hG hP
  have hrun : ∀ n thr, mm 0 true a b M 0 c ρ₁ ρ₂ G0 n thr = loop (mmStepKl 0 (mmKernelKl a b M 0 C ρ₁ ρ₂) 0 ρ₁ ρ₂) (fun _ => False) (fun _ G G' => mmErr G G' < thr) n 0 G := fun n thr => by
    unfold mm
    rw [← hCd, ← hGd]
    rfl
  simp only [hrun, hobj]
  refine loop_accuracy (err := mmErr) (Good := fun G => (∀ i j, 0 < G i j) ∧ unbObjective a b M 0 C (some ρ₁) (some ρ₂) G < unbObjective a b M 0 C (some ρ₁) (some ρ₂) P + ε)
    (fun _ h => h) ?_ mmErr_nonneg ?_ ?_
  · exact (eventually_of_rate hB hε).mono fun n hn => ⟨hp n, hn⟩
  · intro n hz
    refine ⟨hp (n + 1), ?_⟩
    have hk := iterate_const (eq_of_mmErr hz)
    obtain ⟨N, hN⟩ := eventually_atTop.1 (eventually_of_rate hB hε)
    have := hN (N + (n + 1)) (by omega)
    rwa [hk N] at this
  · obtain ⟨B, hBd⟩ := kl_coercive a b M h1 h2 ha hb C
    have dec : ∀ n, unbObjective a b M 0 C (some ρ₁) (some ρ₂) ((mmStepKl 0 (mmKernelKl a b M 0 C ρ₁ ρ₂) 0 ρ₁ ρ₂)^[n + 1] G)
        + (0 + ρ₁ + ρ₂) * klPlan ((mmStepKl 0 (mmKernelKl a b M 0 C ρ₁ ρ₂) 0 ρ₁ ρ₂)^[n] G) ((mmStepKl 0 (mmKernelKl a b M 0 C ρ₁ ρ₂) 0 ρ₁ ρ₂)^[n + 1] G)
        ≤ unbObjective a b M 0 C (some ρ₁) (some ρ₂) ((mmStepKl 0 (mmKernelKl a b M 0 C ρ₁ ρ₂) 0 ρ₁ ρ₂)^[n] G) := fun n => by
      have st := mm_kl_step (M := M) (c := C) hs h1.le h2 ha hb (Or.inl rfl) le_rfl (hp n) fun i j => (hp n i j).le
      rw [← Function.iterate_succ_apply' (mmStepKl 0 (mmKernelKl a b M 0 C ρ₁ ρ₂) 0 ρ₁ ρ₂) n G, klPlan_self] at st
      linarith
    have kn : ∀ n, 0 ≤ klPlan ((mmStepKl 0 (mmKernelKl a b M 0 C ρ₁ ρ₂) 0 ρ₁ ρ₂)^[n] G) ((mmStepKl 0 (mmKernelKl a b M 0 C ρ₁ ρ₂) 0 ρ₁ ρ₂)^[n + 1] G) :=
      fun n => klPlan_nonneg (fun i j => (hp n i j).le) (hp (n + 1))
    have mono : ∀ n, unbObjective a b M 0 C (some ρ₁) (some ρ₂) ((mmStepKl 0 (mmKernelKl a b M 0 C ρ₁ ρ₂) 0 ρ₁ ρ₂)^[n + 1] G)
        ≤ unbObjective a b M 0 C (some ρ₁) (some ρ₂) ((mmStepKl 0 (mmKernelKl a b M 0 C ρ₁ ρ₂) 0 ρ₁ ρ₂)^[n] G) := fun n => by
      have := mul_nonneg hs.le (kn n)
      linarith [dec n]
    have mass0 : ∀ n, 0 ≤ mass ((mmStepKl 0 (mmKernelKl a b M 0 C ρ₁ ρ₂) 0 ρ₁ ρ₂)^[n] G) := fun n => sum_nonneg fun i _ => sum_nonneg fun j _ => (hp n i j).le
    have st := tendsto_step_zero (f := fun n => unbObjective a b M 0 C (some ρ₁) (some ρ₂) ((mmStepKl 0 (mmKernelKl a b M 0 C ρ₁ ρ₂) 0 ρ₁ ρ₂)^[n] G)) (B := -B) mono
      (fun n => by have := hBd _ fun i j => (hp n i j).le; have := mass0 n; linarith)
    obtain ⟨S, hS⟩ : ∃ S, S = unbObjective a b M 0 C (some ρ₁) (some ρ₂) G + B := ⟨_, rfl⟩
    have hmass : ∀ n, mass ((mmStepKl 0 (mmKernelKl a b M 0 C ρ₁ ρ₂) 0 ρ₁ ρ₂)^[n] G) ≤ S := fun n => by
      have h : unbObjective a b M 0 C (some ρ₁) (some ρ₂) ((mmStepKl 0 (mmKernelKl a b M 0 C ρ₁ ρ₂) 0 ρ₁ ρ₂)^[n] G) ≤ unbObjective a b M 0 C (some ρ₁) (some ρ₂) G := by
        induction n with
        | zero => exact le_rfl
        | succ n ih => exact (mono n).trans ih
      have := hBd _ fun i j => (hp n i j).le
      linarith
    have hent : ∀ n i j, (mmStepKl 0 (mmKernelKl a b M 0 C ρ₁ ρ₂) 0 ρ₁ ρ₂)^[n] G i j ≤ S := fun n i j =>
      ((single_le_sum (f := fun j => (mmStepKl 0 (mmKernelKl a b M 0 C ρ₁ ρ₂) 0 ρ₁ ρ₂)^[n] G i j) (fun j _ => (hp n i j).le) (mem_univ j)).trans
        (single_le_sum (f := fun i => ∑ j, (mmStepKl 0 (mmKernelKl a b M 0 C ρ₁ ρ₂) 0 ρ₁ ρ₂)^[n] G i j) (fun i _ => sum_nonneg fun j _ => (hp n i j).le) (mem_univ i))).trans (hmass n)
    have hS0 : 0 ≤ S := (mass0 0).trans (hmass 0)
    have l : Tendsto (fun n => ∑ i, ∑ j, ((mmStepKl 0 (mmKernelKl a b M 0 C ρ₁ ρ₂) 0 ρ₁ ρ₂)^[n + 1] G i j - (mmStepKl 0 (mmKernelKl a b M 0 C ρ₁ ρ₂) 0 ρ₁ ρ₂)^[n] G i j) ^ 2) atTop (𝓝 0) := by
      have st2 := st.const_mul (4 * S / (0 + ρ₁ + ρ₂))
      rw [mul_zero] at st2
      refine squeeze_zero (fun n => sum_nonneg fun i _ => sum_nonneg fun j _ => sq_nonneg _) (fun n => ?_) st2
      have := sq_dist_le_kl (p := fun x : I × J => (mmStepKl 0 (mmKernelKl a b M 0 C ρ₁ ρ₂) 0 ρ₁ ρ₂)^[n] G x.1 x.2) (q := fun x : I × J => (mmStepKl 0 (mmKernelKl a b M 0 C ρ₁ ρ₂) 0 ρ₁ ρ₂)^[n + 1] G x.1 x.2)
        (fun x => (hp n x.1 x.2).le) (fun x => hp (n + 1) x.1 x.2) (fun x => hent n x.1 x.2) (fun x => hent (n + 1) x.1 x.2) hS0
      rw [Fintype.sum_prod_type] at this
      refine this.trans ?_
      rw [div_mul_eq_mul_div, le_div_iff₀ hs]
      have := mul_le_mul_of_nonneg_left (le_sub_iff_add_le'.2 (dec n)) (show 0 ≤ 4 * S by linarith)
      unfold klPlan at this
      linarith
    have := (Real.continuous_sqrt.tendsto _).comp l
    simpa [mmErr, Function.comp_def] using this

end kl

/-- **C48, L2, monotone.** An iteration of `mm_unbalanced(div="l2")` keeps the plan non-negative and does not increase the objective for the cost matrix `M + eps`, where `eps = 1e-16` is the guard in
the denominator. -/
theorem C48_l2_monotone (a : I → ℝ) (b : J → ℝ) (M c G : I → J → ℝ) (reg ρ₁ ρ₂ eps : ℝ) (hs : 0 < reg + ρ₁ + ρ₂) (h0 : 0 ≤ reg) (h1 : 0 ≤ ρ₁) (h2 : 0 ≤ ρ₂) (he : 0 ≤ eps) (hG : ∀ i j, 0 ≤ G i j) :
    (∀ i j, 0 ≤ mmStepL2 eps (mmKernelL2 a b M reg c ρ₁ ρ₂) reg ρ₁ ρ₂ G i j) ∧
    unbObjectiveL2 a b (fun i j => M i j + eps) reg c ρ₁ ρ₂ (mmStepL2 eps (mmKernelL2 a b M reg c ρ₁ ρ₂) reg ρ₁ ρ₂ G) ≤ unbObjectiveL2 a b (fun i j => M i j + eps) reg c ρ₁ ρ₂ G := by
  obtain ⟨d1, d2⟩ := mm_l2_decrease (a := a) (b := b) (M := M) (c := c) h0 h1 h2 hs he hG
  have d3 := quad_nonneg h0 h1 h2 fun i j => mmStepL2 eps (mmKernelL2 a b M reg c ρ₁ ρ₂) reg ρ₁ ρ₂ G i j - G i j
  refine ⟨fun i j => ?_, by linarith⟩
  rw [mmStepL2_eq]
  have := den_ge h0 h1 h2 hG i j
  have := mul_nonneg hs.le (hG i j)
  exact div_nonneg (mul_nonneg (le_max_right _ _) (hG i j)) (by linarith)

/-- **C48, L2, rate.** From a positive plan, the objective (for the cost `M + eps`) after `n` iterations exceeds its value at any non-negative plan `P` by at most `C / n`. -/
theorem C48_l2_rate (a : I → ℝ) (b : J → ℝ) (M c G P : I → J → ℝ) (reg ρ₁ ρ₂ eps : ℝ) (hs : 0 < reg + ρ₁ + ρ₂) (h0 : 0 ≤ reg) (h1 : 0 ≤ ρ₁) (h2 : 0 ≤ ρ₂) (he : 0 ≤ eps) (hG : ∀ i j, 0 < G i j)
    (hP : ∀ i j, 0 ≤ P i j) : ∃ C, ∀ n : ℕ, (n : ℝ) * (unbObjectiveL2 a b (fun i j => M i j + eps) reg c ρ₁ ρ₂ ((mmStepL2 eps (mmKernelL2 a b M reg c ρ₁ ρ₂) reg ρ₁ ρ₂)^[n] G)
      - unbObjectiveL2 a b (fun i j => M i j + eps) reg c ρ₁ ρ₂ P) ≤ C :=
  mm_l2_rate h0 h1 h2 hs he hG hP

/-- **C48, L2, the call.** For every accuracy a small enough threshold and enough iterations make `mm_unbalanced(div="l2")` stop by its test with a plan whose objective (for the cost `M + eps`) is within that
accuracy of the value at any given plan `P`, e.g. at a minimiser. -/
theorem C48_l2_call (a : I → ℝ) (b : J → ℝ) (M : I → J → ℝ) (c : Option (I → J → ℝ)) (reg ρ₁ ρ₂ eps : ℝ) (G0 : Option (I → J → ℝ)) (hs : 0 < reg + ρ₁ + ρ₂) (h0 : 0 ≤ reg) (h1 : 0 ≤ ρ₁) (h2 : 0 ≤ ρ₂)
    (he : 0 ≤ eps) (ha : ∀ i, 0 < a i) (hb : ∀ j, 0 < b j) (hG0 : ∀ G, G0 = some G → ∀ i j, 0 < G i j) (P : I → J → ℝ) (hP : ∀ i j, 0 ≤ P i j) :
    ∀ ε > 0, ∃ thr₀ > 0, ∀ thr, 0 < thr → thr ≤ thr₀ → ∃ N, ∀ n ≥ N,
      (mm eps false a b M reg c ρ₁ ρ₂ G0 n thr).exit = .converged ∧
      (∀ i j, 0 ≤ (mm eps false a b M reg c ρ₁ ρ₂ G0 n thr).s i j) ∧
      unbObjectiveL2 a b (fun i j => M i j + eps) reg (c.getD fun i j => a i * b j) ρ₁ ρ₂ (mm eps false a b M reg c ρ₁ ρ₂ G0 n thr).s
        < unbObjectiveL2 a b (fun i j => M i j + eps) reg (c.getD fun i j => a i * b j) ρ₁ ρ₂ P + ε := by
  intro ε hε
  obtain ⟨C, hCd⟩ : ∃ C, C = mmRef a b reg c := ⟨_, rfl⟩
  obtain ⟨G, hGd⟩ : ∃ G, G = G0.getD fun i j => a i * b j := ⟨_, rfl⟩
  have hG : ∀ i j, 0 < G i j := fun i j => by
    rw [hGd]
    cases G0 with
    | none => exact mul_pos (ha i) (hb j)
    | some c => exact hG0 c rfl i j
  have hobj : ∀ Q, unbObjectiveL2 a b (fun i j => M i j + eps) reg (c.getD fun i j => a i * b j) ρ₁ ρ₂ Q = unbObjectiveL2 a b (fun i j => M i j + eps) reg C ρ₁ ρ₂ Q := fun Q => by
    rw [hCd]
    unfold mmRef
    rcases h0.eq_or_lt with rfl | h
    · simp [unbObjectiveL2]
    · rw [if_pos h]
  have sup := mmIterL2_supp (a := a) (b := b) (M := M) (c := C) h0 h1 h2 hs he hG
  obtain ⟨B, hB⟩ := mm_l2_rate (a := a) (b := b) (M := M) (c := C) h0 h1 h2 hs he hG hP
  have hrun : ∀ n thr, mm eps false a b M reg c ρ₁ ρ₂ G0 n thr = loop (mmStepL2 eps (mmKernelL2 a b M reg C ρ₁ ρ₂) reg ρ₁ ρ₂) (fun _ => False) (fun _ G G' => mmErr G G' < thr) n 0 G := fun n thr => by
    unfold mm
    rw [← hCd, ← hGd]
    rfl
  simp only [hrun, hobj]
  refine loop_accuracy (err := mmErr) (Good := fun G => (∀ i j, 0 ≤ G i j) ∧ unbObjectiveL2 a b (fun i j => M i j + eps) reg C ρ₁ ρ₂ G < unbObjectiveL2 a b (fun i j => M i j + eps) reg C ρ₁ ρ₂ P + ε)
    (fun _ h => h) ?_ mmErr_nonneg ?_ ?_
  · exact (eventually_of_rate hB hε).mono fun n hn => ⟨(sup n).1, hn⟩
  · intro n hz
    refine ⟨(sup (n + 1)).1, ?_⟩
    have hk := iterate_const (eq_of_mmErr hz)
    obtain ⟨N, hN⟩ := eventually_atTop.1 (eventually_of_rate hB hε)
    have := hN (N + (n + 1)) (by omega)
    rwa [hk N] at this
  · have dec : ∀ n, unbObjectiveL2 a b (fun i j => M i j + eps) reg C ρ₁ ρ₂ ((mmStepL2 eps (mmKernelL2 a b M reg C ρ₁ ρ₂) reg ρ₁ ρ₂)^[n + 1] G)
        + (reg + ρ₁ + ρ₂) / 2 * ∑ i, ∑ j, ((mmStepL2 eps (mmKernelL2 a b M reg C ρ₁ ρ₂) reg ρ₁ ρ₂)^[n + 1] G i j - (mmStepL2 eps (mmKernelL2 a b M reg C ρ₁ ρ₂) reg ρ₁ ρ₂)^[n] G i j) ^ 2
        ≤ unbObjectiveL2 a b (fun i j => M i j + eps) reg C ρ₁ ρ₂ ((mmStepL2 eps (mmKernelL2 a b M reg C ρ₁ ρ₂) reg ρ₁ ρ₂)^[n] G) := fun n => by
      obtain ⟨-, d2⟩ := mm_l2_decrease (a := a) (b := b) (M := M) (c := C) h0 h1 h2 hs he (sup n).1
      rw [← Function.iterate_succ_apply' (mmStepL2 eps (mmKernelL2 a b M reg C ρ₁ ρ₂) reg ρ₁ ρ₂) n G] at d2
      refine le_trans ?_ d2
      rw [div_mul_eq_mul_div, mul_sum]
      simp only [mul_sum]
      refine add_le_add le_rfl (div_le_div_of_nonneg_right (sum_le_sum fun i _ => sum_le_sum fun j _ => ?_) (by norm_num))
      rcases ((sup n).1 i j).eq_or_lt with h | h
      · have : (mmStepL2 eps (mmKernelL2 a b M reg C ρ₁ ρ₂) reg ρ₁ ρ₂)^[n + 1] G i j = 0 := by
          rw [Function.iterate_succ_apply', mmStepL2_eq, ← h]; simp
        rw [this, ← h]; simp
      · refine mul_le_mul_of_nonneg_right ?_ (sq_nonneg _)
        rw [le_div_iff₀ h]
        have := den_ge h0 h1 h2 (sup n).1 i j
        linarith
    have st := tendsto_step_zero (f := fun n => unbObjectiveL2 a b (fun i j => M i j + eps) reg C ρ₁ ρ₂ ((mmStepL2 eps (mmKernelL2 a b M reg C ρ₁ ρ₂) reg ρ₁ ρ₂)^[n] G))
      (fun n => (C48_l2_monotone a b M C _ reg ρ₁ ρ₂ eps hs h0 h1 h2 he (sup n).1).2.trans_eq' (by rw [Function.iterate_succ_apply']))
      (fun n => l2_bounded (a := a) (b := b) (M := M) (c := C) h0 h1 h2 hs he (sup n).1)
    have l : Tendsto (fun n => ∑ i, ∑ j, ((mmStepL2 eps (mmKernelL2 a b M reg C ρ₁ ρ₂) reg ρ₁ ρ₂)^[n + 1] G i j - (mmStepL2 eps (mmKernelL2 a b M reg C ρ₁ ρ₂) reg ρ₁ ρ₂)^[n] G i j) ^ 2) atTop (𝓝 0) := by
      have st2 := st.const_mul (2 / (reg + ρ₁ + ρ₂))
      rw [mul_zero] at st2
      refine squeeze_zero (fun n => sum_nonneg fun i _ => sum_nonneg fun j _ => sq_nonneg _) (fun n => ?_) st2
      rw [div_mul_eq_mul_div, le_div_iff₀ hs]
      have := dec n
      linarith
    have := (Real.continuous_sqrt.tendsto _).comp l
    simpa [mmErr, Function.comp_def] using this

/-- **C48, L2, the plan.** If `reg > 0` the objective is strongly convex: a plan whose objective is within `δ` of that of a minimiser `P` is at squared distance at most `2 δ / reg` from it, so the
accuracy of the objective in `C48_l2_call` is one of the plan. -/
theorem C48_l2_plan (a : I → ℝ) (b : J → ℝ) (M c G P : I → J → ℝ) (reg ρ₁ ρ₂ eps : ℝ) (h0 : 0 < reg) (h1 : 0 ≤ ρ₁) (h2 : 0 ≤ ρ₂) (hG : ∀ i j, 0 ≤ G i j) (hP : ∀ i j, 0 ≤ P i j)
    (hopt : ∀ Q : I → J → ℝ, (∀ i j, 0 ≤ Q i j) → unbObjectiveL2 a b (fun i j => M i j + eps) reg c ρ₁ ρ₂ P ≤ unbObjectiveL2 a b (fun i j => M i j + eps) reg c ρ₁ ρ₂ Q) :
    reg / 2 * ∑ i, ∑ j, (G i j - P i j) ^ 2 ≤ unbObjectiveL2 a b (fun i j => M i j + eps) reg c ρ₁ ρ₂ G - unbObjectiveL2 a b (fun i j => M i j + eps) reg c ρ₁ ρ₂ P := by
  have cv := objective_convex (a := a) (b := b) (M := M) (c := c) (eps := eps) h0.le h1 h2 P G
  obtain ⟨L, hL⟩ : ∃ L, L = ∑ i, ∑ j, (den reg ρ₁ ρ₂ P i j + eps - lin a b M reg c ρ₁ ρ₂ i j) * (G i j - P i j) := ⟨_, rfl⟩
  obtain ⟨q, hq⟩ : ∃ q, q = quad reg ρ₁ ρ₂ fun i j => G i j - P i j := ⟨_, rfl⟩
  have hq0 : 0 ≤ q := hq ▸ quad_nonneg h0.le h1 h2 _
  have seg : ∀ t : ℝ, 0 < t → t ≤ 1 → 0 ≤ L + t * q := fun t t0 t1 => by
    have o := hopt (fun i j => P i j + t * (G i j - P i j)) fun i j => by
      have a1 := mul_nonneg (sub_nonneg.2 t1) (hP i j)
      have a2 := mul_nonneg t0.le (hG i j)
      linarith
    rw [objective_convex (a := a) (b := b) (M := M) (c := c) (eps := eps) h0.le h1 h2 P fun i j => P i j + t * (G i j - P i j)] at o
    have e1 : ∑ i, ∑ j, (den reg ρ₁ ρ₂ P i j + eps - lin a b M reg c ρ₁ ρ₂ i j) * (P i j + t * (G i j - P i j) - P i j) = t * L := by
      rw [hL]
      simp only [mul_sum]
      exact sum_congr rfl fun i _ => sum_congr rfl fun j _ => by ring
    have e2 : quad reg ρ₁ ρ₂ (fun i j => P i j + t * (G i j - P i j) - P i j) = t ^ 2 * q := by
      rw [hq]
      unfold quad
      simp only [add_sub_cancel_left, ← mul_sum, mul_pow]
      ring
    rw [e1, e2] at o
    have : 0 ≤ t * (L + t * q) := by linarith
    exact nonneg_of_mul_nonneg_right this t0
  have hL0 : 0 ≤ L := by
    by_contra hneg
    push Not at hneg
    rcases hq0.eq_or_lt with hz | hz
    · have := seg 1 one_pos le_rfl
      rw [← hz] at this
      linarith
    · have hpos : 0 < -L / (2 * q) := div_pos (by linarith) (by linarith)
      have := seg (min 1 (-L / (2 * q))) (lt_min one_pos hpos) (min_le_left _ _)
      have le := mul_le_mul_of_nonneg_right (min_le_right 1 (-L / (2 * q))) hz.le
      have e : -L / (2 * q) * q = -L / 2 := by field_simp
      linarith
  have hqr : reg / 2 * ∑ i, ∑ j, (G i j - P i j) ^ 2 ≤ q := by
    rw [hq]
    unfold quad
    have a1 := mul_nonneg h1 (sum_nonneg fun i (_ : i ∈ univ) => sq_nonneg (∑ j, (G i j - P i j)))
    have a2 := mul_nonneg h2 (sum_nonneg fun j (_ : j ∈ univ) => sq_nonneg (∑ i, (G i j - P i j)))
    linarith
  rw [cv, ← hL, ← hq]
  linarith

theorem klDivMass_bounds {L : Type*} [Fintype L] {eps : ℝ} (he : 0 ≤ eps) {p q : L → ℝ} (hp : ∀ l, 0 ≤ p l) (hq : ∀ l, 0 < q l) :
    klDivergence p q ≤ klDivMass eps p q ∧ klDivMass eps p q ≤ klDivergence p q + eps * ∑ l, q l := by
  have ent : ∀ l, p l * Real.log (p l / q l) ≤ p l * Real.log (p l / q l + eps) ∧ p l * Real.log (p l / q l + eps) ≤ p l * Real.log (p l / q l) + eps * q l := fun l => by
    rcases (hp l).eq_or_lt with h | h
    · rw [← h]
      have := mul_nonneg he (hq l).le
      simp only [zero_mul, zero_add]
      exact ⟨le_rfl, this⟩
    · have hx := div_pos h (hq l)
      refine ⟨mul_le_mul_of_nonneg_left (Real.log_le_log hx (by linarith)) h.le, ?_⟩
      have l1 := Real.log_le_sub_one_of_pos (show 0 < (p l / q l + eps) / (p l / q l) from div_pos (by linarith) hx)
      rw [Real.log_div (by linarith) hx.ne'] at l1
      have l2 := mul_le_mul_of_nonneg_left l1 h.le
      have e : p l * ((p l / q l + eps) / (p l / q l) - 1) = eps * q l := by
        have := (hq l).ne'
        field_simp
        ring
      linarith
  have e : klDivergence p q = ∑ l, p l * Real.log (p l / q l) + ∑ l, (q l - p l) := by
    unfold klDivergence
    rw [← sum_add_distrib]
    exact sum_congr rfl fun l _ => by ring
  rw [e]
  unfold klDivMass
  have s1 := sum_le_sum fun l (_ : l ∈ univ) => (ent l).1
  have s2 := sum_le_sum fun l (_ : l ∈ univ) => (ent l).2
  rw [sum_add_distrib, ← mul_sum] at s2
  exact ⟨by linarith, by linarith⟩

/-- **C48, the reported cost.** The entry `total_cost` is the value of the objective at the returned plan: exactly for `div="l2"`, and for `div="kl"` up to the guard `eps = 1e-16` in the logarithms. -/
theorem C48_total_cost (a : I → ℝ) (b : J → ℝ) (M : I → J → ℝ) (c : Option (I → J → ℝ)) (reg ρ₁ ρ₂ eps : ℝ) (G : I → J → ℝ) (h0 : 0 ≤ reg) (h1 : 0 ≤ ρ₁) (h2 : 0 ≤ ρ₂) (he : 0 ≤ eps)
    (ha : ∀ i, 0 < a i) (hb : ∀ j, 0 < b j) (hc : ∀ C, c = some C → ∀ i j, 0 < C i j) (hG : ∀ i j, 0 ≤ G i j) :
    mmTotalCost eps false a b M reg c ρ₁ ρ₂ G = unbObjectiveL2 a b M reg (c.getD fun i j => a i * b j) ρ₁ ρ₂ G ∧
    unbObjective a b M reg (c.getD fun i j => a i * b j) (some ρ₁) (some ρ₂) G ≤ mmTotalCost eps true a b M reg c ρ₁ ρ₂ G ∧
    mmTotalCost eps true a b M reg c ρ₁ ρ₂ G ≤ unbObjective a b M reg (c.getD fun i j => a i * b j) (some ρ₁) (some ρ₂) G
      + eps * (ρ₁ * ∑ i, a i + ρ₂ * ∑ j, b j + reg * mass (c.getD fun i j => a i * b j)) := by
  have hC : ∀ i j, 0 < (c.getD fun i j => a i * b j) i j := fun i j => by
    cases c with
    | none => exact mul_pos (ha i) (hb j)
    | some c => exact hc c rfl i j
  have lin : ∑ i, ∑ j, G i j * M i j = cost M G := rfl
  obtain ⟨k1, k2⟩ := klDivMass_bounds he (p := fun i => ∑ j, G i j) (fun i => sum_nonneg fun j _ => hG i j) ha
  obtain ⟨k3, k4⟩ := klDivMass_bounds he (p := fun j => ∑ i, G i j) (fun j => sum_nonneg fun i _ => hG i j) hb
  obtain ⟨k5, k6⟩ := klDivMass_bounds he (p := fun x : I × J => G x.1 x.2) (fun x => hG x.1 x.2) (q := fun x => (c.getD fun i j => a i * b j) x.1 x.2) fun x => hC x.1 x.2
  rw [Fintype.sum_prod_type] at k6
  have m1 := mul_le_mul_of_nonneg_left k1 h1
  have m2 := mul_le_mul_of_nonneg_left k2 h1
  have m3 := mul_le_mul_of_nonneg_left k3 h2
  have m4 := mul_le_mul_of_nonneg_left k4 h2
  have m5 := mul_le_mul_of_nonneg_left k5 h0
  have m6 := mul_le_mul_of_nonneg_left k6 h0
  rcases h0.eq_or_lt with rfl | h
  · unfold mmTotalCost unbObjectiveL2 unbObjective marginalTerm l2Divergence
    simp only [lt_irrefl, if_false, if_true, lin, Bool.false_eq_true, zero_mul, add_zero]
    exact ⟨by ring, by linarith, by linarith⟩
  · unfold mmTotalCost unbObjectiveL2 unbObjective marginalTerm l2Divergence mmRef mass klPlan
    simp only [h, if_true, if_false, lin, Bool.false_eq_true, Fintype.sum_prod_type]
    exact ⟨by ring, by linarith, by linarith⟩

/-- The hypotheses on a concrete problem, for both divergences. -/
example : ∃ P : Fin 2 → Fin 2 → ℝ, IsUnbOptimal (fun _ => 1) (fun _ => 2) (fun _ _ => 1) 1 (fun _ _ => 2) (some 3) (some 1) P := by
  obtain ⟨P, h, -⟩ := C48_kl_call (I := Fin 2) (J := Fin 2) (fun _ => 1) (fun _ => 2) (fun _ _ => 1) (some fun _ _ => 2) 1 3 1 none one_pos (by norm_num) (by norm_num) (fun _ => one_pos) (fun _ => two_pos)
    (fun C h i j => by cases h; norm_num) (by simp)
  exact ⟨P, h⟩

example := C48_l2_call (I := Fin 2) (J := Fin 2) (fun _ => 1) (fun _ => 2) (fun i j => if i = j then 5 else 0) none 0 3 1 (1 / 10 ^ 16) none (by norm_num) le_rfl (by norm_num) (by norm_num) (by norm_num)
  (fun _ => one_pos) (fun _ => two_pos) (by simp) (fun _ _ => 1) (fun _ _ => by norm_num) 1 one_pos

end POT.Props
