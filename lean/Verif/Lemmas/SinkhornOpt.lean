import Verif.Lemmas.SinkhornConv
import Mathlib.Algebra.Order.Chebyshev

/-! # Entropic optimality, duality and accuracy of Sinkhorn plans -/

set_option linter.unusedSectionVars false

namespace POT.Sinkhorn

open Finset Spec Filter Topology

variable {I J : Type*} [Fintype I] [Fintype J]
variable {a : I → ℝ} {b : J → ℝ}

theorem log_kernel (M : I → J → ℝ) (reg : ℝ) (i : I) (j : J) : Real.log (kernel M reg i j) = -(M i j / reg) := by
  unfold kernel
  rw [Real.log_exp, div_neg]

theorem log_plan {M : I → J → ℝ} {reg : ℝ} {s : UV I J} (hs : Pos s) (i : I) (j : J) :
    Real.log (plan (kernel M reg) s i j) = Real.log (s.u i) + Real.log (s.v j) - M i j / reg := by
  unfold plan
  rw [Real.log_mul (mul_pos (hs.1 i) (kernel_pos M reg i j)).ne' (hs.2 j).ne', Real.log_mul (hs.1 i).ne' (kernel_pos M reg i j).ne',
    log_kernel]
  ring

/-- A positive coupling of the form `exp(x + y - M/reg)` is the unique entropic optimum. -/
theorem optimal_of_form {M P : I → J → ℝ} {reg : ℝ} (hreg : 0 < reg) {x : I → ℝ} {y : J → ℝ} (hP : IsCoupling a b P)
    (hpos : ∀ i j, 0 < P i j) (hform : ∀ i j, Real.log (P i j) = x i + y j - M i j / reg) : IsEntropicOptimal a b M reg P := by
  refine ⟨hP, fun Q hQ => ?_⟩
  have h := entropic_gap hform hpos hreg.ne' hP hQ
  have h0 := klPlan_nonneg hQ.nonneg hpos
  refine ⟨by nlinarith, fun hle => ?_⟩
  refine klPlan_eq_zero hQ.nonneg hpos ?_
  by_contra hc
  push Not at hc
  have := mul_pos hreg hc
  linarith

/-- Entropic weak duality. -/
theorem entropic_weak_duality {M P : I → J → ℝ} {reg : ℝ} (hreg : 0 < reg) (hP : IsCoupling a b P) (f : I → ℝ) (g : J → ℝ) :
    entropicDual a b M reg f g ≤ entropicObjective M reg P - reg * ∑ i, a i := by
  have h0 : ∀ i j, 0 < Real.exp ((f i + g j - M i j) / reg) := fun i j => Real.exp_pos _
  have h := klPlan_nonneg hP.nonneg h0
  rw [klPlan_eq] at h
  have e : ∀ i j, P i j * Real.log (P i j / Real.exp ((f i + g j - M i j) / reg)) - P i j + Real.exp ((f i + g j - M i j) / reg)
      = P i j * Real.log (P i j) - (f i * P i j + g j * P i j - P i j * M i j) / reg - P i j
        + Real.exp ((f i + g j - M i j) / reg) := by
    intro i j
    rcases eq_or_ne (P i j) 0 with hz | hz
    · rw [hz]; simp
    · rw [Real.log_div hz (h0 i j).ne', Real.log_exp]
      ring
  simp only [e] at h
  simp only [sum_add_distrib, sum_sub_distrib, ← sum_div] at h
  have e1 : ∑ i, ∑ j, f i * P i j = ∑ i, f i * a i := sum_congr rfl fun i _ => by rw [← mul_sum, hP.row]
  have e2 : ∑ i, ∑ j, g j * P i j = ∑ j, g j * b j := by
    rw [sum_comm]
    exact sum_congr rfl fun j _ => by rw [← mul_sum, hP.col]
  have e3 : ∑ i, ∑ j, P i j = ∑ i, a i := sum_congr rfl fun i _ => hP.row i
  rw [e1, e2, e3] at h
  unfold entropicDual entropicObjective cost
  have h2 := mul_nonneg hreg.le h
  have e4 : reg * (∑ i, ∑ j, P i j * Real.log (P i j) - (∑ i, f i * a i + ∑ j, g j * b j - ∑ i, ∑ j, P i j * M i j) / reg
      - ∑ i, a i + ∑ i, ∑ j, Real.exp ((f i + g j - M i j) / reg))
      = reg * ∑ i, ∑ j, P i j * Real.log (P i j) - (∑ i, f i * a i + ∑ j, g j * b j - ∑ i, ∑ j, P i j * M i j)
        - reg * ∑ i, a i + reg * ∑ i, ∑ j, Real.exp ((f i + g j - M i j) / reg) := by
    field_simp
  rw [e4] at h2
  linarith

/-- The dual value of the potentials of a coupling of the scaling form. -/
theorem entropic_dual_eq {M P : I → J → ℝ} {reg : ℝ} (hreg : 0 < reg) {f : I → ℝ} {g : J → ℝ} (hP : IsCoupling a b P)
    (hform : ∀ i j, P i j = Real.exp ((f i + g j - M i j) / reg)) :
    entropicDual a b M reg f g = entropicObjective M reg P - reg * ∑ i, a i := by
  unfold entropicDual entropicObjective cost
  have e3 : ∑ i, ∑ j, P i j = ∑ i, a i := sum_congr rfl fun i _ => hP.row i
  have e1 : ∑ i, ∑ j, f i * P i j = ∑ i, f i * a i := sum_congr rfl fun i _ => by rw [← mul_sum, hP.row]
  have e2 : ∑ i, ∑ j, g j * P i j = ∑ j, g j * b j := by
    rw [sum_comm]
    exact sum_congr rfl fun j _ => by rw [← mul_sum, hP.col]
  have e : ∀ i j, reg * (P i j * Real.log (P i j)) = f i * P i j + g j * P i j - P i j * M i j := by
    intro i j
    have : Real.log (P i j) = (f i + g j - M i j) / reg := by rw [hform, Real.log_exp]
    rw [this]
    field_simp
  have e4 : reg * ∑ i, ∑ j, P i j * Real.log (P i j) = ∑ i, f i * a i + ∑ j, g j * b j - ∑ i, ∑ j, P i j * M i j := by
    simp only [mul_sum, e, sum_add_distrib, sum_sub_distrib, e2]
    simp only [← mul_sum, hP.row]
  rw [e4]
  simp only [← hform, e3]
  ring

/-- The symmetrised divergence of two plans with the same rows and of scaling form. -/
theorem sym_kl {P P' : I → J → ℝ} (hpos : ∀ i j, 0 < P i j) (hpos' : ∀ i j, 0 < P' i j)
    (hrow : ∀ i, ∑ j, P i j = a i) (hrow' : ∀ i, ∑ j, P' i j = a i) {x : I → ℝ} {y : J → ℝ}
    (hform : ∀ i j, Real.log (P i j) - Real.log (P' i j) = x i + y j) :
    klPlan P P' + klPlan P' P = ∑ j, (∑ i, P i j - ∑ i, P' i j) * y j := by
  rw [klPlan_eq, klPlan_eq, ← sum_add_distrib]
  simp only [← sum_add_distrib]
  have e : ∀ i j, P i j * Real.log (P i j / P' i j) - P i j + P' i j + (P' i j * Real.log (P' i j / P i j) - P' i j + P i j)
      = x i * P i j - x i * P' i j + (P i j * y j - P' i j * y j) := by
    intro i j
    rw [Real.log_div (hpos i j).ne' (hpos' i j).ne', Real.log_div (hpos' i j).ne' (hpos i j).ne']
    have := hform i j
    have h2 : Real.log (P' i j) - Real.log (P i j) = -(x i + y j) := by linarith
    rw [this, h2]
    ring
  simp only [e, sum_add_distrib, sum_sub_distrib, ← mul_sum, hrow, hrow', sub_self, zero_add]
  rw [sum_comm, sum_comm (f := fun i j => P' i j * y j), ← sum_sub_distrib]
  exact sum_congr rfl fun j _ => by rw [← sum_mul, ← sum_mul]; ring

/-- Oscillation of `log ∑ K u` over the columns. -/
theorem log_ktu_osc {M : I → J → ℝ} {reg m₀ m₁ : ℝ} [Nonempty I] (hreg : 0 < reg) (h0 : ∀ i j, m₀ ≤ M i j) (h1 : ∀ i j, M i j ≤ m₁)
    {u : I → ℝ} (hu : ∀ i, 0 < u i) (j j' : J) :
    Real.log (∑ i, kernel M reg i j * u i) - Real.log (∑ i, kernel M reg i j' * u i) ≤ (m₁ - m₀) / reg := by
  have p : ∀ j, 0 < ∑ i, kernel M reg i j * u i := fun j => sum_pos (fun i _ => mul_pos (kernel_pos M reg i j) (hu i)) univ_nonempty
  rw [← Real.log_div (p j).ne' (p j').ne', Real.log_le_iff_le_exp (div_pos (p j) (p j')), div_le_iff₀ (p j'), mul_sum]
  refine sum_le_sum fun i _ => ?_
  rw [← mul_assoc]
  refine mul_le_mul_of_nonneg_right ?_ (hu i).le
  unfold kernel
  rw [← Real.exp_add]
  refine Real.exp_le_exp.2 ?_
  have h2 := h0 i j
  have h3 := h1 i j'
  have h4 : 0 ≤ (m₁ - M i j' + (M i j - m₀)) / reg := div_nonneg (by linarith) hreg.le
  have e : (m₁ - m₀) / reg + M i j' / -reg - M i j / -reg = (m₁ - M i j' + (M i j - m₀)) / reg := by
    rw [div_neg, div_neg]; ring
  linarith

theorem abs_sum_le_osc [Nonempty J] {d h : J → ℝ} {c : ℝ} (hd : ∑ j, d j = 0) (hh : ∀ j j', h j - h j' ≤ c) :
    ∑ j, d j * h j ≤ (∑ j, |d j|) * c := by
  let j0 := Classical.arbitrary J
  have e : ∑ j, d j * h j = ∑ j, d j * (h j - h j0) := by
    simp only [mul_sub, sum_sub_distrib, ← sum_mul, hd, zero_mul, sub_zero]
  rw [e, sum_mul]
  refine sum_le_sum fun j _ => (le_abs_self _).trans ?_
  rw [abs_mul]
  refine mul_le_mul_of_nonneg_left (abs_le.2 ⟨?_, hh j j0⟩) (abs_nonneg _)
  have := hh j0 j
  linarith

theorem l1_le_norm2 (d : J → ℝ) : ∑ j, |d j| ≤ Real.sqrt (Fintype.card J) * norm2 d := by
  unfold norm2
  rw [← Real.sqrt_mul (by positivity)]
  refine Real.le_sqrt_of_sq_le ?_
  have := sq_sum_le_card_mul_sum_sq (s := univ) (f := fun j => |d j|)
  simpa [sq_abs] using this

/-- How far a Sinkhorn iterate is from the optimum, in terms of its marginal error. -/
theorem accuracy [Nonempty I] [Nonempty J] {M P : I → J → ℝ} {reg m₀ m₁ : ℝ} (hreg : 0 < reg) (h0 : ∀ i j, m₀ ≤ M i j)
    (h1 : ∀ i j, M i j ≤ m₁) (ha : ∀ i, 0 < a i) (hb : ∀ j, 0 < b j) {s : UV I J} (hs : Pos s) {x : I → ℝ} {y : J → ℝ}
    (hP : IsCoupling a b P) (hpos : ∀ i j, 0 < P i j) (hform : ∀ i j, Real.log (P i j) = x i + y j - M i j / reg) :
    klPlan P (plan (kernel M reg) (knoppStep a b (kernel M reg) s))
      + klPlan (plan (kernel M reg) (knoppStep a b (kernel M reg) s)) P
      ≤ Real.sqrt (Fintype.card J) * colErr b (kernel M reg) (knoppStep a b (kernel M reg) s) * (2 * (m₁ - m₀) / reg) := by
  have hK := kernel_pos M reg
  have hst := knoppStep_pos (a := a) (b := b) hK ha hb hs
  have hrow := knoppStep_rows (a := a) (b := b) hK (weights_of_pos hb) (good_of_pos hs.1)
  obtain ⟨t, ht⟩ : ∃ t, knoppStep a b (kernel M reg) s = t := ⟨_, rfl⟩
  have hv : ∀ j, t.v j = b j / ∑ i, kernel M reg i j * s.u i := fun j => by rw [← ht]; rfl
  rw [ht] at hst hrow ⊢
  have hf : ∀ i j, Real.log (P i j) - Real.log (plan (kernel M reg) t i j)
      = (x i - Real.log (t.u i)) + (y j - Real.log (t.v j)) := by
    intro i j
    rw [log_plan hst, hform]
    ring
  rw [sym_kl (a := a) hpos (plan_pos hK hst) hP.row hrow hf]
  have hyj : ∀ j, y j = Real.log (b j) - Real.log (∑ i, kernel M reg i j * Real.exp (x i)) := by
    intro j
    have e : b j = Real.exp (y j) * ∑ i, kernel M reg i j * Real.exp (x i) := by
      rw [← hP.col j, mul_sum]
      refine sum_congr rfl fun i _ => ?_
      rw [← Real.exp_log (hpos i j), hform]
      unfold kernel
      rw [← Real.exp_add, ← Real.exp_add, div_neg]
      congr 1
      ring
    have p : 0 < ∑ i, kernel M reg i j * Real.exp (x i) := sum_pos (fun i _ => mul_pos (hK i j) (Real.exp_pos _)) univ_nonempty
    rw [e, Real.log_mul (Real.exp_pos _).ne' p.ne', Real.log_exp]
    ring
  have hvj : ∀ j, Real.log (t.v j) = Real.log (b j) - Real.log (∑ i, kernel M reg i j * s.u i) := by
    intro j
    rw [hv, Real.log_div (hb j).ne' (sum_pos (fun i _ => mul_pos (hK i j) (hs.1 i)) univ_nonempty).ne']
  have hosc : ∀ j j', (y j - Real.log (t.v j)) - (y j' - Real.log (t.v j')) ≤ 2 * (m₁ - m₀) / reg := by
    intro j j'
    have e1 := log_ktu_osc hreg h0 h1 hs.1 j j'
    have e2 := log_ktu_osc hreg h0 h1 (u := fun i => Real.exp (x i)) (fun i => Real.exp_pos _) j' j
    rw [hyj, hyj, hvj, hvj]
    have : 2 * (m₁ - m₀) / reg = (m₁ - m₀) / reg + (m₁ - m₀) / reg := by ring
    linarith
  have hd : ∑ j, (∑ i, P i j - ∑ i, plan (kernel M reg) t i j) = 0 := by
    rw [sum_sub_distrib, sum_comm, sum_comm (f := fun j i => plan (kernel M reg) t i j)]
    simp only [hP.row, hrow, sub_self]
  refine (abs_sum_le_osc hd hosc).trans ?_
  have hc : 0 ≤ 2 * (m₁ - m₀) / reg := by
    have := h0 (Classical.arbitrary I) (Classical.arbitrary J)
    have := h1 (Classical.arbitrary I) (Classical.arbitrary J)
    exact div_nonneg (by linarith) hreg.le
  refine mul_le_mul_of_nonneg_right ?_ hc
  have e := l1_le_norm2 fun j => ∑ i, plan (kernel M reg) t i j - b j
  refine le_trans (le_of_eq ?_) e
  refine sum_congr rfl fun j _ => ?_
  rw [hP.col, abs_sub_comm]

end POT.Sinkhorn
