import Verif.Lemmas.Scaling
import Mathlib.Tactic.FieldSimp
import Mathlib.Tactic.LinearCombination

/-! # Fixed points of the debiased iteration minimise the weighted sum of Sinkhorn divergences -/

set_option linter.unusedSectionVars false

namespace POT.Debiased

open Finset Spec Sinkhorn EntBary Scaling

variable {I S : Type*} [Fintype I] [Fintype S] [Nonempty I] [Nonempty S]

/-- lower bound for the objective of a plan to another histogram -/
theorem obj_lower {K : I → I → ℝ} {A : I → S → ℝ} {w : S → ℝ} (h : Ok K A w) {u : I → S → ℝ} (hu : ∀ j s, 0 < u j s) {b : I → ℝ} (hb : ∀ j, 0 < b j) (he : ∀ j s, ukv K A u j s = b j)
    (s : S) {q : I → ℝ} (hq0 : ∀ j, 0 ≤ q j) (hq1 : ∑ j, q j = 1) {Q : I → I → ℝ} (hQ : IsCoupling (fun i => A i s) q Q) :
    rowVal K A u s + ∑ j, q j * Real.log (u j s) + ∑ j, q j * Real.log (q j / b j) ≤ obj1 K Q := by
  have hz : ∀ i j, planU K A u s i j * (q j / b j) = 0 → Q i j = 0 := by
    intro i j e
    rcases mul_eq_zero.1 e with e | e
    · exact row_zero hQ.nonneg hQ.row (plan_zero h hu e) j
    · have : q j = 0 := by
        rcases div_eq_zero_iff.1 e with e | e
        · exact e
        · exact absurd e (hb j).ne'
      exact row_zero (Q := fun j i => Q i j) (fun j i => hQ.nonneg i j) hQ.col this i
  have hn : 0 ≤ klPlan Q (fun i j => planU K A u s i j * (q j / b j)) :=
    kl_nonneg' (fun x => hQ.nonneg x.1 x.2) (fun x => mul_nonneg (plan_nonneg h hu s x.1 x.2) (div_nonneg (hq0 _) (hb _).le)) fun x => hz x.1 x.2
  have e : ∀ i j, Q i j * Real.log (Q i j / planU K A u s i j) - Q i j + planU K A u s i j =
      (Q i j * Real.log (Q i j / (planU K A u s i j * (q j / b j))) - Q i j + planU K A u s i j * (q j / b j)) + Q i j * Real.log (q j / b j)
        + (planU K A u s i j - planU K A u s i j * (q j / b j)) := by
    intro i j
    by_cases hQ0 : Q i j = 0
    · rw [hQ0]; ring
    · have hne : planU K A u s i j * (q j / b j) ≠ 0 := fun e => hQ0 (hz i j e)
      rw [← div_div, Real.log_div (div_ne_zero hQ0 (left_ne_zero_of_mul hne)) (right_ne_zero_of_mul hne)]
      ring
  have e0 := obj_eq h hu s hQ.nonneg hQ.row
  rw [klPlan_eq] at hn e0
  simp_rw [e, sum_add_distrib] at e0
  simp_rw [sum_add_distrib] at hn
  have e1 : ∑ i, ∑ j, Q i j * Real.log (q j / b j) = ∑ j, q j * Real.log (q j / b j) := by
    rw [sum_comm]
    exact sum_congr rfl fun j _ => by rw [← sum_mul, hQ.col]
  have e2 : ∑ i, ∑ j, (planU K A u s i j - planU K A u s i j * (q j / b j)) = 0 := by
    simp_rw [sum_sub_distrib]
    rw [sum_congr rfl fun i _ => plan_row h hu i s, h.mass s, sum_comm]
    rw [sum_congr rfl fun j _ => by rw [← sum_mul, plan_col, he, mul_div_cancel₀ _ (hb j).ne'], hq1, sub_self]
  have e3 : ∀ j, ∑ i, Q i j = q j := hQ.col
  simp_rw [e3] at e0
  rw [e1, e2] at e0
  linarith

/-- the quadratic form of the kernel -/
def quad (K : I → I → ℝ) (x y : I → ℝ) : ℝ := ∑ i, x i * ∑ j, K i j * y j

theorem quad_comm {K : I → I → ℝ} (hs : ∀ i j, K i j = K j i) (x y : I → ℝ) : quad K x y = quad K y x := by
  unfold quad
  simp_rw [mul_sum]
  rw [sum_comm]
  exact sum_congr rfl fun i _ => sum_congr rfl fun j _ => by rw [hs]; ring

theorem quad_sub {K : I → I → ℝ} (hs : ∀ i j, K i j = K j i) (x y : I → ℝ) : quad K (fun i => x i - y i) (fun i => x i - y i) = quad K x x - 2 * quad K x y + quad K y y := by
  have e : quad K (fun i => x i - y i) (fun i => x i - y i) = quad K x x - quad K x y - quad K y x + quad K y y := by
    unfold quad
    rw [← sum_sub_distrib, ← sum_sub_distrib, ← sum_add_distrib]
    refine sum_congr rfl fun i _ => ?_
    have : ∑ j, K i j * (x j - y j) = ∑ j, K i j * x j - ∑ j, K i j * y j := by
      rw [← sum_sub_distrib]; exact sum_congr rfl fun j _ => by ring
    rw [this]; ring
  rw [e, quad_comm hs y x]; ring

/-- **Global optimality of the fixed points.** -/
theorem static {K : I → I → ℝ} {A : I → S → ℝ} {w : S → ℝ} (h : Ok K A w) (hs : ∀ i j, K i j = K j i)
    {u : I → S → ℝ} (hu : ∀ j s, 0 < u j s) {b c : I → ℝ} (hb : ∀ j, 0 < b j) (hb1 : ∑ j, b j = 1) (hc : ∀ j, 0 < c j) (he : ∀ j s, ukv K A u j s = b j)
    (hcb : ∀ j, c j * ∑ i, K j i * c i = b j) (hlog : ∀ j, ∑ s, w s * Real.log (u j s) = Real.log (c j))
    {q d : I → ℝ} (hq0 : ∀ j, 0 ≤ q j) (hq1 : ∑ j, q j = 1) (hd : ∀ j, 0 ≤ d j) (hdq : ∀ j, d j * ∑ i, K j i * d i = q j)
    {Q : S → I → I → ℝ} (hQ : ∀ s, IsCoupling (fun i => A i s) q (Q s)) :
    ∑ s, w s * rowVal K A u s + quad K (fun i => d i - c i) (fun i => d i - c i) / 2 ≤ ∑ s, w s * obj1 K (Q s) - ∑ j, q j * Real.log (d j) := by
  have Kc : ∀ j, 0 < ∑ i, K j i * c i := fun j => sum_pos (fun i _ => mul_pos (h.kpos j i) (hc i)) univ_nonempty
  have l1 : ∑ s, w s * rowVal K A u s + ∑ j, q j * Real.log (c j) + ∑ j, q j * Real.log (q j / b j) ≤ ∑ s, w s * obj1 K (Q s) := by
    have := sum_le_sum fun s (_ : s ∈ univ) => mul_le_mul_of_nonneg_left (obj_lower h hu hb he s hq0 hq1 (hQ s)) (h.wpos s).le
    refine le_trans (le_of_eq ?_) this
    simp_rw [mul_add, sum_add_distrib]
    rw [← sum_mul, h.wsum, one_mul]
    congr 2
    simp_rw [mul_sum]
    rw [sum_comm]
    refine sum_congr rfl fun j _ => ?_
    rw [← hlog, mul_sum]
    exact sum_congr rfl fun s _ => by ring
  have dpos : ∀ j, 0 < q j → 0 < d j := fun j hj => lt_of_le_of_ne (hd j) fun e => by
    have := hdq j
    rw [← e, zero_mul] at this
    exact hj.ne this
  have hz : ∀ j, d j * ∑ i, K j i * c i = 0 → q j = 0 := fun j e => by
    rcases mul_eq_zero.1 e with e | e
    · rw [← hdq, e, zero_mul]
    · exact absurd e (Kc j).ne'
  have kl : 0 ≤ klDivergence q (fun j => d j * ∑ i, K j i * c i) := kl_nonneg' hq0 (fun j => mul_nonneg (hd j) (Kc j).le) hz
  unfold klDivergence at kl
  have e1 : ∀ j, q j * Real.log (q j / (d j * ∑ i, K j i * c i)) = q j * Real.log (c j) + q j * Real.log (q j / b j) - q j * Real.log (d j) := by
    intro j
    rcases (hq0 j).eq_or_lt with e | e
    · rw [← e]; ring
    · rw [Real.log_div e.ne' (mul_pos (dpos j e) (Kc j)).ne', Real.log_mul (dpos j e).ne' (Kc j).ne', Real.log_div e.ne' (hb j).ne', ← hcb j, Real.log_mul (hc j).ne' (Kc j).ne']
      ring
  have e2 : ∑ j, (q j * Real.log (q j / (d j * ∑ i, K j i * c i)) - q j + d j * ∑ i, K j i * c i)
      = ∑ j, q j * Real.log (c j) + ∑ j, q j * Real.log (q j / b j) - ∑ j, q j * Real.log (d j) - 1 + quad K d c := by
    simp_rw [e1, sum_add_distrib, sum_sub_distrib, sum_add_distrib]
    rw [hq1]
    rfl
  rw [e2] at kl
  have e3 : quad K d d = 1 := by unfold quad; rw [← hq1]; exact sum_congr rfl fun j _ => hdq j
  have e4 : quad K c c = 1 := by unfold quad; rw [← hb1]; exact sum_congr rfl fun j _ => hcb j
  have e5 := quad_sub hs d c
  rw [e3, e4] at e5
  linarith

end POT.Debiased
