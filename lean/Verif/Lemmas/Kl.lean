import Verif.Spec.Entropic
import Verif.Lemmas.Transport
import Mathlib.Analysis.SpecialFunctions.Sqrt
import Mathlib.Algebra.BigOperators.Field
import Mathlib.Tactic.Ring
import Mathlib.Tactic.Linarith
import Mathlib.Tactic.FieldSimp
import Mathlib.Tactic.LinearCombination
import Mathlib.Tactic.Positivity

/-! # Kullback-Leibler divergence: Hellinger lower bound, effect of rescaling rows and columns, Gibbs inequality -/

set_option linter.unusedSectionVars false

namespace POT

open Finset Spec

variable {I J : Type*} [Fintype I] [Fintype J]

/-- `x log(x/y) - x + y ≥ (√x - √y)²`. -/
theorem kl1_ge {x y : ℝ} (hx : 0 ≤ x) (hy : 0 < y) :
    (Real.sqrt x - Real.sqrt y) ^ 2 ≤ x * Real.log (x / y) - x + y := by
  rcases hx.eq_or_lt with rfl | hx
  · simp [Real.sq_sqrt hy.le]
  · have hs := Real.sqrt_pos.2 hx
    have ht := Real.sqrt_pos.2 hy
    have es := Real.sq_sqrt hx.le
    have et := Real.sq_sqrt hy.le
    have h1 : Real.log (x / y) = 2 * Real.log (Real.sqrt x / Real.sqrt y) := by
      rw [← Real.sqrt_div hx.le, Real.log_sqrt (by positivity)]; ring
    have h2 : Real.log (Real.sqrt x / Real.sqrt y) = -Real.log (Real.sqrt y / Real.sqrt x) := by
      rw [← Real.log_inv, inv_div]
    have h3 := Real.log_le_sub_one_of_pos (div_pos ht hs)
    have h4 : x * (Real.sqrt y / Real.sqrt x) = Real.sqrt x * Real.sqrt y := by
      nth_rw 1 [← es]; field_simp
    have h5 := mul_le_mul_of_nonneg_left h3 hx.le
    rw [h1, h2]
    nlinarith

theorem kl1_nonneg {x y : ℝ} (hx : 0 ≤ x) (hy : 0 < y) : 0 ≤ x * Real.log (x / y) - x + y :=
  (sq_nonneg _).trans (kl1_ge hx hy)

theorem kl1_eq_zero {x y : ℝ} (hx : 0 ≤ x) (hy : 0 < y) (h : x * Real.log (x / y) - x + y ≤ 0) : x = y := by
  have h1 := kl1_ge hx hy
  have h2 : Real.sqrt x - Real.sqrt y = 0 := by
    have : (Real.sqrt x - Real.sqrt y) ^ 2 = 0 := le_antisymm (h1.trans h) (sq_nonneg _)
    exact pow_eq_zero_iff two_ne_zero |>.1 this
  rw [← Real.sq_sqrt hx, ← Real.sq_sqrt hy.le, sub_eq_zero.1 h2]

theorem klDivergence_nonneg {p q : I → ℝ} (hp : ∀ i, 0 ≤ p i) (hq : ∀ i, 0 < q i) : 0 ≤ klDivergence p q :=
  sum_nonneg fun i _ => kl1_nonneg (hp i) (hq i)

theorem hellinger_le {p q : I → ℝ} (hp : ∀ i, 0 ≤ p i) (hq : ∀ i, 0 < q i) :
    ∑ i, (Real.sqrt (p i) - Real.sqrt (q i)) ^ 2 ≤ klDivergence p q :=
  sum_le_sum fun i _ => kl1_ge (hp i) (hq i)

theorem klDivergence_eq_zero {p q : I → ℝ} (hp : ∀ i, 0 ≤ p i) (hq : ∀ i, 0 < q i) (h : klDivergence p q ≤ 0) : p = q := by
  funext i
  refine kl1_eq_zero (hp i) (hq i) (le_trans ?_ h)
  exact single_le_sum (f := fun i => p i * Real.log (p i / q i) - p i + q i) (fun i _ => kl1_nonneg (hp i) (hq i))
    (mem_univ i)

/-- Total variation in the Euclidean norm is controlled by KL. -/
theorem sq_dist_le_kl {p q : I → ℝ} {S : ℝ} (hp : ∀ i, 0 ≤ p i) (hq : ∀ i, 0 < q i) (hpS : ∀ i, p i ≤ S)
    (hqS : ∀ i, q i ≤ S) (hS : 0 ≤ S) : ∑ i, (q i - p i) ^ 2 ≤ 4 * S * klDivergence p q := by
  refine le_trans ?_ (mul_le_mul_of_nonneg_left (hellinger_le hp hq) ?_)
  · rw [mul_sum]
    refine sum_le_sum fun i _ => ?_
    have e1 := Real.sq_sqrt (hp i)
    have e2 := Real.sq_sqrt (hq i).le
    have h1 : q i - p i = -((Real.sqrt (p i) - Real.sqrt (q i)) * (Real.sqrt (p i) + Real.sqrt (q i))) := by
      linear_combination e1 - e2
    have h2 : (Real.sqrt (p i) + Real.sqrt (q i)) ^ 2 ≤ 4 * S := by
      nlinarith [sq_nonneg (Real.sqrt (p i) - Real.sqrt (q i)), hpS i, hqS i]
    rw [h1, neg_sq, mul_pow, mul_comm]
    exact mul_le_mul_of_nonneg_right h2 (sq_nonneg _)
  · linarith

theorem klPlan_eq (Q P : I → J → ℝ) :
    klPlan Q P = ∑ i, ∑ j, (Q i j * Real.log (Q i j / P i j) - Q i j + P i j) := by
  unfold klPlan klDivergence
  exact Fintype.sum_prod_type (fun x : I × J => Q x.1 x.2 * Real.log (Q x.1 x.2 / P x.1 x.2) - Q x.1 x.2 + P x.1 x.2)

theorem klPlan_nonneg {Q P : I → J → ℝ} (hQ : ∀ i j, 0 ≤ Q i j) (hP : ∀ i j, 0 < P i j) : 0 ≤ klPlan Q P :=
  klDivergence_nonneg (fun x => hQ x.1 x.2) fun x => hP x.1 x.2

theorem klPlan_eq_zero {Q P : I → J → ℝ} (hQ : ∀ i j, 0 ≤ Q i j) (hP : ∀ i j, 0 < P i j) (h : klPlan Q P ≤ 0) :
    Q = P := by
  have := klDivergence_eq_zero (fun x : I × J => hQ x.1 x.2) (fun x => hP x.1 x.2) h
  funext i j
  exact congrFun this (i, j)

theorem klPlan_entry {Q P : I → J → ℝ} (hQ : ∀ i j, 0 ≤ Q i j) (hP : ∀ i j, 0 < P i j) (i : I) (j : J) :
    Q i j * Real.log (Q i j / P i j) - Q i j + P i j ≤ klPlan Q P :=
  single_le_sum (f := fun x : I × J => Q x.1 x.2 * Real.log (Q x.1 x.2 / P x.1 x.2) - Q x.1 x.2 + P x.1 x.2)
    (fun x _ => kl1_nonneg (hQ x.1 x.2) (hP x.1 x.2)) (mem_univ (i, j))

theorem klPlan_transpose (Q P : I → J → ℝ) : klPlan (fun j i => Q i j) (fun j i => P i j) = klPlan Q P := by
  rw [klPlan_eq, klPlan_eq, sum_comm]

theorem log_scale {q p c : ℝ} (hp : 0 < p) (hc : 0 < c) :
    q * Real.log (q / (p * c)) = q * Real.log (q / p) - q * Real.log c := by
  rcases eq_or_ne q 0 with rfl | hq
  · simp
  · rw [← div_div, Real.log_div (div_ne_zero hq hp.ne') hc.ne']; ring

/-- Rescaling columns by `w`. -/
theorem klPlan_colScale {Q P : I → J → ℝ} (hP : ∀ i j, 0 < P i j) {w : J → ℝ} (hw : ∀ j, 0 < w j) :
    klPlan Q (fun i j => P i j * w j)
      = klPlan Q P - ∑ j, (∑ i, Q i j) * Real.log (w j) + ∑ j, (∑ i, P i j) * (w j - 1) := by
  rw [klPlan_eq, klPlan_eq]
  have : ∀ i j, Q i j * Real.log (Q i j / (P i j * w j)) - Q i j + P i j * w j
      = (Q i j * Real.log (Q i j / P i j) - Q i j + P i j) - Q i j * Real.log (w j) + P i j * (w j - 1) := by
    intro i j
    rw [log_scale (hP i j) (hw j)]; ring
  simp only [this, sum_add_distrib, sum_sub_distrib, sum_mul]
  rw [sum_comm (f := fun j i => Q i j * Real.log (w j)), sum_comm (f := fun j i => P i j * (w j - 1))]

/-- Rescaling the columns of `P` to the column sums `b` of `Q` lowers the divergence from `Q` by `KL(b | column sums of P)`. -/
theorem klPlan_colProj {Q P : I → J → ℝ} {b : J → ℝ} (hP : ∀ i j, 0 < P i j) (hb : ∀ j, 0 < b j) [Nonempty I]
    (hQ : ∀ j, ∑ i, Q i j = b j) :
    klPlan Q (fun i j => P i j * (b j / ∑ i, P i j)) = klPlan Q P - klDivergence b fun j => ∑ i, P i j := by
  have hc : ∀ j, 0 < ∑ i, P i j := fun j => sum_pos (fun i _ => hP i j) univ_nonempty
  rw [klPlan_colScale hP fun j => div_pos (hb j) (hc j)]
  unfold klDivergence
  rw [sub_add, ← sum_sub_distrib]
  congr 1
  refine sum_congr rfl fun j _ => ?_
  have := mul_div_cancel₀ (b j) (hc j).ne'
  rw [hQ, mul_sub, this]; ring

theorem klPlan_rowProj {Q P : I → J → ℝ} {a : I → ℝ} (hP : ∀ i j, 0 < P i j) (ha : ∀ i, 0 < a i) [Nonempty J]
    (hQ : ∀ i, ∑ j, Q i j = a i) :
    klPlan Q (fun i j => P i j * (a i / ∑ j, P i j)) = klPlan Q P - klDivergence a fun i => ∑ j, P i j := by
  have := klPlan_colProj (Q := fun j i => Q i j) (P := fun j i => P i j) (b := a) (fun j i => hP i j) ha hQ
  rw [klPlan_transpose Q P] at this
  refine Eq.trans ?_ this
  exact (klPlan_transpose _ _).symm

/-- Gibbs: if `P = exp((f + g - M)/reg)` has the marginals of `Q`, the difference of the entropic objectives is `reg * KL(Q | P)`. -/
theorem entropic_gap {a : I → ℝ} {b : J → ℝ} {M P Q : I → J → ℝ} {reg : ℝ} {x : I → ℝ} {y : J → ℝ}
    (hform : ∀ i j, Real.log (P i j) = x i + y j - M i j / reg) (hpos : ∀ i j, 0 < P i j) (hreg : reg ≠ 0)
    (hP : IsCoupling a b P) (hQ : IsCoupling a b Q) :
    entropicObjective M reg Q - entropicObjective M reg P = reg * klPlan Q P := by
  have h1 : ∀ i j, Q i j * Real.log (Q i j / P i j) - Q i j + P i j
      = (Q i j * Real.log (Q i j) + Q i j * M i j / reg) - Q i j * (x i + y j) - Q i j + P i j := by
    intro i j
    rcases eq_or_ne (Q i j) 0 with h | h
    · simp [h]
    · rw [Real.log_div h (hpos i j).ne', hform]; ring
  have h2 : ∀ i j, P i j * Real.log (P i j) = P i j * (x i + y j) - P i j * M i j / reg := by
    intro i j; rw [hform]; ring
  have e1 : klPlan Q P = (∑ i, ∑ j, Q i j * Real.log (Q i j) + cost M Q / reg)
      - (∑ i, x i * a i + ∑ j, y j * b j) - ∑ i, a i + ∑ i, a i := by
    rw [klPlan_eq]
    simp only [h1, sum_add_distrib, sum_sub_distrib, hQ.sum_add_mul x y]
    simp only [hQ.row, hP.row, cost, sum_div]
  have e2 : ∑ i, ∑ j, P i j * Real.log (P i j) = (∑ i, x i * a i + ∑ j, y j * b j) - cost M P / reg := by
    simp only [h2, sum_sub_distrib, hP.sum_add_mul x y, cost, sum_div]
  unfold entropicObjective
  rw [e1, e2]
  field_simp
  ring

end POT
