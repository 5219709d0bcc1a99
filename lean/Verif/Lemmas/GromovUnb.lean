import Verif.Spec.GromovUnb
import Verif.Model.GromovUnb
import Mathlib.Tactic.LinearCombination

/-! # Product formulas for divergences -/

set_option linter.unusedSectionVars false

namespace POT.GromovUnb

open Finset Spec

variable {K L I J D E : Type*} [Fintype K] [Fintype L] [Fintype I] [Fintype J] [Fintype D] [Fintype E]

/-- `∑ p log (p / q)` -/
noncomputable def ent (p q : K → ℝ) : ℝ := ∑ k, p k * Real.log (p k / q k)

theorem klDivergence_eq (p q : K → ℝ) : klDivergence p q = ent p q - ∑ k, p k + ∑ k, q k := by
  simp only [klDivergence, ent, sum_add_distrib, sum_sub_distrib]

theorem klDiv_eq (b : Bool) (p q : K → ℝ) : klDiv b p q = ent p q + if b then ∑ k, q k - ∑ k, p k else 0 := by
  simp only [klDiv, ent, sum_sub_distrib]

theorem klDiv_true (p q : K → ℝ) : klDiv true p q = klDivergence p q := by
  rw [klDiv_eq, klDivergence_eq]; simp; ring

theorem sum_prodMeasure (p : K → ℝ) (q : L → ℝ) : ∑ x, prodMeasure p q x = (∑ k, p k) * ∑ l, q l := by
  rw [Fintype.sum_prod_type, sum_mul_sum]; rfl

theorem ent_prod (mu : K → ℝ) (nu : L → ℝ) (al : K → ℝ) (be : L → ℝ) (ha : ∀ k, al k ≠ 0) (hb : ∀ l, be l ≠ 0) :
    ent (prodMeasure mu nu) (prodMeasure al be) = (∑ l, nu l) * ent mu al + (∑ k, mu k) * ent nu be := by
  unfold ent
  rw [Fintype.sum_prod_type]
  have : ∀ k l, prodMeasure mu nu (k, l) * Real.log (prodMeasure mu nu (k, l) / prodMeasure al be (k, l))
      = nu l * (mu k * Real.log (mu k / al k)) + mu k * (nu l * Real.log (nu l / be l)) := by
    intro k l
    simp only [prodMeasure]
    by_cases h1 : mu k = 0
    · simp [h1]
    by_cases h2 : nu l = 0
    · simp [h2]
    rw [mul_div_mul_comm, Real.log_mul (div_ne_zero h1 (ha k)) (div_ne_zero h2 (hb l))]
    ring
  simp only [this, sum_add_distrib]
  rw [sum_mul_sum, sum_mul_sum]
  congr 1
  rw [sum_comm]

theorem kl_prod (mu : K → ℝ) (nu : L → ℝ) (al : K → ℝ) (be : L → ℝ) (ha : ∀ k, al k ≠ 0) (hb : ∀ l, be l ≠ 0) :
    klDivergence (prodMeasure mu nu) (prodMeasure al be)
      = (∑ l, nu l) * ent mu al + (∑ k, mu k) * ent nu be - (∑ k, mu k) * (∑ l, nu l) + (∑ k, al k) * ∑ l, be l := by
  rw [klDivergence_eq, ent_prod mu nu al be ha hb, sum_prodMeasure, sum_prodMeasure]

theorem l2_prod (mu : K → ℝ) (nu : L → ℝ) (al : K → ℝ) (be : L → ℝ) :
    l2Divergence (prodMeasure mu nu) (prodMeasure al be)
      = ((∑ k, mu k ^ 2) * (∑ l, nu l ^ 2) - 2 * (∑ k, al k * mu k) * (∑ l, be l * nu l)
        + (∑ k, al k ^ 2) * (∑ l, be l ^ 2)) / 2 := by
  unfold l2Divergence
  rw [Fintype.sum_prod_type]
  congr 1
  rw [mul_assoc, sum_mul_sum, sum_mul_sum, sum_mul_sum, mul_sum, ← sum_sub_distrib, ← sum_add_distrib]
  refine sum_congr rfl fun k _ => ?_
  rw [mul_sum, ← sum_sub_distrib, ← sum_add_distrib]
  refine sum_congr rfl fun l _ => ?_
  simp only [prodMeasure]; ring

theorem l2_eq (p q : K → ℝ) :
    l2Divergence p q = ((∑ k, p k ^ 2) - 2 * (∑ k, q k * p k) + ∑ k, q k ^ 2) / 2 := by
  unfold l2Divergence
  congr 1
  rw [mul_sum, ← sum_sub_distrib, ← sum_add_distrib]
  exact sum_congr rfl fun k _ => by ring

/-- the linear part, read off the cost matrix -/
theorem cootLinear_eq (X : I → D → ℝ) (Y : J → E → ℝ) (P : I → J → ℝ) (Q : D → E → ℝ) :
    cootLinear X Y P Q = ∑ i, ∑ j, P i j * ((∑ d, X i d ^ 2 * ∑ e, Q d e) + (∑ e, Y j e ^ 2 * ∑ d, Q d e)
      - 2 * (∑ e, (∑ d, X i d * Q d e) * Y j e)) := by
  unfold cootLinear
  refine sum_congr rfl fun i _ => sum_congr rfl fun j _ => ?_
  have h1 : ∑ d, X i d ^ 2 * ∑ e, Q d e = ∑ d, ∑ e, X i d ^ 2 * Q d e := sum_congr rfl fun d _ => mul_sum _ _ _
  have h2 : ∑ e, Y j e ^ 2 * ∑ d, Q d e = ∑ d, ∑ e, Y j e ^ 2 * Q d e := by
    rw [sum_comm]; exact sum_congr rfl fun d _ => mul_sum _ _ _
  have h3 : ∑ e, (∑ d, X i d * Q d e) * Y j e = ∑ d, ∑ e, X i d * Q d e * Y j e := by
    rw [sum_comm]; exact sum_congr rfl fun d _ => sum_mul _ _ _
  rw [h1, h2, h3]
  simp only [mul_sub, mul_add, mul_sum, ← sum_add_distrib, ← sum_sub_distrib]
  refine sum_congr rfl fun d _ => sum_congr rfl fun e _ => ?_
  ring

theorem linearCost_eq (d : Data I J D E) (P : I → J → ℝ) (Q : D → E → ℝ) :
    linearCost d P Q = cootLinear d.X d.Y P Q := by
  rw [cootLinear_eq]
  unfold linearCost
  have h1 : ∑ i, (∑ k, d.X i k ^ 2 * ∑ l, Q k l) * ∑ j, P i j = ∑ i, ∑ j, P i j * ∑ k, d.X i k ^ 2 * ∑ l, Q k l := by
    refine sum_congr rfl fun i _ => ?_
    rw [mul_comm, sum_mul]
  have h2 : ∑ j, (∑ l, d.Y j l ^ 2 * ∑ k, Q k l) * ∑ i, P i j = ∑ i, ∑ j, P i j * ∑ l, d.Y j l ^ 2 * ∑ k, Q k l := by
    rw [sum_comm]
    refine sum_congr rfl fun i _ => ?_
    rw [mul_comm, sum_mul]
  rw [h1, h2]
  simp only [mul_sub, mul_add, sum_add_distrib, sum_sub_distrib]
  congr 1
  rw [mul_sum]
  refine sum_congr rfl fun i _ => ?_
  rw [mul_sum]
  refine sum_congr rfl fun j _ => by ring

theorem cootLinear_swap (X : I → D → ℝ) (Y : J → E → ℝ) (P : I → J → ℝ) (Q : D → E → ℝ) :
    cootLinear X Y P Q = cootLinear (fun k i => X i k) (fun l j => Y j l) Q P := by
  unfold cootLinear
  have h : ∀ f : I → J → D → E → ℝ, ∑ i, ∑ j, ∑ k, ∑ l, f i j k l = ∑ k, ∑ l, ∑ i, ∑ j, f i j k l := by
    intro f
    have e1 : ∀ i, ∑ j, ∑ k, ∑ l, f i j k l = ∑ k, ∑ l, ∑ j, f i j k l := fun i => by
      rw [sum_comm]; exact sum_congr rfl fun k _ => sum_comm
    simp only [e1]
    rw [sum_comm]
    exact sum_congr rfl fun k _ => sum_comm
  rw [h]
  refine sum_congr rfl fun i _ => sum_congr rfl fun j _ => sum_congr rfl fun k _ => sum_congr rfl fun l _ => ?_
  ring

theorem sum_asMeasure (P : K → L → ℝ) : ∑ x, asMeasure P x = ∑ k, ∑ l, P k l := by
  rw [Fintype.sum_prod_type]; rfl

theorem sum_marg1 (P : K → L → ℝ) : ∑ k, marg1 P k = ∑ k, ∑ l, P k l := rfl

theorem sum_marg2 (P : K → L → ℝ) : ∑ l, marg2 P l = ∑ k, ∑ l, P k l := sum_comm

/-- `div_to_product` without the mass term -/
theorem divToProduct_false (pi : K → L → ℝ) (a : K → ℝ) (b : L → ℝ) (ha : ∀ k, a k ≠ 0) (hb : ∀ l, b l ≠ 0) :
    divToProduct pi a b (marg1 pi) (marg2 pi) .kl false = ent (asMeasure pi) (prodMeasure a b) := by
  simp only [divToProduct, ent, Bool.false_eq_true, if_false, add_zero]
  rw [Fintype.sum_prod_type]
  have h1 : ∑ i, marg1 pi i * Real.log (a i) = ∑ i, ∑ j, pi i j * Real.log (a i) :=
    sum_congr rfl fun i _ => by rw [marg1, sum_mul]
  have h2 : ∑ j, marg2 pi j * Real.log (b j) = ∑ i, ∑ j, pi i j * Real.log (b j) := by
    rw [sum_comm]; exact sum_congr rfl fun j _ => by rw [marg2, sum_mul]
  rw [h1, h2, ← sum_sub_distrib, ← sum_sub_distrib]
  refine sum_congr rfl fun i _ => ?_
  rw [← sum_sub_distrib, ← sum_sub_distrib]
  refine sum_congr rfl fun j _ => ?_
  simp only [asMeasure, prodMeasure]
  by_cases h : pi i j = 0
  · simp [h]
  · rw [if_neg h, add_zero, Real.log_div h (mul_ne_zero (ha i) (hb j)), Real.log_mul (ha i) (hb j)]
    ring

end POT.GromovUnb
