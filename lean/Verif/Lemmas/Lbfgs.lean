import Verif.Model.Lbfgs
import Mathlib.Analysis.SpecialFunctions.Log.Deriv
import Mathlib.Analysis.SpecialFunctions.Log.Basic
import Mathlib.Algebra.BigOperators.Field
import Mathlib.Tactic.FieldSimp
import Mathlib.Tactic.Linarith
import Mathlib.Tactic.Positivity
import Mathlib.Tactic.Ring
import Mathlib.Tactic.NormNum

/-! # Lemmas: convexity and derivatives of the loss of `lbfgsb_unbalanced` -/

set_option linter.unusedSectionVars false

namespace POT.Lbfgs

open Finset Spec

/-! ### scalars -/

theorem ent_tangent {δ y y' : ℝ} (hδ : 0 ≤ δ) (hy : 0 ≤ y) (hy' : 0 ≤ y') (h : 0 < δ ∨ 0 < y) :
    y * Real.log (y + δ) - y + (Real.log (y + δ) - δ / (y + δ)) * (y' - y) ≤ y' * Real.log (y' + δ) - y' := by
  have hs : 0 < y + δ := by rcases h with h | h <;> linarith
  rcases hy'.eq_or_lt with h0 | h0
  · rw [← h0]
    have : δ / (y + δ) * y ≤ y := by
      rw [div_mul_eq_mul_div, div_le_iff₀ hs]; nlinarith
    nlinarith
  · have hs' : 0 < y' + δ := by linarith
    have hl := Real.one_sub_inv_le_log_of_pos (div_pos hs' hs)
    rw [inv_div, Real.log_div hs'.ne' hs.ne'] at hl
    have h1 := mul_le_mul_of_nonneg_left hl hy'
    have h2 : y' * (1 - (y + δ) / (y' + δ)) - (y' - y) * (1 - δ / (y + δ)) = δ * (y' - y) ^ 2 / ((y + δ) * (y' + δ)) := by field_simp; ring
    have h3 : 0 ≤ δ * (y' - y) ^ 2 / ((y + δ) * (y' + δ)) := by positivity
    nlinarith

theorem kl_tangent {δ q x x' : ℝ} (hq : 0 < q) (hδ : 0 ≤ δ) (hx : 0 ≤ x) (hx' : 0 ≤ x') (h : 0 < δ ∨ 0 < x) :
    x * Real.log (x / q + δ) + (q - x) + (Real.log (x / q + δ) - δ / (x / q + δ)) * (x' - x) ≤ x' * Real.log (x' / q + δ) + (q - x') := by
  have := mul_le_mul_of_nonneg_left (ent_tangent hδ (div_nonneg hx hq.le) (div_nonneg hx' hq.le) (h.imp id fun h => div_pos h hq)) hq.le
  have e1 : q * (x / q * Real.log (x / q + δ) - x / q + (Real.log (x / q + δ) - δ / (x / q + δ)) * (x' / q - x / q)) = x * Real.log (x / q + δ) - x + (Real.log (x / q + δ) - δ / (x / q + δ)) * (x' - x) := by
    have : q * (x' / q - x / q) = x' - x := by field_simp
    have h2 : q * (x / q) = x := by field_simp
    linear_combination Real.log (x / q + δ) * h2 - h2 + (Real.log (x / q + δ) - δ / (x / q + δ)) * this
  have e2 : q * (x' / q * Real.log (x' / q + δ) - x' / q) = x' * Real.log (x' / q + δ) - x' := by
    have h2 : q * (x' / q) = x' := by field_simp
    linear_combination Real.log (x' / q + δ) * h2 - h2
  rw [e1, e2] at this
  linarith

theorem l2_tangent (q x x' : ℝ) : (x - q) ^ 2 / 2 + (x - q) * (x' - x) ≤ (x' - q) ^ 2 / 2 := by nlinarith [sq_nonneg (x' - x)]

theorem tv_tangent (q x x' : ℝ) : |x - q| + (SignType.sign (x - q) : ℝ) * (x' - x) ≤ |x' - q| := by
  rcases lt_trichotomy (x - q) 0 with h | h | h
  · rw [sign_neg h, abs_of_neg h]; simp only [SignType.coe_neg, SignType.coe_one]; linarith [neg_abs_le (x' - q)]
  · rw [h]; simp
  · rw [sign_pos h, abs_of_pos h]; simp only [SignType.coe_one]; linarith [le_abs_self (x' - q)]

theorem ent_deriv {δ x d : ℝ} (h : 0 < x + δ) : HasDerivAt (fun t : ℝ => (x + t * d) * Real.log (x + t * d + δ) - (x + t * d)) ((Real.log (x + δ) - δ / (x + δ)) * d) 0 := by
  have h1 : HasDerivAt (fun t : ℝ => x + t * d) d 0 := by simpa using ((hasDerivAt_id (0 : ℝ)).mul_const d).const_add x
  have h2 := (h1.mul ((h1.add_const δ).log (by simpa using h.ne'))).sub h1
  refine h2.congr_deriv ?_
  have := h.ne'
  simp only [zero_mul, add_zero]
  field_simp
  ring

theorem kl_deriv {δ q x d : ℝ} (hq : 0 < q) (h : 0 < x / q + δ) : HasDerivAt (fun t : ℝ => (x + t * d) * Real.log ((x + t * d) / q + δ) + (q - (x + t * d))) ((Real.log (x / q + δ) - δ / (x / q + δ)) * d) 0 := by
  have h1 : HasDerivAt (fun t : ℝ => x + t * d) d 0 := by simpa using ((hasDerivAt_id (0 : ℝ)).mul_const d).const_add x
  have h2 := (h1.mul (((h1.div_const q).add_const δ).log (by simpa using h.ne'))).add (h1.const_sub q)
  refine h2.congr_deriv ?_
  have h3 := h.ne'
  have h4 : x / q + δ = (x + δ * q) / q := by field_simp
  have h5 : x + δ * q ≠ 0 := by
    intro h0; rw [h4, h0, zero_div] at h3; exact h3 rfl
  simp only [zero_mul, add_zero]
  rw [h4]
  field_simp
  ring

theorem l2_deriv (q x d : ℝ) : HasDerivAt (fun t : ℝ => (x + t * d - q) ^ 2 / 2) ((x - q) * d) 0 := by
  have h1 : HasDerivAt (fun t : ℝ => x + t * d) d 0 := by simpa using ((hasDerivAt_id (0 : ℝ)).mul_const d).const_add x
  refine (((h1.sub_const q).pow 2).div_const 2).congr_deriv ?_
  simp
  ring

/-! ### the loss -/

variable {I J : Type*} [Fintype I] [Fintype J]
variable {eps : ℝ} {M : I → J → ℝ} {a : I → ℝ} {b : J → ℝ} {c : I → J → ℝ} {reg m1 m2 : ℝ} {rd : RegDiv I J} {md : RegmDiv} {G G' : I → J → ℝ}

/-- what the gradient of the regularisation leaves out -/
noncomputable def corrReg (eps : ℝ) (c : I → J → ℝ) : RegDiv I J → (I → J → ℝ) → I → J → ℝ
  | .kl, G => fun i j => eps / (G i j / c i j + eps)
  | .entropy, G => fun i j => eps / (G i j + eps)
  | _, _ => fun _ _ => 0

noncomputable def corrMarg (eps : ℝ) (a : I → ℝ) (b : J → ℝ) (m1 m2 : ℝ) : RegmDiv → (I → J → ℝ) → I → J → ℝ
  | .kl, G => fun i j => m1 * (eps / ((∑ l, G i l) / a i + eps)) + m2 * (eps / ((∑ l, G l j) / b j + eps))
  | _, _ => fun _ _ => 0

/-- the user function is convex and the second function is a subgradient -/
def UserOk : RegDiv I J → Prop
  | .pair f df => ∀ G G' : I → J → ℝ, (∀ i j, 0 ≤ G i j) → (∀ i j, 0 ≤ G' i j) → f G + ∑ i, ∑ j, df G i j * (G' i j - G i j) ≤ f G'
  | _ => True

def RegOk (eps : ℝ) (G : I → J → ℝ) : RegDiv I J → Prop
  | .kl => 0 < eps ∨ ∀ i j, 0 < G i j
  | .entropy => 0 < eps ∨ ∀ i j, 0 < G i j
  | _ => True

def MargOk (eps : ℝ) (G : I → J → ℝ) : RegmDiv → Prop
  | .kl => 0 < eps ∨ ((∀ i, 0 < ∑ j, G i j) ∧ ∀ j, 0 < ∑ i, G i j)
  | _ => True

theorem reg_tangent (hc : ∀ i j, 0 < c i j) (he : 0 ≤ eps) (hG : ∀ i j, 0 ≤ G i j) (hG' : ∀ i j, 0 ≤ G' i j) (hu : UserOk rd) (ho : RegOk eps G rd) :
    regFun eps c rd G + ∑ i, ∑ j, (gradReg eps c rd G i j - corrReg eps c rd G i j) * (G' i j - G i j) ≤ regFun eps c rd G' := by
  cases rd with
  | kl =>
    simp only [regFun, gradReg, corrReg, Mm.klDivMass]
    rw [← sum_add_distrib, ← sum_add_distrib, ← Fintype.sum_prod_type', ← sum_add_distrib]
    exact sum_le_sum fun x _ => kl_tangent (hc _ _) he (hG _ _) (hG' _ _) (ho.imp id fun h => h _ _)
  | entropy =>
    simp only [regFun, gradReg, corrReg]
    rw [← sum_sub_distrib, ← sum_sub_distrib, ← sum_add_distrib]
    simp_rw [← sum_sub_distrib, ← sum_add_distrib]
    exact sum_le_sum fun i _ => sum_le_sum fun j _ => ent_tangent he (hG _ _) (hG' _ _) (ho.imp id fun h => h _ _)
  | l2 =>
    simp only [regFun, gradReg, corrReg, sub_zero]
    rw [sum_div, sum_div, ← sum_add_distrib]
    simp_rw [sum_div, ← sum_add_distrib]
    exact sum_le_sum fun i _ => sum_le_sum fun j _ => l2_tangent _ _ _
  | pair f df =>
    simp only [regFun, gradReg, corrReg, sub_zero]
    exact hu G G' hG hG'

/-- the linear form of a function of the marginals -/
theorem split_marg (x : I → ℝ) (y : J → ℝ) (m1 m2 : ℝ) (D : I → J → ℝ) : ∑ i, ∑ j, (m1 * x i + m2 * y j) * D i j = m1 * ∑ i, x i * ∑ j, D i j + m2 * ∑ j, y j * ∑ i, D i j := by
  simp_rw [add_mul, sum_add_distrib, mul_sum]
  congr 1
  · exact sum_congr rfl fun i _ => sum_congr rfl fun j _ => by ring
  · rw [sum_comm]; exact sum_congr rfl fun i _ => sum_congr rfl fun j _ => by ring

theorem marg_tangent (ha : ∀ i, 0 < a i) (hb : ∀ j, 0 < b j) (h1 : 0 ≤ m1) (h2 : 0 ≤ m2) (he : 0 ≤ eps) (hG : ∀ i j, 0 ≤ G i j) (hG' : ∀ i j, 0 ≤ G' i j) (ho : MargOk eps G md) :
    margFun eps a b m1 m2 md G + ∑ i, ∑ j, (gradMarg eps a b m1 m2 md G i j - corrMarg eps a b m1 m2 md G i j) * (G' i j - G i j) ≤ margFun eps a b m1 m2 md G' := by
  have r : ∀ i, 0 ≤ ∑ j, G i j := fun i => sum_nonneg fun j _ => hG i j
  have r' : ∀ i, 0 ≤ ∑ j, G' i j := fun i => sum_nonneg fun j _ => hG' i j
  have s : ∀ j, 0 ≤ ∑ i, G i j := fun j => sum_nonneg fun i _ => hG i j
  have s' : ∀ j, 0 ≤ ∑ i, G' i j := fun j => sum_nonneg fun i _ => hG' i j
  cases md with
  | kl =>
    simp only [margFun, gradMarg, corrMarg, Mm.klDivMass]
    have e : ∀ i j, m1 * Real.log ((∑ l, G i l) / a i + eps) + m2 * Real.log ((∑ l, G l j) / b j + eps) - (m1 * (eps / ((∑ l, G i l) / a i + eps)) + m2 * (eps / ((∑ l, G l j) / b j + eps)))
        = m1 * (Real.log ((∑ l, G i l) / a i + eps) - eps / ((∑ l, G i l) / a i + eps)) + m2 * (Real.log ((∑ l, G l j) / b j + eps) - eps / ((∑ l, G l j) / b j + eps)) := fun i j => by ring
    simp_rw [e]
    rw [split_marg (fun i => Real.log ((∑ l, G i l) / a i + eps) - eps / ((∑ l, G i l) / a i + eps)) (fun j => Real.log ((∑ l, G l j) / b j + eps) - eps / ((∑ l, G l j) / b j + eps))]
    have t1 := mul_le_mul_of_nonneg_left (sum_le_sum fun i (_ : i ∈ univ) => kl_tangent (ha i) he (r i) (r' i) (ho.imp id fun h => h.1 i)) h1
    have t2 := mul_le_mul_of_nonneg_left (sum_le_sum fun j (_ : j ∈ univ) => kl_tangent (hb j) he (s j) (s' j) (ho.imp id fun h => h.2 j)) h2
    simp only [sum_add_distrib] at t1 t2
    simp only [sum_sub_distrib (fun j => G' _ j) (fun j => G _ j), sum_sub_distrib (fun i => G' i _) (fun i => G i _)]
    simp only [sum_sub_distrib] at t1 t2 ⊢
    linarith
  | tv =>
    simp only [margFun, gradMarg, corrMarg, sub_zero]
    rw [split_marg (fun i => (SignType.sign (∑ l, G i l - a i) : ℝ)) (fun j => (SignType.sign (∑ l, G l j - b j) : ℝ))]
    have t1 := mul_le_mul_of_nonneg_left (sum_le_sum fun i (_ : i ∈ univ) => tv_tangent (a i) (∑ j, G i j) (∑ j, G' i j)) h1
    have t2 := mul_le_mul_of_nonneg_left (sum_le_sum fun j (_ : j ∈ univ) => tv_tangent (b j) (∑ i, G i j) (∑ i, G' i j)) h2
    simp only [sum_add_distrib] at t1 t2
    simp only [sum_sub_distrib (fun j => G' _ j) (fun j => G _ j), sum_sub_distrib (fun i => G' i _) (fun i => G i _)]
    linarith
  | l2 =>
    simp only [margFun, gradMarg, corrMarg, sub_zero]
    rw [split_marg (fun i => ∑ l, G i l - a i) (fun j => ∑ l, G l j - b j)]
    have t1 := mul_le_mul_of_nonneg_left (sum_le_sum fun i (_ : i ∈ univ) => l2_tangent (a i) (∑ j, G i j) (∑ j, G' i j)) h1
    have t2 := mul_le_mul_of_nonneg_left (sum_le_sum fun j (_ : j ∈ univ) => l2_tangent (b j) (∑ i, G i j) (∑ i, G' i j)) h2
    simp only [sum_add_distrib, ← sum_div] at t1 t2
    simp only [sum_sub_distrib (fun j => G' _ j) (fun j => G _ j), sum_sub_distrib (fun i => G' i _) (fun i => G i _)]
    rw [show m1 * 0.5 = m1 * (1 / 2) by norm_num, show m2 * 0.5 = m2 * (1 / 2) by norm_num]
    linarith

/-- everything left out of the gradient -/
noncomputable def corr (eps : ℝ) (a : I → ℝ) (b : J → ℝ) (c : I → J → ℝ) (reg m1 m2 : ℝ) (rd : RegDiv I J) (md : RegmDiv) (G : I → J → ℝ) : I → J → ℝ := fun i j =>
  corrMarg eps a b m1 m2 md G i j + reg * corrReg eps c rd G i j

theorem value_eq (hr : 0 ≤ reg) : value eps M a b c reg m1 m2 rd md G = ∑ i, ∑ j, G i j * M i j + margFun eps a b m1 m2 md G + reg * regFun eps c rd G := by
  unfold value
  dsimp only
  split_ifs with h
  · rfl
  · rw [le_antisymm (not_lt.1 h) hr]; ring

theorem grad_eq (hr : 0 ≤ reg) (i : I) (j : J) : grad eps M a b c reg m1 m2 rd md G i j = M i j + gradMarg eps a b m1 m2 md G i j + reg * gradReg eps c rd G i j := by
  unfold grad
  dsimp only
  split_ifs with h
  · rfl
  · rw [le_antisymm (not_lt.1 h) hr]; ring

theorem tangent (ha : ∀ i, 0 < a i) (hb : ∀ j, 0 < b j) (hc : ∀ i j, 0 < c i j) (hr : 0 ≤ reg) (h1 : 0 ≤ m1) (h2 : 0 ≤ m2) (he : 0 ≤ eps) (hG : ∀ i j, 0 ≤ G i j) (hG' : ∀ i j, 0 ≤ G' i j) (hu : UserOk rd)
    (hm : MargOk eps G md) (ho : 0 < reg → RegOk eps G rd) :
    value eps M a b c reg m1 m2 rd md G + ∑ i, ∑ j, (grad eps M a b c reg m1 m2 rd md G i j - corr eps a b c reg m1 m2 rd md G i j) * (G' i j - G i j) ≤ value eps M a b c reg m1 m2 rd md G' := by
  rw [value_eq hr, value_eq hr]
  have t1 := marg_tangent (md := md) ha hb h1 h2 he hG hG' hm
  have e : ∑ i, ∑ j, (grad eps M a b c reg m1 m2 rd md G i j - corr eps a b c reg m1 m2 rd md G i j) * (G' i j - G i j) = (∑ i, ∑ j, G' i j * M i j - ∑ i, ∑ j, G i j * M i j) +
      ∑ i, ∑ j, (gradMarg eps a b m1 m2 md G i j - corrMarg eps a b m1 m2 md G i j) * (G' i j - G i j) + reg * ∑ i, ∑ j, (gradReg eps c rd G i j - corrReg eps c rd G i j) * (G' i j - G i j) := by
    rw [mul_sum]
    simp_rw [mul_sum]
    rw [← sum_sub_distrib, ← sum_add_distrib, ← sum_add_distrib]
    refine sum_congr rfl fun i _ => ?_
    rw [← sum_sub_distrib, ← sum_add_distrib, ← sum_add_distrib]
    refine sum_congr rfl fun j _ => ?_
    rw [grad_eq hr, corr]
    ring
  rw [e]
  have t2 : reg * (regFun eps c rd G + ∑ i, ∑ j, (gradReg eps c rd G i j - corrReg eps c rd G i j) * (G' i j - G i j)) ≤ reg * regFun eps c rd G' := by
    rcases hr.eq_or_lt with h | h
    · rw [← h]; simp
    · exact mul_le_mul_of_nonneg_left (reg_tangent hc he hG hG' hu (ho h)) hr
  linarith

/-! ### derivatives -/

theorem reg_deriv (hc : ∀ i j, 0 < c i j) (he : 0 ≤ eps) (hG : ∀ i j, 0 ≤ G i j) (ho : RegOk eps G rd) (D : I → J → ℝ) (hu : ∀ f df, rd = .pair f df → HasDerivAt (fun t : ℝ => f fun i j => G i j + t * D i j) (∑ i, ∑ j, df G i j * D i j) 0) :
    HasDerivAt (fun t : ℝ => regFun eps c rd fun i j => G i j + t * D i j) (∑ i, ∑ j, (gradReg eps c rd G i j - corrReg eps c rd G i j) * D i j) 0 := by
  cases rd with
  | kl =>
    simp only [regFun, gradReg, corrReg, Mm.klDivMass, ← sum_add_distrib]
    rw [← Fintype.sum_prod_type']
    refine HasDerivAt.fun_sum fun x _ => kl_deriv (hc _ _) ?_
    have h := div_nonneg (hG x.1 x.2) (hc x.1 x.2).le
    rcases ho with h' | h'
    · linarith
    · linarith [div_pos (h' x.1 x.2) (hc x.1 x.2)]
  | entropy =>
    simp only [regFun, gradReg, corrReg, ← sum_sub_distrib]
    refine HasDerivAt.fun_sum fun i _ => HasDerivAt.fun_sum fun j _ => ent_deriv ?_
    rcases ho with h' | h'
    · linarith [hG i j]
    · linarith [h' i j]
  | l2 =>
    simp only [regFun, gradReg, corrReg, sub_zero, sum_div]
    exact HasDerivAt.fun_sum fun i _ => HasDerivAt.fun_sum fun j _ => l2_deriv _ _ _
  | pair f df =>
    simp only [regFun, gradReg, corrReg, sub_zero]
    exact hu f df rfl

theorem marg_deriv (ha : ∀ i, 0 < a i) (hb : ∀ j, 0 < b j) (he : 0 ≤ eps) (hG : ∀ i j, 0 ≤ G i j) (ho : MargOk eps G md) (hmd : md ≠ .tv) (D : I → J → ℝ) :
    HasDerivAt (fun t : ℝ => margFun eps a b m1 m2 md fun i j => G i j + t * D i j) (∑ i, ∑ j, (gradMarg eps a b m1 m2 md G i j - corrMarg eps a b m1 m2 md G i j) * D i j) 0 := by
  have r : ∀ i, 0 ≤ (∑ j, G i j) / a i := fun i => div_nonneg (sum_nonneg fun j _ => hG i j) (ha i).le
  have s : ∀ j, 0 ≤ (∑ i, G i j) / b j := fun j => div_nonneg (sum_nonneg fun i _ => hG i j) (hb j).le
  cases md with
  | kl =>
    simp only [margFun, gradMarg, corrMarg, Mm.klDivMass, sum_add_distrib, ← mul_sum]
    have e : ∀ i j, m1 * Real.log ((∑ l, G i l) / a i + eps) + m2 * Real.log ((∑ l, G l j) / b j + eps) - (m1 * (eps / ((∑ l, G i l) / a i + eps)) + m2 * (eps / ((∑ l, G l j) / b j + eps)))
        = m1 * (Real.log ((∑ l, G i l) / a i + eps) - eps / ((∑ l, G i l) / a i + eps)) + m2 * (Real.log ((∑ l, G l j) / b j + eps) - eps / ((∑ l, G l j) / b j + eps)) := fun i j => by ring
    simp_rw [e]
    rw [split_marg (fun i => Real.log ((∑ l, G i l) / a i + eps) - eps / ((∑ l, G i l) / a i + eps)) (fun j => Real.log ((∑ l, G l j) / b j + eps) - eps / ((∑ l, G l j) / b j + eps))]
    simp only [← sum_add_distrib]
    refine ((HasDerivAt.fun_sum fun i _ => kl_deriv (ha i) ?_).const_mul m1).add ((HasDerivAt.fun_sum fun j _ => kl_deriv (hb j) ?_).const_mul m2)
    · rcases ho with h | h
      · linarith [r i]
      · linarith [div_pos (h.1 i) (ha i)]
    · rcases ho with h | h
      · linarith [s j]
      · linarith [div_pos (h.2 j) (hb j)]
  | tv => exact absurd rfl hmd
  | l2 =>
    simp only [margFun, gradMarg, corrMarg, sub_zero, sum_add_distrib, ← mul_sum]
    rw [split_marg (fun i => ∑ l, G i l - a i) (fun j => ∑ l, G l j - b j)]
    refine (((HasDerivAt.fun_sum fun i _ => l2_deriv (a i) (∑ l, G i l) (∑ l, D i l)).const_mul m1).add ((HasDerivAt.fun_sum fun j _ => l2_deriv (b j) (∑ l, G l j) (∑ l, D l j)).const_mul m2)).congr_of_eventuallyEq (Filter.Eventually.of_forall fun t => ?_)
    simp only [Pi.add_apply, ← sum_div]
    rw [show m1 * 0.5 = m1 * (1 / 2) by norm_num, show m2 * 0.5 = m2 * (1 / 2) by norm_num]
    ring

theorem deriv_value (ha : ∀ i, 0 < a i) (hb : ∀ j, 0 < b j) (hc : ∀ i j, 0 < c i j) (hr : 0 ≤ reg) (he : 0 ≤ eps) (hG : ∀ i j, 0 ≤ G i j) (hm : MargOk eps G md) (hmd : md ≠ .tv) (ho : 0 < reg → RegOk eps G rd) (D : I → J → ℝ)
    (hu : ∀ f df, rd = .pair f df → HasDerivAt (fun t : ℝ => f fun i j => G i j + t * D i j) (∑ i, ∑ j, df G i j * D i j) 0) :
    HasDerivAt (fun t : ℝ => value eps M a b c reg m1 m2 rd md fun i j => G i j + t * D i j) (∑ i, ∑ j, (grad eps M a b c reg m1 m2 rd md G i j - corr eps a b c reg m1 m2 rd md G i j) * D i j) 0 := by
  simp_rw [value_eq hr]
  have d1 : HasDerivAt (fun t : ℝ => ∑ i, ∑ j, (G i j + t * D i j) * M i j) (∑ i, ∑ j, D i j * M i j) 0 :=
    HasDerivAt.fun_sum fun i _ => HasDerivAt.fun_sum fun j _ => by
      simpa using ((((hasDerivAt_id (0 : ℝ)).mul_const (D i j)).const_add (G i j)).mul_const (M i j))
  have d2 := marg_deriv (m1 := m1) (m2 := m2) ha hb he hG hm hmd D
  have d3 : HasDerivAt (fun t : ℝ => reg * regFun eps c rd fun i j => G i j + t * D i j) (reg * ∑ i, ∑ j, (gradReg eps c rd G i j - corrReg eps c rd G i j) * D i j) 0 := by
    rcases hr.eq_or_lt with h | h
    · simp only [← h, zero_mul]; exact hasDerivAt_const _ _
    · exact (reg_deriv hc he hG (ho h) D hu).const_mul reg
  refine ((d1.add d2).add d3).congr_deriv ?_
  rw [mul_sum]
  simp_rw [mul_sum]
  rw [← sum_add_distrib, ← sum_add_distrib]
  refine sum_congr rfl fun i _ => ?_
  rw [← sum_add_distrib, ← sum_add_distrib]
  refine sum_congr rfl fun j _ => ?_
  rw [grad_eq hr, corr]
  ring

end POT.Lbfgs
