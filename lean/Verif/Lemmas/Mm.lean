import Verif.Model.Mm
import Verif.Spec.UnbalancedL2
import Verif.Lemmas.Unbalanced
import Mathlib.Algebra.Order.BigOperators.Ring.Finset

/-! # Majorisation-minimisation for unbalanced transport -/

set_option linter.unusedSectionVars false

namespace POT.Mm

open Finset Spec Sinkhorn Filter Topology Unbalanced

variable {I J : Type*} [Fintype I] [Fintype J]

/-- data processing inequality for the row sums -/
theorem kl_rows_le [Nonempty J] {T G : I → J → ℝ} (hT : ∀ i j, 0 < T i j) (hG : ∀ i j, 0 < G i j) :
    klDivergence (fun i => ∑ j, T i j) (fun i => ∑ j, G i j) ≤ klPlan T G := by
  have hs : ∀ i, 0 < ∑ j, T i j := fun i => sum_pos (fun j _ => hT i j) univ_nonempty
  have hg : ∀ i, 0 < ∑ j, G i j := fun i => sum_pos (fun j _ => hG i j) univ_nonempty
  have := klPlan_rowProj (Q := T) (P := G) (a := fun i => ∑ j, T i j) hG hs (fun _ => rfl)
  have h2 := klPlan_nonneg (Q := T) (P := fun i j => G i j * ((∑ j, T i j) / ∑ j, G i j)) (fun i j => (hT i j).le) fun i j => mul_pos (hG i j) (div_pos (hs i) (hg i))
  linarith

theorem kl_cols_le [Nonempty I] {T G : I → J → ℝ} (hT : ∀ i j, 0 < T i j) (hG : ∀ i j, 0 < G i j) :
    klDivergence (fun j => ∑ i, T i j) (fun j => ∑ i, G i j) ≤ klPlan T G := by
  have := kl_rows_le (T := fun j i => T i j) (G := fun j i => G i j) (fun j i => hT i j) fun j i => hG i j
  rwa [klPlan_transpose] at this

section kl
variable {a : I → ℝ} {b : J → ℝ} {M c G : I → J → ℝ} {reg ρ₁ ρ₂ eps : ℝ}

theorem mmKernelKl_pos (ha : ∀ i, 0 < a i) (hb : ∀ j, 0 < b j) (hc : reg = 0 ∨ ∀ i j, 0 < c i j) (i : I) (j : J) : 0 < mmKernelKl a b M reg c ρ₁ ρ₂ i j := by
  have h : 0 < c i j ^ (reg / (reg + ρ₁ + ρ₂)) := by
    rcases hc with rfl | hc
    · simp
    · exact Real.rpow_pos_of_pos (hc i j) _
  exact mul_pos (mul_pos (mul_pos (Real.rpow_pos_of_pos (ha i) _) (Real.rpow_pos_of_pos (hb j) _)) h) (Real.exp_pos _)

theorem mmStepKl_pos [Nonempty I] [Nonempty J] {K : I → J → ℝ} (hK : ∀ i j, 0 < K i j) (he : 0 ≤ eps) (hG : ∀ i j, 0 < G i j) (i : I) (j : J) :
    0 < mmStepKl eps K reg ρ₁ ρ₂ G i j := by
  have h1 : 0 < ∑ j', G i j' := sum_pos (fun j _ => hG i j) univ_nonempty
  have h2 : 0 < ∑ i', G i' j := sum_pos (fun i _ => hG i j) univ_nonempty
  exact div_pos (mul_pos (hK i j) (Real.rpow_pos_of_pos (hG i j) _)) (add_pos_of_pos_of_nonneg (mul_pos (Real.rpow_pos_of_pos h1 _) (Real.rpow_pos_of_pos h2 _)) he)

/-- stationarity of the surrogate, up to the guard -/
theorem mmStepKl_log [Nonempty I] [Nonempty J] (hs : reg + ρ₁ + ρ₂ ≠ 0) (ha : ∀ i, 0 < a i) (hb : ∀ j, 0 < b j) (hc : reg = 0 ∨ ∀ i j, 0 < c i j) (he : 0 ≤ eps)
    (hG : ∀ i j, 0 < G i j) (i : I) (j : J) :
    let D := (∑ j', G i j') ^ (ρ₁ / (reg + ρ₁ + ρ₂)) * (∑ i', G i' j) ^ (ρ₂ / (reg + ρ₁ + ρ₂))
    let T := mmStepKl eps (mmKernelKl a b M reg c ρ₁ ρ₂) reg ρ₁ ρ₂ G i j
    M i j + ρ₁ * Real.log ((∑ j', G i j') / a i) + ρ₂ * Real.log ((∑ i', G i' j) / b j) + (ρ₁ + ρ₂) * Real.log (T / G i j) + reg * Real.log (T / c i j)
      = -((reg + ρ₁ + ρ₂) * Real.log ((D + eps) / D)) := by
  intro D T
  have h1 : 0 < ∑ j', G i j' := sum_pos (fun j _ => hG i j) univ_nonempty
  have h2 : 0 < ∑ i', G i' j := sum_pos (fun i _ => hG i j) univ_nonempty
  have hD : 0 < D := mul_pos (Real.rpow_pos_of_pos h1 _) (Real.rpow_pos_of_pos h2 _)
  have hT : 0 < T := mmStepKl_pos (mmKernelKl_pos ha hb hc) he hG i j
  have lD : Real.log D = ρ₁ / (reg + ρ₁ + ρ₂) * Real.log (∑ j', G i j') + ρ₂ / (reg + ρ₁ + ρ₂) * Real.log (∑ i', G i' j) := by
    rw [Real.log_mul (Real.rpow_pos_of_pos h1 _).ne' (Real.rpow_pos_of_pos h2 _).ne', Real.log_rpow h1, Real.log_rpow h2]
  have hA := Real.rpow_pos_of_pos (ha i) (ρ₁ / (reg + ρ₁ + ρ₂))
  have hB := Real.rpow_pos_of_pos (hb j) (ρ₂ / (reg + ρ₁ + ρ₂))
  have hGp := Real.rpow_pos_of_pos (hG i j) (ρ₁ / (reg + ρ₁ + ρ₂) + ρ₂ / (reg + ρ₁ + ρ₂))
  have hC : 0 < c i j ^ (reg / (reg + ρ₁ + ρ₂)) := by
    rcases hc with rfl | hc
    · simp
    · exact Real.rpow_pos_of_pos (hc i j) _
  have lC : Real.log (c i j ^ (reg / (reg + ρ₁ + ρ₂))) = reg / (reg + ρ₁ + ρ₂) * Real.log (c i j) := by
    rcases hc with rfl | hc
    · simp
    · rw [Real.log_rpow (hc i j)]
  have lT : Real.log T = ρ₁ / (reg + ρ₁ + ρ₂) * Real.log (a i) + ρ₂ / (reg + ρ₁ + ρ₂) * Real.log (b j) + reg / (reg + ρ₁ + ρ₂) * Real.log (c i j) - M i j / (reg + ρ₁ + ρ₂)
      + (ρ₁ / (reg + ρ₁ + ρ₂) + ρ₂ / (reg + ρ₁ + ρ₂)) * Real.log (G i j) - Real.log (D + eps) := by
    show Real.log (a i ^ (ρ₁ / (reg + ρ₁ + ρ₂)) * b j ^ (ρ₂ / (reg + ρ₁ + ρ₂)) * c i j ^ (reg / (reg + ρ₁ + ρ₂)) * Real.exp (-M i j / (reg + ρ₁ + ρ₂))
      * G i j ^ (ρ₁ / (reg + ρ₁ + ρ₂) + ρ₂ / (reg + ρ₁ + ρ₂)) / (D + eps)) = _
    rw [Real.log_div (mul_pos (mul_pos (mul_pos (mul_pos hA hB) hC) (Real.exp_pos _)) hGp).ne' (by linarith), Real.log_mul (mul_pos (mul_pos (mul_pos hA hB) hC) (Real.exp_pos _)).ne' hGp.ne',
      Real.log_mul (mul_pos (mul_pos hA hB) hC).ne' (Real.exp_pos _).ne', Real.log_mul (mul_pos hA hB).ne' hC.ne', Real.log_mul hA.ne' hB.ne',
      Real.log_rpow (ha i), Real.log_rpow (hb j), Real.log_rpow (hG i j), lC, Real.log_exp]
    ring
  have lc : reg * Real.log (T / c i j) = reg * (Real.log T - Real.log (c i j)) := by
    rcases hc with rfl | hc
    · simp
    · rw [Real.log_div hT.ne' (hc i j).ne']
  rw [lc, Real.log_div h1.ne' (ha i).ne', Real.log_div h2.ne' (hb j).ne', Real.log_div hT.ne' (hG i j).ne', Real.log_div (by linarith) hD.ne', lT, lD]
  field_simp
  ring

/-- the exact change of the objective -/
theorem mm_kl_identity [Nonempty I] [Nonempty J] {T P : I → J → ℝ} {e : I → J → ℝ} (ha : ∀ i, 0 < a i) (hb : ∀ j, 0 < b j) (hc : reg = 0 ∨ ∀ i j, 0 < c i j)
    (hG : ∀ i j, 0 < G i j) (hT : ∀ i j, 0 < T i j) (hP : ∀ i j, 0 ≤ P i j)
    (hst : ∀ i j, M i j + ρ₁ * Real.log ((∑ j', G i j') / a i) + ρ₂ * Real.log ((∑ i', G i' j) / b j) + (ρ₁ + ρ₂) * Real.log (T i j / G i j) + reg * Real.log (T i j / c i j) = -e i j) :
    unbObjective a b M reg c (some ρ₁) (some ρ₂) P - unbObjective a b M reg c (some ρ₁) (some ρ₂) T
      = ρ₁ * klDivergence (fun i => ∑ j, P i j) (fun i => ∑ j, G i j) + ρ₂ * klDivergence (fun j => ∑ i, P i j) (fun j => ∑ i, G i j)
        + ρ₁ * (klPlan T G - klDivergence (fun i => ∑ j, T i j) (fun i => ∑ j, G i j)) + ρ₂ * (klPlan T G - klDivergence (fun j => ∑ i, T i j) (fun j => ∑ i, G i j))
        + (reg + ρ₁ + ρ₂) * klPlan P T - (ρ₁ + ρ₂) * klPlan P G - ∑ i, ∑ j, (P i j - T i j) * e i j := by
  have g1 : ∀ i, 0 < ∑ j, G i j := fun i => sum_pos (fun j _ => hG i j) univ_nonempty
  have g2 : ∀ j, 0 < ∑ i, G i j := fun j => sum_pos (fun i _ => hG i j) univ_nonempty
  have r1 := kl_three (p := fun i => ∑ j, G i j) (q := fun i => ∑ j, P i j) (r := a) g1 (fun i => sum_nonneg fun j _ => hP i j) ha
  have r2 := kl_three (p := fun i => ∑ j, G i j) (q := fun i => ∑ j, T i j) (r := a) g1 (fun i => sum_nonneg fun j _ => (hT i j).le) ha
  have s1 := kl_three (p := fun j => ∑ i, G i j) (q := fun j => ∑ i, P i j) (r := b) g2 (fun j => sum_nonneg fun i _ => hP i j) hb
  have s2 := kl_three (p := fun j => ∑ i, G i j) (q := fun j => ∑ i, T i j) (r := b) g2 (fun j => sum_nonneg fun i _ => (hT i j).le) hb
  have t := klPlan_three (P := T) (Q := P) (C := G) hT hP hG
  have q : reg * klPlan P c - reg * klPlan T c = reg * klPlan P T + ∑ i, ∑ j, (P i j - T i j) * (reg * Real.log (T i j / c i j)) := by
    rcases hc with rfl | hc
    · simp
    · have := klPlan_three (P := T) (Q := P) (C := c) hT hP hc
      have e : ∑ i, ∑ j, (P i j - T i j) * (reg * Real.log (T i j / c i j)) = reg * ∑ i, ∑ j, (P i j - T i j) * Real.log (T i j / c i j) := by
        simp only [mul_sum]
        exact sum_congr rfl fun i _ => sum_congr rfl fun j _ => by ring
      rw [e]
      linear_combination reg * this
  have key : ∑ i, ∑ j, (P i j - T i j) * (M i j + ρ₁ * Real.log ((∑ j', G i j') / a i) + ρ₂ * Real.log ((∑ i', G i' j) / b j) + (ρ₁ + ρ₂) * Real.log (T i j / G i j)
      + reg * Real.log (T i j / c i j)) = - ∑ i, ∑ j, (P i j - T i j) * e i j := by
    rw [← sum_neg_distrib]
    refine sum_congr rfl fun i _ => ?_
    rw [← sum_neg_distrib]
    exact sum_congr rfl fun j _ => by rw [hst]; ring
  have split : ∑ i, ∑ j, (P i j - T i j) * (M i j + ρ₁ * Real.log ((∑ j', G i j') / a i) + ρ₂ * Real.log ((∑ i', G i' j) / b j) + (ρ₁ + ρ₂) * Real.log (T i j / G i j)
      + reg * Real.log (T i j / c i j)) = (cost M P - cost M T)
        + ρ₁ * (∑ i, (∑ j, P i j - ∑ j, G i j) * Real.log ((∑ j, G i j) / a i) - ∑ i, (∑ j, T i j - ∑ j, G i j) * Real.log ((∑ j, G i j) / a i))
        + ρ₂ * (∑ j, (∑ i, P i j - ∑ i, G i j) * Real.log ((∑ i, G i j) / b j) - ∑ j, (∑ i, T i j - ∑ i, G i j) * Real.log ((∑ i, G i j) / b j))
        + (ρ₁ + ρ₂) * ∑ i, ∑ j, (P i j - T i j) * Real.log (T i j / G i j) + ∑ i, ∑ j, (P i j - T i j) * (reg * Real.log (T i j / c i j)) := by
    have a1 : ρ₁ * (∑ i, (∑ j, P i j - ∑ j, G i j) * Real.log ((∑ j, G i j) / a i) - ∑ i, (∑ j, T i j - ∑ j, G i j) * Real.log ((∑ j, G i j) / a i))
        = ∑ i, ∑ j, (P i j - T i j) * (ρ₁ * Real.log ((∑ j', G i j') / a i)) := by
      rw [← sum_sub_distrib, mul_sum]
      refine sum_congr rfl fun i _ => ?_
      rw [← sum_mul, sum_sub_distrib]
      ring
    have a2 : ρ₂ * (∑ j, (∑ i, P i j - ∑ i, G i j) * Real.log ((∑ i, G i j) / b j) - ∑ j, (∑ i, T i j - ∑ i, G i j) * Real.log ((∑ i, G i j) / b j))
        = ∑ i, ∑ j, (P i j - T i j) * (ρ₂ * Real.log ((∑ i', G i' j) / b j)) := by
      rw [sum_comm, ← sum_sub_distrib, mul_sum]
      refine sum_congr rfl fun j _ => ?_
      rw [← sum_mul, sum_sub_distrib]
      ring
    rw [a1, a2]
    unfold cost
    rw [mul_sum]
    simp only [mul_sum, ← sum_add_distrib, ← sum_sub_distrib]
    exact sum_congr rfl fun i _ => sum_congr rfl fun j _ => by ring
  rw [split] at key
  unfold unbObjective marginalTerm
  dsimp only
  linear_combination key + q + ρ₁ * r1 - ρ₁ * r2 + ρ₂ * s1 - ρ₂ * s2 + (ρ₁ + ρ₂) * t

/-- one iteration, compared with any plan -/
theorem mm_kl_step [Nonempty I] [Nonempty J] {P : I → J → ℝ} (hs : 0 < reg + ρ₁ + ρ₂) (h1 : 0 ≤ ρ₁) (h2 : 0 ≤ ρ₂) (ha : ∀ i, 0 < a i) (hb : ∀ j, 0 < b j)
    (hc : reg = 0 ∨ ∀ i j, 0 < c i j) (he : 0 ≤ eps) (hG : ∀ i j, 0 < G i j) (hP : ∀ i j, 0 ≤ P i j) :
    unbObjective a b M reg c (some ρ₁) (some ρ₂) (mmStepKl eps (mmKernelKl a b M reg c ρ₁ ρ₂) reg ρ₁ ρ₂ G)
        + (reg + ρ₁ + ρ₂) * klPlan P (mmStepKl eps (mmKernelKl a b M reg c ρ₁ ρ₂) reg ρ₁ ρ₂ G)
      ≤ unbObjective a b M reg c (some ρ₁) (some ρ₂) P + (ρ₁ + ρ₂) * klPlan P G
        + (reg + ρ₁ + ρ₂) * eps * ∑ i, ∑ j, P i j / ((∑ j', G i j') ^ (ρ₁ / (reg + ρ₁ + ρ₂)) * (∑ i', G i' j) ^ (ρ₂ / (reg + ρ₁ + ρ₂))) := by
  have hT := mmStepKl_pos (reg := reg) (ρ₁ := ρ₁) (ρ₂ := ρ₂) (mmKernelKl_pos (M := M) (ρ₁ := ρ₁) (ρ₂ := ρ₂) ha hb hc) he hG
  have g1 : ∀ i, 0 < ∑ j, G i j := fun i => sum_pos (fun j _ => hG i j) univ_nonempty
  have g2 : ∀ j, 0 < ∑ i, G i j := fun j => sum_pos (fun i _ => hG i j) univ_nonempty
  have id := mm_kl_identity (P := P) ha hb hc hG hT hP fun i j => mmStepKl_log hs.ne' ha hb hc he hG i j
  have n1 := mul_nonneg h1 (klDivergence_nonneg (p := fun i => ∑ j, P i j) (fun i => sum_nonneg fun j _ => hP i j) g1)
  have n2 := mul_nonneg h2 (klDivergence_nonneg (p := fun j => ∑ i, P i j) (fun j => sum_nonneg fun i _ => hP i j) g2)
  have n3 := mul_nonneg h1 (sub_nonneg.2 (kl_rows_le hT hG))
  have n4 := mul_nonneg h2 (sub_nonneg.2 (kl_cols_le hT hG))
  have n5 : ∑ i, ∑ j, (P i j - mmStepKl eps (mmKernelKl a b M reg c ρ₁ ρ₂) reg ρ₁ ρ₂ G i j) * ((reg + ρ₁ + ρ₂) * Real.log (((∑ j', G i j') ^ (ρ₁ / (reg + ρ₁ + ρ₂))
        * (∑ i', G i' j) ^ (ρ₂ / (reg + ρ₁ + ρ₂)) + eps) / ((∑ j', G i j') ^ (ρ₁ / (reg + ρ₁ + ρ₂)) * (∑ i', G i' j) ^ (ρ₂ / (reg + ρ₁ + ρ₂)))))
      ≤ (reg + ρ₁ + ρ₂) * eps * ∑ i, ∑ j, P i j / ((∑ j', G i j') ^ (ρ₁ / (reg + ρ₁ + ρ₂)) * (∑ i', G i' j) ^ (ρ₂ / (reg + ρ₁ + ρ₂))) := by
    simp only [mul_sum]
    refine sum_le_sum fun i _ => sum_le_sum fun j _ => ?_
    obtain ⟨D, hD⟩ : ∃ D, D = (∑ j', G i j') ^ (ρ₁ / (reg + ρ₁ + ρ₂)) * (∑ i', G i' j) ^ (ρ₂ / (reg + ρ₁ + ρ₂)) := ⟨_, rfl⟩
    have hDp : 0 < D := hD ▸ mul_pos (Real.rpow_pos_of_pos (g1 i) _) (Real.rpow_pos_of_pos (g2 j) _)
    rw [← hD]
    have l0 : 0 ≤ Real.log ((D + eps) / D) := Real.log_nonneg (by rw [le_div_iff₀ hDp]; linarith)
    have l1 : Real.log ((D + eps) / D) ≤ eps / D := by
      have := Real.log_le_sub_one_of_pos (show 0 < (D + eps) / D from div_pos (by linarith) hDp)
      have e : (D + eps) / D - 1 = eps / D := by field_simp; ring
      linarith
    have m1 := mul_nonneg (hT i j).le (mul_nonneg hs.le l0)
    have m2 := mul_le_mul_of_nonneg_left l1 (mul_nonneg hs.le (hP i j))
    have e2 : (reg + ρ₁ + ρ₂) * eps * (P i j / D) = (reg + ρ₁ + ρ₂) * P i j * (eps / D) := by ring
    rw [e2]
    linarith
  linarith

theorem klPlan_self (G : I → J → ℝ) : klPlan G G = 0 := by
  rw [klPlan_eq]
  refine sum_eq_zero fun i _ => sum_eq_zero fun j _ => ?_
  by_cases h : G i j = 0
  · simp [h]
  · rw [div_self h, Real.log_one]
    ring

theorem mmIterKl_pos [Nonempty I] [Nonempty J] {K : I → J → ℝ} (hK : ∀ i j, 0 < K i j) (he : 0 ≤ eps) (hG : ∀ i j, 0 < G i j) (n : ℕ) :
    ∀ i j, 0 < (mmStepKl eps K reg ρ₁ ρ₂)^[n] G i j := by
  induction n with
  | zero => exact hG
  | succ n ih =>
    rw [Function.iterate_succ_apply']
    exact mmStepKl_pos hK he ih

end kl

section l2

/-- the quadratic part of the objective -/
noncomputable def quad (reg ρ₁ ρ₂ : ℝ) (X : I → J → ℝ) : ℝ :=
  (ρ₁ * ∑ i, (∑ j, X i j) ^ 2 + ρ₂ * ∑ j, (∑ i, X i j) ^ 2 + reg * ∑ i, ∑ j, X i j ^ 2) / 2

/-- the gradient of the quadratic part -/
noncomputable def den (reg ρ₁ ρ₂ : ℝ) (G : I → J → ℝ) (i : I) (j : J) : ℝ := ρ₁ * (∑ j', G i j') + ρ₂ * (∑ i', G i' j) + reg * G i j

/-- the linear part of the objective, with its sign changed -/
def lin (a : I → ℝ) (b : J → ℝ) (M : I → J → ℝ) (reg : ℝ) (c : I → J → ℝ) (ρ₁ ρ₂ : ℝ) (i : I) (j : J) : ℝ := ρ₁ * a i + ρ₂ * b j + reg * c i j - M i j

variable {a : I → ℝ} {b : J → ℝ} {M c G : I → J → ℝ} {reg ρ₁ ρ₂ eps : ℝ}

/-- the constant part of the objective -/
noncomputable def cst (a : I → ℝ) (b : J → ℝ) (reg : ℝ) (c : I → J → ℝ) (ρ₁ ρ₂ : ℝ) : ℝ := (ρ₁ * ∑ i, a i ^ 2 + ρ₂ * ∑ j, b j ^ 2 + reg * ∑ i, ∑ j, c i j ^ 2) / 2

theorem objective_eq (eps : ℝ) (G : I → J → ℝ) :
    unbObjectiveL2 a b (fun i j => M i j + eps) reg c ρ₁ ρ₂ G = quad reg ρ₁ ρ₂ G + eps * (∑ i, ∑ j, G i j) - (∑ i, ∑ j, lin a b M reg c ρ₁ ρ₂ i j * G i j) + cst a b reg c ρ₁ ρ₂ := by
  have e1 : ∑ i, (∑ j, G i j - a i) ^ 2 = ∑ i, (∑ j, G i j) ^ 2 - 2 * (∑ i, ∑ j, a i * G i j) + ∑ i, a i ^ 2 := by
    rw [mul_sum, ← sum_sub_distrib, ← sum_add_distrib]
    exact sum_congr rfl fun i _ => by rw [← mul_sum]; ring
  have e2 : ∑ j, (∑ i, G i j - b j) ^ 2 = ∑ j, (∑ i, G i j) ^ 2 - 2 * (∑ i, ∑ j, b j * G i j) + ∑ j, b j ^ 2 := by
    rw [sum_comm (f := fun i j => b j * G i j), mul_sum, ← sum_sub_distrib, ← sum_add_distrib]
    exact sum_congr rfl fun i _ => by rw [← mul_sum]; ring
  have e3 : ∑ i, ∑ j, (G i j - c i j) ^ 2 = (∑ i, ∑ j, G i j ^ 2) - 2 * (∑ i, ∑ j, c i j * G i j) + ∑ i, ∑ j, c i j ^ 2 := by
    simp only [mul_sum, ← sum_sub_distrib, ← sum_add_distrib]
    exact sum_congr rfl fun i _ => sum_congr rfl fun j _ => by ring
  have e4 : cost (fun i j => M i j + eps) G = (∑ i, ∑ j, M i j * G i j) + eps * ∑ i, ∑ j, G i j := by
    unfold cost
    simp only [mul_sum, ← sum_add_distrib]
    exact sum_congr rfl fun i _ => sum_congr rfl fun j _ => by ring
  have e5 : ∑ i, ∑ j, lin a b M reg c ρ₁ ρ₂ i j * G i j = ρ₁ * (∑ i, ∑ j, a i * G i j) + ρ₂ * (∑ i, ∑ j, b j * G i j) + reg * (∑ i, ∑ j, c i j * G i j) - ∑ i, ∑ j, M i j * G i j := by
    simp only [mul_sum, ← sum_sub_distrib, ← sum_add_distrib]
    exact sum_congr rfl fun i _ => sum_congr rfl fun j _ => by unfold lin; ring
  unfold unbObjectiveL2 l2Divergence quad cst
  rw [Fintype.sum_prod_type, e1, e2, e3, e4, e5]
  ring

theorem quad_expand (reg ρ₁ ρ₂ : ℝ) (G T : I → J → ℝ) :
    quad reg ρ₁ ρ₂ T = quad reg ρ₁ ρ₂ G + (∑ i, ∑ j, den reg ρ₁ ρ₂ G i j * (T i j - G i j)) + quad reg ρ₁ ρ₂ fun i j => T i j - G i j := by
  have d1 : ∑ i, ∑ j, den reg ρ₁ ρ₂ G i j * (T i j - G i j)
      = ρ₁ * (∑ i, (∑ j, G i j) * (∑ j, T i j - ∑ j, G i j)) + ρ₂ * (∑ j, (∑ i, G i j) * (∑ i, T i j - ∑ i, G i j)) + reg * ∑ i, ∑ j, G i j * (T i j - G i j) := by
    have a1 : ∑ i, (∑ j, G i j) * (∑ j, T i j - ∑ j, G i j) = ∑ i, ∑ j, (∑ j', G i j') * (T i j - G i j) := sum_congr rfl fun i _ => by rw [← mul_sum, sum_sub_distrib]
    have a2 : ∑ j, (∑ i, G i j) * (∑ i, T i j - ∑ i, G i j) = ∑ i, ∑ j, (∑ i', G i' j) * (T i j - G i j) := by
      rw [sum_comm]
      exact sum_congr rfl fun i _ => by rw [← mul_sum, sum_sub_distrib]
    rw [a1, a2]
    simp only [mul_sum, ← sum_add_distrib]
    exact sum_congr rfl fun i _ => sum_congr rfl fun j _ => by unfold den; ring
  rw [d1]
  unfold quad
  simp only [sum_sub_distrib]
  have b1 : ∑ i, (∑ j, T i j) ^ 2 = ∑ i, (∑ j, G i j) ^ 2 + 2 * (∑ i, (∑ j, G i j) * (∑ j, T i j - ∑ j, G i j)) + ∑ i, (∑ j, T i j - ∑ j, G i j) ^ 2 := by
    rw [mul_sum, ← sum_add_distrib, ← sum_add_distrib]
    exact sum_congr rfl fun i _ => by ring
  have b2 : ∑ j, (∑ i, T i j) ^ 2 = ∑ j, (∑ i, G i j) ^ 2 + 2 * (∑ j, (∑ i, G i j) * (∑ i, T i j - ∑ i, G i j)) + ∑ j, (∑ i, T i j - ∑ i, G i j) ^ 2 := by
    rw [mul_sum, ← sum_add_distrib, ← sum_add_distrib]
    exact sum_congr rfl fun i _ => by ring
  have b3 : ∑ i, ∑ j, T i j ^ 2 = ∑ i, ∑ j, G i j ^ 2 + 2 * (∑ i, ∑ j, G i j * (T i j - G i j)) + ∑ i, ∑ j, (T i j - G i j) ^ 2 := by
    simp only [mul_sum, ← sum_add_distrib]
    exact sum_congr rfl fun i _ => sum_congr rfl fun j _ => by ring
  rw [b1, b2, b3]
  ring

theorem sum_sq_le {L : Type*} [Fintype L] {x g : L → ℝ} (hg : ∀ l, 0 ≤ g l) (hx : ∀ l, g l = 0 → x l = 0) : (∑ l, x l) ^ 2 ≤ (∑ l, g l) * ∑ l, x l ^ 2 / g l := by
  refine sum_sq_le_sum_mul_sum_of_sq_eq_mul univ (fun l _ => hg l) (fun l _ => div_nonneg (sq_nonneg _) (hg l)) fun l _ => ?_
  by_cases h : g l = 0
  · rw [h, hx l h]
    simp
  · field_simp

/-- the quadratic surrogate -/
theorem quad_le (h0 : 0 ≤ reg) (h1 : 0 ≤ ρ₁) (h2 : 0 ≤ ρ₂) {X : I → J → ℝ} (hG : ∀ i j, 0 ≤ G i j) (hX : ∀ i j, G i j = 0 → X i j = 0) :
    quad reg ρ₁ ρ₂ X ≤ (∑ i, ∑ j, den reg ρ₁ ρ₂ G i j / G i j * X i j ^ 2) / 2 := by
  have r1 : ρ₁ * ∑ i, (∑ j, X i j) ^ 2 ≤ ρ₁ * ∑ i, ∑ j, (∑ j', G i j') * (X i j ^ 2 / G i j) :=
    mul_le_mul_of_nonneg_left (sum_le_sum fun i _ => by rw [← mul_sum]; exact sum_sq_le (hG i) (hX i)) h1
  have r2 : ρ₂ * ∑ j, (∑ i, X i j) ^ 2 ≤ ρ₂ * ∑ i, ∑ j, (∑ i', G i' j) * (X i j ^ 2 / G i j) := by
    rw [sum_comm (f := fun i j => (∑ i', G i' j) * (X i j ^ 2 / G i j))]
    exact mul_le_mul_of_nonneg_left (sum_le_sum fun j _ => by rw [← mul_sum]; exact sum_sq_le (fun i => hG i j) fun i => hX i j) h2
  have r3 : reg * ∑ i, ∑ j, X i j ^ 2 = reg * ∑ i, ∑ j, G i j * (X i j ^ 2 / G i j) := by
    congr 1
    refine sum_congr rfl fun i _ => sum_congr rfl fun j _ => ?_
    by_cases h : G i j = 0
    · rw [hX i j h]; simp
    · field_simp
  have e : ∑ i, ∑ j, den reg ρ₁ ρ₂ G i j / G i j * X i j ^ 2 = ρ₁ * (∑ i, ∑ j, (∑ j', G i j') * (X i j ^ 2 / G i j)) + ρ₂ * (∑ i, ∑ j, (∑ i', G i' j) * (X i j ^ 2 / G i j))
      + reg * ∑ i, ∑ j, G i j * (X i j ^ 2 / G i j) := by
    simp only [mul_sum, ← sum_add_distrib]
    exact sum_congr rfl fun i _ => sum_congr rfl fun j _ => by unfold den; ring
  unfold quad
  rw [e]
  linarith

theorem den_ge (h0 : 0 ≤ reg) (h1 : 0 ≤ ρ₁) (h2 : 0 ≤ ρ₂) (hG : ∀ i j, 0 ≤ G i j) (i : I) (j : J) : (reg + ρ₁ + ρ₂) * G i j ≤ den reg ρ₁ ρ₂ G i j := by
  have a1 := mul_le_mul_of_nonneg_left (single_le_sum (f := fun j' => G i j') (fun j' _ => hG i j') (mem_univ j)) h1
  have a2 := mul_le_mul_of_nonneg_left (single_le_sum (f := fun i' => G i' j) (fun i' _ => hG i' j) (mem_univ i)) h2
  unfold den
  linarith

theorem mmStepL2_eq (G : I → J → ℝ) (i : I) (j : J) :
    mmStepL2 eps (mmKernelL2 a b M reg c ρ₁ ρ₂) reg ρ₁ ρ₂ G i j = max (lin a b M reg c ρ₁ ρ₂ i j) 0 * G i j / (den reg ρ₁ ρ₂ G i j + eps) := rfl

/-- one iteration decreases the objective with the cost `M + eps` -/
theorem mm_l2_decrease (h0 : 0 ≤ reg) (h1 : 0 ≤ ρ₁) (h2 : 0 ≤ ρ₂) (hs : 0 < reg + ρ₁ + ρ₂) (he : 0 ≤ eps) (hG : ∀ i j, 0 ≤ G i j) :
    let T := mmStepL2 eps (mmKernelL2 a b M reg c ρ₁ ρ₂) reg ρ₁ ρ₂ G
    quad reg ρ₁ ρ₂ (fun i j => T i j - G i j) ≤ (∑ i, ∑ j, (den reg ρ₁ ρ₂ G i j + eps) / G i j * (T i j - G i j) ^ 2) / 2 ∧
    unbObjectiveL2 a b (fun i j => M i j + eps) reg c ρ₁ ρ₂ T + (∑ i, ∑ j, (den reg ρ₁ ρ₂ G i j + eps) / G i j * (T i j - G i j) ^ 2) / 2
      ≤ unbObjectiveL2 a b (fun i j => M i j + eps) reg c ρ₁ ρ₂ G := by
  intro T
  have hX : ∀ i j, G i j = 0 → T i j - G i j = 0 := fun i j h => by
    show mmStepL2 eps (mmKernelL2 a b M reg c ρ₁ ρ₂) reg ρ₁ ρ₂ G i j - _ = 0
    rw [mmStepL2_eq, h]
    simp
  have q := quad_le h0 h1 h2 hG hX
  have le2 : ∑ i, ∑ j, den reg ρ₁ ρ₂ G i j / G i j * (T i j - G i j) ^ 2 ≤ ∑ i, ∑ j, (den reg ρ₁ ρ₂ G i j + eps) / G i j * (T i j - G i j) ^ 2 :=
    sum_le_sum fun i _ => sum_le_sum fun j _ => mul_le_mul_of_nonneg_right (div_le_div_of_nonneg_right (by linarith) (hG i j)) (sq_nonneg _)
  have q' : quad reg ρ₁ ρ₂ (fun i j => T i j - G i j) ≤ (∑ i, ∑ j, (den reg ρ₁ ρ₂ G i j + eps) / G i j * (T i j - G i j) ^ 2) / 2 := by linarith
  refine ⟨q', ?_⟩
  rw [objective_eq, objective_eq, quad_expand reg ρ₁ ρ₂ G T]
  have ent : (∑ i, ∑ j, (den reg ρ₁ ρ₂ G i j + eps - lin a b M reg c ρ₁ ρ₂ i j) * (T i j - G i j)) + ∑ i, ∑ j, (den reg ρ₁ ρ₂ G i j + eps) / G i j * (T i j - G i j) ^ 2 ≤ 0 := by
    rw [← sum_add_distrib]
    refine sum_nonpos fun i _ => ?_
    rw [← sum_add_distrib]
    refine sum_nonpos fun j _ => ?_
    rcases (hG i j).eq_or_lt with h | h
    · rw [hX i j h.symm]; simp
    have hD : 0 < den reg ρ₁ ρ₂ G i j + eps := by have := den_ge h0 h1 h2 hG i j; have := mul_pos hs h; linarith
    have hT : T i j = max (lin a b M reg c ρ₁ ρ₂ i j) 0 * G i j / (den reg ρ₁ ρ₂ G i j + eps) := rfl
    obtain ⟨D, hDd⟩ : ∃ D, D = den reg ρ₁ ρ₂ G i j + eps := ⟨_, rfl⟩
    rw [← hDd] at hT hD ⊢
    obtain ⟨k, hk⟩ : ∃ k, k = lin a b M reg c ρ₁ ρ₂ i j := ⟨_, rfl⟩
    rw [← hk] at hT ⊢
    have hx : T i j - G i j = (max k 0 - D) * (G i j / D) := by rw [hT]; field_simp
    have e : (D - k) * (T i j - G i j) + D / G i j * (T i j - G i j) ^ 2 = (max k 0 - k) * (max k 0 - D) * (G i j / D) := by
      rw [hx]; field_simp; ring
    rw [e]
    rcases le_total 0 k with hk0 | hk0
    · rw [max_eq_left hk0]; simp
    · rw [max_eq_right hk0]
      have : 0 ≤ G i j / D := (div_pos h hD).le
      have := mul_nonneg (mul_nonneg (neg_nonneg.2 hk0) hD.le) this
      linarith
  have spl : ∑ i, ∑ j, (den reg ρ₁ ρ₂ G i j + eps - lin a b M reg c ρ₁ ρ₂ i j) * (T i j - G i j)
      = (∑ i, ∑ j, den reg ρ₁ ρ₂ G i j * (T i j - G i j)) + eps * (∑ i, ∑ j, T i j) - eps * (∑ i, ∑ j, G i j)
        - ((∑ i, ∑ j, lin a b M reg c ρ₁ ρ₂ i j * T i j) - ∑ i, ∑ j, lin a b M reg c ρ₁ ρ₂ i j * G i j) := by
    simp only [mul_sum, ← sum_add_distrib, ← sum_sub_distrib]
    exact sum_congr rfl fun i _ => sum_congr rfl fun j _ => by ring
  rw [spl] at ent
  linarith

/-- potential of the quadratic iteration relative to a plan `P` -/
noncomputable def pot (a : I → ℝ) (b : J → ℝ) (M : I → J → ℝ) (reg : ℝ) (c : I → J → ℝ) (ρ₁ ρ₂ eps : ℝ) (P G : I → J → ℝ) : ℝ :=
  -(∑ i, ∑ j, max (lin a b M reg c ρ₁ ρ₂ i j) 0 * P i j * Real.log (G i j)) + quad reg ρ₁ ρ₂ G + eps * (∑ i, ∑ j, G i j)
    + unbObjectiveL2 a b (fun i j => M i j + eps) reg c ρ₁ ρ₂ G

theorem quad_nonneg (h0 : 0 ≤ reg) (h1 : 0 ≤ ρ₁) (h2 : 0 ≤ ρ₂) (X : I → J → ℝ) : 0 ≤ quad reg ρ₁ ρ₂ X := by
  unfold quad
  have a1 := mul_nonneg h1 (sum_nonneg fun i (_ : i ∈ univ) => sq_nonneg (∑ j, X i j))
  have a2 := mul_nonneg h2 (sum_nonneg fun j (_ : j ∈ univ) => sq_nonneg (∑ i, X i j))
  have a3 := mul_nonneg h0 (sum_nonneg fun i (_ : i ∈ univ) => sum_nonneg fun j (_ : j ∈ univ) => sq_nonneg (X i j))
  linarith

/-- convexity -/
theorem objective_convex (h0 : 0 ≤ reg) (h1 : 0 ≤ ρ₁) (h2 : 0 ≤ ρ₂) (G P : I → J → ℝ) :
    unbObjectiveL2 a b (fun i j => M i j + eps) reg c ρ₁ ρ₂ P = unbObjectiveL2 a b (fun i j => M i j + eps) reg c ρ₁ ρ₂ G
      + (∑ i, ∑ j, (den reg ρ₁ ρ₂ G i j + eps - lin a b M reg c ρ₁ ρ₂ i j) * (P i j - G i j)) + quad reg ρ₁ ρ₂ fun i j => P i j - G i j := by
  have spl : ∑ i, ∑ j, (den reg ρ₁ ρ₂ G i j + eps - lin a b M reg c ρ₁ ρ₂ i j) * (P i j - G i j)
      = (∑ i, ∑ j, den reg ρ₁ ρ₂ G i j * (P i j - G i j)) + eps * (∑ i, ∑ j, P i j) - eps * (∑ i, ∑ j, G i j)
        - ((∑ i, ∑ j, lin a b M reg c ρ₁ ρ₂ i j * P i j) - ∑ i, ∑ j, lin a b M reg c ρ₁ ρ₂ i j * G i j) := by
    simp only [mul_sum, ← sum_add_distrib, ← sum_sub_distrib]
    exact sum_congr rfl fun i _ => sum_congr rfl fun j _ => by ring
  rw [objective_eq, objective_eq, quad_expand reg ρ₁ ρ₂ G P, spl]
  ring

theorem mm_l2_pot (h0 : 0 ≤ reg) (h1 : 0 ≤ ρ₁) (h2 : 0 ≤ ρ₂) (hs : 0 < reg + ρ₁ + ρ₂) (he : 0 ≤ eps) {P : I → J → ℝ} (hP : ∀ i j, 0 ≤ P i j)
    (hpos : ∀ i j, 0 < lin a b M reg c ρ₁ ρ₂ i j → 0 < G i j) (hzero : ∀ i j, lin a b M reg c ρ₁ ρ₂ i j ≤ 0 → G i j = 0) :
    unbObjectiveL2 a b (fun i j => M i j + eps) reg c ρ₁ ρ₂ G - unbObjectiveL2 a b (fun i j => M i j + eps) reg c ρ₁ ρ₂ P
      ≤ pot a b M reg c ρ₁ ρ₂ eps P G - pot a b M reg c ρ₁ ρ₂ eps P (mmStepL2 eps (mmKernelL2 a b M reg c ρ₁ ρ₂) reg ρ₁ ρ₂ G) := by
  have hG : ∀ i j, 0 ≤ G i j := fun i j => by
    rcases lt_or_ge 0 (lin a b M reg c ρ₁ ρ₂ i j) with h | h
    · exact (hpos i j h).le
    · exact (hzero i j h).ge
  obtain ⟨T, hT⟩ : ∃ T, T = mmStepL2 eps (mmKernelL2 a b M reg c ρ₁ ρ₂) reg ρ₁ ρ₂ G := ⟨_, rfl⟩
  have hTe : ∀ i j, T i j = max (lin a b M reg c ρ₁ ρ₂ i j) 0 * G i j / (den reg ρ₁ ρ₂ G i j + eps) := fun i j => by rw [hT, mmStepL2_eq]
  obtain ⟨d1, d2⟩ := mm_l2_decrease (a := a) (b := b) (M := M) (c := c) h0 h1 h2 hs he hG
  rw [← hT] at d1 d2 ⊢
  have cv := objective_convex (a := a) (b := b) (M := M) (c := c) (eps := eps) h0 h1 h2 G P
  have cq := quad_nonneg h0 h1 h2 fun i j => P i j - G i j
  have ex := quad_expand reg ρ₁ ρ₂ G T
  have ent : -(∑ i, ∑ j, (den reg ρ₁ ρ₂ G i j + eps - lin a b M reg c ρ₁ ρ₂ i j) * (P i j - G i j))
      ≤ (∑ i, ∑ j, (max (lin a b M reg c ρ₁ ρ₂ i j) 0 * P i j * Real.log (T i j) - max (lin a b M reg c ρ₁ ρ₂ i j) 0 * P i j * Real.log (G i j)))
        - ∑ i, ∑ j, (den reg ρ₁ ρ₂ G i j + eps) * (T i j - G i j) := by
    rw [← sum_sub_distrib, ← sum_neg_distrib]
    refine sum_le_sum fun i _ => ?_
    rw [← sum_sub_distrib, ← sum_neg_distrib]
    refine sum_le_sum fun j _ => ?_
    rw [hTe]
    rcases lt_or_ge 0 (lin a b M reg c ρ₁ ρ₂ i j) with hk | hk
    · have hg := hpos i j hk
      have hD : 0 < den reg ρ₁ ρ₂ G i j + eps := by have := den_ge h0 h1 h2 hG i j; have := mul_pos hs hg; linarith
      rw [max_eq_left hk.le]
      obtain ⟨D, hDd⟩ : ∃ D, D = den reg ρ₁ ρ₂ G i j + eps := ⟨_, rfl⟩
      rw [← hDd] at hD ⊢
      obtain ⟨k, hkd⟩ : ∃ k, k = lin a b M reg c ρ₁ ρ₂ i j := ⟨_, rfl⟩
      rw [← hkd] at hk ⊢
      have l := Real.log_le_sub_one_of_pos (div_pos hD hk)
      rw [Real.log_div hD.ne' hk.ne'] at l
      rw [Real.log_div (mul_pos hk hg).ne' hD.ne', Real.log_mul hk.ne' hg.ne']
      have l2 := mul_le_mul_of_nonneg_left l (mul_nonneg hk.le (hP i j))
      have e : k * P i j * (D / k - 1) = P i j * (D - k) := by field_simp
      have e2 : D * (k * G i j / D - G i j) = (k - D) * G i j := by field_simp
      rw [e] at l2
      rw [e2]
      linarith
    · have hg := hzero i j hk
      have hD : 0 ≤ den reg ρ₁ ρ₂ G i j + eps := by have := den_ge h0 h1 h2 hG i j; rw [hg] at this; linarith
      rw [max_eq_right hk, hg]
      have := mul_nonneg (sub_nonneg.2 (hk.trans hD)) (hP i j)
      simp only [zero_mul, sub_zero, zero_div, sub_self, mul_zero]
      linarith
  have e1 : ∑ i, ∑ j, (den reg ρ₁ ρ₂ G i j + eps) * (T i j - G i j) = (∑ i, ∑ j, den reg ρ₁ ρ₂ G i j * (T i j - G i j)) + eps * (∑ i, ∑ j, T i j) - eps * ∑ i, ∑ j, G i j := by
    simp only [mul_sum, ← sum_add_distrib, ← sum_sub_distrib]
    exact sum_congr rfl fun i _ => sum_congr rfl fun j _ => by ring
  rw [e1] at ent
  have e2 : ∑ i, ∑ j, (max (lin a b M reg c ρ₁ ρ₂ i j) 0 * P i j * Real.log (T i j) - max (lin a b M reg c ρ₁ ρ₂ i j) 0 * P i j * Real.log (G i j))
      = (∑ i, ∑ j, max (lin a b M reg c ρ₁ ρ₂ i j) 0 * P i j * Real.log (T i j)) - ∑ i, ∑ j, max (lin a b M reg c ρ₁ ρ₂ i j) 0 * P i j * Real.log (G i j) := by
    simp only [sum_sub_distrib]
  rw [e2] at ent
  unfold pot
  linarith

theorem l2_bounded (h0 : 0 ≤ reg) (h1 : 0 ≤ ρ₁) (h2 : 0 ≤ ρ₂) (hs : 0 < reg + ρ₁ + ρ₂) (he : 0 ≤ eps) (hG : ∀ i j, 0 ≤ G i j) :
    cst a b reg c ρ₁ ρ₂ - (∑ i, ∑ j, lin a b M reg c ρ₁ ρ₂ i j ^ 2 / (2 * (reg + ρ₁ + ρ₂))) ≤ unbObjectiveL2 a b (fun i j => M i j + eps) reg c ρ₁ ρ₂ G := by
  rw [objective_eq]
  have ex := quad_expand reg ρ₁ ρ₂ G fun _ _ => 0
  have q0 : quad reg ρ₁ ρ₂ (fun (_ : I) (_ : J) => 0) = 0 := by simp [quad]
  have q1 : quad reg ρ₁ ρ₂ (fun i j => 0 - G i j) = quad reg ρ₁ ρ₂ G := by simp [quad]
  have q2 : ∑ i, ∑ j, den reg ρ₁ ρ₂ G i j * (0 - G i j) = -∑ i, ∑ j, den reg ρ₁ ρ₂ G i j * G i j := by simp
  rw [q0, q1, q2] at ex
  have m : 0 ≤ eps * ∑ i, ∑ j, G i j := mul_nonneg he (sum_nonneg fun i _ => sum_nonneg fun j _ => hG i j)
  have k : ∑ i, ∑ j, lin a b M reg c ρ₁ ρ₂ i j * G i j ≤ (∑ i, ∑ j, den reg ρ₁ ρ₂ G i j * G i j) / 2 + ∑ i, ∑ j, lin a b M reg c ρ₁ ρ₂ i j ^ 2 / (2 * (reg + ρ₁ + ρ₂)) := by
    rw [sum_div, ← sum_add_distrib]
    refine sum_le_sum fun i _ => ?_
    rw [sum_div, ← sum_add_distrib]
    refine sum_le_sum fun j _ => ?_
    have d := mul_le_mul_of_nonneg_right (den_ge h0 h1 h2 hG i j) (hG i j)
    have sq : 0 ≤ ((reg + ρ₁ + ρ₂) * G i j - lin a b M reg c ρ₁ ρ₂ i j) ^ 2 / (2 * (reg + ρ₁ + ρ₂)) := div_nonneg (sq_nonneg _) (by linarith)
    have e : ((reg + ρ₁ + ρ₂) * G i j - lin a b M reg c ρ₁ ρ₂ i j) ^ 2 / (2 * (reg + ρ₁ + ρ₂))
        = (reg + ρ₁ + ρ₂) * G i j * G i j / 2 - lin a b M reg c ρ₁ ρ₂ i j * G i j + lin a b M reg c ρ₁ ρ₂ i j ^ 2 / (2 * (reg + ρ₁ + ρ₂)) := by
      field_simp
      ring
    rw [e] at sq
    linarith
  linarith

theorem pot_bounded (h0 : 0 ≤ reg) (h1 : 0 ≤ ρ₁) (h2 : 0 ≤ ρ₂) (hs : 0 < reg + ρ₁ + ρ₂) (he : 0 ≤ eps) {P : I → J → ℝ} (hP : ∀ i j, 0 ≤ P i j) :
    ∃ B, ∀ G : I → J → ℝ, (∀ i j, 0 < lin a b M reg c ρ₁ ρ₂ i j → 0 < G i j) → (∀ i j, lin a b M reg c ρ₁ ρ₂ i j ≤ 0 → G i j = 0) → B ≤ pot a b M reg c ρ₁ ρ₂ eps P G := by
  refine ⟨2 * (cst a b reg c ρ₁ ρ₂ - ∑ i, ∑ j, lin a b M reg c ρ₁ ρ₂ i j ^ 2 / (2 * (reg + ρ₁ + ρ₂))) - cst a b reg c ρ₁ ρ₂
    - ∑ i, ∑ j, max (lin a b M reg c ρ₁ ρ₂ i j) 0 * P i j * (Real.log (P i j) - 1), fun G hpos hzero => ?_⟩
  have hG : ∀ i j, 0 ≤ G i j := fun i j => by
    rcases lt_or_ge 0 (lin a b M reg c ρ₁ ρ₂ i j) with h | h
    · exact (hpos i j h).le
    · exact (hzero i j h).ge
  have lb := l2_bounded (a := a) (b := b) (M := M) (c := c) h0 h1 h2 hs he hG
  have oe := objective_eq (a := a) (b := b) (M := M) (c := c) (reg := reg) (ρ₁ := ρ₁) (ρ₂ := ρ₂) eps G
  have k : ∑ i, ∑ j, max (lin a b M reg c ρ₁ ρ₂ i j) 0 * P i j * Real.log (G i j)
      ≤ (∑ i, ∑ j, max (lin a b M reg c ρ₁ ρ₂ i j) 0 * P i j * (Real.log (P i j) - 1)) + ∑ i, ∑ j, lin a b M reg c ρ₁ ρ₂ i j * G i j := by
    rw [← sum_add_distrib]
    refine sum_le_sum fun i _ => ?_
    rw [← sum_add_distrib]
    refine sum_le_sum fun j _ => ?_
    rcases lt_or_ge 0 (lin a b M reg c ρ₁ ρ₂ i j) with hk | hk
    · rw [max_eq_left hk.le]
      have hg := hpos i j hk
      rcases (hP i j).eq_or_lt with hp | hp
      · rw [← hp]
        have := mul_pos hk hg
        simp only [mul_zero, zero_mul, zero_add]
        linarith
      · have l := Real.log_le_sub_one_of_pos (div_pos hg hp)
        rw [Real.log_div hg.ne' hp.ne'] at l
        have l2 := mul_le_mul_of_nonneg_left l (mul_nonneg hk.le hp.le)
        have e : lin a b M reg c ρ₁ ρ₂ i j * P i j * (G i j / P i j - 1) = lin a b M reg c ρ₁ ρ₂ i j * G i j - lin a b M reg c ρ₁ ρ₂ i j * P i j := by field_simp
        rw [e] at l2
        linarith
    · rw [max_eq_right hk, hzero i j hk]
      simp
  unfold pot
  linarith

theorem mmStepL2_supp (h0 : 0 ≤ reg) (h1 : 0 ≤ ρ₁) (h2 : 0 ≤ ρ₂) (hs : 0 < reg + ρ₁ + ρ₂) (he : 0 ≤ eps) (hG : ∀ i j, 0 ≤ G i j) (hpos : ∀ i j, 0 < lin a b M reg c ρ₁ ρ₂ i j → 0 < G i j) :
    (∀ i j, 0 ≤ mmStepL2 eps (mmKernelL2 a b M reg c ρ₁ ρ₂) reg ρ₁ ρ₂ G i j) ∧
    (∀ i j, 0 < lin a b M reg c ρ₁ ρ₂ i j → 0 < mmStepL2 eps (mmKernelL2 a b M reg c ρ₁ ρ₂) reg ρ₁ ρ₂ G i j) ∧
    ∀ i j, lin a b M reg c ρ₁ ρ₂ i j ≤ 0 → mmStepL2 eps (mmKernelL2 a b M reg c ρ₁ ρ₂) reg ρ₁ ρ₂ G i j = 0 := by
  have z : ∀ i j, lin a b M reg c ρ₁ ρ₂ i j ≤ 0 → mmStepL2 eps (mmKernelL2 a b M reg c ρ₁ ρ₂) reg ρ₁ ρ₂ G i j = 0 := fun i j h => by
    rw [mmStepL2_eq, max_eq_right h]; simp
  have p : ∀ i j, 0 < lin a b M reg c ρ₁ ρ₂ i j → 0 < mmStepL2 eps (mmKernelL2 a b M reg c ρ₁ ρ₂) reg ρ₁ ρ₂ G i j := fun i j h => by
    rw [mmStepL2_eq, max_eq_left h.le]
    have := den_ge h0 h1 h2 hG i j
    have := mul_pos hs (hpos i j h)
    exact div_pos (mul_pos h (hpos i j h)) (by linarith)
  refine ⟨fun i j => ?_, p, z⟩
  rcases lt_or_ge 0 (lin a b M reg c ρ₁ ρ₂ i j) with h | h
  · exact (p i j h).le
  · exact (z i j h).ge

theorem mmIterL2_supp (h0 : 0 ≤ reg) (h1 : 0 ≤ ρ₁) (h2 : 0 ≤ ρ₂) (hs : 0 < reg + ρ₁ + ρ₂) (he : 0 ≤ eps) (hG : ∀ i j, 0 < G i j) (n : ℕ) :
    (∀ i j, 0 ≤ (mmStepL2 eps (mmKernelL2 a b M reg c ρ₁ ρ₂) reg ρ₁ ρ₂)^[n] G i j) ∧
    (∀ i j, 0 < lin a b M reg c ρ₁ ρ₂ i j → 0 < (mmStepL2 eps (mmKernelL2 a b M reg c ρ₁ ρ₂) reg ρ₁ ρ₂)^[n] G i j) ∧
    (0 < n → ∀ i j, lin a b M reg c ρ₁ ρ₂ i j ≤ 0 → (mmStepL2 eps (mmKernelL2 a b M reg c ρ₁ ρ₂) reg ρ₁ ρ₂)^[n] G i j = 0) := by
  induction n with
  | zero => exact ⟨fun i j => (hG i j).le, fun i j _ => hG i j, fun h => absurd h (lt_irrefl _)⟩
  | succ n ih =>
    rw [Function.iterate_succ_apply']
    obtain ⟨a1, a2, a3⟩ := mmStepL2_supp (a := a) (b := b) (M := M) (c := c) h0 h1 h2 hs he ih.1 ih.2.1
    exact ⟨a1, a2, fun _ => a3⟩

theorem mm_l2_rate (h0 : 0 ≤ reg) (h1 : 0 ≤ ρ₁) (h2 : 0 ≤ ρ₂) (hs : 0 < reg + ρ₁ + ρ₂) (he : 0 ≤ eps) (hG : ∀ i j, 0 < G i j) {P : I → J → ℝ} (hP : ∀ i j, 0 ≤ P i j) :
    ∃ C, ∀ n : ℕ, (n : ℝ) * (unbObjectiveL2 a b (fun i j => M i j + eps) reg c ρ₁ ρ₂ ((mmStepL2 eps (mmKernelL2 a b M reg c ρ₁ ρ₂) reg ρ₁ ρ₂)^[n] G)
      - unbObjectiveL2 a b (fun i j => M i j + eps) reg c ρ₁ ρ₂ P) ≤ C := by
  obtain ⟨B, hB⟩ := pot_bounded (a := a) (b := b) (M := M) (c := c) h0 h1 h2 hs he hP
  have sup := mmIterL2_supp (a := a) (b := b) (M := M) (c := c) h0 h1 h2 hs he hG
  have key : ∀ n : ℕ, ((n + 1 : ℕ) : ℝ) * (unbObjectiveL2 a b (fun i j => M i j + eps) reg c ρ₁ ρ₂ ((mmStepL2 eps (mmKernelL2 a b M reg c ρ₁ ρ₂) reg ρ₁ ρ₂)^[n + 1] G)
      - unbObjectiveL2 a b (fun i j => M i j + eps) reg c ρ₁ ρ₂ P)
      ≤ pot a b M reg c ρ₁ ρ₂ eps P ((mmStepL2 eps (mmKernelL2 a b M reg c ρ₁ ρ₂) reg ρ₁ ρ₂)^[1] G) - pot a b M reg c ρ₁ ρ₂ eps P ((mmStepL2 eps (mmKernelL2 a b M reg c ρ₁ ρ₂) reg ρ₁ ρ₂)^[n + 2] G) := by
    intro n
    induction n with
    | zero =>
      obtain ⟨-, s2, s3⟩ := sup 1
      have := mm_l2_pot h0 h1 h2 hs he hP s2 (s3 one_pos)
      rw [← Function.iterate_succ_apply' (mmStepL2 eps (mmKernelL2 a b M reg c ρ₁ ρ₂) reg ρ₁ ρ₂) 1 G] at this
      simpa using this
    | succ n ih =>
      obtain ⟨s1, -, -⟩ := sup (n + 1)
      obtain ⟨-, s2, s3⟩ := sup (n + 1 + 1)
      have p := mm_l2_pot h0 h1 h2 hs he hP s2 (s3 (by omega))
      obtain ⟨d1, d2⟩ := mm_l2_decrease (a := a) (b := b) (M := M) (c := c) h0 h1 h2 hs he s1
      have dq := quad_nonneg h0 h1 h2 fun i j => mmStepL2 eps (mmKernelL2 a b M reg c ρ₁ ρ₂) reg ρ₁ ρ₂ ((mmStepL2 eps (mmKernelL2 a b M reg c ρ₁ ρ₂) reg ρ₁ ρ₂)^[n + 1] G) i j
        - (mmStepL2 eps (mmKernelL2 a b M reg c ρ₁ ρ₂) reg ρ₁ ρ₂)^[n + 1] G i j
      have dec := (le_add_of_nonneg_right (dq.trans d1)).trans d2
      rw [← Function.iterate_succ_apply' (mmStepL2 eps (mmKernelL2 a b M reg c ρ₁ ρ₂) reg ρ₁ ρ₂) (n + 1 + 1) G] at p
      rw [← Function.iterate_succ_apply' (mmStepL2 eps (mmKernelL2 a b M reg c ρ₁ ρ₂) reg ρ₁ ρ₂) (n + 1) G] at dec
      have := mul_le_mul_of_nonneg_left dec (show (0 : ℝ) ≤ ((n + 1 : ℕ) : ℝ) by positivity)
      rw [show n + 1 + 2 = n + 1 + 1 + 1 by rfl]
      push_cast at ih this ⊢
      linarith
  refine ⟨max 0 (pot a b M reg c ρ₁ ρ₂ eps P ((mmStepL2 eps (mmKernelL2 a b M reg c ρ₁ ρ₂) reg ρ₁ ρ₂)^[1] G) - B), fun n => ?_⟩
  cases n with
  | zero => simp
  | succ n =>
    obtain ⟨-, s2, s3⟩ := sup (n + 2)
    have := hB _ s2 (s3 (by omega))
    exact ((key n).trans (by linarith)).trans (le_max_right _ _)

end l2

end POT.Mm
