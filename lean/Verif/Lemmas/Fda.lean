import Verif.Model.Fda
import Verif.Lemmas.SolveSample

/-! # Lemmas for discriminant analysis -/

set_option linter.unusedSectionVars false

namespace POT.Fda

open Finset Matrix Spec POT.Sinkhorn Filter Topology

variable {N : Type*} [Fintype N] {nc d p : ℕ}

theorem distP_eq (P : Matrix (Fin d) (Fin p) ℝ) (x z : Fin d → ℝ) : distP P x z = projSq P x z := by
  unfold distP projSq projP
  rw [mul_sum, ← sum_add_distrib, ← sum_sub_distrib]
  refine sum_congr rfl fun q _ => ?_
  have : ∑ e, P e q * (x e - z e) = (∑ e, x e * P e q) - ∑ e, z e * P e q := by
    rw [← sum_sub_distrib]
    exact sum_congr rfl fun e _ => by ring
  rw [this]; ring

theorem distP_shift (P : Matrix (Fin d) (Fin p) ℝ) (X : N → Fin d → ℝ) (i j : N) : distP P (shift X i) (shift X j) = projSq P (X i) (X j) := by
  rw [distP_eq]
  unfold projSq shift
  simp only [sub_sub_sub_cancel_right]

theorem distP_symm (P : Matrix (Fin d) (Fin p) ℝ) (x z : Fin d → ℝ) : distP P x z = distP P z x := by
  unfold distP
  have : ∑ q, projP P x q * projP P z q = ∑ q, projP P z q * projP P x q := sum_congr rfl fun q _ => mul_comm _ _
  rw [this]; ring

section solvers

variable {I J : Type*} [Fintype I] [Fintype J] [Nonempty I] [Nonempty J] {a : I → ℝ} {b : J → ℝ} {M : I → J → ℝ} {reg : ℝ}

theorem kLog_eq (k : ℕ) : sinkhornKLog a b M reg k = logPlan M reg ((logStep a b M reg)^[k] (logInit none)) := by
  funext i j
  unfold logPlan logT
  have : sinkhornKLog a b M reg k i j = Real.exp (((logStep a b M reg)^[k] (logInit none)).u i + -M i j / reg + ((logStep a b M reg)^[k] (logInit none)).v j) := rfl
  rw [this]
  congr 1
  ring

/-- without the guard the two solvers return the same plan after every number of iterations -/
theorem plain_eq_log (ha : ∀ i, 0 < a i) (hb : ∀ j, 0 < b j) (k : ℕ) : sinkhornK 0 a b M reg k = sinkhornKLog a b M reg k := by
  have key : ∀ k, (∀ i, ((gStep 0 a b fun i j => Real.exp (-M i j / reg))^[k] { u := fun _ => 1, v := fun _ => 1 }).u i = Real.exp (((lStep a b M reg)^[k] { u := fun _ => 0, v := fun _ => 0 }).u i)) ∧
      ∀ j, ((gStep 0 a b fun i j => Real.exp (-M i j / reg))^[k] { u := fun _ => 1, v := fun _ => 1 }).v j = Real.exp (((lStep a b M reg)^[k] { u := fun _ => 0, v := fun _ => 0 }).v j) := by
    intro k
    induction k with
    | zero => exact ⟨fun i => Real.exp_zero.symm, fun j => Real.exp_zero.symm⟩
    | succ k ih =>
      simp only [Function.iterate_succ_apply']
      generalize (gStep 0 a b fun i j => Real.exp (-M i j / reg))^[k] { u := fun _ => 1, v := fun _ => 1 } = s at ih ⊢
      generalize (lStep a b M reg)^[k] { u := fun _ => 0, v := fun _ => 0 } = t at ih ⊢
      have hv : ∀ j, (gStep 0 a b (fun i j => Real.exp (-M i j / reg)) s).v j = Real.exp ((lStep a b M reg t).v j) := by
        intro j
        have e1 : (gStep 0 a b (fun i j => Real.exp (-M i j / reg)) s).v j = b j / (∑ i, Real.exp (-M i j / reg) * s.u i + 0) := rfl
        have e2 : (lStep a b M reg t).v j = Real.log (b j) - Real.log (∑ i, Real.exp (-M i j / reg + t.u i)) := rfl
        rw [e1, e2, Real.exp_sub, Real.exp_log (hb j), Real.exp_log (sum_pos (fun i _ => Real.exp_pos _) univ_nonempty), add_zero]
        simp only [Real.exp_add, ih.1]
      refine ⟨fun i => ?_, hv⟩
      have e1 : (gStep 0 a b (fun i j => Real.exp (-M i j / reg)) s).u i = a i / (∑ j, Real.exp (-M i j / reg) * (gStep 0 a b (fun i j => Real.exp (-M i j / reg)) s).v j + 0) := rfl
      have e2 : (lStep a b M reg t).u i = Real.log (a i) - Real.log (∑ j, Real.exp (-M i j / reg + (lStep a b M reg t).v j)) := rfl
      rw [e1, e2, Real.exp_sub, Real.exp_log (ha i), Real.exp_log (sum_pos (fun i _ => Real.exp_pos _) univ_nonempty), add_zero]
      simp only [Real.exp_add, hv]
  funext i j
  unfold sinkhornK sinkhornKLog plan
  rw [(key k).1, (key k).2, ← Real.exp_add, ← Real.exp_add]

theorem solve_converges (m : Solver) (δ : ℝ) (hm : m = .plain → δ = 0) (M : I → J → ℝ) (hreg : 0 < reg) (ha : ∀ i, 0 < a i) (hb : ∀ j, 0 < b j) (hS : ∑ i, a i = ∑ j, b j) :
    ∃ P, IsEntropicOptimal a b M reg P ∧ (∀ i j, 0 < P i j) ∧ ∀ i j, Tendsto (fun k => solve m δ a b M reg k i j) atTop (𝓝 (P i j)) := by
  obtain ⟨P, h1, h2, h3⟩ := Props.log_converges M hreg ha hb hS
  refine ⟨P, h1, h2, fun i j => ?_⟩
  have e : ∀ k, solve m δ a b M reg k = sinkhornKLog a b M reg k := by
    intro k
    cases m with
    | plain =>
      rw [hm rfl]
      exact plain_eq_log ha hb k
    | log => rfl
  simp only [e]
  rw [← tendsto_add_atTop_iff_nat 1]
  refine (h3 i j).congr fun k => ?_
  rw [kLog_eq, SolveSample.sinkhornLog_zero]

end solvers

section scatter

variable (X : N → Fin d → ℝ) (y : N → Fin nc)

theorem mean_scalar (c : Fin nc) : classMean X y c = classScalarMean X y c := by
  unfold classMean classScalarMean classFeatMean
  rw [Fintype.card_fin, ← sum_div, div_div, sum_comm]

theorem covMean_eq (c : Fin nc) (e : Fin d) : covMean X y c e = classFeatMean X y c e := rfl

theorem covMean_shift {c : Fin nc} (hc : 0 < #{i | y i = c}) (e : Fin d) : classFeatMean (shift X) y c e = classFeatMean X y c e - meanAll X := by
  unfold classFeatMean shift
  have : ((#{i | y i = c} : ℕ) : ℝ) ≠ 0 := by exact_mod_cast hc.ne'
  rw [sum_sub_distrib, sum_const, nsmul_eq_mul, sub_div, mul_div_cancel_left₀ _ this]

theorem within_eq (hc : ∀ c, 0 < #{i | y i = c}) (e f : Fin d) : within (shift X) y e f = withinScatter X y e f := by
  unfold within withinScatter cov
  rw [Matrix.smul_apply, Matrix.sum_apply, smul_eq_mul, Fintype.card_fin, one_div, inv_mul_eq_div]
  congr 1
  refine sum_congr rfl fun c _ => ?_
  rw [of_apply]
  congr 1
  refine sum_congr rfl fun i _ => ?_
  rw [covMean_eq, covMean_eq, covMean_shift X y (hc c), covMean_shift X y (hc c)]
  unfold shift
  ring

theorem scalar_shift (hd : 0 < d) {c : Fin nc} (hc : 0 < #{i | y i = c}) : classMean (shift X) y c = classScalarMean X y c - meanAll X := by
  have hd' : (d : ℝ) ≠ 0 := by exact_mod_cast hd.ne'
  rw [mean_scalar]
  unfold classScalarMean
  simp only [covMean_shift X y hc, sum_sub_distrib, sum_const, card_univ, Fintype.card_fin, nsmul_eq_mul]
  rw [sub_div, mul_div_cancel_left₀ _ hd']

/-- `Cb` is a multiple of the matrix of ones -/
theorem between_eq (e f : Fin d) : between X y e f = ∑ c, (classMean X y c - (∑ c', classMean X y c') / nc) ^ 2 := by
  unfold between mxc
  rw [of_apply]
  exact sum_congr rfl fun c _ => by simp only [of_apply]; ring

theorem within_symm : (within X y)ᵀ = within X y := by
  unfold within
  rw [transpose_smul, transpose_sum]
  congr 1
  refine sum_congr rfl fun c _ => ?_
  ext e f
  unfold cov
  rw [transpose_apply, of_apply, of_apply]
  congr 1
  exact sum_congr rfl fun i _ => by ring

theorem within_nonneg (hc : ∀ c, 1 ≤ #{i | y i = c}) (x : Fin d → ℝ) : 0 ≤ x ⬝ᵥ (within X y *ᵥ x) := by
  have e : ∀ c, x ⬝ᵥ (cov X y c *ᵥ x) = (∑ i with y i = c, (∑ e, (X i e - covMean X y c e) * x e) ^ 2) / ((#{i | y i = c} : ℝ) - 1) := by
    intro c
    unfold cov dotProduct mulVec dotProduct
    simp only [of_apply, mul_sum, sum_div]
    rw [sum_comm' (t' := univ) (s' := fun _ => univ) (by simp)]
    have h1 : ∀ f e : Fin d, x e * ((∑ i with y i = c, (X i e - covMean X y c e) * (X i f - covMean X y c f)) / ((#{i | y i = c} : ℝ) - 1) * x f)
        = ∑ i with y i = c, ((X i e - covMean X y c e) * x e) * ((X i f - covMean X y c f) * x f) / ((#{i | y i = c} : ℝ) - 1) := by
      intro f e
      rw [sum_div, sum_mul, mul_sum]
      exact sum_congr rfl fun i _ => by ring
    simp only [← sum_div] at *
    simp only [h1, ← sum_div]
    congr 1
    rw [sum_congr rfl fun f _ => sum_comm, sum_comm]
    refine sum_congr rfl fun i _ => ?_
    rw [sq, sum_mul_sum, sum_comm]
  unfold within
  rw [smul_mulVec, sum_mulVec, dotProduct_smul, dotProduct_sum, smul_eq_mul]
  refine mul_nonneg (by positivity) (sum_nonneg fun c _ => ?_)
  rw [e]
  have : (1 : ℝ) ≤ #{i | y i = c} := by exact_mod_cast hc c
  exact div_nonneg (sum_nonneg fun _ _ => sq_nonneg _) (by linarith)

end scatter

end POT.Fda
