import Verif.Model.Gmm
import Verif.Lemmas.Gaussian
import Mathlib.MeasureTheory.Integral.Pi
import Mathlib.MeasureTheory.Measure.Lebesgue.Basic
import Mathlib.MeasureTheory.Group.Integral
import Mathlib.Analysis.SpecialFunctions.Gaussian.GaussianIntegral
import Mathlib.Probability.Distributions.Gaussian.Real

/-! # Lemmas on Gaussian densities -/

set_option linter.unusedSectionVars false

namespace POT.Gmm

open Finset Matrix POT.Gaussian POT.Spec POT.Bures MeasureTheory

variable {D : Type*} [Fintype D] [DecidableEq D]

theorem pdf_eq (x m : D → ℝ) {C : Matrix D D ℝ} (hC : C.PosDef) :
    pdf x m C = (Real.sqrt ((2 * Real.pi) ^ Fintype.card D * C.det))⁻¹ * Real.exp (-((x - m) ⬝ᵥ (C⁻¹ *ᵥ (x - m))) / 2) := by
  have hd := hC.det_pos
  have hp : 0 < (2 * Real.pi) ^ Fintype.card D := by positivity
  have ht : (C⁻¹)ᵀ = C⁻¹ := by rw [transpose_nonsing_inv, psd_t hC.posSemidef]
  have hz : ∑ d, (x - m) d * ((x - m) ᵥ* C⁻¹) d = (x - m) ⬝ᵥ (C⁻¹ *ᵥ (x - m)) := by
    rw [← ht, vecMul_transpose, ht]; rfl
  unfold pdf logpdf
  simp only [hz]
  rw [abs_of_pos hd, ← Real.log_pow, ← Real.log_mul hp.ne' hd.ne', mul_add, Real.exp_add]
  congr 1
  · rw [show (-0.5 : ℝ) * Real.log ((2 * Real.pi) ^ Fintype.card D * C.det) = -(Real.log ((2 * Real.pi) ^ Fintype.card D * C.det) / 2) by ring, Real.exp_neg, ← Real.log_sqrt (by positivity),
      Real.exp_log (by positivity)]
  · congr 1; ring

theorem integral_std : ∫ u : D → ℝ, Real.exp (-(u ⬝ᵥ u) / 2) = Real.sqrt ((2 * Real.pi) ^ Fintype.card D) := by
  have h : ∀ u : D → ℝ, Real.exp (-(u ⬝ᵥ u) / 2) = ∏ d, Real.exp (-(1 / 2) * u d ^ 2) := by
    intro u
    rw [← Real.exp_sum]
    congr 1
    unfold dotProduct
    rw [← sum_neg_distrib, sum_div]
    exact sum_congr rfl fun d _ => by ring
  simp only [h]
  rw [integral_fintype_prod_volume_eq_pow (fun t : ℝ => Real.exp (-(1 / 2) * t ^ 2)), integral_gaussian, show Real.pi / (1 / 2) = 2 * Real.pi by ring]
  rw [eq_comm, Real.sqrt_eq_iff_eq_sq (by positivity) (by positivity), pow_right_comm, Real.sq_sqrt (by positivity)]

theorem integral_lin {M : Matrix D D ℝ} (hM : M.det ≠ 0) (f : (D → ℝ) → ℝ) (hf : Continuous f) : ∫ y, f y = |M.det| * ∫ u, f (M *ᵥ u) := by
  have h := Real.map_matrix_volume_pi_eq_smul_volume_pi hM
  have hc : Continuous (toLin' M) := LinearMap.continuous_on_pi _
  have h1 : ∫ y, f y ∂(Measure.map (toLin' M) volume) = ∫ u, f (M *ᵥ u) := by
    rw [integral_map hc.measurable.aemeasurable hf.aestronglyMeasurable]
    simp
  rw [h, integral_smul_measure, ENNReal.toReal_ofReal (abs_nonneg _), smul_eq_mul, abs_inv] at h1
  rw [← h1]
  have : |M.det| ≠ 0 := by simpa using hM
  field_simp

/-- moments in one dimension -/
noncomputable def g1 (n : ℕ) (t : ℝ) : ℝ := t ^ n * Real.exp (-(1 / 2) * t ^ 2)

theorem g1_int (n : ℕ) : Integrable (g1 n) := by
  have h := integrable_rpow_mul_exp_neg_mul_sq (b := 1 / 2) (by norm_num) (s := (n : ℝ)) (by have : (0 : ℝ) ≤ n := Nat.cast_nonneg n; linarith)
  unfold g1
  simpa only [Real.rpow_natCast] using h

theorem g1_zero : ∫ t, g1 0 t = Real.sqrt (2 * Real.pi) := by
  unfold g1
  simp only [pow_zero, one_mul]
  rw [integral_gaussian]
  congr 1; ring

theorem g1_one : ∫ t, g1 1 t = 0 := by
  have h := integral_neg_eq_self (g1 1) volume
  have : ∀ t, g1 1 (-t) = -g1 1 t := fun t => by unfold g1; ring_nf
  simp only [this, integral_neg] at h
  linarith

theorem g1_two : ∫ t, g1 2 t = Real.sqrt (2 * Real.pi) := by
  have h := ProbabilityTheory.variance_fun_id_gaussianReal (μ := 0) (v := 1)
  rw [ProbabilityTheory.variance_eq_integral measurable_id'.aemeasurable, ProbabilityTheory.integral_id_gaussianReal, ProbabilityTheory.integral_gaussianReal_eq_integral_smul one_ne_zero] at h
  have e : ∀ t : ℝ, ProbabilityTheory.gaussianPDFReal 0 1 t • (t - 0) ^ 2 = (Real.sqrt (2 * Real.pi))⁻¹ * g1 2 t := by
    intro t
    simp only [ProbabilityTheory.gaussianPDFReal_def, g1, smul_eq_mul, NNReal.coe_one, mul_one, sub_zero]
    rw [show -t ^ 2 / 2 = -(1 / 2) * t ^ 2 by ring]; ring
  simp only [e] at h
  rw [integral_const_mul, NNReal.coe_one] at h
  have : 0 < Real.sqrt (2 * Real.pi) := by positivity
  field_simp at h
  exact h

noncomputable def gs (u : D → ℝ) : ℝ := Real.exp (-(u ⬝ᵥ u) / 2)

theorem gs_prod (n : D → ℕ) (u : D → ℝ) : (∏ d, u d ^ n d) * gs u = ∏ d, g1 (n d) (u d) := by
  unfold gs g1
  rw [prod_mul_distrib, ← Real.exp_sum]
  congr 2
  unfold dotProduct
  rw [← sum_neg_distrib, sum_div]
  exact sum_congr rfl fun d _ => by ring

theorem gs_integrable (n : D → ℕ) : Integrable fun u : D → ℝ => (∏ d, u d ^ n d) * gs u := by
  simp only [gs_prod]
  exact Integrable.fintype_prod (f := fun d => g1 (n d)) fun d => g1_int _

theorem gs_integral (n : D → ℕ) : ∫ u : D → ℝ, (∏ d, u d ^ n d) * gs u = ∏ d, ∫ t, g1 (n d) t := by
  simp only [gs_prod]
  exact integral_fintype_prod_volume_eq_prod fun d => g1 (n d)

theorem prod_single (k : D) (u : D → ℝ) : ∏ d, u d ^ (Pi.single k 1 : D → ℕ) d = u k := by
  rw [prod_eq_single k]
  · simp
  · intro b _ hb; simp [hb]
  · intro h; exact absurd (mem_univ k) h

theorem prod_pair (k l : D) (u : D → ℝ) : ∏ d, u d ^ (Pi.single k 1 + Pi.single l 1 : D → ℕ) d = u k * u l := by
  simp only [Pi.add_apply, pow_add, prod_mul_distrib, prod_single]

theorem gs_int1 (k : D) : Integrable fun u : D → ℝ => u k * gs u := by
  have h := gs_integrable (Pi.single k 1 : D → ℕ)
  simpa only [prod_single] using h

theorem gs_int2 (k l : D) : Integrable fun u : D → ℝ => u k * u l * gs u := by
  have h := gs_integrable (Pi.single k 1 + Pi.single l 1 : D → ℕ)
  simpa only [prod_pair] using h

theorem gs_int0 : Integrable fun u : D → ℝ => gs u := by
  have h := gs_integrable (0 : D → ℕ)
  simpa using h

theorem gs_zero : ∫ u : D → ℝ, gs u = Real.sqrt ((2 * Real.pi) ^ Fintype.card D) := integral_std

theorem gs_one (k : D) : ∫ u : D → ℝ, u k * gs u = 0 := by
  have h := gs_integral (Pi.single k 1 : D → ℕ)
  simp only [prod_single] at h
  rw [h]
  exact prod_eq_zero (mem_univ k) (by simp [g1_one])

theorem gs_two (k l : D) : ∫ u : D → ℝ, u k * u l * gs u = if k = l then Real.sqrt ((2 * Real.pi) ^ Fintype.card D) else 0 := by
  have h := gs_integral (Pi.single k 1 + Pi.single l 1 : D → ℕ)
  simp only [prod_pair] at h
  rw [h]
  split
  · rename_i hkl
    subst hkl
    have e : ∀ d, ∫ t, g1 ((Pi.single k 1 + Pi.single k 1 : D → ℕ) d) t = Real.sqrt (2 * Real.pi) := by
      intro d
      by_cases hd : d = k
      · subst hd; simp [g1_two]
      · simp [hd, g1_zero]
    simp only [e, prod_const, card_univ]
    rw [eq_comm, Real.sqrt_eq_iff_eq_sq (by positivity) (by positivity), pow_right_comm, Real.sq_sqrt (by positivity)]
  · rename_i hkl
    exact prod_eq_zero (mem_univ k) (by simp [hkl, g1_one])

/-- expectations under the density in standard coordinates -/
theorem integral_pdf_mul (m : D → ℝ) {C S : Matrix D D ℝ} (hC : C.PosDef) (hS : IsPsdSqrt S C) (F : (D → ℝ) → ℝ) (hF : Continuous F) :
    ∫ x, F x * pdf x m C = (Real.sqrt ((2 * Real.pi) ^ Fintype.card D))⁻¹ * ∫ u, F (m + S *ᵥ u) * gs u := by
  have hSd := sqrt_posDef hS hC
  have hdet : C.det = S.det ^ 2 := by rw [← hS.2, det_mul, sq]
  have hd := hSd.det_pos
  have hq : ∀ u : D → ℝ, (S *ᵥ u) ⬝ᵥ (C⁻¹ *ᵥ (S *ᵥ u)) = u ⬝ᵥ u := by
    intro u
    have hu : IsUnit S.det := isUnit_det hSd
    rw [mulVec_mulVec, ← hS.2, Matrix.mul_inv_rev, Matrix.mul_assoc, nonsing_inv_mul _ hu, Matrix.mul_one, ← vecMul_transpose, psd_t hS.1, ← dotProduct_mulVec, mulVec_mulVec, mul_nonsing_inv _ hu, one_mulVec]
  obtain ⟨f, hf⟩ : ∃ f : (D → ℝ) → ℝ, f = fun y => F (m + y) * Real.exp (-(y ⬝ᵥ (C⁻¹ *ᵥ y)) / 2) := ⟨_, rfl⟩
  have hfc : Continuous f := by rw [hf]; fun_prop
  have e : ∀ x, F x * pdf x m C = (Real.sqrt ((2 * Real.pi) ^ Fintype.card D * C.det))⁻¹ * f (x - m) := by
    intro x
    rw [hf, pdf_eq _ _ hC]
    simp only [add_sub_cancel]
    ring
  simp only [e]
  rw [integral_const_mul, integral_sub_right_eq_self f m, integral_lin hd.ne' f hfc]
  have e2 : ∀ u, f (S *ᵥ u) = F (m + S *ᵥ u) * gs u := by
    intro u; rw [hf]; simp only [hq]; rfl
  simp only [e2]
  rw [abs_of_pos hd, hdet, Real.sqrt_mul (by positivity), Real.sqrt_sq hd.le]
  have : 0 < Real.sqrt ((2 * Real.pi) ^ Fintype.card D) := by positivity
  field_simp

theorem integral_pdf (m : D → ℝ) {C : Matrix D D ℝ} (hC : C.PosDef) : ∫ x, pdf x m C = 1 := by
  obtain ⟨S, hS⟩ := exists_sqrt hC.posSemidef
  have h := integral_pdf_mul m hC hS (fun _ => 1) continuous_const
  simp only [one_mul] at h
  rw [h, gs_zero]
  have : 0 < Real.sqrt ((2 * Real.pi) ^ Fintype.card D) := by positivity
  field_simp

theorem integral_pdf_one (m : D → ℝ) {C : Matrix D D ℝ} (hC : C.PosDef) (d : D) : ∫ x, x d * pdf x m C = m d := by
  obtain ⟨S, hS⟩ := exists_sqrt hC.posSemidef
  rw [integral_pdf_mul m hC hS (fun x => x d) (by fun_prop)]
  have e : ∀ u : D → ℝ, (m + S *ᵥ u) d * gs u = m d * gs u + ∑ k, S d k * (u k * gs u) := by
    intro u
    simp only [Pi.add_apply, mulVec, dotProduct, add_mul, sum_mul]
    congr 1
    exact sum_congr rfl fun k _ => by ring
  simp only [e]
  rw [integral_add (gs_int0.const_mul _) (integrable_finsetSum _ fun k _ => (gs_int1 k).const_mul _), integral_const_mul, integral_finsetSum _ fun k _ => (gs_int1 k).const_mul _, gs_zero]
  simp only [integral_const_mul, gs_one, mul_zero, sum_const_zero, add_zero]
  have : 0 < Real.sqrt ((2 * Real.pi) ^ Fintype.card D) := by positivity
  field_simp

theorem integral_pdf_two (m : D → ℝ) {C : Matrix D D ℝ} (hC : C.PosDef) (d d' : D) : ∫ x, (x d - m d) * (x d' - m d') * pdf x m C = C d d' := by
  obtain ⟨S, hS⟩ := exists_sqrt hC.posSemidef
  rw [integral_pdf_mul m hC hS (fun x => (x d - m d) * (x d' - m d')) (by fun_prop)]
  have e : ∀ u : D → ℝ, ((m + S *ᵥ u) d - m d) * ((m + S *ᵥ u) d' - m d') * gs u = ∑ k, ∑ l, S d k * S d' l * (u k * u l * gs u) := by
    intro u
    simp only [Pi.add_apply, add_sub_cancel_left, mulVec, dotProduct, sum_mul]
    exact sum_congr rfl fun k _ => by rw [mul_sum, sum_mul]; exact sum_congr rfl fun l _ => by ring
  simp only [e]
  rw [integral_finsetSum _ fun k _ => integrable_finsetSum _ fun l _ => (gs_int2 k l).const_mul _]
  have e2 : ∀ k, ∫ u : D → ℝ, ∑ l, S d k * S d' l * (u k * u l * gs u) = S d k * S d' k * Real.sqrt ((2 * Real.pi) ^ Fintype.card D) := by
    intro k
    rw [integral_finsetSum _ fun l _ => (gs_int2 k l).const_mul _]
    simp only [integral_const_mul, gs_two, mul_ite, mul_zero, sum_ite_eq, mem_univ, if_true]
  simp only [e2]
  rw [← sum_mul]
  have hC' : C d d' = ∑ k, S d k * S d' k := by
    rw [← hS.2, Matrix.mul_apply]
    exact sum_congr rfl fun k _ => by rw [show S k d' = S d' k from congrFun (congrFun (psd_t hS.1) d') k]
  rw [hC']
  have : 0 < Real.sqrt ((2 * Real.pi) ^ Fintype.card D) := by positivity
  field_simp

theorem integrable_pdf_mul (m : D → ℝ) {C S : Matrix D D ℝ} (hC : C.PosDef) (hS : IsPsdSqrt S C) (F : (D → ℝ) → ℝ) (hF : Continuous F)
    (h : Integrable fun u => F (m + S *ᵥ u) * gs u) : Integrable fun x => F x * pdf x m C := by
  have hSd := sqrt_posDef hS hC
  have hd := hSd.det_pos
  have hq : ∀ u : D → ℝ, (S *ᵥ u) ⬝ᵥ (C⁻¹ *ᵥ (S *ᵥ u)) = u ⬝ᵥ u := by
    intro u
    have hu : IsUnit S.det := isUnit_det hSd
    rw [mulVec_mulVec, ← hS.2, Matrix.mul_inv_rev, Matrix.mul_assoc, nonsing_inv_mul _ hu, Matrix.mul_one, ← vecMul_transpose, psd_t hS.1, ← dotProduct_mulVec, mulVec_mulVec, mul_nonsing_inv _ hu, one_mulVec]
  obtain ⟨f, hf⟩ : ∃ f : (D → ℝ) → ℝ, f = fun y => F (m + y) * Real.exp (-(y ⬝ᵥ (C⁻¹ *ᵥ y)) / 2) := ⟨_, rfl⟩
  have hfc : Continuous f := by rw [hf]; fun_prop
  have e : (fun x => F x * pdf x m C) = fun x => (Real.sqrt ((2 * Real.pi) ^ Fintype.card D * C.det))⁻¹ * f (x - m) := by
    ext x
    rw [hf, pdf_eq _ _ hC]
    simp only [add_sub_cancel]
    ring
  have e2 : (fun u => F (m + S *ᵥ u) * gs u) = f ∘ toLin' S := by
    ext u; rw [hf]; simp only [Function.comp, toLin'_apply, hq]; rfl
  rw [e]
  refine Integrable.const_mul ?_ _
  refine Integrable.comp_sub_right ?_ m
  rw [e2] at h
  have hc : Continuous (toLin' S) := LinearMap.continuous_on_pi _
  rw [← integrable_map_measure hfc.aestronglyMeasurable hc.measurable.aemeasurable, Real.map_matrix_volume_pi_eq_smul_volume_pi hd.ne'] at h
  rwa [integrable_smul_measure (by simp [hd.ne']) (by simp)] at h

theorem integrable_pdf (m : D → ℝ) {C : Matrix D D ℝ} (hC : C.PosDef) : Integrable fun x => pdf x m C := by
  obtain ⟨S, hS⟩ := exists_sqrt hC.posSemidef
  have h := integrable_pdf_mul m hC hS (fun _ => 1) continuous_const (by simpa using gs_int0)
  simpa using h

theorem integrable_pdf_one (m : D → ℝ) {C : Matrix D D ℝ} (hC : C.PosDef) (d : D) : Integrable fun x => x d * pdf x m C := by
  obtain ⟨S, hS⟩ := exists_sqrt hC.posSemidef
  refine integrable_pdf_mul m hC hS (fun x => x d) (by fun_prop) ?_
  have e : (fun u : D → ℝ => (m + S *ᵥ u) d * gs u) = fun u => m d * gs u + ∑ k, S d k * (u k * gs u) := by
    ext u
    simp only [Pi.add_apply, mulVec, dotProduct, add_mul, sum_mul]
    congr 1
    exact sum_congr rfl fun k _ => by ring
  rw [e]
  exact (gs_int0.const_mul _).add (integrable_finsetSum _ fun k _ => (gs_int1 k).const_mul _)

end POT.Gmm
