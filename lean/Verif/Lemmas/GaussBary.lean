import Verif.Lemmas.Gaussian

/-!
# Barycenters of Gaussians
-/

set_option linter.unusedSectionVars false

namespace POT.Gaussian

open Finset Matrix POT.Spec POT.Bures

variable {D : Type*} [Fintype D] [DecidableEq D] {S : Type*} [Fintype S]

/-- Weighted sum of squared Bures distances. -/
noncomputable def objF (e : Eigh D) (w : S → ℝ) (C : S → Matrix D D ℝ) (B : Matrix D D ℝ) : ℝ := ∑ s, w s * bw2 e B (C s)

theorem sum_smul_psd {w : S → ℝ} {P : S → Matrix D D ℝ} (hw : ∀ s, 0 ≤ w s) (hP : ∀ s, (P s).PosSemidef) : (∑ s, w s • P s).PosSemidef :=
  posSemidef_sum univ fun s _ => (hP s).smul (hw s)

theorem sum_smul_pd {w : S → ℝ} {P : S → Matrix D D ℝ} (hw : ∀ s, 0 ≤ w s) (h0 : 0 < ∑ s, w s) (hP : ∀ s, (P s).PosDef) : (∑ s, w s • P s).PosDef := by
  classical
  obtain ⟨s, -, hs⟩ := exists_lt_of_sum_lt (s := univ) (f := fun _ : S => (0 : ℝ)) (g := w) (by simpa using h0)
  rw [← add_sum_erase _ _ (mem_univ s)]
  exact ((hP s).smul hs).add_posSemidef (posSemidef_sum _ fun t _ => (hP t).posSemidef.smul (hw t))

theorem baryInit_pd {w : S → ℝ} {C : S → Matrix D D ℝ} (hw : ∀ s, 0 ≤ w s) (h0 : ∑ s, w s = 1) (hC : ∀ s, (C s).PosDef) : (baryInit w C).PosDef := by
  have hS : 0 < (Fintype.card S : ℝ) := by
    have : Nonempty S := by
      by_contra hc
      rw [not_nonempty_iff] at hc
      simp at h0
    exact_mod_cast Fintype.card_pos
  exact (sum_smul_pd hw (by rw [h0]; norm_num) hC).smul (by positivity)

variable {e : Eigh D}

theorem fixStep_pd (he : e.Ok) {w : S → ℝ} {C : S → Matrix D D ℝ} (hw : ∀ s, 0 ≤ w s) (h0 : ∑ s, w s = 1) (hC : ∀ s, (C s).PosDef) {Cb : Matrix D D ℝ} (hb : Cb.PosDef) :
    (fixStep e w C Cb).PosDef := by
  refine sum_smul_pd hw (by rw [h0]; norm_num) fun s => ?_
  obtain ⟨h1, h2⟩ := roots he hb.posSemidef (hC s).posSemidef
  exact sqrt_posDef h2 (posDef_conj (hC s) (sqrt_posDef h1 hb))

theorem otMap_eq (e : Eigh D) (Cb C : Matrix D D ℝ) : otMap e Cb C = mapA e Cb C := rfl

/-- The fixed-point residual is the gradient in coordinates. -/
theorem residual (he : e.Ok) (w : S → ℝ) (C : S → Matrix D D ℝ) {Cb : Matrix D D ℝ} (hb : Cb.PosDef) :
    gradBw e w C Cb = (sqrtm e Cb)⁻¹ * (Cb - fixStep e w C Cb) * (sqrtm e Cb)⁻¹ := by
  have hr := sqrtm_ok he hb.posSemidef
  have hu := isUnit_det (sqrt_posDef hr hb)
  obtain ⟨R, hR⟩ : ∃ R, R = sqrtm e Cb := ⟨_, rfl⟩
  have e1 : R⁻¹ * Cb * R⁻¹ = 1 := by
    rw [← hR] at hr hu
    rw [← hr.2, show R⁻¹ * (R * R) * R⁻¹ = (R⁻¹ * R) * (R * R⁻¹) by simp only [Matrix.mul_assoc], nonsing_inv_mul _ hu, mul_nonsing_inv _ hu, Matrix.one_mul]
  rw [← hR, Matrix.mul_sub, Matrix.sub_mul, e1]
  unfold gradBw fixStep otMap
  simp only [← hR, Matrix.mul_sum, Matrix.sum_mul, Matrix.mul_smul, Matrix.smul_mul]

theorem inv_trace {T Cb C : Matrix D D ℝ} (hT : T.PosDef) (h : T * Cb * T = C) : trace (T⁻¹ * C) = trace (T * Cb) := by
  rw [← h, show T⁻¹ * (T * Cb * T) = (T⁻¹ * T) * (Cb * T) by simp only [Matrix.mul_assoc], nonsing_inv_mul _ (isUnit_det hT), Matrix.one_mul, trace_mul_comm]

/-- Dual lower bound at an arbitrary matrix. -/
theorem bw2_dual (he : e.Ok) {B C T : Matrix D D ℝ} (hB : B.PosSemidef) (hC : C.PosSemidef) (hT : T.PosDef) :
    trace B + trace C - trace (T * B) - trace (T⁻¹ * C) ≤ bw2 e B C := by
  refine (bw2_isBures he hB hC).2 ?_
  rintro _ ⟨K, hK, rfl⟩
  have := trace_le_of_posDef hK hT
  unfold covCost
  linarith

theorem bw2_at (he : e.Ok) {Cb C : Matrix D D ℝ} (hb : Cb.PosDef) (hC : C.PosSemidef) : bw2 e Cb C = trace Cb + trace C - 2 * trace (mapA e Cb C * Cb) := by
  rw [trace_mapA he hb hC]; rfl

/-- Subgradient inequality: the objective lies above its linearisation at a positive definite point. -/
theorem subgradient (he : e.Ok) {w : S → ℝ} {C : S → Matrix D D ℝ} (hw : ∀ s, 0 ≤ w s) (h0 : ∑ s, w s = 1) (hC : ∀ s, (C s).PosDef) {Cb B : Matrix D D ℝ} (hb : Cb.PosDef)
    (hB : B.PosSemidef) : objF e w C Cb + trace (gradBw e w C Cb * (B - Cb)) ≤ objF e w C B := by
  have h1 : ∀ s, w s * bw2 e Cb (C s) + w s * (trace (B - Cb) - trace (mapA e Cb (C s) * (B - Cb))) ≤ w s * bw2 e B (C s) := by
    intro s
    rw [← mul_add]
    refine mul_le_mul_of_nonneg_left ?_ (hw s)
    have hT := mapA_pd he hb (hC s)
    have h2 := bw2_dual he hB (hC s).posSemidef hT
    rw [inv_trace hT (mapA_push he hb (hC s).posSemidef)] at h2
    rw [bw2_at he hb (hC s).posSemidef, Matrix.mul_sub, trace_sub, trace_sub]
    linarith
  have h3 := sum_le_sum fun s (_ : s ∈ univ) => h1 s
  rw [sum_add_distrib] at h3
  refine le_trans (le_of_eq ?_) h3
  unfold objF
  congr 1
  generalize B - Cb = E
  unfold gradBw
  simp only [mul_sub, sum_sub_distrib, ← sum_mul, h0, one_mul]
  rw [Matrix.sub_mul, Matrix.one_mul, trace_sub, Matrix.sum_mul, trace_sum]
  congr 1
  refine sum_congr rfl fun s _ => ?_
  rw [Matrix.smul_mul, trace_smul, smul_eq_mul, otMap_eq]

/-- A second minimiser coincides with the first. -/
theorem unique_min (he : e.Ok) {w : S → ℝ} {C : S → Matrix D D ℝ} (hw : ∀ s, 0 ≤ w s) (h0 : ∑ s, w s = 1) (hC : ∀ s, (C s).PosDef) {Cb B : Matrix D D ℝ} (hb : Cb.PosDef)
    (hB : B.PosSemidef) (hg : gradBw e w C Cb = 0) (hle : objF e w C B ≤ objF e w C Cb) : B = Cb := by
  obtain ⟨s, -, hs⟩ := exists_lt_of_sum_lt (s := univ) (f := fun _ : S => (0 : ℝ)) (g := w) (by simp [h0])
  obtain ⟨T, hTe⟩ : ∃ T : S → Matrix D D ℝ, T = fun s => mapA e Cb (C s) := ⟨_, rfl⟩
  have hTp : ∀ s, (T s).PosDef := fun s => by rw [hTe]; exact mapA_pd he hb (hC s)
  have hTC : ∀ s, T s * Cb * T s = C s := fun s => by rw [hTe]; exact mapA_push he hb (hC s).posSemidef
  have hlow : ∀ s, w s * (trace B + trace (C s) - trace (T s * B) - trace ((T s)⁻¹ * C s)) ≤ w s * bw2 e B (C s) :=
    fun s => mul_le_mul_of_nonneg_left (bw2_dual he hB (hC s).posSemidef (hTp s)) (hw s)
  have hid : ∑ s, w s • T s = 1 := by
    have : 1 - ∑ s, w s • T s = 0 := by rw [hTe]; exact hg
    exact (sub_eq_zero.1 this).symm
  have hsum : ∀ X : Matrix D D ℝ, ∑ s, w s * trace (T s * X) = trace X := by
    intro X
    have : trace ((∑ s, w s • T s) * X) = trace X := by rw [hid, Matrix.one_mul]
    rw [← this, Matrix.sum_mul, trace_sum]
    exact sum_congr rfl fun s _ => by rw [Matrix.smul_mul, trace_smul, smul_eq_mul]
  have heq : ∑ s, w s * (trace B + trace (C s) - trace (T s * B) - trace ((T s)⁻¹ * C s)) = objF e w C Cb := by
    have h1 : ∀ s, w s * (trace B + trace (C s) - trace (T s * B) - trace ((T s)⁻¹ * C s)) =
        w s * trace B - w s * trace (T s * B) + w s * bw2 e Cb (C s) - (w s * trace Cb - w s * trace (T s * Cb)) := by
      intro s
      rw [inv_trace (hTp s) (hTC s), bw2_at he hb (hC s).posSemidef, hTe]
      ring
    simp only [h1, sum_sub_distrib, sum_add_distrib, hsum, ← sum_mul, h0]
    unfold objF
    ring
  have hall := (sum_eq_sum_iff_of_le fun s (_ : s ∈ univ) => hlow s).1 (le_antisymm (sum_le_sum fun s _ => hlow s) (by rw [heq]; exact hle)) s (mem_univ s)
  have hs' := mul_left_cancel₀ hs.ne' hall
  -- factors
  obtain ⟨r1, m1⟩ := roots he (hC s).posSemidef hB
  obtain ⟨f1, f2, f3⟩ := opt_factor (hC s) r1 m1
  rw [bw2_symm he hB (hC s).posSemidef] at hs'
  unfold bw2 at hs'
  rw [← f3] at hs'
  obtain ⟨X, hX⟩ : ∃ X, X = sqrtm e (C s) := ⟨_, rfl⟩
  obtain ⟨Y, hY⟩ : ∃ Y, Y = (sqrtm e (C s))⁻¹ * sqrtm e (sqrtm e (C s) * B * sqrtm e (C s)) := ⟨_, rfl⟩
  rw [← hY] at f2 hs'
  rw [← hX] at f1 hs'
  have hu := isUnit_det (hTp s)
  have hti : ((T s)⁻¹)ᵀ = (T s)⁻¹ := psd_t (hTp s).inv.posSemidef
  have hz : trace (T s * ((Y - (T s)⁻¹ * X) * (Y - (T s)⁻¹ * X)ᵀ)) = 0 := by
    have e1 : T s * ((Y - (T s)⁻¹ * X) * (Y - (T s)⁻¹ * X)ᵀ) =
        T s * (Y * Yᵀ) - T s * ((Y * Xᵀ) * (T s)⁻¹) - (T s * (T s)⁻¹) * (X * Yᵀ) + (T s * (T s)⁻¹) * ((X * Xᵀ) * (T s)⁻¹) := by
      rw [transpose_sub, transpose_mul, hti]; noncomm_ring
    rw [e1, mul_nonsing_inv _ hu, Matrix.one_mul, Matrix.one_mul, trace_add, trace_sub, trace_sub, trace_mul_comm (T s) (Y * Xᵀ * (T s)⁻¹), Matrix.mul_assoc (Y * Xᵀ), nonsing_inv_mul _ hu,
      Matrix.mul_one, f1, f2, trace_mul_comm (C s) (T s)⁻¹, ← trace_transpose (Y * Xᵀ), transpose_mul, transpose_transpose]
    linarith
  obtain ⟨Q, hQ⟩ := exists_sqrt (hTp s).posSemidef
  have hQp := sqrt_posDef hQ (hTp s)
  obtain ⟨Z, hZ⟩ : ∃ Z, Z = Y - (T s)⁻¹ * X := ⟨_, rfl⟩
  rw [← hZ, ← hQ.2] at hz
  have hz2 : trace ((Q * Z) * (Q * Z)ᵀ) = 0 := by
    rw [transpose_mul, psd_t hQ.1, ← hz, Matrix.mul_assoc Q Q, trace_mul_comm Q (Q * (Z * Zᵀ))]
    simp only [Matrix.mul_assoc]
  have hz3 := (trace_mul_conjTranspose_self_eq_zero_iff (A := Q * Z)).1 (by rw [conjTranspose_eq_transpose_of_trivial]; exact hz2)
  have hz4 : Z = 0 := by
    have : Q⁻¹ * (Q * Z) = 0 := by rw [hz3, Matrix.mul_zero]
    rwa [← Matrix.mul_assoc, nonsing_inv_mul _ (isUnit_det hQp), Matrix.one_mul] at this
  have hYX : Y = (T s)⁻¹ * X := sub_eq_zero.1 (by rw [← hZ]; exact hz4)
  rw [← f2, hYX, transpose_mul, hti, show (T s)⁻¹ * X * (Xᵀ * (T s)⁻¹) = (T s)⁻¹ * (X * Xᵀ) * (T s)⁻¹ by simp only [Matrix.mul_assoc], f1, ← hTC s,
    show (T s)⁻¹ * (T s * Cb * T s) * (T s)⁻¹ = ((T s)⁻¹ * T s) * Cb * (T s * (T s)⁻¹) by simp only [Matrix.mul_assoc], nonsing_inv_mul _ hu, mul_nonsing_inv _ hu, Matrix.one_mul, Matrix.mul_one]

/-- Cauchy-Schwarz for the trace inner product of symmetric matrices. -/
theorem trace_mul_le {X Y : Matrix D D ℝ} (hY : Yᵀ = Y) : |trace (X * Y)| ≤ frob X * frob Y := by
  have h1 : trace (X * Y) = ∑ p : D × D, X p.1 p.2 * Y p.1 p.2 := by
    rw [Fintype.sum_prod_type]
    simp only [trace, diag_apply, mul_apply]
    refine sum_congr rfl fun i _ => sum_congr rfl fun j _ => ?_
    rw [show Y j i = Yᵀ i j from rfl, hY]
  have h2 := sum_mul_sq_le_sq_mul_sq univ (fun p : D × D => X p.1 p.2) (fun p => Y p.1 p.2)
  unfold frob
  rw [← Real.sqrt_mul (by positivity)]
  refine Real.abs_le_sqrt ?_
  rw [h1]
  rwa [Fintype.sum_prod_type (f := fun p : D × D => X p.1 p.2 ^ 2), Fintype.sum_prod_type (f := fun p : D × D => Y p.1 p.2 ^ 2)] at h2

/-- Sub-optimality of an approximate fixed point. -/
theorem approx_fix (he : e.Ok) {w : S → ℝ} {C : S → Matrix D D ℝ} (hw : ∀ s, 0 ≤ w s) (h0 : ∑ s, w s = 1) (hC : ∀ s, (C s).PosDef) {Cb B : Matrix D D ℝ} (hb : Cb.PosDef)
    (hB : B.PosSemidef) : objF e w C Cb ≤ objF e w C B + frob (Cb - fixStep e w C Cb) * frob ((sqrtm e Cb)⁻¹ * B * (sqrtm e Cb)⁻¹ - 1) := by
  have h1 := subgradient he hw h0 hC hb hB
  have hr := sqrtm_ok he hb.posSemidef
  have hrp := sqrt_posDef hr hb
  have hu := isUnit_det hrp
  rw [residual he w C hb] at h1
  obtain ⟨R, hR⟩ : ∃ R, R = sqrtm e Cb := ⟨_, rfl⟩
  rw [← hR] at h1 hr hu hrp ⊢
  have hRi : (R⁻¹)ᵀ = R⁻¹ := psd_t hrp.inv.posSemidef
  have e2 : R⁻¹ * (B - Cb) * R⁻¹ = R⁻¹ * B * R⁻¹ - 1 := by
    rw [Matrix.mul_sub, Matrix.sub_mul, ← hr.2, show R⁻¹ * (R * R) * R⁻¹ = (R⁻¹ * R) * (R * R⁻¹) by simp only [Matrix.mul_assoc], nonsing_inv_mul _ hu, mul_nonsing_inv _ hu, Matrix.one_mul]
  have e3 : trace (R⁻¹ * (Cb - fixStep e w C Cb) * R⁻¹ * (B - Cb)) = trace ((Cb - fixStep e w C Cb) * (R⁻¹ * B * R⁻¹ - 1)) := by
    rw [← e2, show R⁻¹ * (Cb - fixStep e w C Cb) * R⁻¹ * (B - Cb) = R⁻¹ * ((Cb - fixStep e w C Cb) * (R⁻¹ * (B - Cb))) by simp only [Matrix.mul_assoc], trace_mul_comm]
    simp only [Matrix.mul_assoc]
  have hs : (R⁻¹ * B * R⁻¹ - 1)ᵀ = R⁻¹ * B * R⁻¹ - 1 := by
    rw [transpose_sub, transpose_one, psd_t (psd_conj_symm hB hRi)]
  have h4 := trace_mul_le (X := Cb - fixStep e w C Cb) hs
  rw [← e3] at h4
  have := (abs_le.1 h4).1
  linarith

/-! ## Gradient descent -/

theorem expBures_eq (Cb T : Matrix D D ℝ) (s : ℝ) : expBures Cb (-(s • (1 - T))) = ((1 - s) • (1 : Matrix D D ℝ) + s • T) * Cb * ((1 - s) • (1 : Matrix D D ℝ) + s • T) := by
  have : (1 : Matrix D D ℝ) + -(s • (1 - T)) = (1 - s) • (1 : Matrix D D ℝ) + s • T := by
    rw [smul_sub, sub_smul, one_smul]; abel
  unfold expBures
  rw [this]

theorem mix_pd {T : Matrix D D ℝ} (hT : T.PosDef) {s : ℝ} (h0 : 0 ≤ s) (h1 : s ≤ 1) : ((1 - s) • (1 : Matrix D D ℝ) + s • T).PosDef := by
  rcases h0.eq_or_lt with rfl | hs
  · simpa using (PosDef.one : (1 : Matrix D D ℝ).PosDef)
  · exact PosDef.posSemidef_add (PosSemidef.one.smul (by linarith)) (hT.smul hs)

theorem gdStep_pd (he : e.Ok) {w : S → ℝ} {C : S → Matrix D D ℝ} (hw : ∀ s, 0 ≤ w s) (h0 : ∑ s, w s = 1) (hC : ∀ s, (C s).PosDef) {Cb : Matrix D D ℝ} (hb : Cb.PosDef) {t : ℝ}
    (ht0 : 0 ≤ t) (ht1 : t ≤ 1) : (gdStep e w C t Cb).PosDef := by
  unfold gdStep gradBw
  rw [expBures_eq]
  refine posDef_conj hb (mix_pd (sum_smul_pd hw (by rw [h0]; norm_num) fun s => ?_) ht0 ht1)
  exact mapA_pd he hb (hC s)

theorem bw2_gram_le (he : e.Ok) {P Q R : Matrix D D ℝ} {Cb : Matrix D D ℝ} (hR : IsPsdSqrt R Cb) (hP : (P * Cb * Pᵀ).PosSemidef) (hQ : (Q * Cb * Qᵀ).PosSemidef) :
    bw2 e (P * Cb * Pᵀ) (Q * Cb * Qᵀ) ≤ trace ((P - Q) * Cb * (P - Q)ᵀ) := by
  have e1 : ∀ X Y : Matrix D D ℝ, X * R * (Y * R)ᵀ = X * Cb * Yᵀ := by
    intro X Y
    rw [transpose_mul, psd_t hR.1, ← hR.2]; simp only [Matrix.mul_assoc]
  have g := joint_gram (P * R) (Q * R)
  have c := covCost_gram (P * R) (Q * R)
  rw [← Matrix.sub_mul] at c
  simp only [e1] at g c
  rw [← c]
  exact bw2_le he hP hQ g

/-- One gradient step with `0 ≤ t ≤ 1` decreases the objective by at least `t (2 - t)` times the squared gradient norm. -/
theorem gd_descent (he : e.Ok) {w : S → ℝ} {C : S → Matrix D D ℝ} (hw : ∀ s, 0 ≤ w s) (h0 : ∑ s, w s = 1) (hC : ∀ s, (C s).PosDef) {Cb : Matrix D D ℝ} (hb : Cb.PosDef) {t : ℝ}
    (ht0 : 0 ≤ t) (ht1 : t ≤ 1) :
    objF e w C (gdStep e w C t Cb) + t * (2 - t) * trace (gradBw e w C Cb * Cb * gradBw e w C Cb) ≤ objF e w C Cb := by
  obtain ⟨T, hTe⟩ : ∃ T : S → Matrix D D ℝ, T = fun s => mapA e Cb (C s) := ⟨_, rfl⟩
  have hTp : ∀ s, (T s).PosDef := fun s => by rw [hTe]; exact mapA_pd he hb (hC s)
  have hTt : ∀ s, (T s)ᵀ = T s := fun s => psd_t (hTp s).posSemidef
  have hTC : ∀ s, T s * Cb * T s = C s := fun s => by rw [hTe]; exact mapA_push he hb (hC s).posSemidef
  obtain ⟨G, hG⟩ : ∃ G, G = gradBw e w C Cb := ⟨_, rfl⟩
  have hGe : G = 1 - ∑ s, w s • T s := by rw [hG, hTe]; rfl
  have hGt : Gᵀ = G := by rw [hGe, transpose_sub, transpose_one, psd_t (sum_smul_psd hw fun s => (hTp s).posSemidef)]
  have hR := sqrtm_ok he hb.posSemidef
  have hnew : gdStep e w C t Cb = (1 - t • G) * Cb * (1 - t • G)ᵀ := by
    rw [transpose_sub, transpose_one, transpose_smul, hGt, hG]
    unfold gdStep expBures
    rw [← sub_eq_add_neg]
  have hpd := (gdStep_pd he hw h0 hC hb ht0 ht1).posSemidef
  have h1 : ∀ s, bw2 e (gdStep e w C t Cb) (C s) ≤ trace ((1 - t • G - T s) * Cb * (1 - t • G - T s)) := by
    intro s
    have := bw2_gram_le he (P := 1 - t • G) (Q := T s) hR (by rw [← hnew]; exact hpd) (by rw [hTt, hTC]; exact (hC s).posSemidef)
    rw [← hnew, hTt, hTC, transpose_sub, hTt, transpose_sub, transpose_one, transpose_smul, hGt] at this
    exact this
  have h2 : ∀ s, trace ((1 - t • G - T s) * Cb * (1 - t • G - T s)) = bw2 e Cb (C s) - 2 * t * (trace (G * Cb) - trace (G * Cb * T s)) + t ^ 2 * trace (G * Cb * G) := by
    intro s
    have e1 : (1 - t • G - T s) * Cb * (1 - t • G - T s) =
        Cb - Cb * T s - T s * Cb + T s * Cb * T s - t • (Cb * G) - t • (G * Cb) + t • (T s * Cb * G) + t • (G * Cb * T s) + (t * t) • (G * Cb * G) := by
      simp only [Matrix.sub_mul, Matrix.mul_sub, Matrix.smul_mul, Matrix.mul_smul, Matrix.one_mul, Matrix.mul_one, smul_sub, smul_smul]
      abel
    rw [e1, hTC]
    simp only [trace_add, trace_sub, trace_smul, smul_eq_mul]
    have t1 : trace (T s * Cb * G) = trace (G * Cb * T s) := by
      rw [← trace_transpose, transpose_mul, transpose_mul, hGt, hTt, psd_t hb.posSemidef, Matrix.mul_assoc]
    rw [t1, trace_mul_comm Cb G, trace_mul_comm Cb (T s), bw2_at he hb (hC s).posSemidef, hTe]
    ring
  have h3 : ∑ s, w s * trace (G * Cb * T s) = trace (G * Cb) - trace (G * Cb * G) := by
    have : ∑ s, w s • T s = 1 - G := by rw [hGe]; abel
    have e2 : trace (G * Cb * ∑ s, w s • T s) = ∑ s, w s * trace (G * Cb * T s) := by
      rw [Matrix.mul_sum, trace_sum]
      exact sum_congr rfl fun s _ => by rw [Matrix.mul_smul, trace_smul, smul_eq_mul]
    rw [← e2, this, Matrix.mul_sub, Matrix.mul_one, trace_sub]
  have h4 : objF e w C (gdStep e w C t Cb) ≤ ∑ s, w s * (bw2 e Cb (C s) - 2 * t * (trace (G * Cb) - trace (G * Cb * T s)) + t ^ 2 * trace (G * Cb * G)) :=
    sum_le_sum fun s _ => mul_le_mul_of_nonneg_left (by rw [← h2]; exact h1 s) (hw s)
  have h5 : ∑ s, w s * (bw2 e Cb (C s) - 2 * t * (trace (G * Cb) - trace (G * Cb * T s)) + t ^ 2 * trace (G * Cb * G)) = objF e w C Cb - t * (2 - t) * trace (G * Cb * G) := by
    have e3 : ∀ s, w s * (bw2 e Cb (C s) - 2 * t * (trace (G * Cb) - trace (G * Cb * T s)) + t ^ 2 * trace (G * Cb * G)) =
        w s * bw2 e Cb (C s) - w s * (2 * t * trace (G * Cb) - t ^ 2 * trace (G * Cb * G)) + 2 * t * (w s * trace (G * Cb * T s)) := fun s => by ring
    simp only [e3, sum_add_distrib, sum_sub_distrib, ← mul_sum, ← sum_mul, h0, h3]
    unfold objF
    ring
  rw [← hG]
  linarith

theorem grad_sq_nonneg (he : e.Ok) {w : S → ℝ} {C : S → Matrix D D ℝ} (hw : ∀ s, 0 ≤ w s) (hC : ∀ s, (C s).PosDef) {Cb : Matrix D D ℝ} (hb : Cb.PosDef) :
    0 ≤ trace (gradBw e w C Cb * Cb * gradBw e w C Cb) := by
  have hGt : (gradBw e w C Cb)ᵀ = gradBw e w C Cb := by
    unfold gradBw
    rw [transpose_sub, transpose_one, psd_t (sum_smul_psd hw fun s => by rw [otMap_eq]; exact mapA_psd he hb (hC s).posSemidef)]
  exact (psd_conj_symm hb.posSemidef hGt).trace_nonneg

theorem gdLoop_spec (he : e.Ok) {w : S → ℝ} {C : S → Matrix D D ℝ} (hw : ∀ s, 0 ≤ w s) (h0 : ∑ s, w s = 1) (hC : ∀ s, (C s).PosDef) {t : ℝ} (ht0 : 0 ≤ t) (ht1 : t ≤ 1) (eps : ℝ) (n : ℕ) :
    ∀ (Cb : Matrix D D ℝ) (L : List ℝ), Cb.PosDef → (gdLoop e w C eps t n Cb L).PosDef ∧ objF e w C (gdLoop e w C eps t n Cb L) ≤ objF e w C Cb := by
  induction n with
  | zero => intro Cb L hb; exact ⟨hb, le_rfl⟩
  | succ n ih =>
    intro Cb L hb
    unfold gdLoop
    simp only
    split
    · exact ⟨hb, le_rfl⟩
    · obtain ⟨h1, h2⟩ := ih (gdStep e w C t Cb) (frob (Cb - gdStep e w C t Cb) :: L) (gdStep_pd he hw h0 hC hb ht0 ht1)
      refine ⟨h1, h2.trans ?_⟩
      have h3 := gd_descent he hw h0 hC hb ht0 ht1
      have h4 := mul_nonneg (mul_nonneg ht0 (by linarith : 0 ≤ 2 - t)) (grad_sq_nonneg he hw hC hb)
      linarith

theorem fixLoop_spec (he : e.Ok) {w : S → ℝ} {C : S → Matrix D D ℝ} (hw : ∀ s, 0 ≤ w s) (h0 : ∑ s, w s = 1) (hC : ∀ s, (C s).PosDef) (eps : ℝ) (n : ℕ) :
    ∀ (Cb : Matrix D D ℝ) (d : ℝ), Cb.PosDef → (fixLoop e w C eps n Cb d).1.PosDef := by
  induction n with
  | zero => intro Cb L hb; exact hb
  | succ n ih =>
    intro Cb L hb
    unfold fixLoop
    simp only
    split
    · exact hb
    · exact ih _ _ (fixStep_pd he hw h0 hC hb)

theorem fixLoop_conv {w : S → ℝ} {C : S → Matrix D D ℝ} (eps : ℝ) (n : ℕ) :
    ∀ (Cb : Matrix D D ℝ) (d : ℝ), eps < d ∨ n ≠ 0 → (fixLoop e w C eps n Cb d).2 ≤ eps →
      (fixLoop e w C eps n Cb d).2 = frob ((fixLoop e w C eps n Cb d).1 - fixStep e w C (fixLoop e w C eps n Cb d).1) := by
  induction n with
  | zero => intro Cb d hd h; exact absurd h (not_le.2 (show eps < d by simpa using hd))
  | succ n ih =>
    intro Cb d _ h
    unfold fixLoop at h ⊢
    simp only at h ⊢
    split
    · rfl
    · next hc =>
      rw [if_neg hc] at h
      exact ih _ _ (Or.inl (not_le.1 hc)) h

theorem sgdStep_pos (it : ℕ) : 0 ≤ sgdStep it ∧ sgdStep it ≤ 1 := by
  unfold sgdStep
  have h : (0 : ℝ) ≤ it := Nat.cast_nonneg it
  have hp : (2 : ℝ) ≤ 0.7 * (it + 2 / 0.7 + 1) := by norm_num; linarith
  exact ⟨by positivity, (div_le_one (by linarith)).2 hp⟩

theorem avgStep_pd (he : e.Ok) {A B : Matrix D D ℝ} (hA : A.PosDef) (hB : B.PosDef) {t : ℝ} (ht : 0 ≤ t) : (avgStep e t A B).PosDef := by
  unfold avgStep
  refine posDef_conj hA (PosDef.posSemidef_add (PosSemidef.one.smul (by positivity)) ?_)
  exact PosDef.smul (by rw [otMap_eq]; exact mapA_pd he hA hB) (by positivity)

theorem sgdLoop_pd (he : e.Ok) {b : ℕ} (hb0 : 0 < b) {C : S → Matrix D D ℝ} (hC : ∀ s, (C s).PosDef) (inds : ℕ → Fin b → S) (eps : ℝ) (n : ℕ) :
    ∀ (it : ℕ) (Cb Cavg : Matrix D D ℝ) (L : List ℝ), Cb.PosDef → Cavg.PosDef → (sgdLoop e C inds eps n it Cb Cavg L).1.PosDef ∧ (sgdLoop e C inds eps n it Cb Cavg L).2.PosDef := by
  induction n with
  | zero => intro it Cb Cavg L h h'; exact ⟨h, h'⟩
  | succ n ih =>
    intro it Cb Cavg L h h'
    have hs := sgdStep_pos it
    have hb1 : (0 : ℝ) < b := by exact_mod_cast hb0
    have hnew : (expBures Cb (-(sgdStep it • gradBatch e C (inds it) Cb))).PosDef := by
      unfold gradBatch
      rw [expBures_eq]
      refine posDef_conj h (mix_pd ?_ hs.1 hs.2)
      rw [smul_sum]
      exact sum_smul_pd (w := fun _ => 1 / (b : ℝ)) (fun _ => by positivity) (by rw [sum_const, card_univ, Fintype.card_fin, nsmul_eq_mul, mul_one_div_cancel hb1.ne']; norm_num) fun k => by rw [otMap_eq]; exact mapA_pd he h (hC _)
    have havg := avgStep_pd he h' hnew hs.1
    unfold sgdLoop
    simp only
    split
    · exact ⟨h, havg⟩
    · exact ih _ _ _ _ hnew havg

end POT.Gaussian
