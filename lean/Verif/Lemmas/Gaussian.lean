import Verif.Lemmas.Bures
import Verif.Model.Gaussian
import Verif.Spec.Sliced
import Verif.Lemmas.Transport
import Mathlib.Analysis.MeanInequalities

/-!
# The Gaussian solvers
-/

set_option linter.unusedSectionVars false

namespace POT.Gaussian

open Finset Matrix POT.Spec POT.Bures

variable {D : Type*} [Fintype D] [DecidableEq D]

theorem sqrtm_ok {e : Eigh D} (he : e.Ok) {C : Matrix D D ℝ} (hC : C.PosSemidef) : IsPsdSqrt (sqrtm e C) C := by
  obtain ⟨h1, h2⟩ := he C (psd_t hC)
  have hnn : ∀ d, 0 ≤ e.vals C d := by
    intro d
    have hp := psd_conj hC (e.vecs C)ᵀ
    rw [transpose_transpose] at hp
    have hd : (e.vecs C)ᵀ * C * e.vecs C = diagonal (e.vals C) := by
      rw [show (e.vecs C)ᵀ * C * e.vecs C = (e.vecs C)ᵀ * (e.vecs C * diagonal (e.vals C) * (e.vecs C)ᵀ) * e.vecs C by rw [h2],
        show (e.vecs C)ᵀ * (e.vecs C * diagonal (e.vals C) * (e.vecs C)ᵀ) * e.vecs C = ((e.vecs C)ᵀ * e.vecs C) * diagonal (e.vals C) * ((e.vecs C)ᵀ * e.vecs C) by
          simp only [Matrix.mul_assoc], h1, Matrix.one_mul, Matrix.mul_one]
    rw [hd] at hp
    exact posSemidef_diagonal_iff.1 hp d
  refine ⟨psd_conj (PosSemidef.diagonal fun i => Real.sqrt_nonneg _) _, ?_⟩
  unfold sqrtm
  rw [show ∀ V E : Matrix D D ℝ, V * E * Vᵀ * (V * E * Vᵀ) = V * E * (Vᵀ * V) * E * Vᵀ from fun V E => by simp only [Matrix.mul_assoc], h1, Matrix.mul_one, Matrix.mul_assoc (e.vecs C),
    diagonal_mul_diagonal]
  refine Eq.trans ?_ h2
  congr 3
  funext i
  exact Real.mul_self_sqrt (hnn i)

theorem sqrtm_eq {e : Eigh D} (he : e.Ok) {C S : Matrix D D ℝ} (h : IsPsdSqrt S C) : sqrtm e C = S := by
  have hC : C.PosSemidef := by rw [← h.2]; exact psd_sq (psd_t h.1)
  exact sqrt_unique (sqrtm_ok he hC) h

theorem exists_eigh : ∃ e : Eigh D, e.Ok := by
  classical
  have key : ∀ C : Matrix D D ℝ, ∃ p : (D → ℝ) × Matrix D D ℝ, Cᵀ = C → p.2ᵀ * p.2 = 1 ∧ p.2 * diagonal p.1 * p.2ᵀ = C := by
    intro C
    by_cases hC : Cᵀ = C
    · have h : C.IsHermitian := by rw [IsHermitian, conjTranspose_eq_transpose_of_trivial]; exact hC
      refine ⟨(h.eigenvalues, (h.eigenvectorUnitary : Matrix D D ℝ)), fun _ => ⟨?_, ?_⟩⟩
      · have := (Matrix.mem_unitaryGroup_iff' (A := (h.eigenvectorUnitary : Matrix D D ℝ))).1 h.eigenvectorUnitary.2
        rwa [star_eq_conjTranspose, conjTranspose_eq_transpose_of_trivial] at this
      · have := h.spectral_theorem
        rw [Unitary.conjStarAlgAut_apply, star_eq_conjTranspose, conjTranspose_eq_transpose_of_trivial] at this
        exact this.symm
    · exact ⟨(0, 1), fun h => absurd h hC⟩
  choose p hp using key
  exact ⟨⟨fun C => (p C).1, fun C => (p C).2⟩, fun C hC => hp C hC⟩

section Pair

variable {e : Eigh D} (he : e.Ok) {A B : Matrix D D ℝ}

/-- The two square roots computed from a pair. -/
theorem roots (he : e.Ok) (hA : A.PosSemidef) (hB : B.PosSemidef) : IsPsdSqrt (sqrtm e A) A ∧ IsPsdSqrt (sqrtm e (sqrtm e A * B * sqrtm e A)) (sqrtm e A * B * sqrtm e A) :=
  ⟨sqrtm_ok he hA, sqrtm_ok he (psd_conj_symm hB (psd_t (sqrtm_ok he hA).1))⟩

theorem posDef_conj {M S : Matrix D D ℝ} (hM : M.PosDef) (hS : S.PosDef) : (S * M * S).PosDef := by
  rw [(psd_conj_symm hM.posSemidef (psd_t hS.posSemidef)).posDef_iff_isUnit]
  exact (hS.isUnit.mul hM.isUnit).mul hS.isUnit

theorem isUnit_det {M : Matrix D D ℝ} (hM : M.PosDef) : IsUnit M.det := (Matrix.isUnit_iff_isUnit_det M).1 hM.isUnit

theorem mapA_psd (he : e.Ok) (hA : A.PosDef) (hB : B.PosSemidef) : (mapA e A B).PosSemidef := by
  obtain ⟨h1, h2⟩ := roots he hA.posSemidef hB
  exact psd_conj_symm h2.1 (psd_t (sqrt_posDef h1 hA).inv.posSemidef)

theorem mapA_pd (he : e.Ok) (hA : A.PosDef) (hB : B.PosDef) : (mapA e A B).PosDef := by
  obtain ⟨h1, h2⟩ := roots he hA.posSemidef hB.posSemidef
  exact posDef_conj (sqrt_posDef h2 (posDef_conj hB (sqrt_posDef h1 hA))) (sqrt_posDef h1 hA).inv

theorem mapA_push (he : e.Ok) (hA : A.PosDef) (hB : B.PosSemidef) : mapA e A B * A * mapA e A B = B := by
  obtain ⟨h1, h2⟩ := roots he hA.posSemidef hB
  have hu := isUnit_det (sqrt_posDef h1 hA)
  obtain ⟨R, hR⟩ : ∃ R, R = sqrtm e A := ⟨_, rfl⟩
  obtain ⟨M, hM⟩ : ∃ M, M = sqrtm e (sqrtm e A * B * sqrtm e A) := ⟨_, rfl⟩
  have e1 : mapA e A B = R⁻¹ * M * R⁻¹ := by rw [hR, hM]; rfl
  rw [← hM, ← hR] at h2
  rw [← hR] at h1 hu
  rw [e1, ← h1.2, show R⁻¹ * M * R⁻¹ * (R * R) * (R⁻¹ * M * R⁻¹) = R⁻¹ * M * ((R⁻¹ * R) * (R * R⁻¹)) * M * R⁻¹ by simp only [Matrix.mul_assoc],
    nonsing_inv_mul _ hu, mul_nonsing_inv _ hu, Matrix.mul_one, Matrix.mul_one, show R⁻¹ * M * M * R⁻¹ = R⁻¹ * (M * M) * R⁻¹ by simp only [Matrix.mul_assoc], h2.2,
    show R⁻¹ * (R * B * R) * R⁻¹ = (R⁻¹ * R) * B * (R * R⁻¹) by simp only [Matrix.mul_assoc], nonsing_inv_mul _ hu, mul_nonsing_inv _ hu, Matrix.one_mul, Matrix.mul_one]

theorem mapA_unique (he : e.Ok) (hA : A.PosDef) (hB : B.PosSemidef) {T : Matrix D D ℝ} (hT : T.PosSemidef) (h : T * A * T = B) : mapA e A B = T := by
  obtain ⟨h1, h2⟩ := roots he hA.posSemidef hB
  have hu := isUnit_det (sqrt_posDef h1 hA)
  obtain ⟨R, hR⟩ : ∃ R, R = sqrtm e A := ⟨_, rfl⟩
  obtain ⟨M, hM⟩ : ∃ M, M = sqrtm e (sqrtm e A * B * sqrtm e A) := ⟨_, rfl⟩
  have e1 : mapA e A B = R⁻¹ * M * R⁻¹ := by rw [hR, hM]; rfl
  rw [← hM, ← hR] at h2
  rw [← hR] at h1 hu
  have h3 : IsPsdSqrt (R * T * R) (R * B * R) := by
    refine ⟨psd_conj_symm hT (psd_t h1.1), ?_⟩
    rw [show R * T * R * (R * T * R) = R * (T * (R * R) * T) * R by simp only [Matrix.mul_assoc], h1.2, h]
  rw [e1, sqrt_unique h2 h3, show R⁻¹ * (R * T * R) * R⁻¹ = (R⁻¹ * R) * T * (R * R⁻¹) by simp only [Matrix.mul_assoc], nonsing_inv_mul _ hu, mul_nonsing_inv _ hu, Matrix.one_mul,
    Matrix.mul_one]

theorem trace_mapA (he : e.Ok) (hA : A.PosDef) (hB : B.PosSemidef) : trace (mapA e A B * A) = trace (sqrtm e (sqrtm e A * B * sqrtm e A)) := by
  obtain ⟨h1, h2⟩ := roots he hA.posSemidef hB
  have hu := isUnit_det (sqrt_posDef h1 hA)
  obtain ⟨R, hR⟩ : ∃ R, R = sqrtm e A := ⟨_, rfl⟩
  obtain ⟨M, hM⟩ : ∃ M, M = sqrtm e (sqrtm e A * B * sqrtm e A) := ⟨_, rfl⟩
  have e1 : mapA e A B = R⁻¹ * M * R⁻¹ := by rw [hR, hM]; rfl
  rw [← hM]
  rw [← hR] at h1 hu
  rw [e1, ← h1.2, show R⁻¹ * M * R⁻¹ * (R * R) = R⁻¹ * (M * ((R⁻¹ * R) * R)) by simp only [Matrix.mul_assoc], nonsing_inv_mul _ hu, Matrix.one_mul, trace_mul_comm, Matrix.mul_assoc,
    mul_nonsing_inv _ hu, Matrix.mul_one]

/-- Value of `bw2`. -/
noncomputable def bw2 (e : Eigh D) (A B : Matrix D D ℝ) : ℝ := trace A + trace B - 2 * trace (sqrtm e (sqrtm e A * B * sqrtm e A))

theorem bw2_isLeast (he : e.Ok) (hA : A.PosDef) (hB : B.PosSemidef) : IsLeast {c | ∃ K, IsJointCov A B K ∧ c = covCost A B K} (bw2 e A B) := by
  obtain ⟨h1, h2⟩ := roots he hA.posSemidef hB
  exact isLeast hA h1 h2

theorem bw2_symm (he : e.Ok) (hA : A.PosSemidef) (hB : B.PosSemidef) : bw2 e A B = bw2 e B A := by
  obtain ⟨h1, h2⟩ := roots he hA hB
  obtain ⟨h1', h2'⟩ := roots he hB hA
  unfold bw2
  rw [trace_sqrt_symm h1 h1' h2 h2']
  ring

theorem bw2_le (he : e.Ok) (hA : A.PosSemidef) (hB : B.PosSemidef) {K : Matrix D D ℝ} (hK : IsJointCov A B K) : bw2 e A B ≤ covCost A B K := by
  obtain ⟨h1, h2⟩ := roots he hA hB
  have := trace_le hK h1 h2
  unfold bw2 covCost
  linarith

theorem psd_trace_gram (X : Matrix D D ℝ) : trace (X * Xᵀ) = ∑ d, ∑ d', X d d' ^ 2 := by
  simp only [trace, diag_apply, mul_apply, transpose_apply, pow_two]

theorem trace_gram_nonneg (X : Matrix D D ℝ) : 0 ≤ trace (X * Xᵀ) := by
  rw [psd_trace_gram]; positivity

theorem joint_add {K P : Matrix D D ℝ} (h : IsJointCov A B K) (hP : P.PosSemidef) : IsJointCov A (B + P) K := by
  unfold IsJointCov at *
  have h1 := psd_conj hP (fromRows (0 : Matrix D D ℝ) (1 : Matrix D D ℝ))
  have e1 : fromRows (0 : Matrix D D ℝ) (1 : Matrix D D ℝ) * P * (fromRows (0 : Matrix D D ℝ) (1 : Matrix D D ℝ))ᵀ = fromBlocks 0 0 0 P := by
    rw [transpose_fromRows, fromRows_mul, fromRows_mul_fromCols]
    simp
  rw [e1] at h1
  have h2 := h.add h1
  rwa [fromBlocks_add, add_zero, add_zero, add_zero] at h2

/-- Cross-covariances whose cost is as close to `bw2` as wanted. -/
theorem near_opt (he : e.Ok) (hA : A.PosSemidef) (hB : B.PosSemidef) {ε : ℝ} (hε : 0 < ε) :
    ∃ K, IsJointCov A B K ∧ covCost A B K ≤ bw2 e A B + ε * (2 * Fintype.card D) := by
  obtain ⟨h1, h2⟩ := roots he hA hB
  obtain ⟨h1', h2'⟩ := roots he hB hA
  obtain ⟨R, hR⟩ : ∃ R, R = sqrtm e A := ⟨_, rfl⟩
  obtain ⟨Q, hQ⟩ : ∃ Q, Q = sqrtm e B := ⟨_, rfl⟩
  obtain ⟨M, hM⟩ : ∃ M, M = sqrtm e (sqrtm e A * B * sqrtm e A) := ⟨_, rfl⟩
  unfold bw2
  rw [← hM]
  rw [← hM, ← hR] at h2
  rw [← hR] at h1
  rw [← hQ] at h1'
  obtain ⟨Me, hMe⟩ : ∃ Me, Me = M + ε • (1 : Matrix D D ℝ) := ⟨_, rfl⟩
  have hMep : Me.PosDef := by rw [hMe]; exact PosDef.posSemidef_add h2.1 (PosDef.one.smul hε)
  have hu := isUnit_det hMep
  have hMi : (Me⁻¹)ᵀ = Me⁻¹ := psd_t hMep.inv.posSemidef
  have hc : M * M = Me * M - ε • M := by rw [hMe, Matrix.add_mul, Matrix.smul_mul, Matrix.one_mul]; abel
  have e1 : trace (Me⁻¹ * (R * B * R)) = trace M - ε * trace (Me⁻¹ * M) := by
    rw [← h2.2, hc, Matrix.mul_sub, ← Matrix.mul_assoc, nonsing_inv_mul _ hu, Matrix.one_mul, trace_sub, Matrix.mul_smul, trace_smul, smul_eq_mul]
  have e2 : trace (Me⁻¹ * M) ≤ Fintype.card D := by
    have : Me⁻¹ * M = 1 - ε • Me⁻¹ := by
      have h3 : M = Me - ε • (1 : Matrix D D ℝ) := by rw [hMe]; abel
      conv_lhs => rw [h3]
      rw [Matrix.mul_sub, nonsing_inv_mul _ hu, Matrix.mul_smul, Matrix.mul_one]
    rw [this, trace_sub, trace_one, trace_smul, smul_eq_mul]
    have := mul_nonneg hε.le hMep.inv.posSemidef.trace_nonneg
    linarith
  obtain ⟨W, hW⟩ : ∃ W, W = Q * R * Me⁻¹ := ⟨_, rfl⟩
  have c1 : (1 - Wᵀ * W).PosSemidef := by
    have : Wᵀ * W = Me⁻¹ * (M * M) * Me⁻¹ := by
      rw [hW, transpose_mul, transpose_mul, hMi, psd_t h1.1, psd_t h1'.1, h2.2, ← h1'.2]
      simp only [Matrix.mul_assoc]
    have h4 : (1 : Matrix D D ℝ) - Wᵀ * W = Me⁻¹ * (Me * Me - M * M) * Me⁻¹ := by
      rw [this, Matrix.mul_sub, Matrix.sub_mul, ← Matrix.mul_assoc Me⁻¹ Me Me, nonsing_inv_mul _ hu, Matrix.one_mul, mul_nonsing_inv _ hu]
    rw [h4]
    refine psd_conj_symm ?_ hMi
    have h5 : Me * Me - M * M = ε • (M + M) + (ε * ε) • (1 : Matrix D D ℝ) := by
      rw [hMe]
      simp only [Matrix.add_mul, Matrix.mul_add, smul_add, Matrix.smul_mul, Matrix.mul_smul, Matrix.one_mul, Matrix.mul_one, smul_smul]
      abel
    rw [h5]
    exact ((h2.1.add h2.1).smul hε.le).add (PosSemidef.one.smul (by positivity))
  have c2 : (1 - W * Wᵀ).PosSemidef := by
    have : (1 : Matrix D D ℝ) - W * Wᵀ = (1 - W * Wᵀ) * (1 - W * Wᵀ) + W * (1 - Wᵀ * W) * Wᵀ := by noncomm_ring
    rw [this]
    refine (psd_sq ?_).add (psd_conj c1 W)
    rw [transpose_sub, transpose_one, transpose_mul, transpose_transpose]
  have g := joint_add (joint_gram R (Q * W)) (psd_conj_symm c2 (psd_t h1'.1))
  have eB : Q * W * (Q * W)ᵀ + Q * (1 - W * Wᵀ) * Q = B := by
    rw [transpose_mul, psd_t h1'.1, Matrix.mul_sub, Matrix.sub_mul, Matrix.mul_one, ← h1'.2]
    simp only [Matrix.mul_assoc]
    abel
  rw [eB, psd_t h1.1, h1.2] at g
  refine ⟨_, g, ?_⟩
  have t1 : trace (R * (Q * W)ᵀ) = trace (Me⁻¹ * (R * B * R)) := by
    rw [hW, transpose_mul, transpose_mul, transpose_mul, hMi, psd_t h1.1, psd_t h1'.1, trace_mul_comm, ← h1'.2]
    simp only [Matrix.mul_assoc]
  unfold covCost
  rw [t1, e1]
  have e5 := mul_le_mul_of_nonneg_left e2 hε.le
  linarith

theorem covCost_nonneg {K : Matrix D D ℝ} (h : IsJointCov A B K) : 0 ≤ covCost A B K := by
  have := (joint_psd h 1 1).trace_nonneg
  simp only [transpose_one, Matrix.one_mul, Matrix.mul_one, trace_add, trace_sub, trace_transpose] at this
  unfold covCost
  linarith

/-- `bw2` is non-negative, for all positive semidefinite matrices. -/
theorem bw2_nonneg (he : e.Ok) (hA : A.PosSemidef) (hB : B.PosSemidef) : 0 ≤ bw2 e A B := by
  refine le_of_forall_quad (c₁ := 2 * Fintype.card D) (c₂ := 0) fun δ hδ => ?_
  obtain ⟨K, hK, hc⟩ := near_opt he hA hB hδ
  have := covCost_nonneg hK
  linarith

/-- For all positive semidefinite matrices the closed form is the infimum. -/
theorem bw2_isBures (he : e.Ok) (hA : A.PosSemidef) (hB : B.PosSemidef) : IsBures A B (bw2 e A B) := by
  constructor
  · rintro _ ⟨K, hK, rfl⟩
    exact bw2_le he hA hB hK
  · intro b hb
    refine le_of_forall_quad (c₁ := 2 * Fintype.card D) (c₂ := 0) fun δ hδ => ?_
    obtain ⟨K, hK, hc⟩ := near_opt he hA hB hδ
    have := hb ⟨K, hK, rfl⟩
    linarith

theorem buresDist_sq (he : e.Ok) (hA : A.PosSemidef) (hB : B.PosSemidef) : buresDist e A B ^ 2 = bw2 e A B := by
  unfold buresDist
  have h : trace (A + B - (2 : ℝ) • sqrtm e (sqrtm e A * B * sqrtm e A)) = bw2 e A B := by
    unfold bw2
    rw [trace_sub, trace_add, trace_smul, smul_eq_mul]
  simp only [h]
  rw [max_eq_left (bw2_nonneg he hA hB), Real.sq_sqrt (bw2_nonneg he hA hB)]

theorem buresDist_nonneg (e : Eigh D) (A B : Matrix D D ℝ) : 0 ≤ buresDist e A B := Real.sqrt_nonneg _

/-- Frobenius distance of two factors. -/
theorem frob_triangle (X Y Z : Matrix D D ℝ) : Real.sqrt (trace ((X - Z) * (X - Z)ᵀ)) ≤ Real.sqrt (trace ((X - Y) * (X - Y)ᵀ)) + Real.sqrt (trace ((Y - Z) * (Y - Z)ᵀ)) := by
  have hp : ∀ U : Matrix D D ℝ, Real.sqrt (trace (U * Uᵀ)) = (∑ p : D × D, |U p.1 p.2| ^ (2 : ℝ)) ^ (1 / (2 : ℝ)) := by
    intro U
    rw [psd_trace_gram, Real.sqrt_eq_rpow, Fintype.sum_prod_type]
    simp only [Real.rpow_two, sq_abs]
  rw [hp, hp, hp]
  have := Real.Lp_add_le (s := (univ : Finset (D × D))) (fun p => (X - Y) p.1 p.2) (fun p => (Y - Z) p.1 p.2) (p := 2) (by norm_num)
  refine le_trans (le_of_eq ?_) this
  congr 1
  refine sum_congr rfl fun p _ => ?_
  simp only [Matrix.sub_apply]
  congr 2
  ring

/-- Triangle inequality through a positive definite matrix. -/
theorem buresDist_triangle_pd (he : e.Ok) {C : Matrix D D ℝ} (hA : A.PosSemidef) (hB : B.PosDef) (hC : C.PosSemidef) : buresDist e A C ≤ buresDist e A B + buresDist e B C := by
  obtain ⟨r1, m1⟩ := roots he hB.posSemidef hA
  obtain ⟨-, m2⟩ := roots he hB.posSemidef hC
  obtain ⟨f1, f2, f3⟩ := opt_factor hB r1 m1
  obtain ⟨-, g2, g3⟩ := opt_factor hB r1 m2
  obtain ⟨R, hR⟩ : ∃ R, R = sqrtm e B := ⟨_, rfl⟩
  obtain ⟨Y, hY⟩ : ∃ Y, Y = (sqrtm e B)⁻¹ * sqrtm e (sqrtm e B * A * sqrtm e B) := ⟨_, rfl⟩
  obtain ⟨Z, hZ⟩ : ∃ Z, Z = (sqrtm e B)⁻¹ * sqrtm e (sqrtm e B * C * sqrtm e B) := ⟨_, rfl⟩
  rw [← hY] at f2 f3
  rw [← hZ] at g2 g3
  rw [← hR] at f1 f3 g3
  have d : ∀ {P Q : Matrix D D ℝ}, P.PosSemidef → Q.PosSemidef → buresDist e P Q = Real.sqrt (bw2 e P Q) := by
    intro P Q hP hQ
    rw [← buresDist_sq he hP hQ, Real.sqrt_sq (buresDist_nonneg e P Q)]
  rw [d hA hC, d hA hB.posSemidef, d hB.posSemidef hC, bw2_symm he hA hB.posSemidef]
  have eY : bw2 e B A = trace ((Y - R) * (Y - R)ᵀ) := by
    have := covCost_gram Y R
    rw [← this, f1, f2]
    unfold covCost bw2
    rw [← hR, ← trace_transpose (Y * Rᵀ), transpose_mul, transpose_transpose, f3]
    ring
  have eZ : bw2 e B C = trace ((R - Z) * (R - Z)ᵀ) := by
    have := covCost_gram R Z
    rw [← this, f1, g2]
    unfold covCost bw2
    rw [← hR, g3]
  have eYZ : bw2 e A C ≤ trace ((Y - Z) * (Y - Z)ᵀ) := by
    have h := joint_gram Y Z
    have c := covCost_gram Y Z
    rw [f2, g2] at h c
    rw [← c]
    exact bw2_le he hA hC h
  rw [eY, eZ]
  exact (Real.sqrt_le_sqrt eYZ).trans (frob_triangle Y R Z)

theorem buresDist_eq (he : e.Ok) (hA : A.PosSemidef) (hB : B.PosSemidef) : buresDist e A B = Real.sqrt (bw2 e A B) := by
  rw [← buresDist_sq he hA hB, Real.sqrt_sq (buresDist_nonneg e A B)]

/-- Adding a multiple of the identity on one side costs at most its trace. -/
theorem bw2_add_le (he : e.Ok) (hA : A.PosSemidef) (hB : B.PosSemidef) {δ : ℝ} (hδ : 0 ≤ δ) : bw2 e A (B + δ • (1 : Matrix D D ℝ)) ≤ bw2 e A B + δ * Fintype.card D := by
  have h := (bw2_isBures he hA hB).2 (show bw2 e A (B + δ • (1 : Matrix D D ℝ)) - δ * Fintype.card D ∈ lowerBounds {c | ∃ K, IsJointCov A B K ∧ c = covCost A B K} from ?_)
  · linarith
  · rintro _ ⟨K, hK, rfl⟩
    have hP : (δ • (1 : Matrix D D ℝ)).PosSemidef := PosSemidef.one.smul hδ
    have := bw2_le he hA (hB.add hP) (joint_add hK hP)
    unfold covCost at *
    rw [trace_add, trace_smul, trace_one, smul_eq_mul] at this
    linarith

theorem le_of_forall_small {f : ℝ → ℝ} {x : ℝ} (hf : Continuous f) (h : ∀ δ : ℝ, 0 < δ → x ≤ f δ) : x ≤ f 0 := by
  have h1 : Filter.Tendsto f (nhdsWithin 0 (Set.Ioi 0)) (nhds (f 0)) := hf.continuousAt.tendsto.mono_left nhdsWithin_le_nhds
  exact ge_of_tendsto h1 (eventually_nhdsWithin_of_forall fun δ hδ => h δ hδ)

theorem buresDist_triangle (he : e.Ok) {C : Matrix D D ℝ} (hA : A.PosSemidef) (hB : B.PosSemidef) (hC : C.PosSemidef) : buresDist e A C ≤ buresDist e A B + buresDist e B C := by
  have key : ∀ δ : ℝ, 0 < δ → buresDist e A C ≤ Real.sqrt (bw2 e A B + δ * Fintype.card D) + Real.sqrt (bw2 e C B + δ * Fintype.card D) := by
    intro δ hδ
    have hBd : (B + δ • (1 : Matrix D D ℝ)).PosDef := PosDef.posSemidef_add hB (PosDef.one.smul hδ)
    refine (buresDist_triangle_pd he hA hBd hC).trans (add_le_add ?_ ?_)
    · rw [buresDist_eq he hA hBd.posSemidef]
      exact Real.sqrt_le_sqrt (bw2_add_le he hA hB hδ.le)
    · rw [buresDist_eq he hBd.posSemidef hC, bw2_symm he hBd.posSemidef hC]
      exact Real.sqrt_le_sqrt (bw2_add_le he hC hB hδ.le)
  have := le_of_forall_small (f := fun δ => Real.sqrt (bw2 e A B + δ * Fintype.card D) + Real.sqrt (bw2 e C B + δ * Fintype.card D)) (by fun_prop) key
  simpa [buresDist_eq he hA hB, buresDist_eq he hB hC, bw2_symm he hB hC] using this

theorem entry_sq_le (U V : Matrix D D ℝ) (i j : D) : ((U * Vᵀ) i j) ^ 2 ≤ trace (U * Uᵀ) * trace (V * Vᵀ) := by
  have h1 := sum_mul_sq_le_sq_mul_sq univ (fun k => U i k) (fun k => V j k)
  have h2 : ∀ (W : Matrix D D ℝ) (i : D), ∑ k, W i k ^ 2 ≤ trace (W * Wᵀ) := by
    intro W i
    rw [psd_trace_gram]
    exact single_le_sum (f := fun d => ∑ k, W d k ^ 2) (fun d _ => by positivity) (mem_univ i)
  simp only [mul_apply, transpose_apply]
  exact h1.trans (mul_le_mul (h2 U i) (h2 V j) (by positivity) (trace_gram_nonneg U))

/-- Distance zero means equality. -/
theorem eq_of_bw2_zero (he : e.Ok) (hA : A.PosSemidef) (hB : B.PosSemidef) (h : bw2 e A B = 0) : A = B := by
  obtain ⟨c, hc⟩ : ∃ c : ℝ, c = Fintype.card D := ⟨_, rfl⟩
  have key : ∀ i j (δ : ℝ), 0 < δ → |A i j - B i j| ≤ Real.sqrt (δ * c * trace A) + Real.sqrt ((trace B + δ * c) * (δ * c)) + δ := by
    intro i j δ hδ
    have hBd : (B + δ • (1 : Matrix D D ℝ)).PosDef := PosDef.posSemidef_add hB (PosDef.one.smul hδ)
    have hle := bw2_add_le he hA hB hδ.le
    rw [h, zero_add, bw2_symm he hA hBd.posSemidef, ← hc] at hle
    obtain ⟨Bd, hBe⟩ : ∃ Bd, Bd = B + δ • (1 : Matrix D D ℝ) := ⟨_, rfl⟩
    have tB : trace Bd = trace B + δ * c := by rw [hBe, trace_add, trace_smul, trace_one, smul_eq_mul, hc]
    have eB : B i j = Bd i j - δ * (1 : Matrix D D ℝ) i j := by rw [hBe]; simp
    rw [← hBe] at hBd hle
    obtain ⟨r1, m1⟩ := roots he hBd.posSemidef hA
    obtain ⟨f1, f2, f3⟩ := opt_factor hBd r1 m1
    obtain ⟨R, hR⟩ : ∃ R, R = sqrtm e Bd := ⟨_, rfl⟩
    obtain ⟨Y, hY⟩ : ∃ Y, Y = (sqrtm e Bd)⁻¹ * sqrtm e (sqrtm e Bd * A * sqrtm e Bd) := ⟨_, rfl⟩
    rw [← hY] at f2 f3
    rw [← hR] at f1 f3
    have e1 : bw2 e Bd A = trace ((R - Y) * (R - Y)ᵀ) := by
      rw [← covCost_gram R Y, f1, f2]
      unfold covCost bw2
      rw [← hR, f3]
    rw [e1] at hle
    have hneg : trace ((Y - R) * (Y - R)ᵀ) = trace ((R - Y) * (R - Y)ᵀ) := by
      rw [show Y - R = -(R - Y) by abel, transpose_neg, Matrix.neg_mul, Matrix.mul_neg, neg_neg]
    have split : A - Bd = (Y - R) * Yᵀ + R * (Y - R)ᵀ := by
      rw [← f1, ← f2, transpose_sub]; noncomm_ring
    have s1 : |((Y - R) * Yᵀ) i j| ≤ Real.sqrt (δ * c * trace A) := by
      refine Real.abs_le_sqrt ((entry_sq_le _ _ i j).trans ?_)
      rw [hneg, f2]
      exact mul_le_mul_of_nonneg_right hle hA.trace_nonneg
    have s2 : |(R * (Y - R)ᵀ) i j| ≤ Real.sqrt ((trace B + δ * c) * (δ * c)) := by
      refine Real.abs_le_sqrt ((entry_sq_le _ _ i j).trans ?_)
      rw [hneg, f1, tB]
      refine mul_le_mul_of_nonneg_left hle ?_
      rw [← tB]; exact hBd.posSemidef.trace_nonneg
    have e2 : A i j - B i j = ((Y - R) * Yᵀ) i j + (R * (Y - R)ᵀ) i j + δ * (1 : Matrix D D ℝ) i j := by
      have := congrFun (congrFun split i) j
      simp only [Matrix.sub_apply, Matrix.add_apply] at this
      rw [eB]
      linarith
    have s3 : |δ * (1 : Matrix D D ℝ) i j| ≤ δ := by
      rw [abs_mul, abs_of_pos hδ, one_apply]
      split <;> simp [hδ.le]
    rw [e2]
    exact (abs_add_le _ _).trans (add_le_add ((abs_add_le _ _).trans (add_le_add s1 s2)) s3)
  ext i j
  have := le_of_forall_small (f := fun δ => Real.sqrt (δ * c * trace A) + Real.sqrt ((trace B + δ * c) * (δ * c)) + δ) (by fun_prop) (key i j)
  simp only [zero_mul, mul_zero, Real.sqrt_zero, add_zero] at this
  exact sub_eq_zero.1 (abs_nonpos_iff.1 this)

theorem bw2_self (he : e.Ok) (hA : A.PosSemidef) : bw2 e A A = 0 := by
  have hr := sqrtm_ok he hA
  have : IsPsdSqrt A (sqrtm e A * A * sqrtm e A) := by
    refine ⟨hA, ?_⟩
    obtain ⟨R, hR⟩ : ∃ R, R = sqrtm e A := ⟨_, rfl⟩
    rw [← hR] at hr ⊢
    rw [← hr.2]
    simp only [Matrix.mul_assoc]
  unfold bw2
  rw [sqrtm_eq he this]
  ring

end Pair

end POT.Gaussian
