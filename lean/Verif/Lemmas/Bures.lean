import Verif.Spec.Gaussian
import Mathlib.Analysis.Matrix.Order
import Mathlib.Analysis.Matrix.Spectrum
import Mathlib.LinearAlgebra.Matrix.Charpoly.Basic
import Mathlib.Tactic.NoncommRing
import Mathlib.Data.Matrix.ColumnRowPartitioned

/-!
# The Bures distance between covariance matrices
-/

set_option linter.unusedSectionVars false

namespace POT.Bures

open Finset Matrix POT.Spec

variable {D : Type*} [Fintype D] [DecidableEq D]

theorem psd_t {M : Matrix D D ℝ} (h : M.PosSemidef) : Mᵀ = M := by
  have := h.isHermitian
  rwa [IsHermitian, conjTranspose_eq_transpose_of_trivial] at this

theorem psd_conj {M : Matrix D D ℝ} (h : M.PosSemidef) {E : Type*} [Fintype E] (X : Matrix E D ℝ) : (X * M * Xᵀ).PosSemidef := by
  have := h.mul_mul_conjTranspose_same X
  rwa [conjTranspose_eq_transpose_of_trivial] at this

theorem psd_conj_symm {M S : Matrix D D ℝ} (h : M.PosSemidef) (hS : Sᵀ = S) : (S * M * S).PosSemidef := by
  have := psd_conj h S
  rwa [hS] at this

theorem psd_sq {S : Matrix D D ℝ} (hS : Sᵀ = S) : (S * S).PosSemidef := by
  have := psd_conj_symm (PosSemidef.one (n := D) (R := ℝ)) hS
  simpa using this

theorem exists_sqrt {C : Matrix D D ℝ} (h : C.PosSemidef) : ∃ S, IsPsdSqrt S C := by
  obtain ⟨U, hU⟩ : ∃ U : Matrix D D ℝ, U = (h.1.eigenvectorUnitary : Matrix D D ℝ) := ⟨_, rfl⟩
  have hUU : Uᵀ * U = 1 := by
    rw [hU]
    have := (Matrix.mem_unitaryGroup_iff' (A := (h.1.eigenvectorUnitary : Matrix D D ℝ))).1 h.1.eigenvectorUnitary.2
    rwa [star_eq_conjTranspose, conjTranspose_eq_transpose_of_trivial] at this
  have hC : U * diagonal h.1.eigenvalues * Uᵀ = C := by
    have := h.1.spectral_theorem
    rw [Unitary.conjStarAlgAut_apply, star_eq_conjTranspose, conjTranspose_eq_transpose_of_trivial] at this
    rw [hU]; exact this.symm
  refine ⟨U * diagonal (fun i => Real.sqrt (h.1.eigenvalues i)) * Uᵀ, psd_conj (PosSemidef.diagonal fun i => Real.sqrt_nonneg _) U, ?_⟩
  calc U * diagonal (fun i => Real.sqrt (h.1.eigenvalues i)) * Uᵀ * (U * diagonal (fun i => Real.sqrt (h.1.eigenvalues i)) * Uᵀ)
      = U * diagonal (fun i => Real.sqrt (h.1.eigenvalues i)) * (Uᵀ * U) * diagonal (fun i => Real.sqrt (h.1.eigenvalues i)) * Uᵀ := by simp only [Matrix.mul_assoc]
    _ = C := by
      rw [hUU, Matrix.mul_one, Matrix.mul_assoc U, diagonal_mul_diagonal]
      refine Eq.trans ?_ hC
      congr 3
      funext i
      exact Real.mul_self_sqrt (h.eigenvalues_nonneg i)

theorem trace_mul_nonneg {P Q : Matrix D D ℝ} (hP : P.PosSemidef) (hQ : Q.PosSemidef) : 0 ≤ trace (P * Q) := by
  obtain ⟨S, hS, rfl⟩ := exists_sqrt hP
  rw [Matrix.mul_assoc, trace_mul_comm]
  exact (psd_conj_symm hQ (psd_t hS)).trace_nonneg

theorem sqrt_posDef {S C : Matrix D D ℝ} (h : IsPsdSqrt S C) (hC : C.PosDef) : S.PosDef := by
  rw [h.1.posDef_iff_isUnit]
  have hu := hC.isUnit
  rw [← h.2, Matrix.isUnit_iff_isUnit_det, det_mul] at hu
  rw [Matrix.isUnit_iff_isUnit_det]
  exact (IsUnit.mul_iff.1 hu).1

/-- Uniqueness of the square root. -/
theorem sqrt_unique {S S' C : Matrix D D ℝ} (h : IsPsdSqrt S C) (h' : IsPsdSqrt S' C) : S = S' := by
  obtain ⟨E, hE⟩ : ∃ E, E = S - S' := ⟨_, rfl⟩
  have hEt : Eᵀ = E := by rw [hE, transpose_sub, psd_t h.1, psd_t h'.1]
  have h1 : E * (S + S') + (S + S') * E = 0 := by
    have : E * (S + S') + (S + S') * E = (S * S - S' * S') + (S * S - S' * S') := by rw [hE]; noncomm_ring
    rw [this, h.2, h'.2]; simp
  have h2 : trace (E * S * E) + trace (E * S' * E) = 0 := by
    have h3 : trace (E * (E * (S + S') + (S + S') * E)) = 0 := by rw [h1]; simp
    have h4 : trace (E * (E * (S + S'))) = trace (E * (S + S') * E) := by rw [← Matrix.mul_assoc, ← trace_mul_cycle, Matrix.mul_assoc]; 
    rw [Matrix.mul_add, trace_add, h4, ← Matrix.mul_assoc] at h3
    have h5 : trace (E * (S + S') * E) = trace (E * S * E) + trace (E * S' * E) := by rw [Matrix.mul_add, Matrix.add_mul, trace_add]
    linarith
  have p1 := psd_conj_symm h.1 hEt
  have p2 := psd_conj_symm h'.1 hEt
  have t1 := p1.trace_nonneg
  have t2 := p2.trace_nonneg
  have z1 := p1.trace_eq_zero_iff.1 (by linarith)
  have z2 := p2.trace_eq_zero_iff.1 (by linarith)
  have h6 : E * E * E = 0 := by
    have : E * E * E = E * S * E - E * S' * E := by
      conv_lhs => rw [show E * E * E = E * (S - S') * E by rw [← hE]]
      noncomm_ring
    rw [this, z1, z2, sub_zero]
  have h7 : E * E = 0 := by
    rw [← (psd_sq hEt).trace_eq_zero_iff]
    have h8 : (E * E) * (E * E)ᵀ = 0 := by rw [transpose_mul, hEt, ← Matrix.mul_assoc, h6, Matrix.zero_mul]
    have h9 := (trace_mul_conjTranspose_self_eq_zero_iff (A := E * E)).1 (by rw [conjTranspose_eq_transpose_of_trivial, h8]; simp)
    rw [h9]; simp
  have h10 := (trace_mul_conjTranspose_self_eq_zero_iff (A := E)).1 (by rw [conjTranspose_eq_transpose_of_trivial, hEt, h7]; simp)
  rw [hE] at h10
  exact sub_eq_zero.1 h10

/-- The quadratic form behind everything: the joint covariance tested with the rows `(1, -Q)`. -/
theorem joint_psd {A B K : Matrix D D ℝ} (h : IsJointCov A B K) (P Q : Matrix D D ℝ) : (P * A * Pᵀ - P * K * Qᵀ - Q * Kᵀ * Pᵀ + Q * B * Qᵀ).PosSemidef := by
  have h1 := psd_conj (D := D ⊕ D) h (fromCols P (-Q))
  have e : fromCols P (-Q) * fromBlocks A K Kᵀ B * (fromCols P (-Q))ᵀ = P * A * Pᵀ - P * K * Qᵀ - Q * Kᵀ * Pᵀ + Q * B * Qᵀ := by
    rw [fromCols_mul_fromBlocks, transpose_fromCols, fromCols_mul_fromRows, transpose_neg]
    noncomm_ring
  rwa [e] at h1

/-- Weak duality for covariances. -/
theorem trace_le_of_posDef {A B K T : Matrix D D ℝ} (h : IsJointCov A B K) (hT : T.PosDef) : 2 * trace K ≤ trace (T * A) + trace (T⁻¹ * B) := by
  have h1 := trace_mul_nonneg hT.posSemidef (joint_psd h 1 T⁻¹)
  have hti : (T⁻¹)ᵀ = T⁻¹ := psd_t hT.inv.posSemidef
  have hu : IsUnit T.det := (Matrix.isUnit_iff_isUnit_det T).1 hT.isUnit
  have e1 : T * (1 * A * 1ᵀ - 1 * K * (T⁻¹)ᵀ - T⁻¹ * Kᵀ * 1ᵀ + T⁻¹ * B * (T⁻¹)ᵀ) = T * A - T * (K * T⁻¹) - (T * T⁻¹) * Kᵀ + (T * T⁻¹) * (B * T⁻¹) := by
    rw [hti, transpose_one]; noncomm_ring
  rw [e1, Matrix.mul_nonsing_inv _ hu, Matrix.one_mul, Matrix.one_mul, trace_add, trace_sub, trace_sub, trace_transpose, trace_mul_comm T (K * T⁻¹), Matrix.mul_assoc K,
    Matrix.nonsing_inv_mul _ hu, Matrix.mul_one, trace_mul_comm B] at h1
  linarith

theorem le_of_forall_quad {x y c₁ c₂ : ℝ} (h : ∀ δ : ℝ, 0 < δ → x ≤ y + δ * c₁ + δ ^ 2 * c₂) : x ≤ y := by
  by_contra hc
  push Not at hc
  obtain ⟨g, hg⟩ : ∃ g, g = x - y := ⟨_, rfl⟩
  have hg0 : 0 < g := by linarith
  obtain ⟨N, hN⟩ : ∃ N, N = |c₁| + |c₂| + 1 := ⟨_, rfl⟩
  have hN0 : 0 < N := by rw [hN]; positivity
  obtain ⟨δ, hδ⟩ : ∃ δ, δ = min 1 (g / (2 * N)) := ⟨_, rfl⟩
  have hd0 : 0 < δ := by rw [hδ]; positivity
  have hd1 : δ ≤ 1 := by rw [hδ]; exact min_le_left _ _
  have hd2 : δ * (2 * N) ≤ g := by
    have : δ ≤ g / (2 * N) := by rw [hδ]; exact min_le_right _ _
    rwa [le_div_iff₀ (by positivity)] at this
  have h1 := h δ hd0
  have a1 := le_abs_self c₁
  have a2 := le_abs_self c₂
  have h2 : δ * c₁ ≤ δ * |c₁| := mul_le_mul_of_nonneg_left a1 hd0.le
  have h3 : δ ^ 2 * c₂ ≤ δ * |c₂| := by
    have : δ ^ 2 * c₂ ≤ δ ^ 2 * |c₂| := mul_le_mul_of_nonneg_left a2 (by positivity)
    have : δ ^ 2 * |c₂| ≤ δ * |c₂| := mul_le_mul_of_nonneg_right (by nlinarith) (abs_nonneg _)
    linarith
  have h4 : δ * N = δ * |c₁| + δ * |c₂| + δ := by rw [hN]; ring
  linarith

/-- The trace of every cross-covariance is at most that of `(A^{1/2} B A^{1/2})^{1/2}`. -/
theorem trace_le {A B K R M : Matrix D D ℝ} (h : IsJointCov A B K) (hR : IsPsdSqrt R A) (hM : IsPsdSqrt M (R * B * R)) : trace K ≤ trace M := by
  obtain ⟨hRp, rfl⟩ := hR
  obtain ⟨hMp, hMM⟩ := hM
  have key : ∀ ε : ℝ, 0 < ε → 2 * trace K ≤ 2 * trace M + ε * Fintype.card D := by
    intro ε hε
    obtain ⟨Me, hMe⟩ : ∃ Me, Me = M + ε • (1 : Matrix D D ℝ) := ⟨_, rfl⟩
    have hMep : Me.PosDef := by rw [hMe]; exact PosDef.posSemidef_add hMp (PosDef.one.smul hε)
    have huM : IsUnit Me.det := (Matrix.isUnit_iff_isUnit_det Me).1 hMep.isUnit
    refine le_of_forall_quad (c₁ := trace (Me⁻¹ * (R * B + B * R))) (c₂ := trace (Me⁻¹ * B)) fun δ hδ => ?_
    obtain ⟨Rd, hRd⟩ : ∃ Rd, Rd = R + δ • (1 : Matrix D D ℝ) := ⟨_, rfl⟩
    have hRdp : Rd.PosDef := by rw [hRd]; exact PosDef.posSemidef_add hRp (PosDef.one.smul hδ)
    have huR : IsUnit Rd.det := (Matrix.isUnit_iff_isUnit_det Rd).1 hRdp.isUnit
    have hRdi : (Rd⁻¹)ᵀ = Rd⁻¹ := psd_t hRdp.inv.posSemidef
    have hT : (Rd⁻¹ * Me * Rd⁻¹).PosDef := by
      rw [(psd_conj_symm hMep.posSemidef hRdi).posDef_iff_isUnit]
      exact (hRdp.inv.isUnit.mul hMep.isUnit).mul hRdp.inv.isUnit
    have h1 := trace_le_of_posDef h hT
    have hTi : (Rd⁻¹ * Me * Rd⁻¹)⁻¹ = Rd * Me⁻¹ * Rd := by
      rw [Matrix.mul_inv_rev, Matrix.mul_inv_rev, nonsing_inv_nonsing_inv _ huR, Matrix.mul_assoc]
    rw [hTi] at h1
    have e1 : trace (Rd⁻¹ * Me * Rd⁻¹ * (R * R)) = trace Me - trace (Me * (Rd⁻¹ * (δ • (R + R) + (δ * δ) • (1 : Matrix D D ℝ)) * Rd⁻¹)) := by
      have : R * R = Rd * Rd - (δ • (R + R) + (δ * δ) • (1 : Matrix D D ℝ)) := by
        rw [hRd]
        simp only [Matrix.add_mul, Matrix.mul_add, smul_add, Matrix.smul_mul, Matrix.mul_smul, Matrix.one_mul, Matrix.mul_one, smul_smul]
        abel
      have e2 : Rd⁻¹ * Me * Rd⁻¹ * (R * R) = Rd⁻¹ * (Me * (Rd⁻¹ * (R * R))) := by simp only [Matrix.mul_assoc]
      rw [e2, trace_mul_comm, this]
      have e3 : Me * (Rd⁻¹ * (Rd * Rd - (δ • (R + R) + (δ * δ) • (1 : Matrix D D ℝ)))) * Rd⁻¹ =
          Me * ((Rd⁻¹ * Rd) * (Rd * Rd⁻¹)) - Me * (Rd⁻¹ * (δ • (R + R) + (δ * δ) • (1 : Matrix D D ℝ)) * Rd⁻¹) := by
        simp only [Matrix.mul_sub, Matrix.sub_mul, Matrix.mul_assoc]
      rw [e3, Matrix.nonsing_inv_mul _ huR, Matrix.mul_nonsing_inv _ huR, Matrix.mul_one, Matrix.mul_one, trace_sub]
    have p1 : 0 ≤ trace (Me * (Rd⁻¹ * (δ • (R + R) + (δ * δ) • (1 : Matrix D D ℝ)) * Rd⁻¹)) :=
      trace_mul_nonneg hMep.posSemidef (psd_conj_symm (((hRp.add hRp).smul hδ.le).add (PosSemidef.one.smul (by positivity))) hRdi)
    have e4 : trace (Rd * Me⁻¹ * Rd * B) = trace (Me⁻¹ * (R * B * R)) + δ * trace (Me⁻¹ * (R * B + B * R)) + δ ^ 2 * trace (Me⁻¹ * B) := by
      have e5 : trace (Rd * Me⁻¹ * Rd * B) = trace (Me⁻¹ * (Rd * B * Rd)) := by
        rw [show Rd * Me⁻¹ * Rd * B = Rd * (Me⁻¹ * (Rd * B)) by simp only [Matrix.mul_assoc], trace_mul_comm]
        simp only [Matrix.mul_assoc]
      have e6 : Rd * B * Rd = R * B * R + δ • (R * B + B * R) + (δ ^ 2) • B := by
        rw [hRd]
        simp only [Matrix.add_mul, Matrix.mul_add, smul_add, Matrix.smul_mul, Matrix.mul_smul, Matrix.one_mul, Matrix.mul_one, smul_smul, pow_two]
        abel
      rw [e5, e6, Matrix.mul_add, Matrix.mul_add, trace_add, trace_add, Matrix.mul_smul, Matrix.mul_smul, trace_smul, trace_smul, smul_eq_mul, smul_eq_mul]
    have e7 : trace (Me⁻¹ * (R * B * R)) = trace M - ε * trace (Me⁻¹ * M) := by
      have : M * M = Me * M - ε • M := by rw [hMe, Matrix.add_mul, Matrix.smul_mul, Matrix.one_mul]; abel
      rw [← hMM, this, Matrix.mul_sub, ← Matrix.mul_assoc, Matrix.nonsing_inv_mul _ huM, Matrix.one_mul, trace_sub, Matrix.mul_smul, trace_smul, smul_eq_mul]
    have p2 : 0 ≤ ε * trace (Me⁻¹ * M) := mul_nonneg hε.le (trace_mul_nonneg hMep.inv.posSemidef hMp)
    have e8 : trace Me = trace M + ε * Fintype.card D := by rw [hMe, trace_add, trace_smul, trace_one, smul_eq_mul]
    linarith
  have := le_of_forall_quad (x := 2 * trace K) (y := 2 * trace M) (c₁ := Fintype.card D) (c₂ := 0) fun δ hδ => by
    have := key δ hδ
    linarith
  linarith

/-- Gram matrices are joint covariances. -/
theorem joint_gram {F E : Type*} [Fintype F] [Fintype E] (X : Matrix D E ℝ) (Y : Matrix F E ℝ) : IsJointCov (X * Xᵀ) (Y * Yᵀ) (X * Yᵀ) := by
  unfold IsJointCov
  have : fromBlocks (X * Xᵀ) (X * Yᵀ) (X * Yᵀ)ᵀ (Y * Yᵀ) = fromRows X Y * (fromRows X Y)ᴴ := by
    rw [conjTranspose_eq_transpose_of_trivial, transpose_fromRows, fromRows_mul_fromCols, transpose_mul, transpose_transpose]
  rw [this]
  exact posSemidef_self_mul_conjTranspose _

theorem joint_swap {F : Type*} [Fintype F] {A : Matrix D D ℝ} {B : Matrix F F ℝ} {K : Matrix D F ℝ} (h : IsJointCov A B K) : IsJointCov B A Kᵀ := by
  unfold IsJointCov at *
  have := h.submatrix (Sum.swap : F ⊕ D → D ⊕ F)
  rwa [fromBlocks_submatrix_sum_swap_sum_swap, ← transpose_transpose K] at this

theorem covCost_gram {E : Type*} [Fintype E] (X Y : Matrix D E ℝ) : covCost (X * Xᵀ) (Y * Yᵀ) (X * Yᵀ) = trace ((X - Y) * (X - Y)ᵀ) := by
  unfold covCost
  rw [transpose_sub, Matrix.sub_mul, Matrix.mul_sub, Matrix.mul_sub, trace_sub, trace_sub, trace_sub, ← trace_transpose (Y * Xᵀ), transpose_mul, transpose_transpose]
  ring

/-- The optimal factors: `A = R R`, `B = Y Yᵀ` with `Y = R⁻¹ M`. -/
theorem opt_factor {A B R M : Matrix D D ℝ} (hA : A.PosDef) (hR : IsPsdSqrt R A) (hM : IsPsdSqrt M (R * B * R)) :
    R * Rᵀ = A ∧ (R⁻¹ * M) * (R⁻¹ * M)ᵀ = B ∧ trace (R * (R⁻¹ * M)ᵀ) = trace M := by
  have hRp := sqrt_posDef hR hA
  have hu : IsUnit R.det := (Matrix.isUnit_iff_isUnit_det R).1 hRp.isUnit
  have hRt := psd_t hR.1
  have hRi : (R⁻¹)ᵀ = R⁻¹ := psd_t hRp.inv.posSemidef
  refine ⟨by rw [hRt, hR.2], ?_, ?_⟩
  · rw [transpose_mul, psd_t hM.1, hRi, show R⁻¹ * M * (M * R⁻¹) = R⁻¹ * (M * M) * R⁻¹ by simp only [Matrix.mul_assoc], hM.2,
      show R⁻¹ * (R * B * R) * R⁻¹ = (R⁻¹ * R) * B * (R * R⁻¹) by simp only [Matrix.mul_assoc], Matrix.nonsing_inv_mul _ hu, Matrix.mul_nonsing_inv _ hu, Matrix.one_mul, Matrix.mul_one]
  · rw [transpose_mul, psd_t hM.1, hRi, trace_mul_comm, Matrix.mul_assoc, Matrix.nonsing_inv_mul _ hu, Matrix.mul_one]

/-- The closed form of the squared Bures distance. -/
theorem isLeast {A B R M : Matrix D D ℝ} (hA : A.PosDef) (hR : IsPsdSqrt R A) (hM : IsPsdSqrt M (R * B * R)) :
    IsLeast {c | ∃ K, IsJointCov A B K ∧ c = covCost A B K} (trace A + trace B - 2 * trace M) := by
  obtain ⟨h1, h2, h3⟩ := opt_factor hA hR hM
  constructor
  · refine ⟨R * (R⁻¹ * M)ᵀ, ?_, ?_⟩
    · have := joint_gram R (R⁻¹ * M)
      rwa [h1, h2] at this
    · unfold covCost; rw [h3]
  · rintro _ ⟨K, hK, rfl⟩
    have := trace_le hK hR hM
    unfold covCost
    linarith

/-- Square roots of `Gᵀ G` and `G Gᵀ` have the same trace. -/
theorem trace_sqrt_comm {G M M' : Matrix D D ℝ} (h : IsPsdSqrt M (Gᵀ * G)) (h' : IsPsdSqrt M' (G * Gᵀ)) : trace M = trace M' := by
  have key : ∀ {C S : Matrix D D ℝ} (hC : C.PosSemidef), IsPsdSqrt S C → trace S = ∑ i, Real.sqrt (hC.1.eigenvalues i) := by
    intro C S hC hS
    obtain ⟨U, hU⟩ : ∃ U : Matrix D D ℝ, U = (hC.1.eigenvectorUnitary : Matrix D D ℝ) := ⟨_, rfl⟩
    have hUU : Uᵀ * U = 1 := by
      rw [hU]
      have := (Matrix.mem_unitaryGroup_iff' (A := (hC.1.eigenvectorUnitary : Matrix D D ℝ))).1 hC.1.eigenvectorUnitary.2
      rwa [star_eq_conjTranspose, conjTranspose_eq_transpose_of_trivial] at this
    have hCe : U * diagonal hC.1.eigenvalues * Uᵀ = C := by
      have := hC.1.spectral_theorem
      rw [Unitary.conjStarAlgAut_apply, star_eq_conjTranspose, conjTranspose_eq_transpose_of_trivial] at this
      rw [hU]; exact this.symm
    have hs : IsPsdSqrt (U * diagonal (fun i => Real.sqrt (hC.1.eigenvalues i)) * Uᵀ) C := by
      refine ⟨psd_conj (PosSemidef.diagonal fun i => Real.sqrt_nonneg _) U, ?_⟩
      rw [show U * diagonal (fun i => Real.sqrt (hC.1.eigenvalues i)) * Uᵀ * (U * diagonal (fun i => Real.sqrt (hC.1.eigenvalues i)) * Uᵀ)
        = U * diagonal (fun i => Real.sqrt (hC.1.eigenvalues i)) * (Uᵀ * U) * diagonal (fun i => Real.sqrt (hC.1.eigenvalues i)) * Uᵀ by simp only [Matrix.mul_assoc],
        hUU, Matrix.mul_one, Matrix.mul_assoc U, diagonal_mul_diagonal]
      refine Eq.trans ?_ hCe
      congr 3
      funext i
      exact Real.mul_self_sqrt (hC.eigenvalues_nonneg i)
    rw [sqrt_unique hS hs, trace_mul_comm, ← Matrix.mul_assoc, hUU, Matrix.one_mul, trace_diagonal]
  have p : (Gᵀ * G).PosSemidef := by rw [← h.2]; exact psd_sq (psd_t h.1)
  have p' : (G * Gᵀ).PosSemidef := by rw [← h'.2]; exact psd_sq (psd_t h'.1)
  rw [key p h, key p' h']
  have := (IsHermitian.eigenvalues_eq_eigenvalues_iff p.1 p'.1).2 (Matrix.charpoly_mul_comm _ _)
  rw [this]

theorem trace_sqrt_symm {A B R R' M M' : Matrix D D ℝ} (hR : IsPsdSqrt R A) (hR' : IsPsdSqrt R' B) (hM : IsPsdSqrt M (R * B * R)) (hM' : IsPsdSqrt M' (R' * A * R')) :
    trace M = trace M' := by
  refine trace_sqrt_comm (G := R' * R) ?_ ?_
  · rw [transpose_mul, psd_t hR.1, psd_t hR'.1, show R * R' * (R' * R) = R * (R' * R') * R by simp only [Matrix.mul_assoc], hR'.2]
    exact hM
  · rw [transpose_mul, psd_t hR.1, psd_t hR'.1, show R' * R * (R * R') = R' * (R * R) * R' by simp only [Matrix.mul_assoc], hR.2]
    exact hM'

end POT.Bures
