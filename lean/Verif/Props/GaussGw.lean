import Verif.Lemmas.GaussGw
import Verif.Props.Gaussian
import Mathlib.Data.Fin.Tuple.Sort

/-!
# C80: Gaussian Gromov-Wasserstein
-/

set_option linter.unusedSectionVars false

namespace POT.Props

open Finset Matrix POT.Spec POT.Bures POT.Gaussian

variable {n k : ℕ}

/-- The square of `gaussian_gromov_wasserstein_distance` is the least Gromov-Wasserstein cost of a Gaussian pair with the two covariances. -/
theorem C80_value (es : EighDesc (n + k)) (et : EighDesc n) (hes : es.Ok) (het : et.Ok) {Cs : Matrix (Fin (n + k)) (Fin (n + k)) ℝ} {Ct : Matrix (Fin n) (Fin n) ℝ} (hs : Cs.PosSemidef)
    (ht : Ct.PosSemidef) : IsLeast {c | ∃ K, IsJointCov Cs Ct K ∧ c = ggwCost Cs Ct K} (ggwLarge es et Cs Ct ^ 2) := by
  have h1 : ggwLarge es et Cs Ct ^ 2 = ggwSq (es.vals Cs) (et.vals Ct) := Real.sq_sqrt (ggwSq_nonneg _ _)
  rw [h1]
  refine ⟨ggw_attained hes het hs ht, ?_⟩
  rintro _ ⟨K, hK, rfl⟩
  exact ggw_lower hes het hs ht hK

/-- `gaussian_gromov_wasserstein_mapping` from the larger space, with signs `±1`: the mean and the covariance of the source are sent to those of the target, and the pair it defines attains
the value of `gaussian_gromov_wasserstein_distance`. -/
theorem C80_mapping (es : EighDesc (n + k)) (et : EighDesc n) (hes : es.Ok) (het : et.Ok) {Cs : Matrix (Fin (n + k)) (Fin (n + k)) ℝ} {Ct : Matrix (Fin n) (Fin n) ℝ} (hs : Cs.PosDef)
    (ht : Ct.PosSemidef) (sign : Fin n → ℝ) (hsign : ∀ j, sign j = 1 ∨ sign j = -1) (mus : Fin (n + k) → ℝ) (mt : Fin n → ℝ) :
    let r := ggwMap es et sign mus mt Cs Ct
    r.1ᵀ * Cs * r.1 = Ct ∧ mus ᵥ* r.1 + r.2 = mt ∧ IsJointCov Cs Ct (Cs * r.1) ∧ ggwCost Cs Ct (Cs * r.1) = ggwLarge es et Cs Ct ^ 2 := by
  have hsq : ∀ j, sign j ^ 2 = 1 := fun j => by rcases hsign j with h | h <;> rw [h] <;> norm_num
  obtain ⟨v1, v2, -⟩ := het Ct (psd_t ht)
  obtain ⟨u1, u2, -⟩ := hes Cs (psd_t hs.posSemidef)
  have hpush : (ggwMap es et sign mus mt Cs Ct).1ᵀ * Cs * (ggwMap es et sign mus mt Cs Ct).1 = Ct := by
    have h1 := ggw_push hes het hs ht sign mus mt
    simp only [hsq, one_mul] at h1
    rw [h1]; exact v2
  obtain ⟨A, hA⟩ : ∃ A, A = (ggwMap es et sign mus mt Cs Ct).1 := ⟨_, rfl⟩
  refine ⟨hpush, by simp [ggwMap], ?_, ?_⟩
  · obtain ⟨R, hR⟩ := exists_sqrt hs.posSemidef
    have g := joint_gram R (Aᵀ * R)
    rw [transpose_mul, transpose_transpose, psd_t hR.1, hR.2, ← Matrix.mul_assoc R R, hR.2, show Aᵀ * R * (R * A) = Aᵀ * (R * R) * A by simp only [Matrix.mul_assoc], hR.2, hA, hpush] at g
    exact g
  · have h1 : ggwLarge es et Cs Ct ^ 2 = ggwSq (es.vals Cs) (et.vals Ct) := Real.sq_sqrt (ggwSq_nonneg _ _)
    rw [h1, ggwSq_eq]
    unfold ggwCost
    rw [desc_trace hes (psd_t hs.posSemidef), desc_trace het (psd_t ht), desc_sq hes (psd_t hs.posSemidef), desc_sq het (psd_t ht)]
    congr 2
    obtain ⟨G, hG⟩ : ∃ G, G = ggwBlock sign (es.vals Cs) (et.vals Ct) := ⟨_, rfl⟩
    have h2 : Cs * (ggwMap es et sign mus mt Cs Ct).1 = es.vecs Cs * (diagonal (es.vals Cs) * G) * (et.vecs Ct)ᵀ := by
      have h3 : (ggwMap es et sign mus mt Cs Ct).1 = es.vecs Cs * G * (et.vecs Ct)ᵀ := by rw [hG]; rfl
      have h4 : Cs * es.vecs Cs = es.vecs Cs * diagonal (es.vals Cs) := by
        rw [← desc_diag hes (psd_t hs.posSemidef), ← Matrix.mul_assoc, ← Matrix.mul_assoc, orth_comm u1, Matrix.one_mul]
      rw [h3, show Cs * (es.vecs Cs * G * (et.vecs Ct)ᵀ) = (Cs * es.vecs Cs) * G * (et.vecs Ct)ᵀ by simp only [Matrix.mul_assoc], h4]
      simp only [Matrix.mul_assoc]
    rw [h2, sum_sq_rotate _ u1 v1, hG, ggwBlock_eq, diag_mul_rect, rectDiag_sq]
    refine sum_congr rfl fun j _ => ?_
    have hn := desc_nonneg hes hs.posSemidef (Fin.castAdd k j)
    rw [mul_pow, div_pow, mul_pow, hsq, one_mul, Real.sq_sqrt hn, Real.sq_sqrt (desc_nonneg het ht j)]
    rcases hn.eq_or_lt with h0 | h0
    · rw [← h0]; ring
    · field_simp

/-- A sorted decomposition exists for every symmetric matrix. -/
theorem exists_desc (n : ℕ) : ∃ e : EighDesc n, e.Ok := by
  obtain ⟨e, he⟩ := exists_eigh (D := Fin n)
  refine ⟨⟨fun C => e.vals C ∘ Tuple.sort (fun i => -e.vals C i), fun C => (e.vecs C).submatrix id (Tuple.sort fun i => -e.vals C i)⟩, fun C hC => ?_⟩
  obtain ⟨h1, h2⟩ := he C hC
  obtain ⟨σ, hσ⟩ : ∃ σ, σ = Tuple.sort fun i => -e.vals C i := ⟨_, rfl⟩
  have hm : Monotone ((fun i => -e.vals C i) ∘ σ) := by rw [hσ]; exact Tuple.monotone_sort _
  simp only [← hσ]
  refine ⟨?_, ?_, ?_⟩
  · have h3 : ((e.vecs C)ᵀ * e.vecs C).submatrix σ σ = 1 := by rw [h1]; simp
    rw [← h3]
    rfl
  · refine Eq.trans ?_ h2
    ext i j
    rw [mul_apply, mul_apply]
    simp only [mul_diagonal, transpose_apply, submatrix_apply, id, Function.comp]
    exact Equiv.sum_comp σ fun l => e.vecs C i l * e.vals C l * e.vecs C j l
  · intro i j hij
    have := hm hij
    simp only [Function.comp] at this ⊢
    linarith

/-- `sign_eigs="skewness"` of `empirical_gaussian_gromov_wasserstein_mapping` returns a map that does not match the covariances when a component has no skewness: `sign(0) = 0`. -/
theorem C80_skewness_refuted : ∃ (xs xt : Fin 2 → Fin (1 + 0) → ℝ) (w : Fin 2 → ℝ), (∀ i, 0 < w i) ∧ wMean w xs = 0 ∧ wMean w xt = 0 ∧ wCov w xs = 1 ∧ wCov w xt = 1 ∧
    ∀ (es : EighDesc (1 + 0)) (et : EighDesc 1), es.Ok → et.Ok →
      let A := (ggwMap es et (skewSign (es.vecs 1) (et.vecs 1) w w xs xt) 0 0 1 1).1
      Aᵀ * (1 : Matrix (Fin (1 + 0)) (Fin (1 + 0)) ℝ) * A ≠ 1 := by
  obtain ⟨x, hx⟩ : ∃ x : Fin 2 → Fin (1 + 0) → ℝ, x = fun i _ => if i = 0 then -1 else 1 := ⟨_, rfl⟩
  have hm : wMean (fun _ : Fin 2 => (1 / 2 : ℝ)) x = 0 := by
    funext d; rw [hx]; simp only [wMean, Fin.sum_univ_two]; norm_num
  have hc : wCov (fun _ : Fin 2 => (1 / 2 : ℝ)) x = 1 := by
    ext d d'
    have : d = d' := Subsingleton.elim (α := Fin 1) d d'
    subst this
    simp only [wCov, of_apply, hm, one_apply_eq]
    rw [hx]
    simp only [Fin.sum_univ_two, Pi.zero_apply]
    norm_num
  refine ⟨x, x, fun _ => 1 / 2, fun _ => by norm_num, hm, hm, hc, hc, fun es et hes het => ?_⟩
  have hsg : skewSign (es.vecs 1) (et.vecs 1) (fun _ : Fin 2 => (1 / 2 : ℝ)) (fun _ => 1 / 2) x x = 0 := by
    funext c
    unfold skewSign
    simp only [Fin.sum_univ_two]
    have : (∑ d, x 0 d * es.vecs 1 d (Fin.castAdd 0 c)) = -(∑ d, x 1 d * es.vecs 1 d (Fin.castAdd 0 c)) := by
      rw [← sum_neg_distrib]; refine sum_congr rfl fun d _ => ?_; rw [hx]; simp
    rw [this]
    have e0 : ∀ y : ℝ, (-y) ^ 3 * (1 / 2 : ℝ) + y ^ 3 * (1 / 2) = 0 := fun y => by ring
    rw [e0]
    simp
  rw [hsg]
  have hz : (ggwMap es et (0 : Fin 1 → ℝ) 0 0 1 1).1 = 0 := by
    simp only [ggwMap]
    have : ggwBlock (0 : Fin 1 → ℝ) (es.vals 1) (et.vals 1) = 0 := by
      ext i j
      refine Fin.addCases (fun i' => ?_) (fun i' => ?_) i
      · rw [ggwBlock, Fin.addCases_left]; simp
      · exact i'.elim0
    rw [this, Matrix.mul_zero, Matrix.zero_mul]
  intro A h
  rw [show A = 0 from hz, Matrix.mul_zero] at h
  have := congrFun (congrFun h 0) 0
  simp at this

/-- The hypotheses of C80 are met by a covariance on a plane and a variance on a line. -/
example : ∃ (es : EighDesc (1 + 1)) (et : EighDesc 1), es.Ok ∧ et.Ok ∧ (diagonal (fun i : Fin (1 + 1) => (i : ℝ) + 1)).PosDef ∧ (4 • (1 : Matrix (Fin 1) (Fin 1) ℝ)).PosSemidef := by
  obtain ⟨es, hes⟩ := exists_desc (1 + 1)
  obtain ⟨et, het⟩ := exists_desc 1
  refine ⟨es, et, hes, het, posDef_diagonal_iff.2 fun i => by positivity, PosSemidef.one.smul (by norm_num)⟩

end POT.Props
