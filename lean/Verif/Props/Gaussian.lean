import Verif.Lemmas.Gaussian
import Mathlib.Algebra.BigOperators.Field
import Mathlib.Tactic.FinCases

/-!
# C77, C78: Gaussian mappings and distances
-/

set_option linter.unusedSectionVars false

namespace POT.Props

open Finset Matrix POT.Spec POT.Bures POT.Gaussian

variable {D : Type*} [Fintype D] [DecidableEq D] {I J : Type*} [Fintype I] [Fintype J]

/-! ## C77: the mapping -/

/-- `bures_wasserstein_mapping` sends the source mean to the target mean and the source covariance to the target covariance, its linear part is symmetric positive definite,
and it is the only positive semidefinite matrix that does so. -/
theorem C77_mapping (e : Eigh D) (he : e.Ok) (ms mt : D → ℝ) {Cs Ct : Matrix D D ℝ} (hs : Cs.PosDef) (ht : Ct.PosDef) :
    let r := mapping e ms mt Cs Ct
    r.1.PosDef ∧ r.1ᵀ * Cs * r.1 = Ct ∧ ms ᵥ* r.1 + r.2 = mt ∧ ∀ T : Matrix D D ℝ, T.PosSemidef → T * Cs * T = Ct → T = r.1 := by
  refine ⟨mapA_pd he hs ht, ?_, ?_, ?_⟩
  · rw [show (mapping e ms mt Cs Ct).1 = mapA e Cs Ct from rfl, psd_t (mapA_psd he hs ht.posSemidef)]
    exact mapA_push he hs ht.posSemidef
  · simp [mapping]
  · intro T hT h
    exact (mapA_unique he hs ht.posSemidef hT h).symm

/-- The map is an optimal transport of second moments: the pair `(x, x A + b)` has the least mean squared displacement of all pairs with these covariances. -/
theorem C77_mapping_optimal (e : Eigh D) (he : e.Ok) (ms mt : D → ℝ) {Cs Ct : Matrix D D ℝ} (hs : Cs.PosDef) (ht : Ct.PosSemidef) :
    let A := (mapping e ms mt Cs Ct).1
    IsJointCov Cs Ct (Cs * A) ∧ ∀ K, IsJointCov Cs Ct K → covCost Cs Ct (Cs * A) ≤ covCost Cs Ct K := by
  have hA := mapA_psd he hs ht
  have hp := mapA_push he hs ht
  obtain ⟨h1, -⟩ := roots he hs.posSemidef ht
  refine ⟨?_, fun K hK => ?_⟩
  · have g := joint_gram (sqrtm e Cs) (mapA e Cs Ct * sqrtm e Cs)
    rw [transpose_mul, psd_t h1.1, psd_t hA, ← Matrix.mul_assoc (sqrtm e Cs) (sqrtm e Cs), h1.2,
      show mapA e Cs Ct * sqrtm e Cs * (sqrtm e Cs * mapA e Cs Ct) = mapA e Cs Ct * (sqrtm e Cs * sqrtm e Cs) * mapA e Cs Ct by simp only [Matrix.mul_assoc], h1.2, hp] at g
    exact g
  · have := bw2_le he hs.posSemidef ht hK
    have t := trace_mapA he hs ht
    unfold bw2 at this
    rw [trace_mul_comm] at t
    show covCost Cs Ct (Cs * mapA e Cs Ct) ≤ _
    unfold covCost at *
    rw [t]
    exact this

theorem wCov_eq_empCov (w : I → ℝ) (x : I → D → ℝ) (reg : ℝ) : empCov true reg w x = wCov w x + reg • (1 : Matrix D D ℝ) := by
  unfold empCov wCov
  ext d d'
  simp only [Matrix.add_apply, of_apply, empMean, wMean, if_true]
  congr 2
  exact sum_congr rfl fun i _ => by ring

theorem empMean_eq (w : I → ℝ) (x : I → D → ℝ) : empMean true w x = wMean w x := by
  unfold empMean wMean; simp

theorem moment_psd (w : I → ℝ) (hw : ∀ i, 0 ≤ w i) (x : I → D → ℝ) : (Matrix.of fun d d' : D => (∑ i, (x i d * w i) * x i d') / ∑ i, w i).PosSemidef := by
  have : (Matrix.of fun d d' : D => (∑ i, (x i d * w i) * x i d') / ∑ i, w i) = ∑ i, (w i / ∑ k, w k) • vecMulVec (x i) (star (x i)) := by
    ext d d'
    simp only [of_apply, Matrix.sum_apply, Matrix.smul_apply, vecMulVec_apply, smul_eq_mul, sum_div, Pi.star_apply, star_trivial]
    exact sum_congr rfl fun i _ => by ring
  rw [this]
  exact posSemidef_sum univ fun i _ => (posSemidef_vecMulVec_self_star (x i)).smul (div_nonneg (hw i) (sum_nonneg fun k _ => hw k))

theorem empCov_psd (bias : Bool) {reg : ℝ} (hr : 0 ≤ reg) (w : I → ℝ) (hw : ∀ i, 0 ≤ w i) (x : I → D → ℝ) : (empCov bias reg w x).PosSemidef :=
  (moment_psd w hw _).add (PosSemidef.one.smul hr)

theorem empCov_pd (bias : Bool) {reg : ℝ} (hr : 0 < reg) (w : I → ℝ) (hw : ∀ i, 0 ≤ w i) (x : I → D → ℝ) : (empCov bias reg w x).PosDef :=
  PosDef.posSemidef_add (moment_psd w hw _) (PosDef.one.smul hr)

theorem wMean_affine (w : I → ℝ) (hw : 0 < ∑ i, w i) (x : I → D → ℝ) (A : Matrix D D ℝ) (b : D → ℝ) : wMean w (fun i => x i ᵥ* A + b) = wMean w x ᵥ* A + b := by
  obtain ⟨c, hc⟩ : ∃ c : I → ℝ, c = fun i => w i / ∑ k, w k := ⟨_, rfl⟩
  have hc1 : ∑ i, c i = 1 := by rw [hc, ← sum_div, div_self hw.ne']
  have hm : ∀ (y : I → D → ℝ) d, wMean w y d = ∑ i, c i * y i d := by
    intro y d
    simp only [wMean, hc, sum_div]
    exact sum_congr rfl fun i _ => by ring
  funext d
  rw [hm]
  simp only [Pi.add_apply, vecMul, dotProduct, hm, mul_add, sum_add_distrib, ← sum_mul, hc1, one_mul, mul_sum]
  rw [sum_comm]
  congr 1
  refine sum_congr rfl fun k _ => ?_
  rw [sum_mul]
  exact sum_congr rfl fun i _ => by ring

theorem wCov_affine (w : I → ℝ) (hw : 0 < ∑ i, w i) (x : I → D → ℝ) (A : Matrix D D ℝ) (b : D → ℝ) : wCov w (fun i => x i ᵥ* A + b) = Aᵀ * wCov w x * A := by
  have hm := wMean_affine w hw x A b
  ext d d'
  have hc : ∀ i d, (x i ᵥ* A + b) d - wMean w (fun i => x i ᵥ* A + b) d = ∑ k, (x i k - wMean w x k) * A k d := by
    intro i d
    rw [hm]
    simp only [Pi.add_apply, vecMul, dotProduct, sub_mul, sum_sub_distrib]
    ring
  simp only [wCov, of_apply, mul_apply, transpose_apply, hc]
  rw [div_eq_iff hw.ne']
  have e1 : ∀ k k', (∑ i, w i * (x i k - wMean w x k) * (x i k' - wMean w x k')) / ∑ i, w i = (∑ i, w i * (x i k - wMean w x k) * (x i k' - wMean w x k')) * (1 / ∑ i, w i) :=
    fun k k' => by ring
  have e2 : (∑ k', (∑ k, A k d * ((∑ i, w i * (x i k - wMean w x k) * (x i k' - wMean w x k')) / ∑ i, w i)) * A k' d') * ∑ i, w i =
      ∑ k', ∑ k, ∑ i, w i * ((x i k - wMean w x k) * A k d) * ((x i k' - wMean w x k') * A k' d') := by
    rw [sum_mul]
    refine sum_congr rfl fun k' _ => ?_
    rw [sum_mul, sum_mul]
    refine sum_congr rfl fun k _ => ?_
    rw [e1]
    have : A k d * ((∑ i, w i * (x i k - wMean w x k) * (x i k' - wMean w x k')) * (1 / ∑ i, w i)) * A k' d' * ∑ i, w i =
        (∑ i, w i * (x i k - wMean w x k) * (x i k' - wMean w x k')) * (A k d * A k' d') * ((1 / ∑ i, w i) * ∑ i, w i) := by ring
    rw [this, one_div_mul_cancel hw.ne', mul_one, sum_mul]
    exact sum_congr rfl fun i _ => by ring
  rw [e2]
  have e3 : ∀ i, w i * (∑ k, (x i k - wMean w x k) * A k d) * (∑ k', (x i k' - wMean w x k') * A k' d') =
      ∑ k', ∑ k, w i * ((x i k - wMean w x k) * A k d) * ((x i k' - wMean w x k') * A k' d') := by
    intro i
    rw [mul_sum]
    refine sum_congr rfl fun k' _ => ?_
    rw [mul_sum, sum_mul]
  simp only [e3]
  rw [sum_comm]
  refine sum_congr rfl fun k' _ => sum_comm

/-- `empirical_bures_wasserstein_mapping` (with `bias=True`): the mapped source sample has the mean of the target sample, and its covariance is that of the target sample, up to the
regularisation added to both covariances. -/
theorem C77_empirical_mapping (e : Eigh D) (he : e.Ok) (reg : ℝ) (ws : I → ℝ) (wt : J → ℝ) (hws : ∀ i, 0 ≤ ws i) (hwt : ∀ j, 0 ≤ wt j) (hs : 0 < ∑ i, ws i)
    (xs : I → D → ℝ) (xt : J → D → ℝ) (hreg : 0 < reg ∨ reg = 0 ∧ (wCov ws xs).PosDef) :
    let r := empMapping e true reg ws wt xs xt
    r.1.PosSemidef ∧ wMean ws (fun i => xs i ᵥ* r.1 + r.2) = wMean wt xt ∧
      wCov ws (fun i => xs i ᵥ* r.1 + r.2) + reg • (r.1 * r.1) = wCov wt xt + reg • (1 : Matrix D D ℝ) := by
  have hr0 : 0 ≤ reg := by rcases hreg with h | h; exacts [h.le, h.1.ge]
  have hCs : (empCov true reg ws xs).PosDef := by
    rcases hreg with h | ⟨h, h'⟩
    · exact empCov_pd true h ws hws xs
    · rw [wCov_eq_empCov, h, zero_smul, add_zero]; exact h'
  have hCt : (empCov true reg wt xt).PosSemidef := empCov_psd true hr0 wt hwt xt
  have hA := mapA_psd he hCs hCt
  have hp := mapA_push he hCs hCt
  refine ⟨hA, ?_, ?_⟩
  · rw [wMean_affine ws hs]
    simp [empMapping, mapping, empMean_eq]
  · rw [wCov_affine ws hs, show (empMapping e true reg ws wt xs xt).1 = mapA e (empCov true reg ws xs) (empCov true reg wt xt) from rfl, psd_t hA, ← wCov_eq_empCov, ← hp]
    conv_rhs => rw [show ∀ T : Matrix D D ℝ, T * empCov true reg ws xs * T = T * (wCov ws xs + reg • (1 : Matrix D D ℝ)) * T from fun T => by rw [wCov_eq_empCov]]
    rw [hp, Matrix.mul_add, Matrix.add_mul, Matrix.mul_smul, Matrix.smul_mul, Matrix.mul_one]

/-! ## C78: the distance -/

/-- `bures_distance` squared is the infimum of the mean squared distance of pairs with the two covariances, for all positive semidefinite matrices. -/
theorem C78_bures (e : Eigh D) (he : e.Ok) {Cs Ct : Matrix D D ℝ} (hs : Cs.PosSemidef) (ht : Ct.PosSemidef) : IsBures Cs Ct (buresDist e Cs Ct ^ 2) := by
  rw [buresDist_sq he hs ht]
  exact bw2_isBures he hs ht

/-- The infimum is attained as soon as the first matrix is non-singular. -/
theorem C78_bures_attained (e : Eigh D) (he : e.Ok) {Cs Ct : Matrix D D ℝ} (hs : Cs.PosDef) (ht : Ct.PosSemidef) :
    IsLeast {c | ∃ K, IsJointCov Cs Ct K ∧ c = covCost Cs Ct K} (buresDist e Cs Ct ^ 2) := by
  rw [buresDist_sq he hs.posSemidef ht]
  exact bw2_isLeast he hs ht

/-- `bures_distance` is a metric on positive semidefinite matrices. -/
theorem C78_bures_metric (e : Eigh D) (he : e.Ok) {A B C : Matrix D D ℝ} (hA : A.PosSemidef) (hB : B.PosSemidef) (hC : C.PosSemidef) :
    0 ≤ buresDist e A B ∧ buresDist e A B = buresDist e B A ∧ buresDist e A C ≤ buresDist e A B + buresDist e B C ∧ (buresDist e A B = 0 ↔ A = B) := by
  refine ⟨buresDist_nonneg e A B, ?_, buresDist_triangle he hA hB hC, ?_⟩
  · rw [buresDist_eq he hA hB, buresDist_eq he hB hA, bw2_symm he hA hB]
  · constructor
    · intro h
      refine eq_of_bw2_zero he hA hB ?_
      rw [← buresDist_sq he hA hB, h]; ring
    · rintro rfl
      rw [buresDist_eq he hA hB, bw2_self he hA, Real.sqrt_zero]

theorem sqNorm_eq (x : D → ℝ) : sqNorm x = ∑ d, x d ^ 2 := Real.sq_sqrt (sum_nonneg fun d _ => sq_nonneg _)

theorem sqNorm_nonneg (x : D → ℝ) : 0 ≤ sqNorm x := sq_nonneg _

theorem bwDist_sq (e : Eigh D) (ms mt : D → ℝ) (Cs Ct : Matrix D D ℝ) : bwDist e ms mt Cs Ct ^ 2 = sqNorm (ms - mt) + buresDist e Cs Ct ^ 2 := by
  have h : 0 ≤ sqNorm (ms - mt) + buresDist e Cs Ct ^ 2 := add_nonneg (sqNorm_nonneg _) (sq_nonneg _)
  unfold bwDist
  rw [max_eq_left h, Real.sq_sqrt h]

/-- `bures_wasserstein_distance` squared is the squared distance of the means plus the infimum over the covariances. -/
theorem C78_distance (e : Eigh D) (he : e.Ok) (ms mt : D → ℝ) {Cs Ct : Matrix D D ℝ} (hs : Cs.PosSemidef) (ht : Ct.PosSemidef) :
    IsGLB {c | ∃ K, IsJointCov Cs Ct K ∧ c = (∑ d, (ms d - mt d) ^ 2) + covCost Cs Ct K} (bwDist e ms mt Cs Ct ^ 2) := by
  rw [bwDist_sq, sqNorm_eq]
  obtain ⟨h1, h2⟩ := C78_bures e he hs ht
  constructor
  · rintro _ ⟨K, hK, rfl⟩
    have := h1 ⟨K, hK, rfl⟩
    simp only [Pi.sub_apply]
    linarith
  · intro b hb
    have := h2 (show b - ∑ d, (ms d - mt d) ^ 2 ∈ lowerBounds _ from ?_)
    · simp only [Pi.sub_apply]; linarith
    · rintro _ ⟨K, hK, rfl⟩
      have := hb ⟨K, hK, rfl⟩
      linarith

theorem sqrt_add_sq_triangle (a b c d : ℝ) (ha : 0 ≤ a) (hb : 0 ≤ b) (hc : 0 ≤ c) (hd : 0 ≤ d) :
    Real.sqrt ((a + b) ^ 2 + (c + d) ^ 2) ≤ Real.sqrt (a ^ 2 + c ^ 2) + Real.sqrt (b ^ 2 + d ^ 2) := by
  have h1 : a * b + c * d ≤ Real.sqrt (a ^ 2 + c ^ 2) * Real.sqrt (b ^ 2 + d ^ 2) := by
    rw [← Real.sqrt_mul (by positivity)]
    refine Real.le_sqrt_of_sq_le ?_
    nlinarith [sq_nonneg (a * d - b * c)]
  refine Real.sqrt_le_iff.2 ⟨by positivity, ?_⟩
  have h2 := Real.sq_sqrt (show 0 ≤ a ^ 2 + c ^ 2 by positivity)
  have h3 := Real.sq_sqrt (show 0 ≤ b ^ 2 + d ^ 2 by positivity)
  nlinarith

theorem norm_triangle (x y z : D → ℝ) : Real.sqrt (sqNorm (x - z)) ≤ Real.sqrt (sqNorm (x - y)) + Real.sqrt (sqNorm (y - z)) := by
  have hp : ∀ u : D → ℝ, Real.sqrt (sqNorm u) = (∑ d, |u d| ^ (2 : ℝ)) ^ (1 / (2 : ℝ)) := by
    intro u
    rw [sqNorm_eq, Real.sqrt_eq_rpow]
    simp only [Real.rpow_two, sq_abs]
  rw [hp, hp, hp]
  have := Real.Lp_add_le (s := (univ : Finset D)) (x - y) (y - z) (p := 2) (by norm_num)
  refine le_trans (le_of_eq ?_) this
  congr 1
  refine sum_congr rfl fun p _ => ?_
  simp only [Pi.sub_apply]
  congr 2
  ring

/-- `bures_wasserstein_distance` is a metric on Gaussians. -/
theorem C78_distance_metric (e : Eigh D) (he : e.Ok) (m₁ m₂ m₃ : D → ℝ) {A B C : Matrix D D ℝ} (hA : A.PosSemidef) (hB : B.PosSemidef) (hC : C.PosSemidef) :
    0 ≤ bwDist e m₁ m₂ A B ∧ bwDist e m₁ m₂ A B = bwDist e m₂ m₁ B A ∧ bwDist e m₁ m₃ A C ≤ bwDist e m₁ m₂ A B + bwDist e m₂ m₃ B C ∧
      (bwDist e m₁ m₂ A B = 0 ↔ m₁ = m₂ ∧ A = B) := by
  obtain ⟨n, s, t, z⟩ := C78_bures_metric e he hA hB hC
  have hd : ∀ (p q : D → ℝ) (P Q : Matrix D D ℝ), bwDist e p q P Q = Real.sqrt (Real.sqrt (sqNorm (p - q)) ^ 2 + buresDist e P Q ^ 2) := by
    intro p q P Q
    rw [Real.sq_sqrt (sqNorm_nonneg _), ← bwDist_sq, Real.sqrt_sq (show 0 ≤ bwDist e p q P Q from Real.sqrt_nonneg _)]
  refine ⟨Real.sqrt_nonneg _, ?_, ?_, ?_⟩
  · have : sqNorm (m₁ - m₂) = sqNorm (m₂ - m₁) := by
      rw [sqNorm_eq, sqNorm_eq]; exact sum_congr rfl fun d _ => by simp only [Pi.sub_apply]; ring
    rw [hd, hd, s, this]
  · rw [hd m₁ m₃, hd m₁ m₂, hd m₂ m₃]
    refine le_trans (Real.sqrt_le_sqrt (add_le_add ?_ ?_)) (sqrt_add_sq_triangle _ _ _ _ (Real.sqrt_nonneg _) (Real.sqrt_nonneg _) n (buresDist_nonneg e B C))
    · exact pow_le_pow_left₀ (Real.sqrt_nonneg _) (norm_triangle m₁ m₂ m₃) 2
    · exact pow_le_pow_left₀ (buresDist_nonneg e A C) t 2
  · constructor
    · intro h
      have h2 : sqNorm (m₁ - m₂) + buresDist e A B ^ 2 = 0 := by rw [← bwDist_sq, h]; ring
      have h3 := sqNorm_nonneg (m₁ - m₂)
      have h4 := sq_nonneg (buresDist e A B)
      refine ⟨?_, z.1 (pow_eq_zero_iff (two_ne_zero)|>.1 (by linarith))⟩
      have h5 : sqNorm (m₁ - m₂) = 0 := by linarith
      rw [sqNorm_eq, sum_eq_zero_iff_of_nonneg fun d _ => sq_nonneg _] at h5
      funext d
      exact sub_eq_zero.1 (pow_eq_zero_iff (two_ne_zero)|>.1 (h5 d (mem_univ d)))
    · rintro ⟨rfl, h⟩
      have h2 : bwDist e m₁ m₁ A B ^ 2 = 0 := by rw [bwDist_sq, z.2 h, sqNorm_eq]; simp
      exact pow_eq_zero_iff (two_ne_zero)|>.1 h2

theorem joint_of_coupling {a : I → ℝ} {b : J → ℝ} {P : I → J → ℝ} (hP : IsCoupling a b P) (u : I → D → ℝ) (v : J → D → ℝ) :
    IsJointCov (Matrix.of fun d d' => ∑ i, a i * u i d * u i d') (Matrix.of fun d d' => ∑ j, b j * v j d * v j d') (Matrix.of fun d d' => ∑ i, ∑ j, P i j * u i d * v j d') := by
  unfold IsJointCov
  have : fromBlocks (Matrix.of fun d d' => ∑ i, a i * u i d * u i d') (Matrix.of fun d d' => ∑ i, ∑ j, P i j * u i d * v j d')
      (Matrix.of fun d d' => ∑ i, ∑ j, P i j * u i d * v j d')ᵀ (Matrix.of fun d d' => ∑ j, b j * v j d * v j d') =
      ∑ i, ∑ j, P i j • vecMulVec (Sum.elim (u i) (v j)) (star (Sum.elim (u i) (v j))) := by
    ext p q
    simp only [Matrix.sum_apply, Matrix.smul_apply, vecMulVec_apply, smul_eq_mul, Pi.star_apply, star_trivial]
    rcases p with d | d <;> rcases q with d' | d' <;> simp only [fromBlocks_apply₁₁, fromBlocks_apply₁₂, fromBlocks_apply₂₁, fromBlocks_apply₂₂, of_apply, transpose_apply, Sum.elim_inl, Sum.elim_inr]
    · refine sum_congr rfl fun i _ => ?_
      rw [← sum_mul, hP.row i]; ring
    · exact sum_congr rfl fun i _ => sum_congr rfl fun j _ => by ring
    · exact sum_congr rfl fun i _ => sum_congr rfl fun j _ => by ring
    · rw [sum_comm]
      refine sum_congr rfl fun j _ => ?_
      rw [← sum_mul, hP.col j]; ring
  rw [this]
  exact posSemidef_sum univ fun i _ => posSemidef_sum univ fun j _ => (posSemidef_vecMulVec_self_star _).smul (hP.nonneg i j)

theorem joint_add_reg {A B K : Matrix D D ℝ} (h : IsJointCov A B K) {r : ℝ} (hr : 0 ≤ r) :
    IsJointCov (A + r • (1 : Matrix D D ℝ)) (B + r • (1 : Matrix D D ℝ)) (K + r • (1 : Matrix D D ℝ)) := by
  have g := joint_gram (Real.sqrt r • (1 : Matrix D D ℝ)) (Real.sqrt r • (1 : Matrix D D ℝ))
  have e1 : Real.sqrt r • (1 : Matrix D D ℝ) * (Real.sqrt r • (1 : Matrix D D ℝ))ᵀ = r • (1 : Matrix D D ℝ) := by
    rw [transpose_smul, transpose_one, Matrix.smul_mul, Matrix.mul_smul, Matrix.one_mul, smul_smul, Real.mul_self_sqrt hr]
  rw [e1] at g
  unfold IsJointCov at *
  have := h.add g
  rwa [fromBlocks_add, ← transpose_add] at this

/-- **Gelbrich bound.**  `empirical_bures_wasserstein_distance` never exceeds the 2-Wasserstein distance of the two samples: its square is at most the squared-Euclidean cost
of every coupling of the normalised weights, whatever the regularisation and with or without `bias`. -/
theorem C78_empirical_lower_bound (e : Eigh D) (he : e.Ok) (bias : Bool) (reg : ℝ) (hreg : 0 ≤ reg) (ws : I → ℝ) (wt : J → ℝ) (hws : ∀ i, 0 ≤ ws i) (hwt : ∀ j, 0 ≤ wt j)
    (hs : 0 < ∑ i, ws i) (ht : 0 < ∑ j, wt j) (xs : I → D → ℝ) (xt : J → D → ℝ) (P : I → J → ℝ)
    (hP : IsCoupling (fun i => ws i / ∑ k, ws k) (fun j => wt j / ∑ k, wt k) P) :
    empDist e bias reg ws wt xs xt ^ 2 ≤ cost (fun i j => sqEuclid (xs i) (xt j)) P := by
  obtain ⟨a, ha⟩ : ∃ a : I → ℝ, a = fun i => ws i / ∑ k, ws k := ⟨_, rfl⟩
  obtain ⟨b, hb⟩ : ∃ b : J → ℝ, b = fun j => wt j / ∑ k, wt k := ⟨_, rfl⟩
  rw [← ha, ← hb] at hP
  obtain ⟨cx, hcx⟩ : ∃ c, c = empMean bias ws xs := ⟨_, rfl⟩
  obtain ⟨cy, hcy⟩ : ∃ c, c = empMean bias wt xt := ⟨_, rfl⟩
  have hsa : ∑ i, a i = 1 := by rw [ha, ← sum_div, div_self hs.ne']
  have hsb : ∑ j, b j = 1 := by rw [hb, ← sum_div, div_self ht.ne']
  have hA : empCov bias reg ws xs = (Matrix.of fun d d' => ∑ i, a i * (xs i d - cx d) * (xs i d' - cx d')) + reg • (1 : Matrix D D ℝ) := by
    unfold empCov
    rw [ha, hcx]
    ext d d'
    simp only [Matrix.add_apply, of_apply, sum_div]
    congr 1
    exact sum_congr rfl fun i _ => by ring
  have hB : empCov bias reg wt xt = (Matrix.of fun d d' => ∑ j, b j * (xt j d - cy d) * (xt j d' - cy d')) + reg • (1 : Matrix D D ℝ) := by
    unfold empCov
    rw [hb, hcy]
    ext d d'
    simp only [Matrix.add_apply, of_apply, sum_div]
    congr 1
    exact sum_congr rfl fun i _ => by ring
  have hJ := joint_add_reg (joint_of_coupling hP (fun i d => xs i d - cx d) (fun j d => xt j d - cy d)) hreg
  rw [← hA, ← hB] at hJ
  have h1 := bw2_le he (empCov_psd bias hreg ws hws xs) (empCov_psd bias hreg wt hwt xt) hJ
  unfold empDist
  rw [bwDist_sq, buresDist_sq he (empCov_psd bias hreg ws hws xs) (empCov_psd bias hreg wt hwt xt), ← hcx, ← hcy, sqNorm_eq]
  refine (add_le_add_right h1 _).trans (le_of_eq ?_)
  rw [hA, hB]
  -- first moments
  have hmx : bias = true → ∀ d, ∑ i, a i * (xs i d - cx d) = 0 := by
    intro hbias d
    have : ∑ i, a i * xs i d = cx d := by
      rw [hcx, ha]; simp only [empMean, hbias, if_true, sum_div]
      exact sum_congr rfl fun i _ => by ring
    simp only [mul_sub, sum_sub_distrib, ← sum_mul]
    rw [this, hsa]; ring
  have hmy : bias = true → ∀ d, ∑ j, b j * (xt j d - cy d) = 0 := by
    intro hbias d
    have : ∑ j, b j * xt j d = cy d := by
      rw [hcy, hb]; simp only [empMean, hbias, if_true, sum_div]
      exact sum_congr rfl fun i _ => by ring
    simp only [mul_sub, sum_sub_distrib, ← sum_mul]
    rw [this, hsb]; ring
  have hz : ∀ d, (cx d - cy d) * ((∑ i, a i * (xs i d - cx d)) - ∑ j, b j * (xt j d - cy d)) = 0 := by
    intro d
    cases hbias : bias with
    | true => rw [hmx hbias d, hmy hbias d]; ring
    | false => rw [hcx, hcy]; simp [empMean, hbias]
  have hsum : ∑ i, ∑ j, P i j = 1 := by rw [← hsa]; exact sum_congr rfl fun i _ => hP.row i
  unfold covCost cost sqEuclid
  simp only [trace, diag_apply, Matrix.add_apply, of_apply, smul_eq_mul, sum_add_distrib]
  have hd : ∀ d, ∑ i, ∑ j, P i j * (xs i d - xt j d) ^ 2 =
      (cx d - cy d) ^ 2 + (∑ i, a i * (xs i d - cx d) * (xs i d - cx d)) + (∑ j, b j * (xt j d - cy d) * (xt j d - cy d)) -
        2 * (∑ i, ∑ j, P i j * (xs i d - cx d) * (xt j d - cy d)) := by
    intro d
    have e1 : ∀ f : I → ℝ, ∑ i, ∑ j, P i j * f i = ∑ i, a i * f i := fun f => sum_congr rfl fun i _ => by rw [← sum_mul, hP.row i]
    have e2 : ∀ g : J → ℝ, ∑ i, ∑ j, P i j * g j = ∑ j, b j * g j := fun g => by
      rw [sum_comm]; exact sum_congr rfl fun j _ => by rw [← sum_mul, hP.col j]
    have e3 : ∀ i j, P i j * (xs i d - xt j d) ^ 2 = P i j * (cx d - cy d) ^ 2 + P i j * ((xs i d - cx d) ^ 2) + P i j * ((xt j d - cy d) ^ 2) -
        2 * (P i j * (xs i d - cx d) * (xt j d - cy d)) + 2 * (cx d - cy d) * (P i j * (xs i d - cx d)) - 2 * (cx d - cy d) * (P i j * (xt j d - cy d)) := by
      intro i j; ring
    simp only [e3, sum_add_distrib, sum_sub_distrib, ← mul_sum]
    rw [e1 fun i => (xs i d - cx d) ^ 2, e2 fun j => (xt j d - cy d) ^ 2, e1 fun i => xs i d - cx d, e2 fun j => xt j d - cy d]
    simp only [← sum_mul]
    rw [hsum]
    have := hz d
    have s1 : ∑ i, a i * (xs i d - cx d) * (xs i d - cx d) = ∑ i, a i * (xs i d - cx d) ^ 2 := sum_congr rfl fun i _ => by ring
    have s2 : ∑ j, b j * (xt j d - cy d) * (xt j d - cy d) = ∑ j, b j * (xt j d - cy d) ^ 2 := sum_congr rfl fun i _ => by ring
    rw [s1, s2]
    linarith
  have hswap : ∑ i, ∑ j, P i j * ∑ d, (xs i d - xt j d) ^ 2 = ∑ d, ∑ i, ∑ j, P i j * (xs i d - xt j d) ^ 2 := by
    simp only [mul_sum]
    rw [sum_comm (s := (univ : Finset D))]
    exact sum_congr rfl fun i _ => sum_comm
  rw [hswap]
  simp only [hd, sum_add_distrib, sum_sub_distrib, ← mul_sum, Pi.sub_apply]
  ring

/-- With `paired=True`, a batch of `n` Gaussians against a batch of one gives an array whose entries are not the crossed distances the documentation promises. -/
theorem C78_paired_refuted : ∃ (ms : Fin 2 → Fin 1 → ℝ) (mt : Fin 1 → ℝ) (Cs : Fin 2 → Matrix (Fin 1) (Fin 1) ℝ) (Ct : Matrix (Fin 1) (Fin 1) ℝ), (∀ i, (Cs i).PosDef) ∧ Ct.PosDef ∧
    ∀ e : Eigh (Fin 1), e.Ok → bwPairedOne e ms mt Cs Ct 1 0 = 0 ∧ bwDist e (ms 1) mt (Cs 1) Ct = 3 := by
  refine ⟨fun i _ => if i = 0 then 0 else 3, 0, fun _ => 1, 1, fun _ => PosDef.one, PosDef.one, fun e he => ?_⟩
  have h : buresDist e (1 : Matrix (Fin 1) (Fin 1) ℝ) 1 = 0 := by
    rw [buresDist_eq he PosSemidef.one PosSemidef.one, bw2_self he PosSemidef.one, Real.sqrt_zero]
  constructor
  · simp [bwPairedOne, h, sqNorm]
  · simp only [bwDist, h, sqNorm]
    norm_num
    rw [show (9 : ℝ) = 3 ^ 2 by norm_num, Real.sqrt_sq (by norm_num)]

/-! ## Concrete cases -/

/-- `eigh` exists. -/
example : ∃ e : Eigh (Fin 2), e.Ok := exists_eigh

/-- A mapping in closed form: `diag(4, 9)` to `diag(1, 81)`. -/
example (e : Eigh (Fin 2)) (he : e.Ok) : (mapping e 0 0 (diagonal ![4, 9]) (diagonal ![1, 81])).1 = diagonal ![1 / 2, 3] := by
  refine mapA_unique he (posDef_diagonal_iff.2 fun i => by fin_cases i <;> simp) (PosSemidef.diagonal fun i => by fin_cases i <;> simp)
    (PosSemidef.diagonal fun i => by fin_cases i <;> simp) ?_
  rw [diagonal_mul_diagonal, diagonal_mul_diagonal]
  congr 1
  funext i
  fin_cases i <;> norm_num

/-- A distance in closed form: `diag(4, 9)` and `diag(1, 81)` are at squared distance `1 + 36`. -/
example (e : Eigh (Fin 2)) (he : e.Ok) : buresDist e (diagonal ![4, 9]) (diagonal ![1, 81]) ^ 2 = 37 := by
  have hs : (diagonal ![(4 : ℝ), 9]).PosSemidef := PosSemidef.diagonal fun i => by fin_cases i <;> simp
  have ht : (diagonal ![(1 : ℝ), 81]).PosSemidef := PosSemidef.diagonal fun i => by fin_cases i <;> simp
  have r1 : sqrtm e (diagonal ![(4 : ℝ), 9]) = diagonal ![2, 3] := sqrtm_eq he ⟨PosSemidef.diagonal fun i => by fin_cases i <;> simp, by
    rw [diagonal_mul_diagonal]; congr 1; funext i; fin_cases i <;> norm_num⟩
  have r2 : sqrtm e (diagonal ![(4 : ℝ), 81 * 9]) = diagonal ![2, 27] := sqrtm_eq he ⟨PosSemidef.diagonal fun i => by fin_cases i <;> simp, by
    rw [diagonal_mul_diagonal]; congr 1; funext i; fin_cases i <;> norm_num⟩
  rw [buresDist_sq he hs ht]
  unfold bw2
  rw [r1, diagonal_mul_diagonal, diagonal_mul_diagonal]
  have : (fun i : Fin 2 => ![(2 : ℝ), 3] i * ![1, 81] i * ![2, 3] i) = ![4, 81 * 9] := by
    funext i; fin_cases i <;> norm_num
  rw [this, r2]
  simp only [trace_diagonal, Fin.sum_univ_two, Matrix.cons_val_zero, Matrix.cons_val_one]
  norm_num

/-- The Gelbrich bound applies to the product coupling of two samples. -/
example (e : Eigh (Fin 1)) (he : e.Ok) : empDist e true (1 / 10) (fun _ : Fin 2 => 1) (fun _ : Fin 2 => 1) (fun i _ => (i : ℝ)) (fun j _ => 3 * (j : ℝ)) ^ 2 ≤
    cost (fun i j : Fin 2 => sqEuclid (fun _ : Fin 1 => (i : ℝ)) fun _ => 3 * (j : ℝ)) fun _ _ => 1 / 4 := by
  refine C78_empirical_lower_bound e he true _ (by norm_num) _ _ (fun _ => by norm_num) (fun _ => by norm_num) (by simp) (by simp) _ _ _ ⟨fun _ _ => by norm_num, fun i => ?_, fun j => ?_⟩
  all_goals simp only [Fin.sum_univ_two]; norm_num

end POT.Props
