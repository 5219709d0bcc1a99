import Verif.Lemmas.GaussBary
import Verif.Props.Gaussian

/-!
# C79: barycenters of Gaussians
-/

set_option linter.unusedSectionVars false

namespace POT.Props

open Finset Matrix POT.Spec POT.Bures POT.Gaussian

variable {D : Type*} [Fintype D] [DecidableEq D] {S : Type*} [Fintype S]

/-- What the barycenter solvers are given: non-negative weights of sum one and non-singular covariances. -/
structure GaussInput (w : S → ℝ) (C : S → Matrix D D ℝ) : Prop where
  nonneg : ∀ s, 0 ≤ w s
  sum : ∑ s, w s = 1
  pd : ∀ s, (C s).PosDef

theorem objF_eq (e : Eigh D) (he : e.Ok) {w : S → ℝ} {C : S → Matrix D D ℝ} (hC : ∀ s, (C s).PosDef) {B : Matrix D D ℝ} (hB : B.PosSemidef) :
    objF e w C B = ∑ s, w s * buresDist e B (C s) ^ 2 := sum_congr rfl fun s _ => by rw [buresDist_sq he hB (hC s).posSemidef]

theorem isBuresBarycenter_of (e : Eigh D) (he : e.Ok) {w : S → ℝ} {C : S → Matrix D D ℝ} (hC : ∀ s, (C s).PosDef) {Cb : Matrix D D ℝ} (hb : Cb.PosSemidef)
    (h : ∀ B : Matrix D D ℝ, B.PosSemidef → objF e w C Cb ≤ objF e w C B) : IsBuresBarycenter w C Cb := by
  intro B' hB' v v' hv hv'
  have e1 : ∀ s, v s = bw2 e Cb (C s) := fun s => (hv s).unique (bw2_isBures he hb (hC s).posSemidef)
  have e2 : ∀ s, v' s = bw2 e B' (C s) := fun s => (hv' s).unique (bw2_isBures he hB' (hC s).posSemidef)
  simp only [e1, e2]
  exact h B' hB'

/-- A fixed point of the update of `bures_barycenter_fixpoint` is the barycenter, and the only one. -/
theorem C79_fixed_point_optimal (e : Eigh D) (he : e.Ok) {w : S → ℝ} {C : S → Matrix D D ℝ} (h : GaussInput w C) {Cb : Matrix D D ℝ} (hb : Cb.PosDef) (hf : fixStep e w C Cb = Cb) :
    IsBuresBarycenter w C Cb ∧ ∀ B : Matrix D D ℝ, B.PosSemidef → IsBuresBarycenter w C B → B = Cb := by
  have hg : gradBw e w C Cb = 0 := by rw [residual he w C hb, hf, sub_self, Matrix.mul_zero, Matrix.zero_mul]
  refine ⟨isBuresBarycenter_of e he h.pd hb.posSemidef fun B hB => ?_, fun B hB hmin => ?_⟩
  · have := subgradient he h.nonneg h.sum h.pd hb hB
    rw [hg, Matrix.zero_mul, trace_zero, add_zero] at this
    exact this
  · refine unique_min he h.nonneg h.sum h.pd hb hB hg ?_
    exact hmin Cb hb.posSemidef _ _ (fun s => bw2_isBures he hB (h.pd s).posSemidef) fun s => bw2_isBures he hb.posSemidef (h.pd s).posSemidef

/-- `bures_barycenter_fixpoint`: whatever the iteration count, the returned matrix is positive definite.  When the stopping test was met (no "did not converge" message), its objective is
within `eps` times an explicit distance of that of every positive semidefinite matrix. -/
theorem C79_fixpoint (e : Eigh D) (he : e.Ok) {w : S → ℝ} {C : S → Matrix D D ℝ} (h : GaussInput w C) (eps : ℝ) (n : ℕ) :
    let r := baryFix e w C eps n
    r.1.PosDef ∧ (r.2 ≤ eps → ∀ B R : Matrix D D ℝ, B.PosSemidef → IsPsdSqrt R r.1 →
      ∑ s, w s * buresDist e r.1 (C s) ^ 2 ≤ (∑ s, w s * buresDist e B (C s) ^ 2) + eps * frob (R⁻¹ * B * R⁻¹ - 1)) := by
  have hp : (baryFix e w C eps n).1.PosDef := fixLoop_spec he h.nonneg h.sum h.pd eps _ _ _ (baryInit_pd h.nonneg h.sum h.pd)
  refine ⟨hp, fun hconv B R hB hR => ?_⟩
  have h1 := fixLoop_conv (e := e) (w := w) (C := C) eps (n + 1) (baryInit w C) 0 (Or.inr (by omega)) hconv
  have h2 := approx_fix he h.nonneg h.sum h.pd hp hB
  rw [objF_eq e he h.pd hp.posSemidef, objF_eq e he h.pd hB, sqrtm_eq he hR, show frob ((baryFix e w C eps n).1 - fixStep e w C (baryFix e w C eps n).1) = (baryFix e w C eps n).2 from h1.symm] at h2
  refine h2.trans (add_le_add_right ?_ _)
  exact mul_le_mul_of_nonneg_right hconv (Real.sqrt_nonneg _)

/-- One update of `bures_barycenter_gradient_descent` with a step in `[0, 1]` keeps the matrix positive definite and decreases the objective by `t (2 - t)` times the squared norm of the gradient. -/
theorem C79_gd_step (e : Eigh D) (he : e.Ok) {w : S → ℝ} {C : S → Matrix D D ℝ} (h : GaussInput w C) {t : ℝ} (ht0 : 0 ≤ t) (ht1 : t ≤ 1) {Cb : Matrix D D ℝ} (hb : Cb.PosDef) :
    (gdStep e w C t Cb).PosDef ∧ ∑ s, w s * buresDist e (gdStep e w C t Cb) (C s) ^ 2 ≤
      (∑ s, w s * buresDist e Cb (C s) ^ 2) - t * (2 - t) * trace (gradBw e w C Cb * Cb * gradBw e w C Cb) := by
  have hp := gdStep_pd he h.nonneg h.sum h.pd hb ht0 ht1
  refine ⟨hp, ?_⟩
  rw [← objF_eq e he h.pd hp.posSemidef, ← objF_eq e he h.pd hb.posSemidef]
  have := gd_descent he h.nonneg h.sum h.pd hb ht0 ht1
  linarith

/-- `bures_barycenter_gradient_descent`: whatever the iteration count and the threshold, the result is positive definite and not worse than the initial matrix. -/
theorem C79_gradient_descent (e : Eigh D) (he : e.Ok) {w : S → ℝ} {C : S → Matrix D D ℝ} (h : GaussInput w C) {t : ℝ} (ht0 : 0 ≤ t) (ht1 : t ≤ 1) (eps : ℝ) (n : ℕ) :
    (baryGd e w C eps t n).PosDef ∧ ∑ s, w s * buresDist e (baryGd e w C eps t n) (C s) ^ 2 ≤ ∑ s, w s * buresDist e (baryInit w C) (C s) ^ 2 := by
  have hi := baryInit_pd h.nonneg h.sum h.pd
  obtain ⟨h1, h2⟩ := gdLoop_spec he h.nonneg h.sum h.pd ht0 ht1 eps n (baryInit w C) [] hi
  refine ⟨h1, ?_⟩
  rw [← objF_eq e he h.pd hi.posSemidef, ← objF_eq e he h.pd (show (baryGd e w C eps t n).PosSemidef from h1.posSemidef)]
  exact h2

/-- Rate: among the first `N` iterates of the gradient descent one has squared gradient norm at most the initial objective over `N t (2 - t)`. -/
theorem C79_gd_rate (e : Eigh D) (he : e.Ok) {w : S → ℝ} {C : S → Matrix D D ℝ} (h : GaussInput w C) {t : ℝ} (ht0 : 0 < t) (ht1 : t ≤ 1) (N : ℕ) (hN : 0 < N) :
    ∃ k < N, N * (t * (2 - t) * trace (gradBw e w C ((gdStep e w C t)^[k] (baryInit w C)) * (gdStep e w C t)^[k] (baryInit w C) * gradBw e w C ((gdStep e w C t)^[k] (baryInit w C)))) ≤
      ∑ s, w s * buresDist e (baryInit w C) (C s) ^ 2 := by
  have hi := baryInit_pd h.nonneg h.sum h.pd
  have hp : ∀ k, ((gdStep e w C t)^[k] (baryInit w C)).PosDef := by
    intro k
    induction k with
    | zero => exact hi
    | succ k ih => rw [Function.iterate_succ_apply']; exact gdStep_pd he h.nonneg h.sum h.pd ih ht0.le ht1
  have hsum : ∀ M : ℕ, objF e w C ((gdStep e w C t)^[M] (baryInit w C)) + ∑ k ∈ range M, t * (2 - t) *
      trace (gradBw e w C ((gdStep e w C t)^[k] (baryInit w C)) * (gdStep e w C t)^[k] (baryInit w C) * gradBw e w C ((gdStep e w C t)^[k] (baryInit w C))) ≤ objF e w C (baryInit w C) := by
    intro M
    induction M with
    | zero => simp
    | succ M ih =>
      rw [sum_range_succ, Function.iterate_succ_apply']
      have := gd_descent he h.nonneg h.sum h.pd (hp M) ht0.le ht1
      linarith
  have hnn : 0 ≤ objF e w C ((gdStep e w C t)^[N] (baryInit w C)) := sum_nonneg fun s _ => mul_nonneg (h.nonneg s) (bw2_nonneg he (hp N).posSemidef (h.pd s).posSemidef)
  have h1 := hsum N
  rw [← objF_eq e he h.pd hi.posSemidef]
  by_contra hc
  push Not at hc
  have h2 : ∀ k ∈ range N, objF e w C (baryInit w C) / N < t * (2 - t) *
      trace (gradBw e w C ((gdStep e w C t)^[k] (baryInit w C)) * (gdStep e w C t)^[k] (baryInit w C) * gradBw e w C ((gdStep e w C t)^[k] (baryInit w C))) := by
    intro k hk
    rw [div_lt_iff₀ (by exact_mod_cast hN), mul_comm]
    exact hc k (mem_range.1 hk)
  have h3 := sum_lt_sum_of_nonempty (nonempty_range_iff.2 hN.ne') h2
  rw [sum_const, card_range, nsmul_eq_mul, mul_div_cancel₀ _ (by exact_mod_cast hN.ne')] at h3
  linarith

/-- Convexity certificate: at any positive definite matrix the objective lies above the linearisation given by the gradient the code computes; a vanishing gradient means the barycenter. -/
theorem C79_gradient (e : Eigh D) (he : e.Ok) {w : S → ℝ} {C : S → Matrix D D ℝ} (h : GaussInput w C) {Cb : Matrix D D ℝ} (hb : Cb.PosDef) :
    (∀ B : Matrix D D ℝ, B.PosSemidef → (∑ s, w s * buresDist e Cb (C s) ^ 2) + trace (gradBw e w C Cb * (B - Cb)) ≤ ∑ s, w s * buresDist e B (C s) ^ 2) ∧
      (gradBw e w C Cb = 0 → IsBuresBarycenter w C Cb) := by
  refine ⟨fun B hB => ?_, fun hg => isBuresBarycenter_of e he h.pd hb.posSemidef fun B hB => ?_⟩
  · rw [← objF_eq e he h.pd hb.posSemidef, ← objF_eq e he h.pd hB]
    exact subgradient he h.nonneg h.sum h.pd hb hB
  · have := subgradient he h.nonneg h.sum h.pd hb hB
    rw [hg, Matrix.zero_mul, trace_zero, add_zero] at this
    exact this

/-- The stochastic and averaged variants return a positive definite matrix, whatever indices are drawn. -/
theorem C79_stochastic_pd (e : Eigh D) (he : e.Ok) {w : S → ℝ} {C : S → Matrix D D ℝ} (h : GaussInput w C) {b : ℕ} (hb : 0 < b) (inds : ℕ → Fin b → S) (eps : ℝ) (averaged : Bool) (n : ℕ) :
    (barySgd e w C inds eps averaged n).PosDef := by
  have hi := baryInit_pd h.nonneg h.sum h.pd
  obtain ⟨h1, h2⟩ := sgdLoop_pd he hb h.pd inds eps n 0 _ _ [] hi hi
  unfold barySgd
  cases averaged
  · exact h1
  · exact h2

/-- The barycentric mean and a barycentric covariance together minimise the weighted sum of squared distances of `bures_wasserstein_distance`. -/
theorem C79_barycenter (e : Eigh D) (he : e.Ok) {w : S → ℝ} {C : S → Matrix D D ℝ} (h : GaussInput w C) (m : S → D → ℝ) {Cb : Matrix D D ℝ} (hb : Cb.PosDef) (hf : fixStep e w C Cb = Cb)
    (x : D → ℝ) {B : Matrix D D ℝ} (hB : B.PosSemidef) :
    ∑ s, w s * bwDist e (baryMean w m) (m s) Cb (C s) ^ 2 ≤ ∑ s, w s * bwDist e x (m s) B (C s) ^ 2 := by
  have hg : gradBw e w C Cb = 0 := by rw [residual he w C hb, hf, sub_self, Matrix.mul_zero, Matrix.zero_mul]
  have h1 := subgradient he h.nonneg h.sum h.pd hb hB
  rw [hg, Matrix.zero_mul, trace_zero, add_zero, objF_eq e he h.pd hb.posSemidef, objF_eq e he h.pd hB] at h1
  have h2 : ∑ s, w s * sqNorm (baryMean w m - m s) ≤ ∑ s, w s * sqNorm (x - m s) := by
    have key : ∀ y : D → ℝ, ∑ s, w s * sqNorm (y - m s) = (∑ d, (y d - baryMean w m d) ^ 2) + ∑ s, w s * sqNorm (baryMean w m - m s) := by
      intro y
      have e1 : ∀ z : D → ℝ, ∑ s, w s * sqNorm (z - m s) = ∑ d, ∑ s, w s * (z d - m s d) ^ 2 := by
        intro z
        simp only [sqNorm_eq, mul_sum, Pi.sub_apply]
        exact sum_comm
      rw [e1, e1, ← sum_add_distrib]
      refine sum_congr rfl fun d _ => ?_
      have e2 : ∀ s, w s * (y d - m s d) ^ 2 = w s * (y d ^ 2 - baryMean w m d ^ 2) - 2 * (y d - baryMean w m d) * (m s d * w s) + w s * (baryMean w m d - m s d) ^ 2 := fun s => by ring
      simp only [e2, sum_add_distrib, sum_sub_distrib, ← sum_mul, ← mul_sum, h.sum]
      have e3 : ∑ s, m s d * w s = baryMean w m d := rfl
      rw [e3]
      ring
    rw [key x]
    have : 0 ≤ ∑ d, (x d - baryMean w m d) ^ 2 := sum_nonneg fun d _ => sq_nonneg _
    linarith
  simp only [bwDist_sq, mul_add, sum_add_distrib]
  exact add_le_add h2 h1

/-! ## Concrete cases -/

/-- The barycenter of `diag(4, 1)` and `diag(16, 9)` with equal weights is `diag(9, 4)`, a fixed point of the update. -/
example (e : Eigh (Fin 2)) (he : e.Ok) :
    GaussInput (fun _ : Fin 2 => (1 / 2 : ℝ)) ![diagonal ![4, 1], diagonal ![16, 9]] ∧ (diagonal ![(9 : ℝ), 4]).PosDef ∧
      fixStep e (fun _ : Fin 2 => (1 / 2 : ℝ)) ![diagonal ![4, 1], diagonal ![16, 9]] (diagonal ![9, 4]) = diagonal ![9, 4] := by
  have root : ∀ a b c d : ℝ, 0 ≤ a → 0 ≤ b → a * a = c → b * b = d → sqrtm e (diagonal ![c, d]) = diagonal ![a, b] := by
    intro a b c d ha hb hc hd
    refine sqrtm_eq he ⟨PosSemidef.diagonal fun i => by fin_cases i <;> simpa, ?_⟩
    rw [diagonal_mul_diagonal]; congr 1; funext i; fin_cases i <;> simpa
  refine ⟨⟨fun _ => by norm_num, by simp, fun s => ?_⟩, posDef_diagonal_iff.2 fun i => by fin_cases i <;> simp, ?_⟩
  · fin_cases s
    · exact posDef_diagonal_iff.2 fun i => by fin_cases i <;> simp
    · exact posDef_diagonal_iff.2 fun i => by fin_cases i <;> simp
  · unfold fixStep
    simp only [Fin.sum_univ_two, Matrix.cons_val_zero, Matrix.cons_val_one]
    rw [root 3 2 9 4 (by norm_num) (by norm_num) (by norm_num) (by norm_num), diagonal_mul_diagonal, diagonal_mul_diagonal, diagonal_mul_diagonal, diagonal_mul_diagonal]
    have h1 : (fun i : Fin 2 => ![(3 : ℝ), 2] i * ![4, 1] i * ![3, 2] i) = ![36, 4] := by funext i; fin_cases i <;> norm_num
    have h2 : (fun i : Fin 2 => ![(3 : ℝ), 2] i * ![16, 9] i * ![3, 2] i) = ![144, 36] := by funext i; fin_cases i <;> norm_num
    rw [h1, h2, root 6 2 36 4 (by norm_num) (by norm_num) (by norm_num) (by norm_num), root 12 6 144 36 (by norm_num) (by norm_num) (by norm_num) (by norm_num)]
    ext i j
    fin_cases i <;> fin_cases j <;> norm_num

/-- The stopping test can be met: one covariance equal to the identity. -/
example (e : Eigh (Fin 2)) (he : e.Ok) : (baryFix e (fun _ : Fin 1 => (1 : ℝ)) (fun _ => 1) 0 5).2 ≤ 0 := by
  have r : sqrtm e (1 : Matrix (Fin 2) (Fin 2) ℝ) = 1 := sqrtm_eq he ⟨PosSemidef.one, by simp⟩
  have hi : baryInit (fun _ : Fin 1 => (1 : ℝ)) (fun _ => (1 : Matrix (Fin 2) (Fin 2) ℝ)) = 1 := by simp [baryInit]
  have hs : fixStep e (fun _ : Fin 1 => (1 : ℝ)) (fun _ => (1 : Matrix (Fin 2) (Fin 2) ℝ)) 1 = 1 := by simp [fixStep, r]
  have hf : frob (0 : Matrix (Fin 2) (Fin 2) ℝ) = 0 := by simp [frob]
  unfold baryFix fixLoop
  simp [hi, hs, hf]

end POT.Props
