import Verif.Model.Prw
import Verif.Lemmas.Stiefel
import Verif.Lemmas.SinkhornOpt
import Mathlib.Tactic.FieldSimp
import Mathlib.Tactic.NoncommRing

/-! # Lemmas for projection robust transport -/

set_option linter.unusedSectionVars false

namespace POT.Prw

open Finset Matrix POT.Sinkhorn Spec POT.Stiefel

variable {I J D K : Type*} [Fintype I] [Fintype J] [Fintype D] [Fintype K] [DecidableEq I] [DecidableEq J] [DecidableEq D] [DecidableEq K]

theorem gram_apply {L : Type*} (X : Matrix I D ℝ) (Y : Matrix L D ℝ) (U : Matrix D K ℝ) (i : I) (j : L) :
    (X * ((U * Uᵀ) * Yᵀ)) i j = ∑ c, (∑ d, U d c * X i d) * ∑ d, U d c * Y j d := by
  have : X * ((U * Uᵀ) * Yᵀ) = (X * U) * (Y * U)ᵀ := by rw [transpose_mul]; simp only [Matrix.mul_assoc]
  rw [this, mul_apply]
  refine sum_congr rfl fun c _ => ?_
  rw [transpose_apply, mul_apply, mul_apply]
  simp only [mul_comm]

theorem projCost_eq (X : Matrix I D ℝ) (Y : Matrix J D ℝ) (U : Matrix D K ℝ) (i : I) (j : J) : projCost X Y U i j = projSq U (X i) (Y j) := by
  unfold projCost projSq
  rw [gram_apply, gram_apply, gram_apply, mul_sum, ← sum_add_distrib, ← sum_sub_distrib]
  refine sum_congr rfl fun c _ => ?_
  simp only [mul_sub, sum_sub_distrib]
  ring

theorem diag_form {L : Type*} [Fintype L] [DecidableEq L] (X : Matrix L D ℝ) (w : L → ℝ) (d e : D) : (Xᵀ * diagonal w * X) d e = ∑ i, w i * (X i d * X i e) := by
  rw [mul_apply]
  refine sum_congr rfl fun i _ => ?_
  rw [mul_diagonal, transpose_apply]; ring

theorem cross_form (X : Matrix I D ℝ) (Y : Matrix J D ℝ) (P : Matrix I J ℝ) (d e : D) : (Xᵀ * P * Y) d e = ∑ i, ∑ j, P i j * (X i d * Y j e) := by
  rw [mul_apply, sum_comm]
  refine sum_congr rfl fun j _ => ?_
  rw [mul_apply, sum_mul]
  refine sum_congr rfl fun i _ => ?_
  rw [transpose_apply]; ring

/-- `Vpi` is the second order matrix of the displacements as soon as the rows of the plan sum to `a`. -/
theorem vpi_eq {X : Matrix I D ℝ} {Y : Matrix J D ℝ} {a : I → ℝ} {P : Matrix I J ℝ} (hr : ∀ i, ∑ j, P i j = a i) : vpi X Y a P = dispMatrix P X Y := by
  ext d e
  simp only [vpi, Matrix.sub_apply, Matrix.add_apply, transpose_apply, dispMatrix, of_apply]
  rw [diag_form, diag_form, cross_form, cross_form]
  have h1 : ∑ i, a i * (X i d * X i e) = ∑ i, ∑ j, P i j * (X i d * X i e) := sum_congr rfl fun i _ => by rw [← hr i, sum_mul]
  have h2 : ∑ j, (∑ i, P i j) * (Y j d * Y j e) = ∑ i, ∑ j, P i j * (Y j d * Y j e) := by
    rw [sum_comm]
    exact sum_congr rfl fun j _ => by rw [sum_mul]
  rw [h1, h2, ← sum_add_distrib, ← sum_sub_distrib, ← sum_sub_distrib]
  refine sum_congr rfl fun i _ => ?_
  rw [← sum_add_distrib, ← sum_sub_distrib, ← sum_sub_distrib]
  exact sum_congr rfl fun j _ => by ring

theorem disp_symm (P : I → J → ℝ) (X : I → D → ℝ) (Y : J → D → ℝ) : (dispMatrix P X Y)ᵀ = dispMatrix P X Y := by
  ext d e
  simp only [dispMatrix, transpose_apply, of_apply]
  exact sum_congr rfl fun i _ => sum_congr rfl fun j _ => by ring

/-- transported cost of the projected points -/
theorem disp_trace (P : I → J → ℝ) (X : I → D → ℝ) (Y : J → D → ℝ) (U : Matrix D K ℝ) : (Uᵀ * dispMatrix P X Y * U).trace = cost (fun i j => projSq U (X i) (Y j)) P := by
  unfold cost projSq
  rw [trace]
  have e : ∀ c, (Uᵀ * dispMatrix P X Y * U).diag c = ∑ i, ∑ j, P i j * (∑ d, U d c * (X i d - Y j d)) ^ 2 := by
    intro c
    rw [diag_apply, mul_apply]
    have : ∀ d, (Uᵀ * dispMatrix P X Y) c d * U d c = ∑ i, ∑ j, P i j * (U d c * (X i d - Y j d)) * ∑ e, U e c * (X i e - Y j e) := by
      intro d
      rw [mul_apply, sum_mul]
      simp only [dispMatrix, of_apply, transpose_apply, mul_sum, sum_mul]
      rw [sum_comm]
      refine sum_congr rfl fun i _ => ?_
      rw [sum_comm]
      exact sum_congr rfl fun j _ => sum_congr rfl fun e _ => by ring
    rw [sum_congr rfl fun d _ => this d, sum_comm]
    refine sum_congr rfl fun i _ => ?_
    rw [sum_comm]
    refine sum_congr rfl fun j _ => ?_
    rw [← sum_mul, ← mul_sum, sq]; ring
  rw [sum_congr rfl fun c _ => e c, sum_comm]
  refine sum_congr rfl fun i _ => ?_
  rw [sum_comm]
  exact sum_congr rfl fun j _ => by rw [mul_sum]

theorem disp_psd {P : I → J → ℝ} (hP : ∀ i j, 0 ≤ P i j) (X : I → D → ℝ) (Y : J → D → ℝ) : (dispMatrix P X Y).PosSemidef := by
  refine PosSemidef.of_dotProduct_mulVec_nonneg ?_ fun x => ?_
  · rw [IsHermitian, conjTranspose_eq_transpose_of_trivial]; exact disp_symm P X Y
  have h := disp_trace P X Y (of fun d (_ : Fin 1) => x d)
  have h2 : ((of fun d (_ : Fin 1) => x d)ᵀ * dispMatrix P X Y * of fun d (_ : Fin 1) => x d).trace = star x ⬝ᵥ (dispMatrix P X Y *ᵥ x) := by
    rw [trace]
    simp only [univ_unique, Fin.default_eq_zero, sum_singleton, diag_apply]
    rw [Matrix.mul_assoc]
    rfl
  rw [← h2, h]
  exact sum_nonneg fun i _ => sum_nonneg fun j _ => mul_nonneg (hP i j) (sum_nonneg fun _ _ => sq_nonneg _)

/-- the component of `C W` orthogonal to the span of `W` -/
def comp (C : Matrix D D ℝ) (W : Matrix D K ℝ) : Matrix D K ℝ := C * W - W * (Wᵀ * C * W)

theorem xi_eq {reg : ℝ} {C : Matrix D D ℝ} (hC : Cᵀ = C) (W : Matrix D K ℝ) : xi reg C W = (2 / reg) • comp C W := by
  have h1 : (grad reg C W)ᵀ * W = (2 / reg) • (Wᵀ * C * W) := by
    unfold grad
    rw [transpose_smul, transpose_mul, hC, smul_mul]
  have h2 : ((grad reg C W)ᵀ * W)ᵀ = (2 / reg) • (Wᵀ * C * W) := by
    rw [h1, transpose_smul, transpose_mul, transpose_mul, transpose_transpose, hC, Matrix.mul_assoc]
  unfold xi
  rw [h2, h1]
  unfold grad comp
  rw [← two_smul ℝ ((2 / reg) • (Wᵀ * C * W)), Matrix.mul_smul, Matrix.mul_smul, smul_smul, smul_smul, smul_sub]
  norm_num

theorem comp_orth {C : Matrix D D ℝ} {W : Matrix D K ℝ} (hW : Wᵀ * W = 1) : Wᵀ * comp C W = 0 := by
  unfold comp
  rw [Matrix.mul_sub, ← Matrix.mul_assoc, ← Matrix.mul_assoc Wᵀ W, hW, Matrix.one_mul, sub_self]

/-- **Ascent after retraction.**  A step of size `s` along the Riemannian gradient followed by a QR retraction does not lower the trace when `s` times the trace is at most two. -/
theorem retract_ascent {C : Matrix D D ℝ} (hC : C.PosSemidef) {W U : Matrix D K ℝ} {T : Matrix K K ℝ} (hW : Wᵀ * W = 1) (hU : Uᵀ * U = 1) {s : ℝ} (hs : 0 ≤ s) (hle : s * (Wᵀ * C * W).trace ≤ 2)
    (hT : W + s • comp C W = U * T) : (Wᵀ * C * W).trace ≤ (Uᵀ * C * U).trace := by
  have hCt := Bures.psd_t hC
  obtain ⟨ξ, hξ⟩ : ∃ ξ, ξ = comp C W := ⟨_, rfl⟩
  obtain ⟨A, hA⟩ : ∃ A, A = Wᵀ * C * W := ⟨_, rfl⟩
  obtain ⟨E, hE⟩ : ∃ E, E = ξᵀ * ξ := ⟨_, rfl⟩
  rw [← hξ] at hT
  rw [← hA] at hle ⊢
  have hAp : A.PosSemidef := by
    have := Bures.psd_conj hC Wᵀ
    rw [transpose_transpose] at this
    rw [hA]; exact this
  have hEp : E.PosSemidef := by
    have := Bures.psd_conj (PosSemidef.one (n := D) (R := ℝ)) ξᵀ
    rw [transpose_transpose, Matrix.mul_one] at this
    rw [hE]; exact this
  have hEt := Bures.psd_t hEp
  have o1 : Wᵀ * ξ = 0 := by rw [hξ]; exact comp_orth hW
  have o2 : ξᵀ * W = 0 := by
    have := congrArg transpose o1
    rwa [transpose_mul, transpose_transpose, transpose_zero] at this
  have hCW : C * W = W * A + ξ := by rw [hξ, hA]; unfold comp; abel
  have c1 : ξᵀ * C * W = E := by
    rw [Matrix.mul_assoc, hCW, Matrix.mul_add, ← Matrix.mul_assoc, o2, Matrix.zero_mul, zero_add, hE]
  have c2 : Wᵀ * C * ξ = E := by
    have := congrArg transpose c1
    rwa [transpose_mul, transpose_mul, transpose_transpose, hCt, hEt, ← Matrix.mul_assoc] at this
  -- the two Gram matrices
  have g1 : Tᵀ * T = 1 + s ^ 2 • E := by
    have h : (U * T)ᵀ * (U * T) = Tᵀ * T := by
      rw [transpose_mul, Matrix.mul_assoc, ← Matrix.mul_assoc Uᵀ, hU, Matrix.one_mul]
    rw [← h, ← hT, transpose_add, transpose_smul, Matrix.add_mul, Matrix.mul_add, Matrix.mul_add, hW, smul_mul, smul_mul, Matrix.mul_smul, Matrix.mul_smul, o1, o2, ← hE, smul_zero, add_zero, zero_add, smul_smul, sq]
  have g2 : Tᵀ * (Uᵀ * C * U) * T = A + (2 * s) • E + s ^ 2 • (ξᵀ * C * ξ) := by
    have h : (U * T)ᵀ * C * (U * T) = Tᵀ * (Uᵀ * C * U) * T := by
      rw [transpose_mul]; simp only [Matrix.mul_assoc]
    rw [← h, ← hT, transpose_add, transpose_smul, Matrix.add_mul, Matrix.add_mul, Matrix.mul_add, Matrix.mul_add, smul_mul, smul_mul, smul_mul, Matrix.mul_smul, Matrix.mul_smul, c1, c2, ← hA, smul_smul, sq, two_mul, add_smul]
    abel
  have hdet : IsUnit (Tᵀ * T).det := by
    rw [g1, ← isUnit_iff_isUnit_det]
    exact (PosDef.one.add_posSemidef (hEp.smul (sq_nonneg s))).isUnit
  have hTu : IsUnit T.det := by
    rw [det_mul, det_transpose] at hdet
    exact isUnit_of_mul_isUnit_left hdet
  obtain ⟨R, hR⟩ : ∃ R, R = T⁻¹ * T⁻¹ᵀ := ⟨_, rfl⟩
  have hRi : R * (1 + s ^ 2 • E) = 1 := by
    rw [← g1, hR, Matrix.mul_assoc, ← Matrix.mul_assoc T⁻¹ᵀ, ← transpose_mul, mul_nonsing_inv _ hTu, transpose_one, Matrix.one_mul, nonsing_inv_mul _ hTu]
  have hRi' : (1 + s ^ 2 • E) * R = 1 := mul_eq_one_comm.1 hRi
  have hRt : Rᵀ = R := by rw [hR, transpose_mul, transpose_transpose]
  have hRp : R.PosSemidef := by
    have := Bures.psd_conj (PosSemidef.one (n := K) (R := ℝ)) T⁻¹
    rw [Matrix.mul_one] at this
    rw [hR]; exact this
  have t1 : (Uᵀ * C * U).trace = (R * (A + (2 * s) • E + s ^ 2 • (ξᵀ * C * ξ))).trace := by
    have h : R * (Tᵀ * (Uᵀ * C * U) * T) = T⁻¹ * (Uᵀ * C * U) * T := by
      have h' : T⁻¹ᵀ * Tᵀ = 1 := by rw [← transpose_mul, mul_nonsing_inv _ hTu, transpose_one]
      calc R * (Tᵀ * (Uᵀ * C * U) * T) = T⁻¹ * ((T⁻¹ᵀ * Tᵀ) * ((Uᵀ * C * U) * T)) := by rw [hR]; simp only [Matrix.mul_assoc]
        _ = _ := by rw [h', Matrix.one_mul]; simp only [Matrix.mul_assoc]
    rw [← g2, h, trace_mul_comm (T⁻¹ * (Uᵀ * C * U)) T, ← Matrix.mul_assoc T, mul_nonsing_inv _ hTu, Matrix.one_mul]
  have t2 : 0 ≤ (R * (s ^ 2 • (ξᵀ * C * ξ))).trace := by
    refine Bures.trace_mul_nonneg hRp (PosSemidef.smul ?_ (sq_nonneg s))
    have := Bures.psd_conj hC ξᵀ
    rwa [transpose_transpose] at this
  -- `R E` is positive semidefinite
  have hRE : R * E = R * (E + s ^ 2 • (E * E)) * R := by
    have : E + s ^ 2 • (E * E) = E * (1 + s ^ 2 • E) := by rw [Matrix.mul_add, Matrix.mul_one, Matrix.mul_smul]
    rw [this, ← Matrix.mul_assoc, Matrix.mul_assoc (R * E), hRi', Matrix.mul_one]
  have hREp : (R * E).PosSemidef := by
    rw [hRE]
    refine Bures.psd_conj_symm (hEp.add (PosSemidef.smul (Bures.psd_sq hEt) (sq_nonneg s))) hRt
  have hNp : ((2 : ℝ) • (1 : Matrix K K ℝ) - s • A).PosSemidef := by
    refine PosSemidef.of_dotProduct_mulVec_nonneg ?_ fun x => ?_
    · rw [IsHermitian, conjTranspose_eq_transpose_of_trivial, transpose_sub, transpose_smul, transpose_smul, transpose_one, Bures.psd_t hAp]
    · have h : x ⬝ᵥ (A *ᵥ x) ≤ A.trace * (x ⬝ᵥ x) := by
        obtain ⟨B, hB⟩ := psd_factor hAp
        rw [hB, ← quad_eq, trace_self_rows, sum_mul]
        refine sum_le_sum fun r _ => ?_
        have := sum_mul_sq_le_sq_mul_sq univ (B r) x
        simp only [mulVec, dotProduct] at this ⊢
        simpa only [sq] using this
      have h0 : 0 ≤ x ⬝ᵥ x := sum_nonneg fun _ _ => mul_self_nonneg _
      rw [star_trivial, sub_mulVec, smul_mulVec, smul_mulVec, one_mulVec, dotProduct_sub, dotProduct_smul, dotProduct_smul, smul_eq_mul, smul_eq_mul]
      nlinarith [mul_le_mul_of_nonneg_left h hs]
  have t3 : 0 ≤ (R * E * ((2 : ℝ) • 1 - s • A)).trace := Bures.trace_mul_nonneg hREp hNp
  have t4 : (R * (A + (2 * s) • E)).trace = A.trace + s * (R * E * ((2 : ℝ) • 1 - s • A)).trace := by
    have h : A = R * A + s ^ 2 • (R * E * A) := by
      have := congrArg (· * A) hRi
      simp only [Matrix.mul_add, Matrix.mul_one, Matrix.add_mul, Matrix.one_mul, Matrix.mul_smul, smul_mul] at this
      exact this.symm
    have h2 := congrArg trace h
    rw [trace_add, trace_smul] at h2
    rw [Matrix.mul_add, Matrix.mul_smul, trace_add, trace_smul, Matrix.mul_sub, trace_sub, Matrix.mul_smul, Matrix.mul_smul, Matrix.mul_one, trace_smul, trace_smul]
    simp only [smul_eq_mul] at h2 ⊢
    rw [h2]; ring
  rw [t1, Matrix.mul_add, trace_add, t4]
  nlinarith [mul_nonneg hs t3]

theorem frob_smul (t : ℝ) (ht : 0 ≤ t) (A : Matrix D K ℝ) : frob (t • A) = t * frob A := by
  unfold frob
  have : ∑ d, ∑ c, (t • A) d c ^ 2 = t ^ 2 * ∑ d, ∑ c, A d c ^ 2 := by
    rw [mul_sum]
    refine sum_congr rfl fun d _ => ?_
    rw [mul_sum]
    exact sum_congr rfl fun c _ => by rw [Matrix.smul_apply, smul_eq_mul]; ring
  rw [this, Real.sqrt_mul (sq_nonneg t), Real.sqrt_sq ht]

/-- how the loop ends -/
theorem loop_end (f : St I J D K → St I J D K) (thr : ℝ) (n : ℕ) (s : St I J D K) : ∃ t ≤ n, loop f thr n s = f^[t] s ∧ (t < n → (f^[t] s).err ≤ thr) ∧ ∀ l < t, thr < (f^[l] s).err := by
  induction n generalizing s with
  | zero => exact ⟨0, le_rfl, rfl, fun h => absurd h (lt_irrefl _), fun l hl => absurd hl (Nat.not_lt_zero _)⟩
  | succ n ih =>
    unfold loop
    split_ifs with h
    · obtain ⟨t, ht, e, h1, h2⟩ := ih (f s)
      refine ⟨t + 1, Nat.succ_le_succ ht, ?_, ?_, ?_⟩
      · rw [e, Function.iterate_succ_apply]
      · intro hl
        rw [Function.iterate_succ_apply]; exact h1 (Nat.lt_of_succ_lt_succ hl)
      · intro l hl
        cases l with
        | zero => exact h
        | succ l => rw [Function.iterate_succ_apply]; exact h2 l (Nat.lt_of_succ_lt_succ hl)
    · exact ⟨0, Nat.zero_le _, rfl, fun _ => not_lt.1 h, fun l hl => absurd hl (Nat.not_lt_zero _)⟩

end POT.Prw
