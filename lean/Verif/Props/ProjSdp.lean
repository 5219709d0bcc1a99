import Verif.Spec.ProjSdp
import Verif.Model.ProjSdp
import Mathlib.Analysis.Matrix.Spectrum
import Mathlib.Tactic.Ring
import Mathlib.Tactic.Linarith
import Mathlib.Tactic.FinCases
import Mathlib.Data.Fin.VecNotation
import Mathlib.Algebra.BigOperators.Fin

/-!
# Projection onto symmetric matrices with eigenvalues at least `vmin` (C133)
-/

set_option linter.unusedSectionVars false

namespace POT.Props

open Finset Spec ProjSdp Matrix

variable {n : Type*} [Fintype n] [DecidableEq n]

private theorem projSdp_apply (eigh : Matrix n n ℝ → (n → ℝ) × Matrix n n ℝ) (S : Matrix n n ℝ) (v : ℝ) (i j : n) :
    projSdp eigh S v i j = ∑ k, (eigh S).2 i k * max ((eigh S).1 k) v * (eigh S).2 j k := by
  unfold projSdp clipMin
  rw [Matrix.mul_apply]
  exact sum_congr rfl fun k _ => by rw [Matrix.mul_diagonal, Matrix.transpose_apply]

private theorem frob_trace (A : Matrix n n ℝ) : ∑ i, ∑ j, A i j ^ 2 = (A.transpose * A).trace := by
  unfold Matrix.trace
  simp only [Matrix.diag_apply, Matrix.mul_apply, Matrix.transpose_apply]
  rw [sum_comm]
  exact sum_congr rfl fun i _ => sum_congr rfl fun j _ => by ring

/-- the Frobenius norm does not see an orthogonal change of basis -/
private theorem frob_rotate {P : Matrix n n ℝ} (hP : P * P.transpose = 1) (A : Matrix n n ℝ) :
    ∑ i, ∑ j, (P.transpose * A * P) i j ^ 2 = ∑ i, ∑ j, A i j ^ 2 := by
  rw [frob_trace, frob_trace]
  have h : (P.transpose * A * P).transpose * (P.transpose * A * P) = P.transpose * (A.transpose * A * P) := by
    simp only [Matrix.transpose_mul, Matrix.transpose_transpose, Matrix.mul_assoc]
    rw [← Matrix.mul_assoc P P.transpose, hP, Matrix.one_mul]
  rw [h, Matrix.trace_mul_comm, Matrix.mul_assoc, hP, Matrix.mul_one]

private theorem rotate_diag {P : Matrix n n ℝ} (hP : P.transpose * P = 1) {S : Matrix n n ℝ} {w : n → ℝ} (hS : ∀ i j, S i j = ∑ k, P i k * w k * P j k) :
    P.transpose * S * P = Matrix.diagonal w := by
  have h : S = P * Matrix.diagonal w * P.transpose := by
    ext i j
    rw [hS, Matrix.mul_apply]
    exact sum_congr rfl fun k _ => by rw [Matrix.mul_diagonal, Matrix.transpose_apply]
  rw [h]
  calc P.transpose * (P * Matrix.diagonal w * P.transpose) * P = (P.transpose * P) * Matrix.diagonal w * (P.transpose * P) := by
        simp only [Matrix.mul_assoc]
    _ = Matrix.diagonal w := by rw [hP, Matrix.one_mul, Matrix.mul_one]

/-- `xᵀ (P diag(c) Pᵀ) x = ∑ c_k (Pᵀ x)_k²` -/
private theorem quad_eq (P : Matrix n n ℝ) (c x : n → ℝ) :
    ∑ i, ∑ j, x i * (∑ k, P i k * c k * P j k) * x j = ∑ k, c k * (∑ i, P i k * x i) ^ 2 := by
  have e : ∀ k, c k * (∑ i, P i k * x i) ^ 2 = ∑ i, ∑ j, x i * (P i k * c k * P j k) * x j := by
    intro k
    rw [sq, sum_mul_sum, mul_sum]
    refine sum_congr rfl fun i _ => ?_
    rw [mul_sum]
    exact sum_congr rfl fun j _ => by ring
  simp only [e]
  rw [sum_comm (f := fun k i => ∑ j, x i * (P i k * c k * P j k) * x j)]
  refine sum_congr rfl fun i _ => ?_
  rw [sum_comm]
  refine sum_congr rfl fun j _ => ?_
  rw [mul_sum, sum_mul]

private theorem quad_one {P : Matrix n n ℝ} (hP : P * P.transpose = 1) (x : n → ℝ) : ∑ k, (∑ i, P i k * x i) ^ 2 = ∑ i, x i ^ 2 := by
  have h := quad_eq P (fun _ => 1) x
  simp only [one_mul, mul_one] at h
  rw [← h]
  have e : ∀ i j, ∑ k, P i k * P j k = if i = j then 1 else 0 := by
    intro i j
    have := congrFun (congrFun hP i) j
    rw [Matrix.mul_apply, Matrix.one_apply] at this
    exact this
  simp only [e]
  refine sum_congr rfl fun i _ => ?_
  rw [sum_eq_single i]
  · simp [sq]
  · intro j _ hj; simp [Ne.symm hj]
  · simp

/-- **C133.** For every symmetric matrix, every bound `vmin` and whatever eigendecomposition the backend finds: the result is symmetric with eigenvalues at least `vmin`. -/
theorem C133_feasible (eigh : Matrix n n ℝ → (n → ℝ) × Matrix n n ℝ) (S : Matrix n n ℝ) (hS : IsEigh S (eigh S)) (vmin : ℝ) : EigGe vmin (projSdp eigh S vmin) := by
  refine ⟨fun i j => ?_, fun x => ?_⟩
  · rw [projSdp_apply, projSdp_apply]
    exact sum_congr rfl fun k _ => by ring
  · simp only [projSdp_apply]
    rw [quad_eq, ← quad_one hS.2.1 x, mul_sum]
    exact sum_le_sum fun k _ => mul_le_mul_of_nonneg_right (le_max_right _ _) (sq_nonneg _)

/-- **C133.** It is the projection: every symmetric `X` with eigenvalues at least `vmin` is at squared Frobenius distance from `S` at least that of the result plus the squared distance
between `X` and the result; so the result is the one closest matrix. -/
theorem C133_projection (eigh : Matrix n n ℝ → (n → ℝ) × Matrix n n ℝ) (S : Matrix n n ℝ) (hS : IsEigh S (eigh S)) (vmin : ℝ) (X : Matrix n n ℝ) (hX : EigGe vmin X) :
    frobDistSq S (projSdp eigh S vmin) + frobDistSq X (projSdp eigh S vmin) ≤ frobDistSq S X := by
  obtain ⟨P, hP⟩ : ∃ P, P = (eigh S).2 := ⟨_, rfl⟩
  obtain ⟨w, hw⟩ : ∃ w, w = (eigh S).1 := ⟨_, rfl⟩
  obtain ⟨h1, h2, h3⟩ := hS
  rw [← hP] at h1 h2
  rw [← hP, ← hw] at h3
  have hQ : ∀ i j, projSdp eigh S vmin i j = ∑ k, P i k * max (w k) vmin * P j k := by
    intro i j; rw [projSdp_apply, hP, hw]
  have hd : ∀ A B : Matrix n n ℝ, frobDistSq A B = ∑ i, ∑ j, ((P.transpose * A * P) i j - (P.transpose * B * P) i j) ^ 2 := by
    intro A B
    have := frob_rotate h2 (A - B)
    rw [Matrix.mul_sub, Matrix.sub_mul] at this
    simp only [Matrix.sub_apply] at this
    rw [this]
    rfl
  obtain ⟨Y, hY⟩ : ∃ Y, Y = P.transpose * X * P := ⟨_, rfl⟩
  have hYd : ∀ k, vmin ≤ Y k k := by
    intro k
    have hx := hX.2 fun i => P i k
    have e1 : ∑ i, P i k ^ 2 = 1 := by
      have := congrFun (congrFun h1 k) k
      rw [Matrix.mul_apply, Matrix.one_apply_eq] at this
      rw [← this]
      exact sum_congr rfl fun i _ => by rw [Matrix.transpose_apply, sq]
    have e2 : Y k k = ∑ i, ∑ j, P i k * X i j * P j k := by
      rw [hY, Matrix.mul_apply, sum_comm]
      refine sum_congr rfl fun j _ => ?_
      rw [Matrix.mul_apply, sum_mul]
      exact sum_congr rfl fun i _ => by rw [Matrix.transpose_apply]
    rw [e1, mul_one] at hx
    rw [e2]
    exact hx
  rw [hd, hd, hd, rotate_diag h1 h3, rotate_diag h1 hQ, ← hY, ← sum_add_distrib]
  refine sum_le_sum fun i _ => ?_
  rw [← sum_add_distrib]
  refine sum_le_sum fun j _ => ?_
  by_cases hij : i = j
  · subst hij
    simp only [Matrix.diagonal_apply_eq]
    have hy := hYd i
    have key : 0 ≤ (w i - max (w i) vmin) * (max (w i) vmin - Y i i) := by
      rcases le_total (w i) vmin with h | h
      · rw [max_eq_right h]
        exact mul_nonneg_of_nonpos_of_nonpos (by linarith) (by linarith)
      · rw [max_eq_left h]; simp
    nlinarith
  · simp only [Matrix.diagonal_apply_ne _ hij]
    nlinarith [sq_nonneg (Y i j)]

private theorem frobDistSq_nonneg (A B : Matrix n n ℝ) : 0 ≤ frobDistSq A B := sum_nonneg fun _ _ => sum_nonneg fun _ _ => sq_nonneg _

private theorem eq_of_frobDistSq {A B : Matrix n n ℝ} (h : frobDistSq A B ≤ 0) : A = B := by
  have h0 : frobDistSq A B = 0 := le_antisymm h (frobDistSq_nonneg A B)
  ext i j
  have h1 := (sum_eq_zero_iff_of_nonneg fun i _ => sum_nonneg fun j _ => sq_nonneg (A i j - B i j)).1 h0 i (mem_univ i)
  have h2 := (sum_eq_zero_iff_of_nonneg fun j _ => sq_nonneg (A i j - B i j)).1 h1 j (mem_univ j)
  exact sub_eq_zero.1 (pow_eq_zero_iff (two_ne_zero)|>.1 h2)

/-- **C133.** The one closest matrix: no admissible matrix is closer, and one as close is the result. -/
theorem C133_closest (eigh : Matrix n n ℝ → (n → ℝ) × Matrix n n ℝ) (S : Matrix n n ℝ) (hS : IsEigh S (eigh S)) (vmin : ℝ) (X : Matrix n n ℝ) (hX : EigGe vmin X) :
    frobDistSq S (projSdp eigh S vmin) ≤ frobDistSq S X ∧ (frobDistSq S X ≤ frobDistSq S (projSdp eigh S vmin) → X = projSdp eigh S vmin) := by
  have h := C133_projection eigh S hS vmin X hX
  have h0 := frobDistSq_nonneg X (projSdp eigh S vmin)
  exact ⟨by linarith, fun h1 => eq_of_frobDistSq (by linarith)⟩

/-- **C133.** An admissible matrix is returned unchanged, projecting twice is projecting once, and the result does not depend on the eigendecomposition found. -/
theorem C133_consistent (eigh eigh' : Matrix n n ℝ → (n → ℝ) × Matrix n n ℝ) (S : Matrix n n ℝ) (hS : IsEigh S (eigh S)) (hS' : IsEigh S (eigh' S)) (vmin : ℝ) :
    (EigGe vmin S → projSdp eigh S vmin = S) ∧ (IsEigh (projSdp eigh S vmin) (eigh (projSdp eigh S vmin)) → projSdp eigh (projSdp eigh S vmin) vmin = projSdp eigh S vmin) ∧
    projSdp eigh' S vmin = projSdp eigh S vmin := by
  have fix : ∀ T, IsEigh T (eigh T) → EigGe vmin T → projSdp eigh T vmin = T := by
    intro T hT hv
    have h := (C133_closest eigh T hT vmin T hv).1
    have e : frobDistSq T T = 0 := by simp [frobDistSq]
    rw [e] at h
    exact (eq_of_frobDistSq h).symm
  refine ⟨fix S hS, fun h => fix _ h (C133_feasible eigh S hS vmin), ?_⟩
  have h1 := C133_closest eigh S hS vmin _ (C133_feasible eigh' S hS' vmin)
  have h2 := C133_closest eigh' S hS' vmin _ (C133_feasible eigh S hS vmin)
  exact h1.2 h2.1

/-- **C133.** The result moves no further than the input: it is a continuous function of `S`, although eigenvectors are not. -/
theorem C133_nonexpansive (eigh : Matrix n n ℝ → (n → ℝ) × Matrix n n ℝ) (S T : Matrix n n ℝ) (hS : IsEigh S (eigh S)) (hT : IsEigh T (eigh T)) (vmin : ℝ) :
    frobDistSq (projSdp eigh S vmin) (projSdp eigh T vmin) ≤ frobDistSq S T := by
  have h1 := C133_projection eigh S hS vmin _ (C133_feasible eigh T hT vmin)
  have h2 := C133_projection eigh T hT vmin _ (C133_feasible eigh S hS vmin)
  obtain ⟨A, hA⟩ : ∃ A, A = projSdp eigh S vmin := ⟨_, rfl⟩
  obtain ⟨B, hB⟩ : ∃ B, B = projSdp eigh T vmin := ⟨_, rfl⟩
  rw [← hA, ← hB] at h1 h2 ⊢
  have h3 : frobDistSq S B + frobDistSq T A ≤ frobDistSq S A + frobDistSq T B + frobDistSq S T + frobDistSq A B := by
    unfold frobDistSq
    simp only [← sum_add_distrib]
    exact sum_le_sum fun i _ => sum_le_sum fun j _ => by nlinarith [sq_nonneg ((S i j - T i j) - (A i j - B i j))]
  have h4 : frobDistSq B A = frobDistSq A B := sum_congr rfl fun i _ => sum_congr rfl fun j _ => by ring
  linarith

/-- **C133.** A stack of matrices is projected matrix by matrix. -/
theorem C133_stack {N : ℕ} (eigh : Matrix n n ℝ → (n → ℝ) × Matrix n n ℝ) (S : Fin N → Matrix n n ℝ) (vmin : ℝ) (i : Fin N) :
    projSdpStack eigh S vmin i = projSdp eigh (S i) vmin := by
  ext j l
  rw [projSdp_apply]
  rfl

/-- Every symmetric matrix has an eigendecomposition, so the hypothesis can be met. -/
theorem C133_eigh_exists (S : Matrix n n ℝ) (hS : ∀ i j, S i j = S j i) : ∃ e, IsEigh S e := by
  have hH : S.IsHermitian := by
    ext i j
    rw [Matrix.conjTranspose_apply, star_trivial, hS]
  obtain ⟨U, hU⟩ : ∃ U, U = (hH.eigenvectorUnitary : Matrix n n ℝ) := ⟨_, rfl⟩
  have hstar : ∀ A : Matrix n n ℝ, star A = A.transpose := fun A => by
    ext i j
    rw [Matrix.star_apply, star_trivial, Matrix.transpose_apply]
  have u1 := Matrix.mem_unitaryGroup_iff.1 hH.eigenvectorUnitary.2
  have u2 := Matrix.mem_unitaryGroup_iff'.1 hH.eigenvectorUnitary.2
  rw [← hU, hstar] at u1 u2
  refine ⟨(hH.eigenvalues, U), u2, u1, fun i j => ?_⟩
  have h := hH.spectral_theorem
  have h' : S = U * Matrix.diagonal hH.eigenvalues * U.transpose := by
    rw [← hstar, hU]
    simpa [Unitary.conjStarAlgAut_apply] using h
  conv_lhs => rw [h']
  rw [Matrix.mul_apply]
  exact sum_congr rfl fun k _ => by rw [Matrix.mul_diagonal, Matrix.transpose_apply]

/-- a matrix that is changed: eigenvalues `-1` and `2`, bound `0` -/
example : projSdp (fun _ => (![-1, 2], (1 : Matrix (Fin 2) (Fin 2) ℝ))) (Matrix.diagonal ![-1, 2]) 0 = Matrix.diagonal ![0, 2] ∧
    IsEigh (Matrix.diagonal ![-1, 2] : Matrix (Fin 2) (Fin 2) ℝ) (![-1, 2], 1) := by
  refine ⟨?_, by simp, by simp, fun i j => ?_⟩
  · ext i j
    rw [projSdp_apply]
    fin_cases i <;> fin_cases j <;> simp [Fin.sum_univ_two, Matrix.one_apply]
  · fin_cases i <;> fin_cases j <;> simp [Fin.sum_univ_two, Matrix.one_apply]

end POT.Props
