import Verif.Lemmas.Bures
import Mathlib.Tactic.Linarith
import Mathlib.Tactic.Positivity
import Mathlib.Tactic.Ring

/-! # Matrices with orthonormal columns: contraction, subspace iteration, the largest trace -/

set_option linter.unusedSectionVars false

namespace POT.Stiefel

open Matrix Finset

variable {D K L : Type*} [Fintype D] [Fintype K] [Fintype L] [DecidableEq D] [DecidableEq K] [DecidableEq L]

theorem quad_eq (A : Matrix D K ℝ) (y : K → ℝ) : (A *ᵥ y) ⬝ᵥ (A *ᵥ y) = y ⬝ᵥ ((Aᵀ * A) *ᵥ y) := by
  rw [← mulVec_mulVec, dotProduct_mulVec y, vecMul_transpose]

/-- a matrix with orthonormal columns preserves norms -/
theorem isometry {U : Matrix D K ℝ} (hU : Uᵀ * U = 1) (x : K → ℝ) : (U *ᵥ x) ⬝ᵥ (U *ᵥ x) = x ⬝ᵥ x := by
  rw [quad_eq, hU, one_mulVec]

/-- its transpose does not increase them -/
theorem contract {U : Matrix D K ℝ} (hU : Uᵀ * U = 1) (y : D → ℝ) : (Uᵀ *ᵥ y) ⬝ᵥ (Uᵀ *ᵥ y) ≤ y ⬝ᵥ y := by
  have h : 0 ≤ (y - U *ᵥ (Uᵀ *ᵥ y)) ⬝ᵥ (y - U *ᵥ (Uᵀ *ᵥ y)) := sum_nonneg fun _ _ => mul_self_nonneg _
  have h1 : y ⬝ᵥ (U *ᵥ (Uᵀ *ᵥ y)) = (Uᵀ *ᵥ y) ⬝ᵥ (Uᵀ *ᵥ y) := by rw [dotProduct_mulVec, ← mulVec_transpose]
  rw [sub_dotProduct, dotProduct_sub, dotProduct_sub, isometry hU, h1, dotProduct_comm (U *ᵥ (Uᵀ *ᵥ y)) y, h1] at h
  linarith

/-- squared Frobenius norm -/
theorem trace_self (A : Matrix D K ℝ) : (Aᵀ * A).trace = ∑ k, (fun d => A d k) ⬝ᵥ (fun d => A d k) := rfl

theorem trace_self_rows (A : Matrix D K ℝ) : (Aᵀ * A).trace = ∑ d, A d ⬝ᵥ A d := by
  rw [trace_mul_comm]; rfl

theorem trace_self_nonneg (A : Matrix D K ℝ) : 0 ≤ (Aᵀ * A).trace := by
  rw [trace_self]
  exact sum_nonneg fun _ _ => sum_nonneg fun _ _ => mul_self_nonneg _

theorem psd_factor {B : Matrix D D ℝ} (hB : B.PosSemidef) : ∃ C : Matrix D D ℝ, B = Cᵀ * C := by
  obtain ⟨S, hS⟩ := Bures.exists_sqrt hB
  exact ⟨S, by rw [Bures.psd_t hS.1]; exact hS.2.symm⟩

/-- Cauchy-Schwarz for the trace form -/
theorem trace_cs (A C : Matrix D K ℝ) : (Aᵀ * C).trace ^ 2 ≤ (Aᵀ * A).trace * (Cᵀ * C).trace := by
  have h : ∀ M N : Matrix D K ℝ, (Mᵀ * N).trace = ∑ p : K × D, M p.2 p.1 * N p.2 p.1 := by
    intro M N
    rw [Fintype.sum_prod_type]
    rfl
  rw [h, h, h]
  have := sum_mul_sq_le_sq_mul_sq univ (fun p : K × D => A p.2 p.1) fun p => C p.2 p.1
  simpa only [sq] using this

/-- One step of subspace iteration: if `Q` has orthonormal columns spanning at least the columns of `B U`, the trace of `B` on `Q` is at least its trace on `U`. -/
theorem subspace_iter {B : Matrix D D ℝ} (hB : B.PosSemidef) {U : Matrix D K ℝ} {Q : Matrix D L ℝ} {T : Matrix L K ℝ} (hU : Uᵀ * U = 1) (hQ : Qᵀ * Q = 1) (hR : B * U = Q * T) :
    (Uᵀ * B * U).trace ≤ (Qᵀ * B * Q).trace := by
  obtain ⟨C, rfl⟩ := psd_factor hB
  -- `V = Q Qᵀ U` has the same inner product with `U` as `U` itself
  obtain ⟨V, hV⟩ : ∃ V, V = Q * (Qᵀ * U) := ⟨_, rfl⟩
  have e1 : ((C * V)ᵀ * (C * U)).trace = ((C * U)ᵀ * (C * U)).trace := by
    have h1 : (C * V)ᵀ * (C * U) = Vᵀ * (Cᵀ * C * U) := by simp only [transpose_mul, Matrix.mul_assoc]
    have h2 : (C * U)ᵀ * (C * U) = Uᵀ * (Cᵀ * C * U) := by simp only [transpose_mul, Matrix.mul_assoc]
    have h3 : Qᵀ * (Q * T) = T := by rw [← Matrix.mul_assoc, hQ, Matrix.one_mul]
    rw [h1, h2, hR, hV]
    simp only [transpose_mul, transpose_transpose, Matrix.mul_assoc, h3]
  have e2 := trace_cs (C * V) (C * U)
  rw [e1] at e2
  have e3 : (Uᵀ * (Cᵀ * C) * U) = (C * U)ᵀ * (C * U) := by simp only [transpose_mul, Matrix.mul_assoc]
  have e4 : (Qᵀ * (Cᵀ * C) * Q) = (C * Q)ᵀ * (C * Q) := by simp only [transpose_mul, Matrix.mul_assoc]
  rw [e3, e4]
  have p := trace_self_nonneg (C * U)
  have q : ((C * U)ᵀ * (C * U)).trace ≤ ((C * V)ᵀ * (C * V)).trace := by
    rcases p.eq_or_lt with h | h
    · rw [← h]; exact trace_self_nonneg _
    · rw [sq] at e2; exact le_of_mul_le_mul_right e2 h
  refine q.trans ?_
  -- rows of `C V` are `Uᵀ Q` applied to the rows of `C Q`
  rw [trace_self_rows, trace_self_rows]
  refine sum_le_sum fun r _ => ?_
  have h5 : (C * V) r = Uᵀ *ᵥ (Q *ᵥ ((C * Q) r)) := by
    have : C * V = (C * Q) * Qᵀ * U := by rw [hV]; simp only [Matrix.mul_assoc]
    rw [this, mul_apply_eq_vecMul, mul_apply_eq_vecMul, ← mulVec_transpose, ← mulVec_transpose, transpose_transpose]
  rw [h5]
  exact (contract hU _).trans (le_of_eq (isometry hQ _))

/-- The weight of one eigenvector in an orthonormal family is at most one. -/
theorem weight_le {V : Matrix D D ℝ} (hV : Vᵀ * V = 1) {U : Matrix D K ℝ} (hU : Uᵀ * U = 1) (i : D) : ∑ c, ((Vᵀ * U) i c) ^ 2 ≤ 1 := by
  have h := contract hU fun d => V d i
  have h1 : (fun d => V d i) ⬝ᵥ (fun d => V d i) = 1 := by
    have := congrFun (congrFun hV i) i
    rw [one_apply_eq] at this
    exact this
  rw [h1] at h
  refine le_trans (le_of_eq ?_) h
  rw [dotProduct]
  refine sum_congr rfl fun c _ => ?_
  rw [sq]
  have : (Vᵀ * U) i c = (Uᵀ *ᵥ fun d => V d i) c := by
    rw [mul_apply, mulVec, dotProduct]
    exact sum_congr rfl fun d _ => mul_comm _ _
  rw [this]

/-- the weights sum to the number of columns -/
theorem weight_sum {V : Matrix D D ℝ} (hV : Vᵀ * V = 1) {U : Matrix D K ℝ} (hU : Uᵀ * U = 1) : ∑ i, ∑ c, ((Vᵀ * U) i c) ^ 2 = Fintype.card K := by
  have hV' : V * Vᵀ = 1 := mul_eq_one_comm.1 hV
  have h : ((Vᵀ * U)ᵀ * (Vᵀ * U)).trace = Fintype.card K := by
    rw [transpose_mul, transpose_transpose, Matrix.mul_assoc, ← Matrix.mul_assoc V, hV', Matrix.one_mul, hU, trace_one]
  rw [← h, trace_self_rows]
  exact sum_congr rfl fun i _ => sum_congr rfl fun c _ => sq _

/-- the trace of a diagonalised matrix on an orthonormal family -/
theorem trace_diag {V S : Matrix D D ℝ} {w : D → ℝ} (hS : S = V * diagonal w * Vᵀ) (U : Matrix D K ℝ) : (Uᵀ * S * U).trace = ∑ i, w i * ∑ c, ((Vᵀ * U) i c) ^ 2 := by
  have h : Uᵀ * S * U = (Vᵀ * U)ᵀ * (diagonal w * (Vᵀ * U)) := by
    rw [hS]; simp only [transpose_mul, transpose_transpose, Matrix.mul_assoc]
  rw [h, trace_mul_comm, trace]
  refine sum_congr rfl fun i _ => ?_
  rw [diag_apply, mul_apply, mul_sum]
  refine sum_congr rfl fun c _ => ?_
  rw [diagonal_mul, transpose_apply]; ring

/-- The columns of `V` at distinct indices are orthonormal. -/
theorem cols_orth {V : Matrix D D ℝ} (hV : Vᵀ * V = 1) {f : K → D} (hf : Function.Injective f) : (V.submatrix id f)ᵀ * V.submatrix id f = 1 := by
  ext a b
  have := congrFun (congrFun hV (f a)) (f b)
  rw [mul_apply] at this ⊢
  simp only [transpose_apply, submatrix_apply, id_eq] at this ⊢
  rw [this, one_apply, one_apply]
  simp only [hf.eq_iff]

/-- **The largest trace.**  If the columns `f` of the eigenvectors carry the largest eigenvalues, they reach the largest trace over all orthonormal families of that size. -/
theorem ky_fan {V S : Matrix D D ℝ} {w : D → ℝ} (hV : Vᵀ * V = 1) (hS : S = V * diagonal w * Vᵀ) {f : K → D} (hf : Function.Injective f) (t : ℝ) (htop : ∀ c, t ≤ w (f c)) (hrest : ∀ i, i ∉ Set.range f → w i ≤ t)
    {U : Matrix D K ℝ} (hU : Uᵀ * U = 1) : (Uᵀ * S * U).trace ≤ ((V.submatrix id f)ᵀ * S * V.submatrix id f).trace := by
  classical
  rw [trace_diag hS U, trace_diag hS]
  obtain ⟨W, hW⟩ : ∃ W : D → ℝ, W = fun i => ∑ c, ((Vᵀ * U) i c) ^ 2 := ⟨_, rfl⟩
  have h0 : ∀ i, 0 ≤ W i := fun i => by rw [hW]; exact sum_nonneg fun _ _ => sq_nonneg _
  have h1 : ∀ i, W i ≤ 1 := fun i => by rw [hW]; exact weight_le hV hU i
  have h2 : ∑ i, W i = Fintype.card K := by rw [hW]; exact weight_sum hV hU
  have e : ∀ i, ∑ c, ((Vᵀ * V.submatrix id f) i c) ^ 2 = if i ∈ Set.range f then 1 else 0 := by
    intro i
    have : ∀ c, (Vᵀ * V.submatrix id f) i c = if i = f c then 1 else 0 := by
      intro c
      have := congrFun (congrFun hV i) (f c)
      rw [mul_apply] at this ⊢
      simp only [submatrix_apply, id_eq]
      rw [this, one_apply]
    simp only [this, ite_pow, one_pow, ne_eq, OfNat.ofNat_ne_zero, not_false_eq_true, zero_pow]
    split_ifs with hi
    · obtain ⟨c, rfl⟩ := hi
      simp [hf.eq_iff]
    · refine sum_eq_zero fun c _ => if_neg fun h => hi ⟨c, h.symm⟩
  have e2 : (∑ i, if i ∈ Set.range f then (1 : ℝ) else 0) = Fintype.card K := by
    rw [← weight_sum hV (cols_orth hV hf)]
    exact sum_congr rfl fun i _ => (e i).symm
  simp only [e]
  have key : ∀ i, w i * W i ≤ w i * (if i ∈ Set.range f then 1 else 0) + t * (W i - if i ∈ Set.range f then 1 else 0) := by
    intro i
    split_ifs with hi
    · obtain ⟨c, rfl⟩ := hi
      nlinarith [htop c, h1 (f c)]
    · nlinarith [hrest i hi, h0 i]
  have := sum_le_sum fun i (_ : i ∈ univ) => key i
  rw [sum_add_distrib, ← mul_sum, sum_sub_distrib, h2, e2, sub_self, mul_zero, add_zero] at this
  rw [hW] at this
  exact this

end POT.Stiefel
