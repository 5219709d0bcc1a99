import Verif.Model.Mapping
import Verif.Spec.Mapping
import Mathlib.Analysis.Matrix.Order
import Mathlib.Analysis.Normed.Algebra.Exponential
import Mathlib.Analysis.SpecialFunctions.Exponential
import Mathlib.LinearAlgebra.Matrix.ToLinearEquiv
import Mathlib.Tactic.Linarith
import Mathlib.Tactic.Ring
import Mathlib.Tactic.FieldSimp

/-! # Lemmas for mapping estimation -/

set_option linter.unusedSectionVars false

namespace POT.Mapping

open Finset Matrix

variable {I J D F : Type*} [Fintype I] [Fintype J] [Fintype D] [Fintype F] [DecidableEq I] [DecidableEq D] [DecidableEq F]

/-! ## The Gaussian kernel is positive semidefinite -/

theorem pow_psd {A : Matrix I I ℝ} (hA : A.PosSemidef) (n : ℕ) : (Matrix.of fun i k => A i k ^ n).PosSemidef := by
  induction n with
  | zero =>
    have h := Matrix.posSemidef_vecMulVec_self_star (R := ℝ) (fun _ : I => (1 : ℝ))
    convert h using 1
    ext i k; simp [Matrix.vecMulVec]
  | succ n ih =>
    have e : (Matrix.of fun i k => A i k ^ (n + 1)) = (Matrix.of fun i k => A i k ^ n) ⊙ A := by
      ext i k; simp [Matrix.hadamard_apply, pow_succ]
    rw [e]
    exact ih.hadamard hA

theorem quad_of_psd {A : Matrix I I ℝ} (hA : A.PosSemidef) (c : I → ℝ) : 0 ≤ ∑ i, ∑ k, c i * A i k * c k := by
  have h := hA.dotProduct_mulVec_nonneg c
  have e : star c ⬝ᵥ A *ᵥ c = ∑ i, ∑ k, c i * A i k * c k := by
    simp only [dotProduct, mulVec, star_trivial, mul_sum]
    exact sum_congr rfl fun i _ => sum_congr rfl fun k _ => by ring
  rw [e] at h
  exact h

theorem exp_psd {A : Matrix I I ℝ} (hA : A.PosSemidef) (c : I → ℝ) : 0 ≤ ∑ i, ∑ k, c i * Real.exp (A i k) * c k := by
  have hs : HasSum (fun n : ℕ => ∑ i, ∑ k, c i * (A i k ^ n / n.factorial) * c k) (∑ i, ∑ k, c i * Real.exp (A i k) * c k) := by
    refine hasSum_sum fun i _ => hasSum_sum fun k _ => ?_
    have h := NormedSpace.expSeries_div_hasSum_exp (A i k)
    rw [← Real.exp_eq_exp_ℝ] at h
    exact (h.mul_left _).mul_right _
  refine hs.nonneg fun n => ?_
  have h := quad_of_psd (pow_psd hA n) c
  have e : ∑ i, ∑ k, c i * (A i k ^ n / n.factorial) * c k = (∑ i, ∑ k, c i * A i k ^ n * c k) / n.factorial := by
    rw [sum_div]
    refine sum_congr rfl fun i _ => ?_
    rw [sum_div]
    exact sum_congr rfl fun k _ => by ring
  rw [e]
  exact div_nonneg h (by positivity)

theorem kern_quad (xs : Matrix I D ℝ) (sigma : ℝ) (c : I → ℝ) : 0 ≤ ∑ i, ∑ k, c i * kern xs sigma i k * c k := by
  have hA : ((1 / sigma) • xs * ((1 / sigma) • xs)ᴴ).PosSemidef := Matrix.posSemidef_self_mul_conjTranspose _
  have h := exp_psd hA fun i => c i * Real.exp (-(∑ d, xs i d ^ 2) / (2 * sigma ^ 2))
  convert h using 1
  refine sum_congr rfl fun i _ => sum_congr rfl fun k _ => ?_
  have e : kern xs sigma i k = Real.exp (-(∑ d, xs i d ^ 2) / (2 * sigma ^ 2)) * Real.exp (((1 / sigma) • xs * ((1 / sigma) • xs)ᴴ) i k) *
      Real.exp (-(∑ d, xs k d ^ 2) / (2 * sigma ^ 2)) := by
    unfold kern
    rw [← Real.exp_add, ← Real.exp_add]
    congr 1
    have e1 : Spec.sqEuclid (xs i) (xs k) = ∑ d, xs i d ^ 2 + ∑ d, xs k d ^ 2 - 2 * ∑ d, xs i d * xs k d := by
      unfold Spec.sqEuclid
      rw [mul_sum, ← sum_add_distrib, ← sum_sub_distrib]
      exact sum_congr rfl fun d _ => by ring
    have e2 : ((1 / sigma) • xs * ((1 / sigma) • xs)ᴴ) i k = (∑ d, xs i d * xs k d) / sigma ^ 2 := by
      rw [Matrix.mul_apply, sum_div]
      refine sum_congr rfl fun d _ => ?_
      simp only [Matrix.smul_apply, Matrix.conjTranspose_apply, smul_eq_mul, star_trivial]
      by_cases h : sigma = 0
      · simp [h]
      · field_simp
    rw [e1, e2]
    by_cases h : sigma = 0
    · simp [h]
    · field_simp; ring
  rw [e]; ring

theorem kern_symm (xs : Matrix I D ℝ) (sigma : ℝ) : (kern xs sigma)ᵀ = kern xs sigma := by
  ext i k
  simp only [Matrix.transpose_apply, kern, Spec.sqEuclid]
  congr 3
  exact sum_congr rfl fun d _ => by ring

/-! ## Least squares -/

/-- Sum of the squares of the entries. -/
theorem sq_trace {A : Type*} [Fintype A] (R : Matrix A D ℝ) : ∑ i, ∑ d, (R i d) ^ 2 = (Rᵀ * R).trace := by
  simp only [Matrix.trace, Matrix.diag_apply, Matrix.mul_apply, Matrix.transpose_apply]
  rw [sum_comm]
  exact sum_congr rfl fun i _ => sum_congr rfl fun d _ => by ring

theorem quad_trace (P : Matrix F F ℝ) (X : Matrix F D ℝ) : (Xᵀ * P * X).trace = ∑ e, ∑ f, ∑ g, X f e * P f g * X g e := by
  simp only [Matrix.trace, Matrix.diag_apply, Matrix.mul_apply, Matrix.transpose_apply, sum_mul]
  exact sum_congr rfl fun e _ => sum_comm

/-- What all four variants have in common: the penalty is a positive semidefinite quadratic form around `L0`, and the update solves the normal equations. -/
structure Ridge (eta : ℝ) (v : Variant I D F) (P : Matrix F F ℝ) (L0 : Matrix F D ℝ) : Prop where
  symm : Pᵀ = P
  psd : ∀ c : F → ℝ, 0 ≤ ∑ f, ∑ g, c f * P f g * c g
  pen : ∀ L, v.pen L = ((L - L0)ᵀ * P * (L - L0)).trace
  normal : ∀ t, v.featᵀ * (v.feat * v.solveL t - t) + eta • (P * (v.solveL t - L0)) = 0

theorem Ridge.quad_nonneg {eta : ℝ} {v : Variant I D F} {P : Matrix F F ℝ} {L0 : Matrix F D ℝ} (h : Ridge eta v P L0) (X : Matrix F D ℝ) : 0 ≤ (Xᵀ * P * X).trace := by
  rw [quad_trace]
  exact sum_nonneg fun e _ => h.psd fun f => X f e

theorem inner_dfG (p : Args I J D) (R : Matrix I D ℝ) (Δ : Matrix I J ℝ) :
    ∑ i, ∑ j, ((-2 * (Fintype.card I : ℝ)) • (R * p.xtᵀ)) i j * Δ i j = -2 * (Rᵀ * p.xst Δ).trace := by
  have h : (Rᵀ * p.xst Δ).trace = Fintype.card I * ∑ i, ∑ j, (R * p.xtᵀ) i j * Δ i j := by
    unfold Args.xst
    rw [Matrix.mul_smul, Matrix.trace_smul, smul_eq_mul]
    congr 1
    simp only [Matrix.trace, Matrix.diag_apply, Matrix.mul_apply, Matrix.transpose_apply, mul_sum, sum_mul]
    rw [sum_comm]
    refine sum_congr rfl fun i _ => ?_
    rw [sum_comm]
    exact sum_congr rfl fun j _ => sum_congr rfl fun d _ => by ring
  rw [h]
  simp only [Matrix.smul_apply, smul_eq_mul, mul_sum]
  exact sum_congr rfl fun i _ => sum_congr rfl fun j _ => by ring

/-- Exact expansion of the loss around a pair whose coefficients solve the normal equations. -/
theorem Ridge.expand {p : Args I J D} {v : Variant I D F} {P : Matrix F F ℝ} {L0 : Matrix F D ℝ} (h : Ridge p.eta v P L0) (G G' : Matrix I J ℝ) (L' : Matrix F D ℝ) :
    let L := v.solveL (p.xst G)
    loss p v L' G' = loss p v L G + p.mu * ∑ i, ∑ j, (G' i j - G i j) * p.M i j + ∑ i, ∑ j, dfG p v L G i j * (G' i j - G i j)
      + ∑ i, ∑ d, ((v.feat * (L' - L) - p.xst (G' - G)) i d) ^ 2 + p.eta * ((L' - L)ᵀ * P * (L' - L)).trace := by
  intro L
  obtain ⟨R, hR⟩ : ∃ R, R = v.feat * L - p.xst G := ⟨_, rfl⟩
  obtain ⟨S, hS⟩ : ∃ S, S = v.feat * (L' - L) - p.xst (G' - G) := ⟨_, rfl⟩
  have hRS : v.feat * L' - p.xst G' = R + S := by
    rw [hR, hS]; unfold Args.xst
    rw [Matrix.mul_sub, Matrix.sub_mul, smul_sub]; abel
  have hn : v.featᵀ * R + p.eta • (P * (L - L0)) = 0 := by rw [hR]; exact h.normal _
  have hdf : ∑ i, ∑ j, dfG p v L G i j * (G' i j - G i j) = -2 * (Rᵀ * p.xst (G' - G)).trace := by
    have := inner_dfG p R (G' - G)
    rw [← this, hR]; rfl
  have hsq : ∑ i, ∑ d, ((R + S) i d) ^ 2 = ∑ i, ∑ d, (R i d) ^ 2 + 2 * (Rᵀ * S).trace + ∑ i, ∑ d, (S i d) ^ 2 := by
    rw [sq_trace, sq_trace, sq_trace, Matrix.transpose_add]
    simp only [Matrix.add_mul, Matrix.mul_add, Matrix.trace_add]
    have : (Sᵀ * R).trace = (Rᵀ * S).trace := by rw [← Matrix.trace_transpose, Matrix.transpose_mul, Matrix.transpose_transpose]
    rw [this]; ring
  have hpen : v.pen L' = v.pen L + 2 * ((L - L0)ᵀ * P * (L' - L)).trace + ((L' - L)ᵀ * P * (L' - L)).trace := by
    rw [h.pen, h.pen]
    obtain ⟨X, hX⟩ : ∃ X, X = L - L0 := ⟨_, rfl⟩
    obtain ⟨Y, hY⟩ : ∃ Y, Y = L' - L := ⟨_, rfl⟩
    have e : L' - L0 = X + Y := by rw [hX, hY]; abel
    rw [e, ← hX, ← hY, Matrix.transpose_add]
    simp only [Matrix.add_mul, Matrix.mul_add, Matrix.trace_add]
    have : (Yᵀ * P * X).trace = (Xᵀ * P * Y).trace := by
      rw [← Matrix.trace_transpose, Matrix.transpose_mul, Matrix.transpose_mul, Matrix.transpose_transpose, h.symm, Matrix.mul_assoc]
    rw [this]; ring
  have hlin : (Rᵀ * (v.feat * (L' - L))).trace + p.eta * ((L - L0)ᵀ * P * (L' - L)).trace = 0 := by
    have e1 : (v.featᵀ * R + p.eta • (P * (L - L0)))ᵀ * (L' - L) = Rᵀ * (v.feat * (L' - L)) + p.eta • ((L - L0)ᵀ * P * (L' - L)) := by
      rw [Matrix.transpose_add, Matrix.transpose_mul, Matrix.transpose_smul, Matrix.transpose_mul, Matrix.transpose_transpose, h.symm, Matrix.add_mul, Matrix.smul_mul, Matrix.mul_assoc]
    have e2 := congrArg (fun A : Matrix F D ℝ => (Aᵀ * (L' - L)).trace) hn
    rw [e1, Matrix.transpose_zero, Matrix.zero_mul, Matrix.trace_zero, Matrix.trace_add, Matrix.trace_smul, smul_eq_mul] at e2
    exact e2
  have hRS' : (Rᵀ * S).trace = (Rᵀ * (v.feat * (L' - L))).trace - (Rᵀ * p.xst (G' - G)).trace := by
    rw [hS, Matrix.mul_sub, Matrix.trace_sub]
  have hM : ∑ i, ∑ j, G' i j * p.M i j = ∑ i, ∑ j, G i j * p.M i j + ∑ i, ∑ j, (G' i j - G i j) * p.M i j := by
    rw [← sum_add_distrib]
    refine sum_congr rfl fun i _ => ?_
    rw [← sum_add_distrib]
    exact sum_congr rfl fun j _ => by ring
  have e1 : loss p v L' G' = ∑ i, ∑ d, ((R + S) i d) ^ 2 + p.mu * ∑ i, ∑ j, G' i j * p.M i j + p.eta * v.pen L' := by rw [← hRS]; rfl
  have e2 : loss p v L G = ∑ i, ∑ d, (R i d) ^ 2 + p.mu * ∑ i, ∑ j, G i j * p.M i j + p.eta * v.pen L := by rw [hR]; rfl
  rw [e1, e2, hdf, ← hS, hsq, hpen, hM, hRS']
  linear_combination 2 * hlin

/-! ## The four variants -/

theorem isUnit_of_ker {A : Matrix F F ℝ} (h : ∀ c : F → ℝ, A *ᵥ c = 0 → c = 0) : IsUnit A.det := by
  rw [isUnit_iff_ne_zero]
  intro h0
  obtain ⟨c, hc, hA⟩ := Matrix.exists_mulVec_eq_zero_iff.2 h0
  exact hc (h c hA)

theorem gram_quad (X : Matrix I F ℝ) (P : Matrix F F ℝ) (eta : ℝ) (c : F → ℝ) :
    c ⬝ᵥ (Xᵀ * X + eta • P) *ᵥ c = ∑ i, ((X *ᵥ c) i) ^ 2 + eta * ∑ f, ∑ g, c f * P f g * c g := by
  rw [Matrix.add_mulVec, dotProduct_add, Matrix.smul_mulVec, dotProduct_smul, smul_eq_mul]
  congr 1
  · rw [← Matrix.mulVec_mulVec, Matrix.dotProduct_mulVec, Matrix.vecMul_transpose]
    simp [dotProduct, sq]
  · congr 1
    simp only [dotProduct, mulVec, mul_sum]
    exact sum_congr rfl fun f _ => sum_congr rfl fun g _ => by ring

theorem solve_eq {A : Matrix F F ℝ} (h : IsUnit A.det) (B : Matrix F D ℝ) : A * (A⁻¹ * B) = B := by
  rw [← Matrix.mul_assoc, Matrix.mul_nonsing_inv A h, Matrix.one_mul]

theorem one_quad (c : F → ℝ) : ∑ f, ∑ g, c f * (1 : Matrix F F ℝ) f g * c g = ∑ f, c f ^ 2 := by
  refine sum_congr rfl fun f _ => ?_
  simp [Matrix.one_apply, sq]

theorem linear_unit (xs : Matrix I D ℝ) {eta : ℝ} (heta : 0 < eta) : IsUnit (xsᵀ * xs + eta • (1 : Matrix D D ℝ)).det := by
  refine isUnit_of_ker fun c hc => ?_
  have h := gram_quad xs (1 : Matrix D D ℝ) eta c
  rw [hc, dotProduct_zero, one_quad] at h
  have h1 : 0 ≤ ∑ i, ((xs *ᵥ c) i) ^ 2 := sum_nonneg fun _ _ => sq_nonneg _
  have h2 : 0 ≤ ∑ f, c f ^ 2 := sum_nonneg fun _ _ => sq_nonneg _
  have h3 : ∑ f, c f ^ 2 = 0 := by nlinarith
  funext f
  exact pow_eq_zero_iff (two_ne_zero) |>.1 ((sum_eq_zero_iff_of_nonneg fun _ _ => sq_nonneg _).1 h3 f (mem_univ _))

theorem linear_ridge (xs : Matrix I D ℝ) {eta : ℝ} (heta : 0 < eta) : Ridge eta (linear xs eta) 1 1 where
  symm := Matrix.transpose_one
  psd c := by rw [one_quad]; exact sum_nonneg fun _ _ => sq_nonneg _
  pen L := by rw [Matrix.mul_one, ← sq_trace]; rfl
  normal t := by
    have h := solve_eq (linear_unit xs heta) (xsᵀ * t + eta • (1 : Matrix D D ℝ))
    obtain ⟨L, hL⟩ : ∃ L, L = (linear xs eta).solveL t := ⟨_, rfl⟩
    have hL' : (xsᵀ * xs + eta • (1 : Matrix D D ℝ)) * L = xsᵀ * t + eta • (1 : Matrix D D ℝ) := by rw [hL]; exact h
    rw [← hL]
    show xsᵀ * (xs * L - t) + eta • (1 * (L - 1)) = 0
    rw [Matrix.add_mul, Matrix.smul_mul, Matrix.one_mul, Matrix.mul_assoc] at hL'
    rw [Matrix.one_mul, Matrix.mul_sub, smul_sub]
    calc _ = (xsᵀ * (xs * L) + eta • L) - (xsᵀ * t + eta • (1 : Matrix D D ℝ)) := by abel
      _ = 0 := by rw [hL', sub_self]

theorem block_quad (A : Matrix F F ℝ) (B : Matrix Unit Unit ℝ) (c : F ⊕ Unit → ℝ) :
    ∑ f, ∑ g, c f * (Matrix.fromBlocks A 0 0 B) f g * c g = ∑ f, ∑ g, c (Sum.inl f) * A f g * c (Sum.inl g) + B () () * c (Sum.inr ()) ^ 2 := by
  simp only [Fintype.sum_sum_type, Matrix.fromBlocks_apply₁₁, Matrix.fromBlocks_apply₁₂, Matrix.fromBlocks_apply₂₁, Matrix.fromBlocks_apply₂₂, Matrix.zero_apply,
    mul_zero, zero_mul, sum_const_zero, add_zero, zero_add, univ_unique, sum_singleton]
  congr 1
  have : (default : Unit) = () := rfl
  rw [this]; ring

theorem withOne_mulVec (x : Matrix I F ℝ) (c : F ⊕ Unit → ℝ) (i : I) : (withOne x *ᵥ c) i = ∑ f, x i f * c (Sum.inl f) + c (Sum.inr ()) := by
  simp only [mulVec, dotProduct, Fintype.sum_sum_type, univ_unique, sum_singleton]
  show ∑ f, x i f * c (Sum.inl f) + 1 * c (Sum.inr ()) = _
  rw [one_mul]

theorem linearBias_unit [Nonempty I] (xs : Matrix I D ℝ) {eta : ℝ} (heta : 0 < eta) :
    IsUnit ((withOne xs)ᵀ * withOne xs + eta • (Matrix.fromBlocks 1 0 0 0 : Matrix (D ⊕ Unit) (D ⊕ Unit) ℝ)).det := by
  refine isUnit_of_ker fun c hc => ?_
  have h := gram_quad (withOne xs) (Matrix.fromBlocks 1 0 0 0 : Matrix (D ⊕ Unit) (D ⊕ Unit) ℝ) eta c
  rw [hc, dotProduct_zero, block_quad, one_quad, Matrix.zero_apply, zero_mul, add_zero] at h
  have h1 : 0 ≤ ∑ i, ((withOne xs *ᵥ c) i) ^ 2 := sum_nonneg fun _ _ => sq_nonneg _
  have h2 : 0 ≤ ∑ f, c (Sum.inl f) ^ 2 := sum_nonneg fun _ _ => sq_nonneg _
  have h3 : ∑ f, c (Sum.inl f) ^ 2 = 0 := by nlinarith
  have h4 : ∑ i, ((withOne xs *ᵥ c) i) ^ 2 = 0 := by rw [h3] at h; linarith
  have h5 : ∀ f, c (Sum.inl f) = 0 := fun f =>
    pow_eq_zero_iff (two_ne_zero) |>.1 ((sum_eq_zero_iff_of_nonneg fun _ _ => sq_nonneg _).1 h3 f (mem_univ _))
  obtain ⟨i⟩ := ‹Nonempty I›
  have h6 := pow_eq_zero_iff (two_ne_zero) |>.1 ((sum_eq_zero_iff_of_nonneg fun _ _ => sq_nonneg _).1 h4 i (mem_univ _))
  rw [withOne_mulVec] at h6
  simp only [h5, mul_zero, sum_const_zero, zero_add] at h6
  funext f
  rcases f with f | f
  · exact h5 f
  · exact h6

theorem linearBias_ridge [Nonempty I] (xs : Matrix I D ℝ) {eta : ℝ} (heta : 0 < eta) :
    Ridge eta (linearBias xs eta) (Matrix.fromBlocks 1 0 0 0) (Matrix.fromRows 1 0) where
  symm := by rw [Matrix.fromBlocks_transpose]; simp
  psd c := by
    rw [block_quad, one_quad, Matrix.zero_apply, zero_mul, add_zero]; exact sum_nonneg fun _ _ => sq_nonneg _
  pen L := by
    rw [quad_trace]
    show ∑ d, ∑ e, ((L - (Matrix.fromRows 1 0 : Matrix (D ⊕ Unit) D ℝ)) (Sum.inl d) e) ^ 2 = _
    rw [sum_comm]
    refine sum_congr rfl fun e _ => ?_
    have := block_quad (F := D) 1 0 fun f => (L - (Matrix.fromRows 1 0 : Matrix (D ⊕ Unit) D ℝ)) f e
    rw [this, Matrix.zero_apply, zero_mul, add_zero, one_quad]
  normal t := by
    have h := solve_eq (linearBias_unit xs heta) ((withOne xs)ᵀ * t + eta • (Matrix.fromRows 1 0 : Matrix (D ⊕ Unit) D ℝ))
    obtain ⟨L, hL⟩ : ∃ L, L = (linearBias xs eta).solveL t := ⟨_, rfl⟩
    obtain ⟨Id, hId⟩ : ∃ Id : Matrix (D ⊕ Unit) (D ⊕ Unit) ℝ, Id = Matrix.fromBlocks 1 0 0 0 := ⟨_, rfl⟩
    have hL' : ((withOne xs)ᵀ * withOne xs + eta • Id) * L = (withOne xs)ᵀ * t + eta • (Matrix.fromRows 1 0 : Matrix (D ⊕ Unit) D ℝ) := by rw [hL, hId]; exact h
    have hI0 : Id * (Matrix.fromRows 1 0 : Matrix (D ⊕ Unit) D ℝ) = Matrix.fromRows 1 0 := by
      rw [hId, Matrix.fromBlocks_mul_fromRows]; simp
    rw [← hL, ← hId]
    show (withOne xs)ᵀ * (withOne xs * L - t) + eta • (Id * (L - Matrix.fromRows 1 0)) = 0
    rw [Matrix.add_mul, Matrix.smul_mul, Matrix.mul_assoc] at hL'
    rw [Matrix.mul_sub, Matrix.mul_sub, hI0, smul_sub]
    calc _ = ((withOne xs)ᵀ * (withOne xs * L) + eta • (Id * L)) - ((withOne xs)ᵀ * t + eta • (Matrix.fromRows 1 0 : Matrix (D ⊕ Unit) D ℝ)) := by abel
      _ = 0 := by rw [hL', sub_self]

theorem kernel_unit (xs : Matrix I D ℝ) (sigma : ℝ) {eta : ℝ} (heta : 0 < eta) : IsUnit (kern xs sigma + eta • (1 : Matrix I I ℝ)).det := by
  refine isUnit_of_ker fun c hc => ?_
  have h := congrArg (fun y => c ⬝ᵥ y) hc
  rw [dotProduct_zero, Matrix.add_mulVec, dotProduct_add, Matrix.smul_mulVec, dotProduct_smul, smul_eq_mul, Matrix.one_mulVec] at h
  have h1 : c ⬝ᵥ kern xs sigma *ᵥ c = ∑ i, ∑ k, c i * kern xs sigma i k * c k := by
    simp only [dotProduct, mulVec, mul_sum]
    exact sum_congr rfl fun f _ => sum_congr rfl fun g _ => by ring
  have h2 : c ⬝ᵥ c = ∑ f, c f ^ 2 := by simp [dotProduct, sq]
  rw [h1, h2] at h
  have h3 := kern_quad xs sigma c
  have h4 : 0 ≤ ∑ f, c f ^ 2 := sum_nonneg fun _ _ => sq_nonneg _
  have h5 : ∑ f, c f ^ 2 = 0 := by nlinarith
  funext f
  exact pow_eq_zero_iff (two_ne_zero) |>.1 ((sum_eq_zero_iff_of_nonneg fun _ _ => sq_nonneg _).1 h5 f (mem_univ _))

theorem kernel_ridge (xs : Matrix I D ℝ) (sigma : ℝ) {eta : ℝ} (heta : 0 < eta) : Ridge eta (kernel xs sigma eta) (kern xs sigma) 0 where
  symm := kern_symm xs sigma
  psd := kern_quad xs sigma
  pen L := by rw [sub_zero]; rfl
  normal t := by
    have h := solve_eq (kernel_unit xs sigma heta) t
    obtain ⟨L, hL⟩ : ∃ L, L = (kernel xs sigma eta).solveL t := ⟨_, rfl⟩
    have hL' : (kern xs sigma + eta • (1 : Matrix I I ℝ)) * L = t := by rw [hL]; exact h
    rw [← hL]
    show (kern xs sigma)ᵀ * (kern xs sigma * L - t) + eta • (kern xs sigma * (L - 0)) = 0
    rw [kern_symm, sub_zero, ← Matrix.mul_smul, ← Matrix.mul_add, ← hL', Matrix.add_mul, Matrix.smul_mul, Matrix.one_mul]
    rw [show kern xs sigma * L - (kern xs sigma * L + eta • L) + eta • L = 0 from by abel, Matrix.mul_zero]

theorem kernelBias_ridge (xs : Matrix I D ℝ) (sigma : ℝ) {eta : ℝ}
    (hu : IsUnit ((withOne (kern xs sigma))ᵀ * withOne (kern xs sigma) + eta • (Matrix.fromBlocks (kern xs sigma) 0 0 1 : Matrix (I ⊕ Unit) (I ⊕ Unit) ℝ)).det) :
    Ridge eta (kernelBias xs sigma eta) (Matrix.fromBlocks (kern xs sigma) 0 0 1) 0 where
  symm := by rw [Matrix.fromBlocks_transpose, kern_symm]; simp
  psd c := by
    rw [block_quad]
    have h1 := kern_quad xs sigma fun i => c (Sum.inl i)
    have h2 := sq_nonneg (c (Sum.inr ()))
    rw [Matrix.one_apply_eq, one_mul]
    exact add_nonneg h1 h2
  pen L := by rw [sub_zero]; rfl
  normal t := by
    have h := solve_eq hu ((withOne (kern xs sigma))ᵀ * t)
    obtain ⟨L, hL⟩ : ∃ L, L = (kernelBias xs sigma eta).solveL t := ⟨_, rfl⟩
    obtain ⟨Kp, hKp⟩ : ∃ Kp : Matrix (I ⊕ Unit) (I ⊕ Unit) ℝ, Kp = Matrix.fromBlocks (kern xs sigma) 0 0 1 := ⟨_, rfl⟩
    obtain ⟨K1, hK1⟩ : ∃ K1, K1 = withOne (kern xs sigma) := ⟨_, rfl⟩
    have hL' : (K1ᵀ * K1 + eta • Kp) * L = K1ᵀ * t := by rw [hL, hKp, hK1]; exact h
    rw [← hL, ← hKp]
    show (withOne (kern xs sigma))ᵀ * (withOne (kern xs sigma) * L - t) + eta • (Kp * (L - 0)) = 0
    rw [← hK1]
    rw [Matrix.add_mul, Matrix.smul_mul, Matrix.mul_assoc] at hL'
    rw [Matrix.mul_sub, sub_zero]
    calc _ = (K1ᵀ * (K1 * L) + eta • (Kp * L)) - K1ᵀ * t := by abel
      _ = 0 := by rw [hL', sub_self]

end POT.Mapping
