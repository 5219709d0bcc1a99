import Verif.Model.Gromov
import Verif.Spec.Gromov
import Verif.Lemmas.Transport
import Mathlib.Tactic.LinearCombination

/-! # Bilinear form behind the Gromov-Wasserstein energy -/

set_option linter.unusedSectionVars false

namespace POT.Gromov

open Finset Spec

variable {R : Type*} [Field R]
variable {I J : Type*} [Fintype I] [Fintype J]

/-- The loss a decomposition stands for. -/
def Decomp.loss (D : Decomp R) (a b : R) : R := D.f1 a + D.f2 b - D.h1 a * D.h2 b

/-- `∑ L(C1_ik, C2_jl) S_ij T_kl` -/
def gwB (L : R → R → R) (C1 : I → I → R) (C2 : J → J → R) (S T : I → J → R) : R :=
  ∑ i, ∑ j, ∑ k, ∑ l, L (C1 i k) (C2 j l) * S i j * T k l

theorem gwEnergy_eq (L : R → R → R) (C1 : I → I → R) (C2 : J → J → R) (T : I → J → R) :
    gwEnergy L C1 C2 T = gwB L C1 C2 T T := rfl

theorem gwB_add_left (L : R → R → R) (C1 : I → I → R) (C2 : J → J → R) (S S' T : I → J → R) :
    gwB L C1 C2 (fun i j => S i j + S' i j) T = gwB L C1 C2 S T + gwB L C1 C2 S' T := by
  simp only [gwB, ← sum_add_distrib]
  refine sum_congr rfl fun i _ => sum_congr rfl fun j _ => sum_congr rfl fun k _ => sum_congr rfl fun l _ => ?_
  ring

theorem gwB_add_right (L : R → R → R) (C1 : I → I → R) (C2 : J → J → R) (S T T' : I → J → R) :
    gwB L C1 C2 S (fun i j => T i j + T' i j) = gwB L C1 C2 S T + gwB L C1 C2 S T' := by
  simp only [gwB, ← sum_add_distrib]
  refine sum_congr rfl fun i _ => sum_congr rfl fun j _ => sum_congr rfl fun k _ => sum_congr rfl fun l _ => ?_
  ring

theorem gwB_smul_left (L : R → R → R) (C1 : I → I → R) (C2 : J → J → R) (t : R) (S T : I → J → R) :
    gwB L C1 C2 (fun i j => t * S i j) T = t * gwB L C1 C2 S T := by
  simp only [gwB, mul_sum]
  refine sum_congr rfl fun i _ => sum_congr rfl fun j _ => sum_congr rfl fun k _ => sum_congr rfl fun l _ => ?_
  ring

theorem gwB_smul_right (L : R → R → R) (C1 : I → I → R) (C2 : J → J → R) (t : R) (S T : I → J → R) :
    gwB L C1 C2 S (fun i j => t * T i j) = t * gwB L C1 C2 S T := by
  simp only [gwB, mul_sum]
  refine sum_congr rfl fun i _ => sum_congr rfl fun j _ => sum_congr rfl fun k _ => sum_congr rfl fun l _ => ?_
  ring

/-- transposing both structures swaps the arguments -/
theorem gwB_tr (L : R → R → R) (C1 : I → I → R) (C2 : J → J → R) (S T : I → J → R) :
    gwB L (tr C1) (tr C2) S T = gwB L C1 C2 T S := by
  unfold gwB tr
  have h : ∀ f : I → J → I → J → R, ∑ i, ∑ j, ∑ k, ∑ l, f i j k l = ∑ k, ∑ l, ∑ i, ∑ j, f i j k l := by
    intro f
    have e1 : ∀ i, ∑ j, ∑ k, ∑ l, f i j k l = ∑ k, ∑ l, ∑ j, f i j k l := fun i => by
      rw [sum_comm]; exact sum_congr rfl fun k _ => sum_comm
    simp only [e1]
    rw [sum_comm]
    exact sum_congr rfl fun k _ => sum_comm
  rw [h]
  refine sum_congr rfl fun i _ => sum_congr rfl fun j _ => sum_congr rfl fun k _ => sum_congr rfl fun l _ => ?_
  ring

theorem gwB_symm (L : R → R → R) {C1 : I → I → R} {C2 : J → J → R} (h1 : ∀ i k, C1 i k = C1 k i)
    (h2 : ∀ j l, C2 j l = C2 l j) (S T : I → J → R) : gwB L C1 C2 S T = gwB L C1 C2 T S := by
  have e1 : tr C1 = C1 := by funext i k; exact (h1 i k).symm
  have e2 : tr C2 = C2 := by funext i k; exact (h2 i k).symm
  conv_lhs => rw [← e1, ← e2]
  exact gwB_tr L C1 C2 S T

/-- energy along a line -/
theorem gwEnergy_line (L : R → R → R) (C1 : I → I → R) (C2 : J → J → R) (T Δ : I → J → R) (t : R) :
    gwEnergy L C1 C2 (fun i j => T i j + t * Δ i j) =
      gwEnergy L C1 C2 T + t * (gwB L C1 C2 Δ T + gwB L C1 C2 T Δ) + t ^ 2 * gwEnergy L C1 C2 Δ := by
  simp only [gwEnergy_eq]
  rw [gwB_add_left, gwB_add_right, gwB_add_right, gwB_smul_left, gwB_smul_left, gwB_smul_right, gwB_smul_right]
  ring

/-- The tensor computed from the marginals of `T`, paired with `S`. -/
theorem pair_tensor (D : Decomp R) (C1 : I → I → R) (C2 : J → J → R) (T S : I → J → R) :
    ∑ i, ∑ j, tensorProduct (constC (mapM D.f1 C1) (mapM D.f2 C2) (rowSum T) (colSum T))
      (mapM D.h1 C1) (mapM D.h2 C2) T i j * S i j = gwB D.loss C1 C2 S T := by
  unfold gwB
  refine sum_congr rfl fun i _ => sum_congr rfl fun j _ => ?_
  have h1 : ∑ k, ∑ l, D.f1 (C1 i k) * S i j * T k l = (∑ k, D.f1 (C1 i k) * ∑ l, T k l) * S i j := by
    rw [sum_mul]
    refine sum_congr rfl fun k _ => ?_
    rw [mul_sum, sum_mul]
    exact sum_congr rfl fun l _ => by ring
  have h2 : ∑ k, ∑ l, D.f2 (C2 j l) * S i j * T k l = (∑ l, (∑ k, T k l) * D.f2 (C2 j l)) * S i j := by
    rw [sum_comm, sum_mul]
    refine sum_congr rfl fun l _ => ?_
    rw [sum_mul, sum_mul]
    exact sum_congr rfl fun k _ => by ring
  have h3 : ∑ k, ∑ l, D.h1 (C1 i k) * D.h2 (C2 j l) * S i j * T k l
      = (∑ l, (∑ k, D.h1 (C1 i k) * T k l) * D.h2 (C2 j l)) * S i j := by
    rw [sum_comm, sum_mul]
    refine sum_congr rfl fun l _ => ?_
    rw [sum_mul, sum_mul]
    exact sum_congr rfl fun k _ => by ring
  have h4 : ∑ k, ∑ l, D.loss (C1 i k) (C2 j l) * S i j * T k l
      = ∑ k, ∑ l, D.f1 (C1 i k) * S i j * T k l + ∑ k, ∑ l, D.f2 (C2 j l) * S i j * T k l
        - ∑ k, ∑ l, D.h1 (C1 i k) * D.h2 (C2 j l) * S i j * T k l := by
    simp only [← sum_add_distrib, ← sum_sub_distrib]
    refine sum_congr rfl fun k _ => sum_congr rfl fun l _ => ?_
    unfold Decomp.loss; ring
  rw [h4, h1, h2, h3]
  simp only [tensorProduct, constC, dot3, mapM, rowSum, colSum]
  ring

/-- Same with the marginals given separately. -/
theorem pair_tensor' (D : Decomp R) (C1 : I → I → R) (C2 : J → J → R) {p : I → R} {q : J → R}
    {T : I → J → R} (hp : ∀ i, ∑ j, T i j = p i) (hq : ∀ j, ∑ i, T i j = q j) (S : I → J → R) :
    ∑ i, ∑ j, tensorProduct (constC (mapM D.f1 C1) (mapM D.f2 C2) p q)
      (mapM D.h1 C1) (mapM D.h2 C2) T i j * S i j = gwB D.loss C1 C2 S T := by
  rw [← pair_tensor]
  have e1 : rowSum T = p := funext hp
  have e2 : colSum T = q := funext hq
  rw [e1, e2]

theorem gwF_eq (D : Decomp R) (C1 : I → I → R) (C2 : J → J → R) {p : I → R} {q : J → R}
    {T : I → J → R} (hp : ∀ i, ∑ j, T i j = p i) (hq : ∀ j, ∑ i, T i j = q j) :
    gwF D C1 C2 p q T = gwEnergy D.loss C1 C2 T := pair_tensor' D C1 C2 hp hq T

theorem pgF_eq (D : Decomp R) (C1 : I → I → R) (C2 : J → J → R) (T : I → J → R) :
    pgF D C1 C2 T = gwEnergy D.loss C1 C2 T := pair_tensor D C1 C2 T T

theorem srF_eq (D : Decomp R) (C1 : I → I → R) (C2 : J → J → R) {p : I → R}
    {T : I → J → R} (hp : ∀ i, ∑ j, T i j = p i) :
    srF D C1 C2 p T = gwEnergy D.loss C1 C2 T := pair_tensor' D C1 C2 hp (fun _ => rfl) T

theorem srConst_eq (fC1 : I → I → R) (fC2 : J → J → R) (p : I → R) (G : I → J → R) :
    srConst fC1 fC2 p G = constC fC1 fC2 p (colSum G) := rfl

theorem inner_grad [CharZero R] (symmetric : Bool) (D : Decomp R) (C1 : I → I → R) (C2 : J → J → R) {p : I → R} {q : J → R}
    {T : I → J → R} (hp : ∀ i, ∑ j, T i j = p i) (hq : ∀ j, ∑ i, T i j = q j)
    (hsym : symmetric = true → (∀ i k, C1 i k = C1 k i) ∧ (∀ j l, C2 j l = C2 l j)) (S : I → J → R) :
    ∑ i, ∑ j, gwDf symmetric D C1 C2 p q T i j * S i j = gwB D.loss C1 C2 S T + gwB D.loss C1 C2 T S := by
  have h1 := pair_tensor' D C1 C2 hp hq S
  cases symmetric
  · have h2 := pair_tensor' D (tr C1) (tr C2) hp hq S
    rw [gwB_tr] at h2
    rw [← h1, ← h2]
    simp only [gwDf, gwggrad, Bool.false_eq_true, if_false, ← sum_add_distrib]
    refine sum_congr rfl fun i _ => sum_congr rfl fun j _ => ?_
    field_simp
  · obtain ⟨hs1, hs2⟩ := hsym rfl
    rw [gwB_symm D.loss hs1 hs2 T S, ← h1]
    simp only [gwDf, gwggrad, if_true, ← sum_add_distrib]
    refine sum_congr rfl fun i _ => sum_congr rfl fun j _ => ?_
    ring

theorem inner_srDf [CharZero R] (symmetric : Bool) (D : Decomp R) (C1 : I → I → R) (C2 : J → J → R) {p : I → R}
    {T : I → J → R} (hp : ∀ i, ∑ j, T i j = p i)
    (hsym : symmetric = true → (∀ i k, C1 i k = C1 k i) ∧ (∀ j l, C2 j l = C2 l j)) (S : I → J → R) :
    ∑ i, ∑ j, srDf symmetric D C1 C2 p T i j * S i j = gwB D.loss C1 C2 S T + gwB D.loss C1 C2 T S :=
  inner_grad symmetric D C1 C2 hp (q := colSum T) (fun _ => rfl) hsym S

/-- dot3 paired: the cross term. -/
theorem pair_dot3 (D : Decomp R) (C1 : I → I → R) (C2 : J → J → R) (T S : I → J → R) :
    ∑ i, ∑ j, dot3 (mapM D.h1 C1) T (mapM D.h2 C2) i j * S i j
      = ∑ i, ∑ j, constC (mapM D.f1 C1) (mapM D.f2 C2) (rowSum T) (colSum T) i j * S i j
        - gwB D.loss C1 C2 S T := by
  rw [← pair_tensor]
  simp only [← sum_sub_distrib, tensorProduct]
  refine sum_congr rfl fun i _ => sum_congr rfl fun j _ => ?_
  ring

/-- `constC` against an array with zero marginals vanishes. -/
theorem pair_const_zero (fC1 : I → I → R) (fC2 : J → J → R) (p : I → R) (q : J → R) {S : I → J → R}
    (hr : ∀ i, ∑ j, S i j = 0) (hc : ∀ j, ∑ i, S i j = 0) :
    ∑ i, ∑ j, constC fC1 fC2 p q i j * S i j = 0 := by
  have := sum_add_mul (fun i => ∑ k, fC1 i k * p k) (fun j => ∑ l, q l * fC2 j l) S
  simp only [hr, hc, mul_zero, sum_const_zero, add_zero] at this
  rw [← this]
  refine sum_congr rfl fun i _ => sum_congr rfl fun j _ => ?_
  simp only [constC]; ring

theorem constC_zero (fC1 : I → I → R) (fC2 : J → J → R) {S : I → J → R}
    (hr : ∀ i, ∑ j, S i j = 0) (hc : ∀ j, ∑ i, S i j = 0) :
    constC fC1 fC2 (rowSum S) (colSum S) = fun _ _ => 0 := by
  funext i j
  simp [constC, rowSum, colSum, hr, hc]

/-- The quadratic of the balanced line search. -/
theorem linesearch_quadratic [CharZero R] (symmetric : Bool) (D : Decomp R) (C1 : I → I → R) (C2 : J → J → R)
    (hsym : symmetric = true → (∀ i k, C1 i k = C1 k i) ∧ (∀ j l, C2 j l = C2 l j))
    (M : I → J → R) (reg : R) (G Δ : I → J → R) (hr : ∀ i, ∑ j, Δ i j = 0) (hc : ∀ j, ∑ i, Δ i j = 0) (t : R) :
    inner M (fun i j => G i j + t * Δ i j) + reg * gwEnergy D.loss C1 C2 (fun i j => G i j + t * Δ i j)
      = inner M G + reg * gwEnergy D.loss C1 C2 G
        + (linesearchCoef symmetric (mapM D.h1 C1) (mapM D.h2 C2) M reg G Δ).1 * t ^ 2
        + (linesearchCoef symmetric (mapM D.h1 C1) (mapM D.h2 C2) M reg G Δ).2 * t := by
  have hM : inner M (fun i j => G i j + t * Δ i j) = inner M G + t * inner M Δ := by
    simp only [inner, mul_add, sum_add_distrib, mul_sum]
    congr 1
    refine sum_congr rfl fun i _ => sum_congr rfl fun j _ => by ring
  rw [hM, gwEnergy_line]
  have hΔΔ := pair_dot3 D C1 C2 Δ Δ
  have hΔG := pair_dot3 D C1 C2 Δ G
  have hGΔ := pair_dot3 D C1 C2 G Δ
  rw [pair_const_zero _ _ _ _ hr hc] at hΔΔ hGΔ
  rw [constC_zero _ _ hr hc] at hΔG
  simp only [zero_mul, sum_const_zero] at hΔG
  rw [gwEnergy_eq D.loss C1 C2 Δ]
  cases symmetric
  · simp only [linesearchCoef, Bool.false_eq_true, if_false, hΔΔ, hΔG, hGΔ]
    unfold inner
    ring
  · obtain ⟨hs1, hs2⟩ := hsym rfl
    have hsy := gwB_symm D.loss hs1 hs2 G Δ
    simp only [linesearchCoef, if_true, hΔΔ, hΔG]
    rw [hsy]
    unfold inner
    ring

theorem inner_line (M G Δ : I → J → R) (t : R) :
    inner M (fun i j => G i j + t * Δ i j) = inner M G + t * inner M Δ := by
  simp only [inner, mul_add, sum_add_distrib, mul_sum]
  congr 1
  refine sum_congr rfl fun i _ => sum_congr rfl fun j _ => by ring

/-- The quadratic of the semi-relaxed line search. -/
theorem srLinesearch_quadratic (D : Decomp R) (C1 : I → I → R) (C2 : J → J → R)
    (M : I → J → R) (reg : R) (G Δ : I → J → R) (hr : ∀ i, ∑ j, Δ i j = 0) (t : R) :
    inner M (fun i j => G i j + t * Δ i j) + reg * gwEnergy D.loss C1 C2 (fun i j => G i j + t * Δ i j)
      = inner M G + reg * gwEnergy D.loss C1 C2 G
        + (srLinesearchCoef (mapM D.h1 C1) (mapM D.h2 C2) (mapM D.f2 C2) M reg G Δ).1 * t ^ 2
        + (srLinesearchCoef (mapM D.h1 C1) (mapM D.h2 C2) (mapM D.f2 C2) M reg G Δ).2 * t := by
  rw [inner_line, gwEnergy_line]
  have hd : ∀ S : I → J → R, ∑ i, ∑ j, ((∑ l, 1 * colSum Δ l * mapM D.f2 C2 j l)
      - dot3 (mapM D.h1 C1) Δ (mapM D.h2 C2) i j) * S i j = gwB D.loss C1 C2 S Δ := by
    intro S
    rw [← pair_tensor]
    refine sum_congr rfl fun i _ => sum_congr rfl fun j _ => ?_
    simp only [tensorProduct, constC, rowSum, hr, mul_zero, sum_const_zero, zero_mul, zero_add, one_mul]
    ring
  have hg : ∑ i, ∑ j, ((∑ l, 1 * colSum G l * mapM D.f2 C2 j l)
      - dot3 (mapM D.h1 C1) G (mapM D.h2 C2) i j) * Δ i j = gwB D.loss C1 C2 Δ G := by
    rw [← pair_tensor]
    have hz : ∑ i, ∑ j, (∑ k, mapM D.f1 C1 i k * rowSum G k) * Δ i j = 0 := by
      refine sum_eq_zero fun i _ => ?_
      rw [← mul_sum, hr, mul_zero]
    rw [← add_zero (∑ i, ∑ j, _), ← hz]
    simp only [← sum_add_distrib]
    refine sum_congr rfl fun i _ => sum_congr rfl fun j _ => ?_
    simp only [tensorProduct, constC, one_mul]
    ring
  simp only [srLinesearchCoef, hd, hg]
  rw [gwEnergy_eq D.loss C1 C2 Δ]
  unfold inner
  ring

theorem rowSum_line (G Δ : I → J → R) (t : R) :
    rowSum (fun i j => G i j + t * Δ i j) = fun i => rowSum G i + t * rowSum Δ i := by
  funext i; simp only [rowSum, sum_add_distrib, mul_sum]

theorem colSum_line (G Δ : I → J → R) (t : R) :
    colSum (fun i j => G i j + t * Δ i j) = fun i => colSum G i + t * colSum Δ i := by
  funext i; simp only [colSum, sum_add_distrib, mul_sum]

theorem tensor_line (f1 : I → I → R) (f2 : J → J → R) (h1 : I → I → R) (h2 : J → J → R) (G Δ : I → J → R) (t : R) (i : I) (j : J) :
    tensorProduct (constC f1 f2 (rowSum (fun i j => G i j + t * Δ i j)) (colSum (fun i j => G i j + t * Δ i j))) h1 h2
      (fun i j => G i j + t * Δ i j) i j
    = tensorProduct (constC f1 f2 (rowSum G) (colSum G)) h1 h2 G i j
      + t * tensorProduct (constC f1 f2 (rowSum Δ) (colSum Δ)) h1 h2 Δ i j := by
  rw [rowSum_line, colSum_line]
  have e1 : ∑ k, f1 i k * (rowSum G k + t * rowSum Δ k) = ∑ k, f1 i k * rowSum G k + t * ∑ k, f1 i k * rowSum Δ k := by
    rw [mul_sum, ← sum_add_distrib]; exact sum_congr rfl fun k _ => by ring
  have e2 : ∑ l, (colSum G l + t * colSum Δ l) * f2 j l = ∑ l, colSum G l * f2 j l + t * ∑ l, colSum Δ l * f2 j l := by
    rw [mul_sum, ← sum_add_distrib]; exact sum_congr rfl fun k _ => by ring
  have e3 : dot3 h1 (fun i j => G i j + t * Δ i j) h2 i j = dot3 h1 G h2 i j + t * dot3 h1 Δ h2 i j := by
    unfold dot3
    rw [mul_sum, ← sum_add_distrib]
    refine sum_congr rfl fun l _ => ?_
    have : ∑ k, h1 i k * (G k l + t * Δ k l) = ∑ k, h1 i k * G k l + t * ∑ k, h1 i k * Δ k l := by
      rw [mul_sum, ← sum_add_distrib]; exact sum_congr rfl fun k _ => by ring
    rw [this]; ring
  simp only [tensorProduct, constC, e1, e2, e3]
  ring

/-- the partial gradient is linear in the plan -/
theorem pgDf_line (symmetric : Bool) (D : Decomp R) (C1 : I → I → R) (C2 : J → J → R) (G Δ : I → J → R) (t : R) (i : I) (j : J) :
    pgDf symmetric D C1 C2 (fun i j => G i j + t * Δ i j) i j
      = pgDf symmetric D C1 C2 G i j + t * pgDf symmetric D C1 C2 Δ i j := by
  cases symmetric
  · simp only [pgDf, gwDf, gwggrad, Bool.false_eq_true, if_false, tensor_line]
    ring
  · simp only [pgDf, gwDf, gwggrad, if_true, tensor_line]
    ring

theorem pgDf_candidate (symmetric : Bool) (D : Decomp R) (C1 : I → I → R) (C2 : J → J → R) (G Δ : I → J → R) :
    (fun i j => pgDf symmetric D C1 C2 (fun i j => Δ i j + G i j) i j - pgDf symmetric D C1 C2 G i j)
      = pgDf symmetric D C1 C2 Δ := by
  funext i j
  have := pgDf_line symmetric D C1 C2 G Δ 1 i j
  have e : (fun i j => Δ i j + G i j) = fun i j => G i j + 1 * Δ i j := by
    funext i j; ring
  rw [e, this]; ring

theorem inner_pgDf [CharZero R] (symmetric : Bool) (D : Decomp R) (C1 : I → I → R) (C2 : J → J → R)
    (T : I → J → R)
    (hsym : symmetric = true → (∀ i k, C1 i k = C1 k i) ∧ (∀ j l, C2 j l = C2 l j)) (S : I → J → R) :
    ∑ i, ∑ j, pgDf symmetric D C1 C2 T i j * S i j = gwB D.loss C1 C2 S T + gwB D.loss C1 C2 T S :=
  inner_grad symmetric D C1 C2 (fun _ => rfl) (fun _ => rfl) hsym S

/-- The quadratic of the partial line search. -/
theorem pgLinesearch_quadratic [CharZero R] (symmetric : Bool) (D : Decomp R) (C1 : I → I → R) (C2 : J → J → R)
    (hsym : symmetric = true → (∀ i k, C1 i k = C1 k i) ∧ (∀ j l, C2 j l = C2 l j))
    (M : I → J → R) (reg : R) (G Δ : I → J → R) (t : R) :
    inner M (fun i j => G i j + t * Δ i j) + reg * gwEnergy D.loss C1 C2 (fun i j => G i j + t * Δ i j)
      = inner M G + reg * gwEnergy D.loss C1 C2 G
        + (pgLinesearchCoef M reg Δ (pgDf symmetric D C1 C2 G)
            (pgDf symmetric D C1 C2 (fun i j => Δ i j + G i j))).1 * t ^ 2
        + (pgLinesearchCoef M reg Δ (pgDf symmetric D C1 C2 G)
            (pgDf symmetric D C1 C2 (fun i j => Δ i j + G i j))).2 * t := by
  rw [inner_line, gwEnergy_line]
  have hc := pgDf_candidate symmetric D C1 C2 G Δ
  simp only [pgLinesearchCoef]
  have h1 : ∑ i, ∑ j, (pgDf symmetric D C1 C2 (fun i j => Δ i j + G i j) i j - pgDf symmetric D C1 C2 G i j) * Δ i j
      = gwB D.loss C1 C2 Δ Δ + gwB D.loss C1 C2 Δ Δ := by
    rw [← inner_pgDf symmetric D C1 C2 Δ hsym Δ, ← hc]
  rw [h1, inner_pgDf symmetric D C1 C2 G hsym Δ, gwEnergy_eq D.loss C1 C2 Δ]
  unfold inner
  field_simp
  ring

end POT.Gromov
