import Verif.Lemmas.GwEntropic
import Mathlib.Analysis.SpecialFunctions.Log.NegMulLog
import Mathlib.Tactic.FinCases

/-! # C87, C88: entropic (fused) Gromov-Wasserstein, balanced and semi-relaxed -/

set_option linter.unusedSectionVars false

namespace POT.Props

open Finset Spec Gromov GwEntropic

variable {I J : Type*} [Fintype I] [Fintype J] [Nonempty I] [Nonempty J]
variable {symmetric : Bool} {D : Decomp ℝ} {C1 : I → I → ℝ} {C2 : J → J → ℝ} {p : I → ℝ} {q : J → ℝ} {M : I → J → ℝ} {α ε : ℝ}
  {sk : (I → J → ℝ) → I → J → ℝ}

/-! ## Curvature -/

/-- C87: the curvature is at most a quarter of the product of the ranges of the two transformed structures. -/
theorem C87_curvature_range {m1 d1 m2 d2 : ℝ} (h1 : ∀ i k, m1 ≤ D.h1 (C1 i k) ∧ D.h1 (C1 i k) ≤ m1 + d1)
    (h2 : ∀ j l, m2 ≤ D.h2 (C2 j l) ∧ D.h2 (C2 j l) ≤ m2 + d2) : CurvatureLe D.loss C1 C2 (d1 * d2 / 4) := by
  intro Δ hr hc
  have h := gwB_osc h1 h2 Δ hr hc
  refine (le_abs_self _).trans (h.trans (le_of_eq (by ring)))

/-- C87, square loss: half the product of the ranges of the two structures. -/
theorem C87_curvature_square {m1 d1 m2 d2 : ℝ} (h1 : ∀ i k, m1 ≤ C1 i k ∧ C1 i k ≤ m1 + d1) (h2 : ∀ j l, m2 ≤ C2 j l ∧ C2 j l ≤ m2 + d2) :
    CurvatureLe sqLoss C1 C2 (d1 * d2 / 2) := by
  have h := C87_curvature_range (D := square) (C1 := C1) (C2 := C2) (m1 := m1) (d1 := d1) (m2 := 2 * m2) (d2 := 2 * d2) h1
    (fun j l => by
      have := h2 j l
      simp only [square]
      exact ⟨by linarith, by linarith⟩)
  rw [square_loss'] at h
  have e : d1 * (2 * d2) / 4 = d1 * d2 / 2 := by ring
  rwa [e] at h

/-- C87: for the square loss between squared Euclidean distances the curvature is nonpositive. -/
theorem C87_curvature_euclidean {X Y : Type*} [Fintype X] [Fintype Y] (x : I → X → ℝ) (y : J → Y → ℝ) :
    CurvatureLe sqLoss (fun i k => ∑ a, (x i a - x k a) ^ 2) (fun j l => ∑ b, (y j b - y l b) ^ 2) 0 := by
  intro Δ hr hc
  rw [← square_loss', gwEnergy_euclid x y hr hc, zero_mul]
  have : 0 ≤ ∑ a, ∑ b, (∑ i, ∑ j, x i a * Δ i j * y j b) ^ 2 := sum_nonneg fun _ _ => sum_nonneg fun _ _ => sq_nonneg _
  linarith

/-- C88: with row sums fixed, half the range of the loss. -/
theorem C88_curvature {m d : ℝ} (h : ∀ i k j l, m ≤ D.loss (C1 i k) (C2 j l) ∧ D.loss (C1 i k) (C2 j l) ≤ m + d) :
    RowCurvatureLe D.loss C1 C2 (d / 2) := fun _ hr => gwEnergy_osc_rows h hr

/-! ## The balanced solver -/

/-- C87: after at least one iteration the plan is a coupling with positive entries, whatever the start. -/
theorem C87_feasible (hp : ∀ i, 0 < p i) (hq : ∀ j, 0 < q j) (hS : ∑ i, p i = ∑ j, q j) (hε : 0 < ε) (hsk : SolvesEntropic p q ε sk)
    (ppa : Bool) (G0 : Option (I → J → ℝ)) {maxIter : ℕ} (hm : 1 ≤ maxIter) {tol : ℝ} (ht : tol < 1) :
    IsCoupling p q (entropicFgw symmetric D C1 C2 p q M α ε ppa sk G0 maxIter tol).T ∧
      ∀ i j, 0 < (entropicFgw symmetric D C1 C2 p q M α ε ppa sk G0 maxIter tol).T i j := by
  obtain ⟨n, rfl⟩ : ∃ n, maxIter = n + 1 := ⟨maxIter - 1, by omega⟩
  unfold entropicFgw
  rw [egwLoop_succ, if_pos (show (1 : ℝ) > tol from ht)]
  exact egwLoop_inv (Inv := fun T => IsCoupling p q T ∧ ∀ i j, 0 < T i j) (fun T _ => step_ok hp hq hS hε hsk ppa T) tol n _
    (step_ok hp hq hS hε hsk ppa _)

/-- C87: the reported `fgw_dist` is the fused cost of the plan and the reported parts add up to it. -/
theorem C87_value {T : I → J → ℝ} (hT : IsCoupling p q T) :
    fgwDist D C1 C2 p q M α T = fgwCost D.loss C1 C2 M α T ∧
    fgwParts D C1 C2 p q M α T = (α * gwEnergy D.loss C1 C2 T, (1 - α) * cost M T) := by
  have e : ∑ i, ∑ j, M i j * T i j = cost M T := by
    unfold cost
    exact sum_congr rfl fun i _ => sum_congr rfl fun j _ => mul_comm _ _
  have h : fgwDist D C1 C2 p q M α T = fgwCost D.loss C1 C2 M α T := by
    unfold fgwDist fgwCost
    rw [gwF_eq D C1 C2 hT.row hT.col, e]
  refine ⟨h, ?_⟩
  unfold fgwParts
  rw [h]
  simp only [fgwCost]
  refine Prod.ext ?_ ?_
  · show (1 - α) * cost M T + α * gwEnergy D.loss C1 C2 T - (1 - α) * cost M T = _
    ring
  · show cost M T * (1 - α) = _
    ring

/-- one projected gradient step -/
theorem pgd_dec (hsym : symmetric = true → (∀ i k, C1 i k = C1 k i) ∧ (∀ j l, C2 j l = C2 l j)) (hp : ∀ i, 0 < p i)
    (hq : ∀ j, 0 < q j) (hS : ∑ i, p i = ∑ j, q j) (hε : 0 < ε) (hsk : SolvesEntropic p q ε sk) {κ : ℝ} (hκ : CurvatureLe D.loss C1 C2 κ)
    (hα : 0 ≤ α) {T : I → J → ℝ} (hT : IsCoupling p q T) :
    fgwEntropic D.loss C1 C2 M α ε (egwStep symmetric D C1 C2 p q M α ε false sk T)
      ≤ fgwEntropic D.loss C1 C2 M α ε T
        - (ε / (2 * ∑ i, p i) - α * κ) * l1dist (egwStep symmetric D C1 C2 p q M α ε false sk T) T ^ 2 := by
  rw [pgd_identity hsym hp hq hS hε hsk hT]
  have hs := step_ok (symmetric := symmetric) (D := D) (C1 := C1) (C2 := C2) (M := M) (α := α) hp hq hS hε hsk false T
  generalize egwStep symmetric D C1 C2 p q M α ε false sk T = T' at *
  have hS0 : 0 < ∑ i, p i := sum_pos (fun i _ => hp i) univ_nonempty
  have h1 := pinsker_plan hT.nonneg hs.2 (total hT) (total hs.1)
  have h2 := hκ _ (zeroRows_sub hT.row hs.1.row) (zeroCols_sub hT.col hs.1.col)
  have h3 := mul_le_mul_of_nonneg_left h2 hα
  rw [l1dist_comm] at h1
  have h4 : ε / (2 * ∑ i, p i) * l1dist T' T ^ 2 ≤ ε * klPlan T T' := by
    have := mul_le_mul_of_nonneg_left h1 (div_nonneg hε.le (by positivity : (0 : ℝ) ≤ 2 * ∑ i, p i))
    have e : ε / (2 * ∑ i, p i) * (2 * (∑ i, p i) * klPlan T T') = ε * klPlan T T' := by field_simp
    rwa [e] at this
  have e5 : κ * (∑ i, ∑ j, |T' i j - T i j|) ^ 2 = κ * l1dist T' T ^ 2 := rfl
  rw [e5] at h3
  linarith [mul_assoc α κ (l1dist T' T ^ 2)]

/-- one proximal step -/
theorem ppa_dec (hsym : symmetric = true → (∀ i k, C1 i k = C1 k i) ∧ (∀ j l, C2 j l = C2 l j)) (hp : ∀ i, 0 < p i)
    (hq : ∀ j, 0 < q j) (hS : ∑ i, p i = ∑ j, q j) (hε : 0 < ε) (hsk : SolvesEntropic p q ε sk) {κ : ℝ} (hκ : CurvatureLe D.loss C1 C2 κ)
    (hα : 0 ≤ α) {T : I → J → ℝ} (hT : IsCoupling p q T) (hpos : ∀ i j, 0 < T i j) :
    fgwCost D.loss C1 C2 M α (egwStep symmetric D C1 C2 p q M α ε true sk T)
      ≤ fgwCost D.loss C1 C2 M α T - (ε / (∑ i, p i) - α * κ) * l1dist (egwStep symmetric D C1 C2 p q M α ε true sk T) T ^ 2 := by
  rw [ppa_identity hsym hp hq hS hε hsk hT hpos]
  have hs := step_ok (symmetric := symmetric) (D := D) (C1 := C1) (C2 := C2) (M := M) (α := α) hp hq hS hε hsk true T
  generalize egwStep symmetric D C1 C2 p q M α ε true sk T = T' at *
  have hS0 : 0 < ∑ i, p i := sum_pos (fun i _ => hp i) univ_nonempty
  have h1 := pinsker_plan hT.nonneg hs.2 (total hT) (total hs.1)
  have h1' := pinsker_plan hs.1.nonneg hpos (total hs.1) (total hT)
  have h2 := hκ _ (zeroRows_sub hT.row hs.1.row) (zeroCols_sub hT.col hs.1.col)
  have h3 := mul_le_mul_of_nonneg_left h2 hα
  rw [l1dist_comm] at h1
  have h4 : ε / (∑ i, p i) * l1dist T' T ^ 2 ≤ ε * (klPlan T T' + klPlan T' T) := by
    have := mul_le_mul_of_nonneg_left (add_le_add h1 h1') (div_nonneg hε.le (by positivity : (0 : ℝ) ≤ 2 * ∑ i, p i))
    have e : ε / (2 * ∑ i, p i) * (2 * (∑ i, p i) * klPlan T T' + 2 * (∑ i, p i) * klPlan T' T) = ε * (klPlan T T' + klPlan T' T) := by field_simp
    rw [e] at this
    refine le_trans (le_of_eq ?_) this
    field_simp
    ring
  have e5 : κ * (∑ i, ∑ j, |T' i j - T i j|) ^ 2 = κ * l1dist T' T ^ 2 := rfl
  rw [e5] at h3
  linarith [mul_assoc α κ (l1dist T' T ^ 2)]

theorem start_ok (hp : ∀ i, 0 < p i) (hq : ∀ j, 0 < q j) (hp1 : ∑ i, p i = 1) (hq1 : ∑ j, q j = 1) :
    IsCoupling p q (start p q none) ∧ ∀ i j, 0 < start p q none i j := by
  refine ⟨⟨fun i j => (mul_pos (hp i) (hq j)).le, fun i => ?_, fun j => ?_⟩, fun i j => mul_pos (hp i) (hq j)⟩
  · show ∑ j, p i * q j = p i
    rw [← mul_sum, hq1, mul_one]
  · show ∑ i, p i * q j = q j
    rw [← sum_mul, hp1, one_mul]

/-- C87, solver PGD: when `2 α κ S ≤ ε`, with `κ` a curvature bound and `S` the total mass, more iterations never increase the regularised objective; in particular the result is at least as good as the start. -/
theorem C87_pgd_monotone (hsym : symmetric = true → (∀ i k, C1 i k = C1 k i) ∧ (∀ j l, C2 j l = C2 l j)) (hp : ∀ i, 0 < p i)
    (hq : ∀ j, 0 < q j) (hS : ∑ i, p i = ∑ j, q j) (hε : 0 < ε) (hsk : SolvesEntropic p q ε sk) {κ : ℝ} (hκ : CurvatureLe D.loss C1 C2 κ)
    (hα : 0 ≤ α) (hc : 2 * (∑ i, p i) * (α * κ) ≤ ε) (G0 : Option (I → J → ℝ)) (h0 : IsCoupling p q (start p q G0)) (tol : ℝ) :
    Antitone (fun n => fgwEntropic D.loss C1 C2 M α ε (entropicFgw symmetric D C1 C2 p q M α ε false sk G0 n tol).T) ∧
    ∀ n, fgwEntropic D.loss C1 C2 M α ε (entropicFgw symmetric D C1 C2 p q M α ε false sk G0 n tol).T
      ≤ fgwEntropic D.loss C1 C2 M α ε (start p q G0) := by
  have hS0 : 0 < ∑ i, p i := sum_pos (fun i _ => hp i) univ_nonempty
  have hc0 : 0 ≤ ε / (2 * ∑ i, p i) - α * κ := by
    rw [sub_nonneg, le_div_iff₀ (by positivity)]; linarith
  have hanti : Antitone (fun n => fgwEntropic D.loss C1 C2 M α ε (egwLoop (egwStep symmetric D C1 C2 p q M α ε false sk) tol n 0 { T := start p q G0, err := 1 }).T) :=
    egwLoop_antitone (Inv := fun T => IsCoupling p q T) (fun T _ => (step_ok hp hq hS hε hsk false T).1)
      (Φ := fun T => fgwEntropic D.loss C1 C2 M α ε T)
      (fun T hT => (pgd_dec hsym hp hq hS hε hsk hκ hα hT).trans (sub_le_self _ (mul_nonneg hc0 (sq_nonneg _)))) tol 0 h0
  refine ⟨hanti, fun n => ?_⟩
  have h := hanti (Nat.zero_le n)
  simp only [egwLoop_zero] at h
  exact h

/-- C87, solver PGD: when `2 α κ S < ε` the stopping test is met after `O(1 / tol^2)` iterations. -/
theorem C87_pgd_stops (hsym : symmetric = true → (∀ i k, C1 i k = C1 k i) ∧ (∀ j l, C2 j l = C2 l j)) (hp : ∀ i, 0 < p i)
    (hq : ∀ j, 0 < q j) (hS : ∑ i, p i = ∑ j, q j) (hε : 0 < ε) (hsk : SolvesEntropic p q ε sk) {κ : ℝ} (hκ : CurvatureLe D.loss C1 C2 κ)
    (hα : 0 ≤ α) (hc : 2 * (∑ i, p i) * (α * κ) < ε) (G0 : Option (I → J → ℝ)) (h0 : IsCoupling p q (start p q G0)) :
    ∃ B : ℝ, ∀ tol : ℝ, 0 < tol → ∀ maxIter : ℕ, B * (1 / tol ^ 2 + 1) ≤ maxIter →
      (entropicFgw symmetric D C1 C2 p q M α ε false sk G0 maxIter tol).err ≤ tol := by
  have hS0 : 0 < ∑ i, p i := sum_pos (fun i _ => hp i) univ_nonempty
  have hc0 : 0 < ε / (2 * ∑ i, p i) - α * κ := by
    rw [sub_pos, lt_div_iff₀ (by positivity)]; linarith
  obtain ⟨B, hB⟩ := fgwEntropic_bound D.loss C1 C2 M α hε p
  obtain ⟨B', hB'⟩ : ∃ B', B' = fgwEntropic D.loss C1 C2 M α ε (start p q G0) + B := ⟨_, rfl⟩
  have hb : ∀ T, IsCoupling p q T → fgwEntropic D.loss C1 C2 M α ε (start p q G0) - fgwEntropic D.loss C1 C2 M α ε T ≤ B' :=
    fun T hT => by rw [hB']; linarith [hB T hT.nonneg hT.row]
  have hB0 : 0 ≤ B' := by have := hb _ h0; linarith
  obtain ⟨c, hcd⟩ : ∃ c, c = ε / (2 * ∑ i, p i) - α * κ := ⟨_, rfl⟩
  rw [← hcd] at hc0
  refine ⟨10 * (B' / c + 1), fun tol htol n hn => ?_⟩
  refine egwLoop_rate (c := c) (B := B') (Inv := fun T => IsCoupling p q T) (Φ := fun T => fgwEntropic D.loss C1 C2 M α ε T) h0
    (fun T _ => (step_ok hp hq hS hε hsk false T).1) hc0 (fun T hT => ?_) hb htol (le_trans ?_ hn)
  · have h := pgd_dec (M := M) hsym hp hq hS hε hsk hκ hα hT
    rw [← hcd] at h
    have := mul_le_mul_of_nonneg_left (frob_le_l1 (egwStep symmetric D C1 C2 p q M α ε false sk T) T) hc0.le
    linarith
  · have hx : 0 ≤ B' / c := div_nonneg hB0 hc0.le
    have ht : 0 < 1 / tol ^ 2 := by positivity
    have e : B' / (c * tol ^ 2) = B' / c * (1 / tol ^ 2) := by field_simp
    rw [e]
    nlinarith

/-- C87, solver PGD: a plan accepted by the stopping test is stationary for the regularised objective up to a multiple of `tol`: the derivative towards every coupling is at most `α d1 d2 S √(nm) tol`. -/
theorem C87_pgd_stationary (hsym : symmetric = true → (∀ i k, C1 i k = C1 k i) ∧ (∀ j l, C2 j l = C2 l j)) (hp : ∀ i, 0 < p i)
    (hq : ∀ j, 0 < q j) (hS : ∑ i, p i = ∑ j, q j) (hε : 0 < ε) (hsk : SolvesEntropic p q ε sk) (hα : 0 ≤ α) {m1 d1 m2 d2 : ℝ}
    (h1 : ∀ i k, m1 ≤ D.h1 (C1 i k) ∧ D.h1 (C1 i k) ≤ m1 + d1) (h2 : ∀ j l, m2 ≤ D.h2 (C2 j l) ∧ D.h2 (C2 j l) ≤ m2 + d2)
    (G0 : Option (I → J → ℝ)) (h0 : IsCoupling p q (start p q G0)) {maxIter : ℕ} {tol : ℝ} (ht : tol < 1)
    (hacc : (entropicFgw symmetric D C1 C2 p q M α ε false sk G0 maxIter tol).err ≤ tol) {Q : I → J → ℝ} (hQ : IsCoupling p q Q) :
    ∃ d, HasDerivAt (fun t => fgwEntropic D.loss C1 C2 M α ε (fun i j =>
        (entropicFgw symmetric D C1 C2 p q M α ε false sk G0 maxIter tol).T i j
          + t * (Q i j - (entropicFgw symmetric D C1 C2 p q M α ε false sk G0 maxIter tol).T i j))) d 0 ∧
      |d| ≤ α * d1 * d2 * (∑ i, p i) * Real.sqrt (Fintype.card I * Fintype.card J) * tol := by
  unfold entropicFgw at *
  obtain ⟨k, -, -, hT', hf⟩ := egwLoop_stop _ tol maxIter 0 _ (show (1 : ℝ) > tol from ht) hacc
  obtain ⟨T, hTd⟩ : ∃ T, T = (egwStep symmetric D C1 C2 p q M α ε false sk)^[k] (start p q G0) := ⟨_, rfl⟩
  have hT : IsCoupling p q T := by
    rw [hTd]
    clear hTd hT' hf
    cases k with
    | zero => exact h0
    | succ k => rw [Function.iterate_succ_apply']; exact (step_ok hp hq hS hε hsk false _).1
  rw [hT']
  simp only [← hTd] at hf ⊢
  clear hT' hTd hacc
  have ho : IsEntropicOptimal p q (fgwGrad symmetric D C1 C2 p q M α T) ε (egwStep symmetric D C1 C2 p q M α ε false sk T) := hsk _
  generalize egwStep symmetric D C1 C2 p q M α ε false sk T = T' at *
  obtain ⟨hpos, x, y, hform⟩ := form_of_optimal hp hq hS hε ho
  have hc' := ho.1
  obtain ⟨Γ, hΓ⟩ : ∃ Γ : I → J → ℝ, Γ = fun i j => Q i j - T' i j := ⟨_, rfl⟩
  have hΓr : ZeroRows Γ := by rw [hΓ]; exact zeroRows_sub hc'.row hQ.row
  have hΓc : ZeroCols Γ := by rw [hΓ]; exact zeroCols_sub hc'.col hQ.col
  have hfun : (fun t => fgwEntropic D.loss C1 C2 M α ε (fun i j => T' i j + t * (Q i j - T' i j)))
      = fun t => (fgwCost D.loss C1 C2 M α T' + t * Spec.inner (fgwGrad symmetric D C1 C2 p q M α T') Γ
        + t ^ 2 * (α * gwEnergy D.loss C1 C2 Γ)) + ε * ∑ i, ∑ j, (T' i j + t * Γ i j) * Real.log (T' i j + t * Γ i j) := by
    funext t
    have := fgw_line symmetric D hsym M α hc'.row hc'.col Γ t
    rw [← this, hΓ]
    rfl
  rw [hfun]
  have hd1 : HasDerivAt (fun t : ℝ => fgwCost D.loss C1 C2 M α T' + t * Spec.inner (fgwGrad symmetric D C1 C2 p q M α T') Γ
        + t ^ 2 * (α * gwEnergy D.loss C1 C2 Γ)) (Spec.inner (fgwGrad symmetric D C1 C2 p q M α T') Γ) 0 := by
    have a := ((hasDerivAt_id (0 : ℝ)).mul_const (Spec.inner (fgwGrad symmetric D C1 C2 p q M α T') Γ)).const_add (fgwCost D.loss C1 C2 M α T')
    have b := ((hasDerivAt_id (0 : ℝ)).pow 2).mul_const (α * gwEnergy D.loss C1 C2 Γ)
    refine (a.add b).congr_deriv ?_
    simp
  have hd2 : HasDerivAt (fun t : ℝ => ∑ i, ∑ j, (T' i j + t * Γ i j) * Real.log (T' i j + t * Γ i j))
      (∑ i, ∑ j, Γ i j * (Real.log (T' i j) + 1)) 0 := by
    refine HasDerivAt.fun_sum fun i _ => HasDerivAt.fun_sum fun j _ => ?_
    have a : HasDerivAt (fun t : ℝ => T' i j + t * Γ i j) (1 * Γ i j) 0 := ((hasDerivAt_id (0 : ℝ)).mul_const (Γ i j)).const_add (T' i j)
    have hne : T' i j + 0 * Γ i j ≠ 0 := by rw [zero_mul, add_zero]; exact (hpos i j).ne'
    refine (a.mul (a.log hne)).congr_deriv ?_
    have := (hpos i j).ne'
    rw [zero_mul, add_zero]
    field_simp
  refine ⟨_, hd1.add (hd2.const_mul ε), ?_⟩
  -- the derivative in terms of the bilinear form
  have hval : Spec.inner (fgwGrad symmetric D C1 C2 p q M α T') Γ + ε * ∑ i, ∑ j, Γ i j * (Real.log (T' i j) + 1)
      = α * (gwB D.loss C1 C2 Γ (fun i j => T' i j - T i j) + gwB D.loss C1 C2 (fun i j => T' i j - T i j) Γ) := by
    have e1 : ε * ∑ i, ∑ j, Γ i j * (Real.log (T' i j) + 1) = -Spec.inner (fgwGrad symmetric D C1 C2 p q M α T) Γ := by
      have : ∑ i, ∑ j, Γ i j * (Real.log (T' i j) + 1) = (∑ i, (x i + 1) * ∑ j, Γ i j) + (∑ j, y j * ∑ i, Γ i j)
          - (∑ i, ∑ j, fgwGrad symmetric D C1 C2 p q M α T i j * Γ i j) / ε := by
        have ey : ∑ j, y j * ∑ i, Γ i j = ∑ i, ∑ j, y j * Γ i j := by
          simp only [mul_sum]; rw [sum_comm]
        rw [ey, sum_div]
        simp only [mul_sum, sum_div, ← sum_add_distrib, ← sum_sub_distrib]
        refine sum_congr rfl fun i _ => sum_congr rfl fun j _ => ?_
        rw [hform]
        ring
      rw [this]
      simp only [hΓr _, hΓc _, mul_zero, sum_const_zero, zero_add, zero_sub, Spec.inner]
      field_simp
    have g1 := inner_grad symmetric D C1 C2 hc'.row hc'.col hsym Γ
    have g2 := inner_grad symmetric D C1 C2 hT.row hT.col hsym Γ
    have e2 : ∀ U : I → J → ℝ, Spec.inner (fgwGrad symmetric D C1 C2 p q M α U) Γ
        = α * (∑ i, ∑ j, gwDf symmetric D C1 C2 p q U i j * Γ i j) + (1 - α) * Spec.inner M Γ := fun U => by
      simp only [Spec.inner, fgwGrad, mul_sum, ← sum_add_distrib]
      exact sum_congr rfl fun i _ => sum_congr rfl fun j _ => by ring
    rw [e1, e2, e2, g1, g2]
    have s1 : gwB D.loss C1 C2 Γ (fun i j => T' i j - T i j) = gwB D.loss C1 C2 Γ T' - gwB D.loss C1 C2 Γ T := by
      have := gwB_add_right D.loss C1 C2 Γ (fun i j => T' i j - T i j) T
      simp only [sub_add_cancel] at this
      linarith
    have s2 : gwB D.loss C1 C2 (fun i j => T' i j - T i j) Γ = gwB D.loss C1 C2 T' Γ - gwB D.loss C1 C2 T Γ := by
      have := gwB_add_left D.loss C1 C2 (fun i j => T' i j - T i j) T Γ
      simp only [sub_add_cancel] at this
      linarith
    rw [s1, s2]
    ring
  rw [hval, abs_mul, abs_of_nonneg hα]
  have hb1 := gwB_osc h1 h2 (fun i j => T' i j - T i j) hΓr hΓc
  have hb2 := gwB_osc h1 h2 Γ (zeroRows_sub hT.row hc'.row) (zeroCols_sub hT.col hc'.col)
  have hl : l1dist T' T ≤ Real.sqrt (Fintype.card I * Fintype.card J) * tol :=
    (l1_le_frob T' T).trans (mul_le_mul_of_nonneg_left hf (Real.sqrt_nonneg _))
  have hΓl : ∑ i, ∑ j, |Γ i j| ≤ 2 * ∑ i, p i := by
    have : ∑ i, ∑ j, |Γ i j| ≤ ∑ i, ∑ j, (Q i j + T' i j) := by
      refine sum_le_sum fun i _ => sum_le_sum fun j _ => ?_
      rw [hΓ]
      refine (abs_sub _ _).trans ?_
      rw [abs_of_nonneg (hQ.nonneg i j), abs_of_pos (hpos i j)]
    refine this.trans (le_of_eq ?_)
    simp only [sum_add_distrib]
    rw [total hQ, total hc']; ring
  have hd12 : 0 ≤ d1 * d2 := by
    obtain ⟨i⟩ := ‹Nonempty I›
    obtain ⟨j⟩ := ‹Nonempty J›
    exact mul_nonneg (by linarith [(h1 i i).1, (h1 i i).2]) (by linarith [(h2 j j).1, (h2 j j).2])
  have hl0 : ∑ i, ∑ j, |T' i j - T i j| ≤ Real.sqrt (Fintype.card I * Fintype.card J) * tol := hl
  have hn0 : 0 ≤ ∑ i, ∑ j, |T' i j - T i j| := l1dist_nonneg T' T
  have hΓ0 : 0 ≤ ∑ i, ∑ j, |Γ i j| := sum_nonneg fun _ _ => sum_nonneg fun _ _ => abs_nonneg _
  have hprod : (∑ i, ∑ j, |Γ i j|) * (∑ i, ∑ j, |T' i j - T i j|) ≤ 2 * (∑ i, p i) * (Real.sqrt (Fintype.card I * Fintype.card J) * tol) :=
    mul_le_mul hΓl hl0 hn0 (hΓ0.trans hΓl)
  have hmul := mul_le_mul_of_nonneg_left hprod hd12
  have hsum : |gwB D.loss C1 C2 Γ (fun i j => T' i j - T i j) + gwB D.loss C1 C2 (fun i j => T' i j - T i j) Γ|
      ≤ d1 * d2 * (∑ i, p i) * (Real.sqrt (Fintype.card I * Fintype.card J) * tol) := by
    refine (abs_add_le _ _).trans ((add_le_add hb1 hb2).trans ?_)
    linarith
  refine (mul_le_mul_of_nonneg_left hsum hα).trans (le_of_eq (by ring))

/-- C87, solver PPA: when `α κ S ≤ ε` more iterations never increase the (unregularised) fused cost. -/
theorem C87_ppa_monotone (hsym : symmetric = true → (∀ i k, C1 i k = C1 k i) ∧ (∀ j l, C2 j l = C2 l j)) (hp : ∀ i, 0 < p i)
    (hq : ∀ j, 0 < q j) (hS : ∑ i, p i = ∑ j, q j) (hε : 0 < ε) (hsk : SolvesEntropic p q ε sk) {κ : ℝ} (hκ : CurvatureLe D.loss C1 C2 κ)
    (hα : 0 ≤ α) (hc : (∑ i, p i) * (α * κ) ≤ ε) (G0 : Option (I → J → ℝ)) (h0 : IsCoupling p q (start p q G0))
    (h0' : ∀ i j, 0 < start p q G0 i j) (tol : ℝ) :
    Antitone (fun n => fgwCost D.loss C1 C2 M α (entropicFgw symmetric D C1 C2 p q M α ε true sk G0 n tol).T) ∧
    ∀ n, fgwCost D.loss C1 C2 M α (entropicFgw symmetric D C1 C2 p q M α ε true sk G0 n tol).T
      ≤ fgwCost D.loss C1 C2 M α (start p q G0) := by
  have hS0 : 0 < ∑ i, p i := sum_pos (fun i _ => hp i) univ_nonempty
  have hc0 : 0 ≤ ε / (∑ i, p i) - α * κ := by
    rw [sub_nonneg, le_div_iff₀ hS0]; linarith
  have hanti : Antitone (fun n => fgwCost D.loss C1 C2 M α (egwLoop (egwStep symmetric D C1 C2 p q M α ε true sk) tol n 0 { T := start p q G0, err := 1 }).T) :=
    egwLoop_antitone (Inv := fun T => IsCoupling p q T ∧ ∀ i j, 0 < T i j) (fun T _ => step_ok hp hq hS hε hsk true T)
      (Φ := fun T => fgwCost D.loss C1 C2 M α T)
      (fun T hT => (ppa_dec hsym hp hq hS hε hsk hκ hα hT.1 hT.2).trans (sub_le_self _ (mul_nonneg hc0 (sq_nonneg _)))) tol 0 ⟨h0, h0'⟩
  refine ⟨hanti, fun n => ?_⟩
  have h := hanti (Nat.zero_le n)
  simp only [egwLoop_zero] at h
  exact h

/-- C87, solver PPA: when `α κ S < ε` the stopping test is met after `O(1 / tol^2)` iterations. -/
theorem C87_ppa_stops (hsym : symmetric = true → (∀ i k, C1 i k = C1 k i) ∧ (∀ j l, C2 j l = C2 l j)) (hp : ∀ i, 0 < p i)
    (hq : ∀ j, 0 < q j) (hS : ∑ i, p i = ∑ j, q j) (hε : 0 < ε) (hsk : SolvesEntropic p q ε sk) {κ : ℝ} (hκ : CurvatureLe D.loss C1 C2 κ)
    (hα : 0 ≤ α) (hc : (∑ i, p i) * (α * κ) < ε) (G0 : Option (I → J → ℝ)) (h0 : IsCoupling p q (start p q G0))
    (h0' : ∀ i j, 0 < start p q G0 i j) :
    ∃ B : ℝ, ∀ tol : ℝ, 0 < tol → ∀ maxIter : ℕ, B * (1 / tol ^ 2 + 1) ≤ maxIter →
      (entropicFgw symmetric D C1 C2 p q M α ε true sk G0 maxIter tol).err ≤ tol := by
  have hS0 : 0 < ∑ i, p i := sum_pos (fun i _ => hp i) univ_nonempty
  have hc0 : 0 < ε / (∑ i, p i) - α * κ := by
    rw [sub_pos, lt_div_iff₀ hS0]; linarith
  obtain ⟨B, hB⟩ := fgwCost_bound D.loss C1 C2 M α p
  obtain ⟨B', hB'⟩ : ∃ B', B' = fgwCost D.loss C1 C2 M α (start p q G0) + B := ⟨_, rfl⟩
  have hb : ∀ T, (IsCoupling p q T ∧ ∀ i j, 0 < T i j) → fgwCost D.loss C1 C2 M α (start p q G0) - fgwCost D.loss C1 C2 M α T ≤ B' :=
    fun T hT => by rw [hB']; linarith [hB T hT.1.nonneg hT.1.row]
  have hB0 : 0 ≤ B' := by have := hb _ ⟨h0, h0'⟩; linarith
  obtain ⟨c, hcd⟩ : ∃ c, c = ε / (∑ i, p i) - α * κ := ⟨_, rfl⟩
  rw [← hcd] at hc0
  refine ⟨10 * (B' / c + 1), fun tol htol n hn => ?_⟩
  refine egwLoop_rate (c := c) (B := B') (Inv := fun T => IsCoupling p q T ∧ ∀ i j, 0 < T i j) (Φ := fun T => fgwCost D.loss C1 C2 M α T)
    ⟨h0, h0'⟩ (fun T _ => step_ok hp hq hS hε hsk true T) hc0 (fun T hT => ?_) hb htol (le_trans ?_ hn)
  · have h := ppa_dec (M := M) hsym hp hq hS hε hsk hκ hα hT.1 hT.2
    rw [← hcd] at h
    have := mul_le_mul_of_nonneg_left (frob_le_l1 (egwStep symmetric D C1 C2 p q M α ε true sk T) T) hc0.le
    linarith
  · have hx : 0 ≤ B' / c := div_nonneg hB0 hc0.le
    have ht : 0 < 1 / tol ^ 2 := by positivity
    have e : B' / (c * tol ^ 2) = B' / c * (1 / tol ^ 2) := by field_simp
    rw [e]
    nlinarith

/-! ## The semi-relaxed solver -/

/-- The start of the semi-relaxed solver. -/
theorem sr_start_ok (hp : ∀ i, 0 < p i) : (∀ i, ∑ j : J, (p i * (1 / Fintype.card J) : ℝ) = p i) ∧ ∀ i, 0 < p i * (1 / (Fintype.card J : ℝ)) := by
  have hc : (0 : ℝ) < Fintype.card J := by exact_mod_cast Fintype.card_pos
  refine ⟨fun i => ?_, fun i => mul_pos (hp i) (by positivity)⟩
  rw [sum_const, card_univ, nsmul_eq_mul]
  field_simp

/-- C88: every plan of a run from a positive start with row sums `p` is positive with row sums `p`; `lin_loss` and `quad_loss` are the two parts of its fused cost. -/
theorem C88_feasible (hp : ∀ i, 0 < p i) (G0 : Option (I → J → ℝ)) (h0 : ∀ G, G0 = some G → (∀ i, ∑ j, G i j = p i) ∧ ∀ i j, 0 < G i j)
    (maxIter : ℕ) (tol : ℝ) :
    (∀ i, ∑ j, (entropicSr symmetric D C1 C2 p M α ε G0 maxIter tol).T i j = p i) ∧
    (∀ i j, 0 < (entropicSr symmetric D C1 C2 p M α ε G0 maxIter tol).T i j) ∧
    srParts D C1 C2 p M α (entropicSr symmetric D C1 C2 p M α ε G0 maxIter tol).T
      = ((1 - α) * cost M (entropicSr symmetric D C1 C2 p M α ε G0 maxIter tol).T,
        α * gwEnergy D.loss C1 C2 (entropicSr symmetric D C1 C2 p M α ε G0 maxIter tol).T) := by
  have hi : (∀ i, ∑ j, (entropicSr symmetric D C1 C2 p M α ε G0 maxIter tol).T i j = p i) ∧
      (∀ i j, 0 < (entropicSr symmetric D C1 C2 p M α ε G0 maxIter tol).T i j) := by
    refine egwLoop_inv (Inv := fun T => (∀ i, ∑ j, T i j = p i) ∧ ∀ i j, 0 < T i j) (fun T hT => ⟨srStep_rows hT.2, srStep_pos hp hT.2⟩) tol maxIter 0 ?_
    cases G0 with
    | none => exact ⟨(sr_start_ok hp).1, fun i _ => (sr_start_ok hp).2 i⟩
    | some G => exact h0 G rfl
  refine ⟨hi.1, hi.2, ?_⟩
  unfold srParts
  rw [srF_eq D C1 C2 hi.1]
  refine Prod.ext ?_ rfl
  simp only [cost]
  rw [mul_comm]
  congr 1
  exact sum_congr rfl fun i _ => sum_congr rfl fun j _ => mul_comm _ _

/-- one mirror descent step -/
theorem sr_dec (hsym : symmetric = true → (∀ i k, C1 i k = C1 k i) ∧ (∀ j l, C2 j l = C2 l j)) (hp : ∀ i, 0 < p i) (hε : 0 < ε)
    {κ : ℝ} (hκ : RowCurvatureLe D.loss C1 C2 κ) (hα : 0 ≤ α) {T : I → J → ℝ} (hrow : ∀ i, ∑ j, T i j = p i) (hpos : ∀ i j, 0 < T i j) :
    fgwCost D.loss C1 C2 M α (srStep symmetric D C1 C2 p M α ε T)
      ≤ fgwCost D.loss C1 C2 M α T - (ε / (∑ i, p i) - α * κ) * l1dist (srStep symmetric D C1 C2 p M α ε T) T ^ 2 := by
  rw [sr_identity hsym hp hε hrow hpos]
  have hs1 : ∀ i, ∑ j, srStep symmetric D C1 C2 p M α ε T i j = p i := srStep_rows hpos
  have hs2 : ∀ i j, 0 < srStep symmetric D C1 C2 p M α ε T i j := srStep_pos hp hpos
  generalize srStep symmetric D C1 C2 p M α ε T = T' at *
  have hS0 : 0 < ∑ i, p i := sum_pos (fun i _ => hp i) univ_nonempty
  have h1 := pinsker_plan (fun i j => (hpos i j).le) hs2 (sum_congr rfl fun i _ => hrow i) (sum_congr rfl fun i _ => hs1 i)
  have h1' := pinsker_plan (fun i j => (hs2 i j).le) hpos (sum_congr rfl fun i _ => hs1 i) (sum_congr rfl fun i _ => hrow i)
  have h2 := hκ _ (zeroRows_sub hrow hs1)
  have h3 := mul_le_mul_of_nonneg_left h2 hα
  rw [l1dist_comm] at h1
  have h4 : ε / (∑ i, p i) * l1dist T' T ^ 2 ≤ ε * (klPlan T T' + klPlan T' T) := by
    have := mul_le_mul_of_nonneg_left (add_le_add h1 h1') (div_nonneg hε.le (by positivity : (0 : ℝ) ≤ 2 * ∑ i, p i))
    have e : ε / (2 * ∑ i, p i) * (2 * (∑ i, p i) * klPlan T T' + 2 * (∑ i, p i) * klPlan T' T) = ε * (klPlan T T' + klPlan T' T) := by field_simp
    rw [e] at this
    refine le_trans (le_of_eq ?_) this
    field_simp
    ring
  have e5 : κ * (∑ i, ∑ j, |T' i j - T i j|) ^ 2 = κ * l1dist T' T ^ 2 := rfl
  rw [e5] at h3
  linarith [mul_assoc α κ (l1dist T' T ^ 2)]

/-- C88: when `α κ S ≤ ε` more iterations never increase the fused cost. -/
theorem C88_monotone (hsym : symmetric = true → (∀ i k, C1 i k = C1 k i) ∧ (∀ j l, C2 j l = C2 l j)) (hp : ∀ i, 0 < p i) (hε : 0 < ε)
    {κ : ℝ} (hκ : RowCurvatureLe D.loss C1 C2 κ) (hα : 0 ≤ α) (hc : (∑ i, p i) * (α * κ) ≤ ε) (G0 : Option (I → J → ℝ))
    (h0 : ∀ G, G0 = some G → (∀ i, ∑ j, G i j = p i) ∧ ∀ i j, 0 < G i j) (tol : ℝ) :
    Antitone fun n => fgwCost D.loss C1 C2 M α (entropicSr symmetric D C1 C2 p M α ε G0 n tol).T := by
  have hS0 : 0 < ∑ i, p i := sum_pos (fun i _ => hp i) univ_nonempty
  have hc0 : 0 ≤ ε / (∑ i, p i) - α * κ := by
    rw [sub_nonneg, le_div_iff₀ hS0]; linarith
  refine egwLoop_antitone (Inv := fun T => (∀ i, ∑ j, T i j = p i) ∧ ∀ i j, 0 < T i j)
    (fun T hT => ⟨srStep_rows hT.2, srStep_pos hp hT.2⟩) (Φ := fun T => fgwCost D.loss C1 C2 M α T)
    (fun T hT => (sr_dec hsym hp hε hκ hα hT.1 hT.2).trans (sub_le_self _ (mul_nonneg hc0 (sq_nonneg _)))) tol 0 ?_
  cases G0 with
  | none => exact ⟨(sr_start_ok hp).1, fun i _ => (sr_start_ok hp).2 i⟩
  | some G => exact h0 G rfl

/-- C88: when `α κ S < ε` the stopping test is met after `O(1 / tol^2)` iterations. -/
theorem C88_stops (hsym : symmetric = true → (∀ i k, C1 i k = C1 k i) ∧ (∀ j l, C2 j l = C2 l j)) (hp : ∀ i, 0 < p i) (hε : 0 < ε)
    {κ : ℝ} (hκ : RowCurvatureLe D.loss C1 C2 κ) (hα : 0 ≤ α) (hc : (∑ i, p i) * (α * κ) < ε) (G0 : Option (I → J → ℝ))
    (h0 : ∀ G, G0 = some G → (∀ i, ∑ j, G i j = p i) ∧ ∀ i j, 0 < G i j) :
    ∃ B : ℝ, ∀ tol : ℝ, 0 < tol → ∀ maxIter : ℕ, B * (1 / tol ^ 2 + 1) ≤ maxIter →
      (entropicSr symmetric D C1 C2 p M α ε G0 maxIter tol).err ≤ tol := by
  have hS0 : 0 < ∑ i, p i := sum_pos (fun i _ => hp i) univ_nonempty
  have hc0 : 0 < ε / (∑ i, p i) - α * κ := by
    rw [sub_pos, lt_div_iff₀ hS0]; linarith
  obtain ⟨s, hs⟩ : ∃ s : I → J → ℝ, s = G0.getD fun i _ => p i * (1 / Fintype.card J) := ⟨_, rfl⟩
  have hs0 : (∀ i, ∑ j, s i j = p i) ∧ ∀ i j, 0 < s i j := by
    rw [hs]
    cases G0 with
    | none => exact ⟨(sr_start_ok hp).1, fun i _ => (sr_start_ok hp).2 i⟩
    | some G => exact h0 G rfl
  obtain ⟨B, hB⟩ := fgwCost_bound D.loss C1 C2 M α p
  obtain ⟨B', hB'⟩ : ∃ B', B' = fgwCost D.loss C1 C2 M α s + B := ⟨_, rfl⟩
  have hb : ∀ T : I → J → ℝ, ((∀ i, ∑ j, T i j = p i) ∧ ∀ i j, 0 < T i j) → fgwCost D.loss C1 C2 M α s - fgwCost D.loss C1 C2 M α T ≤ B' :=
    fun T hT => by rw [hB']; linarith [hB T (fun i j => (hT.2 i j).le) hT.1]
  have hB0 : 0 ≤ B' := by have := hb _ hs0; linarith
  obtain ⟨c, hcd⟩ : ∃ c, c = ε / (∑ i, p i) - α * κ := ⟨_, rfl⟩
  rw [← hcd] at hc0
  refine ⟨10 * (B' / c + 1), fun tol htol n hn => ?_⟩
  unfold entropicSr
  rw [← hs]
  refine egwLoop_rate (c := c) (B := B') (Inv := fun T : I → J → ℝ => (∀ i, ∑ j, T i j = p i) ∧ ∀ i j, 0 < T i j)
    (Φ := fun T => fgwCost D.loss C1 C2 M α T) hs0 (fun T hT => ⟨srStep_rows hT.2, srStep_pos hp hT.2⟩) hc0 (fun T hT => ?_) hb htol (le_trans ?_ hn)
  · have h := sr_dec (M := M) hsym hp hε hκ hα hT.1 hT.2
    rw [← hcd] at h
    have := mul_le_mul_of_nonneg_left (frob_le_l1 (srStep symmetric D C1 C2 p M α ε T) T) hc0.le
    linarith
  · have hx : 0 ≤ B' / c := div_nonneg hB0 hc0.le
    have ht : 0 < 1 / tol ^ 2 := by positivity
    have e : B' / (c * tol ^ 2) = B' / c * (1 / tol ^ 2) := by field_simp
    rw [e]
    nlinarith

/-! ## Small regularisation: the projected gradient iteration cycles -/

/-- Plans between two two-point spaces with uniform weights. -/
noncomputable def exPlan (t : ℝ) : Fin 2 → Fin 2 → ℝ := fun i j => if i = j then 1 / 4 + t else 1 / 4 - t
/-- off-diagonal structure -/
def exC1 : Fin 2 → Fin 2 → ℝ := fun i k => if i = k then 0 else 1
/-- diagonal structure -/
def exC2 : Fin 2 → Fin 2 → ℝ := fun i k => if i = k then 1 else 0
/-- uniform weights -/
noncomputable def exHalf : Fin 2 → ℝ := fun _ => 1 / 2

theorem exPlan_coupling {t : ℝ} (h1 : -(1 / 4) ≤ t) (h2 : t ≤ 1 / 4) : IsCoupling exHalf exHalf (exPlan t) := by
  refine ⟨fun i j => ?_, fun i => ?_, fun j => ?_⟩
  · unfold exPlan; split <;> linarith
  · fin_cases i <;> simp [exPlan, exHalf, Fin.sum_univ_two] <;> ring
  · fin_cases j <;> simp [exPlan, exHalf, Fin.sum_univ_two] <;> ring

theorem exGrad (t : ℝ) : fgwGrad true square exC1 exC2 exHalf exHalf (fun _ _ => 0) 1 (exPlan t)
    = fun i j => if i = j then 1 + 4 * t else 1 - 4 * t := by
  funext i j
  fin_cases i <;> fin_cases j <;>
    simp [fgwGrad, gwDf, gwggrad, tensorProduct, constC, dot3, mapM, square, exC1, exC2, exHalf, exPlan, Fin.sum_univ_two] <;> ring

theorem exSrGrad (t : ℝ) : srGrad true square exC1 exC2 exHalf (fun _ _ => 0) 1 (exPlan t)
    = fun i j => if i = j then 1 + 4 * t else 1 - 4 * t := by
  have h : srGrad true square exC1 exC2 exHalf (fun _ _ => 0) 1 (exPlan t)
      = fgwGrad true square exC1 exC2 exHalf (colSum (exPlan t)) (fun _ _ => 0) 1 (exPlan t) := rfl
  have e : colSum (exPlan t) = exHalf := by
    funext j
    fin_cases j <;> simp [colSum, exPlan, exHalf, Fin.sum_univ_two] <;> ring
  rw [h, e, exGrad]

theorem exEnergy (t : ℝ) : gwEnergy (square : Decomp ℝ).loss exC1 exC2 (exPlan t) = 1 / 2 + 8 * t ^ 2 := by
  simp only [gwEnergy, Decomp.loss, square, exC1, exC2, exPlan, Fin.sum_univ_two]
  norm_num
  ring

/-- One step from `exPlan t`, for any exact Sinkhorn solver. -/
theorem exStep {ε : ℝ} (hε : 0 < ε) {sk : (Fin 2 → Fin 2 → ℝ) → Fin 2 → Fin 2 → ℝ} (hsk : SolvesEntropic exHalf exHalf ε sk) (t : ℝ) :
    egwStep true square exC1 exC2 exHalf exHalf (fun _ _ => 0) 1 ε false sk (exPlan t)
      = exPlan ((Real.exp (-(8 * t / ε)) - 1) / (4 * (Real.exp (-(8 * t / ε)) + 1))) := by
  have hs : egwStep true square exC1 exC2 exHalf exHalf (fun _ _ => 0) 1 ε false sk (exPlan t)
      = sk (fun i j => if i = j then 1 + 4 * t else 1 - 4 * t) := by
    rw [← exGrad]; rfl
  rw [hs]
  have ho := hsk (fun i j => if i = j then 1 + 4 * t else 1 - 4 * t)
  obtain ⟨r, hr⟩ : ∃ r, r = Real.exp (-(8 * t / ε)) := ⟨_, rfl⟩
  have hr0 : 0 < r := by rw [hr]; exact Real.exp_pos _
  rw [← hr]
  have hd : 1 / 4 + (r - 1) / (4 * (r + 1)) = r * (1 / (2 * (r + 1))) := by field_simp; ring
  have hoff : 1 / 4 - (r - 1) / (4 * (r + 1)) = 1 / (2 * (r + 1)) := by field_simp; ring
  have hoff0 : 0 < 1 / (2 * (r + 1)) := by positivity
  have hpos : ∀ i j, 0 < exPlan ((r - 1) / (4 * (r + 1))) i j := by
    intro i j
    unfold exPlan
    split
    · rw [hd]; positivity
    · rw [hoff]; exact hoff0
  have hcoup : IsCoupling exHalf exHalf (exPlan ((r - 1) / (4 * (r + 1)))) := by
    refine exPlan_coupling ?_ ?_
    · have := hpos 0 0
      simp only [exPlan, if_true] at this
      linarith
    · have := hpos 0 1
      simp only [exPlan] at this
      norm_num at this
      linarith
  have hopt := Sinkhorn.optimal_of_form (M := fun i j : Fin 2 => if i = j then 1 + 4 * t else 1 - 4 * t) hε hcoup hpos
    (x := fun _ => Real.log (1 / (2 * (r + 1))) + (1 - 4 * t) / ε) (y := fun _ => 0) (fun i j => by
      simp only [exPlan]
      split
      · rw [hd, Real.log_mul hr0.ne' hoff0.ne', hr, Real.log_exp]; ring
      · rw [hoff]; ring)
  exact (hopt.2 _ ho.1).2 (ho.2 _ hcoup).1

theorem ex_exp_le {t ε : ℝ} (hε : ε = 1 / (2 * Real.log 3)) (ht : 1 / 8 ≤ t) : Real.exp (-(8 * t / ε)) ≤ 1 / 9 := by
  have h3 : 0 < Real.log 3 := Real.log_pos (by norm_num)
  have e : -(8 * t / ε) = -(16 * t * Real.log 3) := by rw [hε]; field_simp; ring
  rw [e]
  have h9 : (1 : ℝ) / 9 = Real.exp (-(2 * Real.log 3)) := by
    rw [Real.exp_neg, mul_comm, Real.exp_mul, Real.exp_log (by norm_num)]
    norm_num
  rw [h9]
  exact Real.exp_le_exp.2 (by nlinarith)

/-- The iteration map sends `t ≥ 1/8` below `-1/5`, and symmetrically. -/
theorem ex_map_neg {t ε : ℝ} (hε : ε = 1 / (2 * Real.log 3)) (ht : 1 / 8 ≤ t) :
    (Real.exp (-(8 * t / ε)) - 1) / (4 * (Real.exp (-(8 * t / ε)) + 1)) ≤ -(1 / 5) ∧
    -(1 / 4) ≤ (Real.exp (-(8 * t / ε)) - 1) / (4 * (Real.exp (-(8 * t / ε)) + 1)) := by
  have h := ex_exp_le hε ht
  have h0 := Real.exp_pos (-(8 * t / ε))
  generalize Real.exp (-(8 * t / ε)) = r at *
  refine ⟨?_, ?_⟩
  · rw [div_le_iff₀ (by positivity)]; linarith
  · rw [le_div_iff₀ (by positivity)]; linarith

theorem ex_map_odd (t ε : ℝ) : (Real.exp (-(8 * -t / ε)) - 1) / (4 * (Real.exp (-(8 * -t / ε)) + 1))
    = -((Real.exp (-(8 * t / ε)) - 1) / (4 * (Real.exp (-(8 * t / ε)) + 1))) := by
  have e : Real.exp (-(8 * -t / ε)) = (Real.exp (-(8 * t / ε)))⁻¹ := by
    rw [← Real.exp_neg]; congr 1; ring
  rw [e]
  have h0 := Real.exp_pos (-(8 * t / ε))
  generalize Real.exp (-(8 * t / ε)) = r at *
  field_simp
  ring

theorem ex_map_pos {t ε : ℝ} (hε : ε = 1 / (2 * Real.log 3)) (ht : t ≤ -(1 / 8)) :
    1 / 5 ≤ (Real.exp (-(8 * t / ε)) - 1) / (4 * (Real.exp (-(8 * t / ε)) + 1)) ∧
    (Real.exp (-(8 * t / ε)) - 1) / (4 * (Real.exp (-(8 * t / ε)) + 1)) ≤ 1 / 4 := by
  have h := ex_map_neg (t := -t) hε (by linarith)
  rw [ex_map_odd] at h
  exact ⟨by linarith [h.1], by linarith [h.2]⟩

theorem ex_frob (s t : ℝ) : frob (exPlan s) (exPlan t) = 2 * |s - t| := by
  have e : ∑ i, ∑ j, (exPlan s i j - exPlan t i j) ^ 2 = (2 * |s - t|) ^ 2 := by
    simp only [exPlan, Fin.sum_univ_two]
    norm_num
    rw [mul_pow, sq_abs]
    ring
  unfold frob
  rw [e, Real.sqrt_sq (by positivity)]

/-- The regularised objective grows with `|t|`. -/
theorem ex_objective {ε s : ℝ} (hε : 0 < ε) (hs : 1 / 5 ≤ |s|) (hs' : |s| ≤ 1 / 4) :
    fgwEntropic (square : Decomp ℝ).loss exC1 exC2 (fun _ _ => 0) 1 ε (exPlan (1 / 8))
      < fgwEntropic (square : Decomp ℝ).loss exC1 exC2 (fun _ _ => 0) 1 ε (exPlan s) := by
  have hent : ∀ t, ∑ i, ∑ j, exPlan t i j * Real.log (exPlan t i j)
      = 2 * ((1 / 4 + |t|) * Real.log (1 / 4 + |t|) + (1 / 4 - |t|) * Real.log (1 / 4 - |t|)) := by
    intro t
    simp only [exPlan, Fin.sum_univ_two]
    norm_num
    rcases abs_cases t with h | h
    · rw [h.1]; ring
    · rw [h.1]; ring_nf
  unfold fgwEntropic fgwCost
  rw [exEnergy, exEnergy, hent, hent]
  generalize hu : |s| = u at *
  have hs2 : s ^ 2 = u ^ 2 := by rw [← hu, sq_abs]
  have h8 : |(1 : ℝ) / 8| = 1 / 8 := by norm_num
  rw [hs2, h8]
  -- convexity of x log x
  have hu0 : 0 < u := by linarith
  obtain ⟨μ, hμ⟩ : ∃ μ, μ = 1 / 2 + 1 / (16 * u) := ⟨_, rfl⟩
  have hm0 : 0 ≤ μ := by rw [hμ]; positivity
  have hm1 : μ ≤ 1 := by
    rw [hμ]
    have : 1 / (16 * u) ≤ 1 / 2 := by rw [div_le_div_iff₀ (by positivity) (by norm_num)]; linarith
    linarith
  have hμu : μ * u = u / 2 + 1 / 16 := by rw [hμ]; field_simp
  have c1 := Real.convexOn_mul_log.2 (x := 1 / 4 + u) (y := 1 / 4 - u) (by show (0 : ℝ) ≤ _; linarith) (by show (0 : ℝ) ≤ _; linarith)
    hm0 (sub_nonneg.2 hm1) (by ring)
  have c2 := Real.convexOn_mul_log.2 (x := 1 / 4 - u) (y := 1 / 4 + u) (by show (0 : ℝ) ≤ _; linarith) (by show (0 : ℝ) ≤ _; linarith)
    hm0 (sub_nonneg.2 hm1) (by ring)
  simp only [smul_eq_mul] at c1 c2
  have e1 : μ * (1 / 4 + u) + (1 - μ) * (1 / 4 - u) = 1 / 4 + 1 / 8 := by linear_combination 2 * hμu
  have e2 : μ * (1 / 4 - u) + (1 - μ) * (1 / 4 + u) = 1 / 4 - 1 / 8 := by linear_combination -2 * hμu
  rw [e1] at c1
  rw [e2] at c2
  have hE : (1 / 4 + 1 / 8) * Real.log (1 / 4 + 1 / 8) + (1 / 4 - 1 / 8) * Real.log (1 / 4 - 1 / 8)
      ≤ (1 / 4 + u) * Real.log (1 / 4 + u) + (1 / 4 - u) * Real.log (1 / 4 - u) := by
    linarith
  have hE' := mul_le_mul_of_nonneg_left hE hε.le
  have hz : ∀ t, cost (fun _ _ => (0 : ℝ)) (exPlan t) = 0 := fun t => by simp [cost]
  rw [hz, hz]
  nlinarith

/-- C87 is false for small `epsilon`: for two two-point spaces and `epsilon = 1 / (2 log 3)` (about 0.455), with an exact inner solver, every run from a certain coupling with at least one iteration returns a coupling whose regularised objective is larger than at the start, and the stopping test is never met, whatever `max_iter`, for any tolerance up to 1/2. -/
theorem C87_small_epsilon_refuted : ∃ (ε : ℝ) (G0 : Fin 2 → Fin 2 → ℝ), 0 < ε ∧ IsCoupling exHalf exHalf G0 ∧
    ∀ sk, SolvesEntropic exHalf exHalf ε sk → ∀ tol ≤ 1 / 2, ∀ maxIter, 1 ≤ maxIter →
      fgwEntropic sqLoss exC1 exC2 (fun _ _ => 0) 1 ε G0
        < fgwEntropic sqLoss exC1 exC2 (fun _ _ => 0) 1 ε
          (entropicFgw true square exC1 exC2 exHalf exHalf (fun _ _ => 0) 1 ε false sk (some G0) maxIter tol).T ∧
      tol < (entropicFgw true square exC1 exC2 exHalf exHalf (fun _ _ => 0) 1 ε false sk (some G0) maxIter tol).err := by
  have h3 : 0 < Real.log 3 := Real.log_pos (by norm_num)
  refine ⟨1 / (2 * Real.log 3), exPlan (1 / 8), by positivity, exPlan_coupling (by norm_num) (by norm_num), ?_⟩
  intro sk hsk tol htol maxIter hmax
  have hε : 0 < 1 / (2 * Real.log 3) := by positivity
  rw [← square_loss']
  -- invariant of the iterates
  have hstep : ∀ t : ℝ, 1 / 8 ≤ |t| → ∃ s, egwStep true square exC1 exC2 exHalf exHalf (fun _ _ => 0) 1 (1 / (2 * Real.log 3)) false sk (exPlan t) = exPlan s
      ∧ 1 / 5 ≤ |s| ∧ |s| ≤ 1 / 4 ∧ 1 / 2 < 2 * |s - t| := by
    intro t ht
    refine ⟨_, exStep hε hsk t, ?_⟩
    rcases le_abs.1 ht with h | h
    · obtain ⟨h1, h2⟩ := ex_map_neg rfl h
      generalize (Real.exp (-(8 * t / (1 / (2 * Real.log 3)))) - 1) / (4 * (Real.exp (-(8 * t / (1 / (2 * Real.log 3)))) + 1)) = s at *
      have a : |s| = -s := abs_of_nonpos (by linarith)
      have b : |s - t| = -(s - t) := abs_of_nonpos (by linarith)
      rw [a, b]
      exact ⟨by linarith, by linarith, by linarith⟩
    · obtain ⟨h1, h2⟩ := ex_map_pos rfl (by linarith : t ≤ -(1 / 8))
      generalize (Real.exp (-(8 * t / (1 / (2 * Real.log 3)))) - 1) / (4 * (Real.exp (-(8 * t / (1 / (2 * Real.log 3)))) + 1)) = s at *
      have a : |s| = s := abs_of_nonneg (by linarith)
      have b : |s - t| = s - t := abs_of_nonneg (by linarith)
      rw [a, b]
      exact ⟨by linarith, by linarith, by linarith⟩
  have hiter : ∀ k, ∃ t, (egwStep true square exC1 exC2 exHalf exHalf (fun _ _ => 0) 1 (1 / (2 * Real.log 3)) false sk)^[k] (exPlan (1 / 8)) = exPlan t
      ∧ 1 / 8 ≤ |t| ∧ (1 ≤ k → 1 / 5 ≤ |t| ∧ |t| ≤ 1 / 4) := by
    intro k
    induction k with
    | zero => exact ⟨1 / 8, rfl, by norm_num, fun h => absurd h (by norm_num)⟩
    | succ k ih =>
      obtain ⟨t, h1, h2, -⟩ := ih
      obtain ⟨s, g1, g2, g3, -⟩ := hstep t h2
      refine ⟨s, ?_, by linarith, fun _ => ⟨g2, g3⟩⟩
      rw [Function.iterate_succ_apply', h1, g1]
  have hfrob : ∀ k, tol < frob (egwStep true square exC1 exC2 exHalf exHalf (fun _ _ => 0) 1 (1 / (2 * Real.log 3)) false sk
      ((egwStep true square exC1 exC2 exHalf exHalf (fun _ _ => 0) 1 (1 / (2 * Real.log 3)) false sk)^[k] (exPlan (1 / 8))))
      ((egwStep true square exC1 exC2 exHalf exHalf (fun _ _ => 0) 1 (1 / (2 * Real.log 3)) false sk)^[k] (exPlan (1 / 8))) := by
    intro k
    obtain ⟨t, h1, h2, -⟩ := hiter k
    obtain ⟨s, g1, -, -, g4⟩ := hstep t h2
    rw [h1, g1, ex_frob]
    linarith
  have herr : tol < (entropicFgw true square exC1 exC2 exHalf exHalf (fun _ _ => 0) 1 (1 / (2 * Real.log 3)) false sk
      (some (exPlan (1 / 8))) maxIter tol).err := by
    by_contra hx
    push Not at hx
    obtain ⟨k, -, -, -, hf⟩ := egwLoop_stop _ tol maxIter 0 _ (show (1 : ℝ) > tol by linarith) hx
    exact absurd hf (not_le.2 (hfrob k))
  refine ⟨?_, herr⟩
  have hT := (egwLoop_run _ tol maxIter 0 _ herr).1
  obtain ⟨t, h1, -, h3⟩ := hiter maxIter
  have hT' : (entropicFgw true square exC1 exC2 exHalf exHalf (fun _ _ => 0) 1 (1 / (2 * Real.log 3)) false sk
      (some (exPlan (1 / 8))) maxIter tol).T = exPlan t := hT.trans h1
  rw [hT']
  exact ex_objective hε (h3 hmax).1 (h3 hmax).2

/-- C88 is false for small `epsilon`: the first iteration can increase the cost. -/
theorem C88_small_epsilon_refuted : ∃ (ε : ℝ) (G0 : Fin 2 → Fin 2 → ℝ), 0 < ε ∧ IsCoupling exHalf exHalf G0 ∧ (∀ i j, 0 < G0 i j) ∧
    ∀ tol < 10 ^ 15, gwEnergy sqLoss exC1 exC2 G0
      < gwEnergy sqLoss exC1 exC2 (entropicSr true square exC1 exC2 exHalf (fun _ _ => 0) 1 ε (some G0) 1 tol).T := by
  have h3 : 0 < Real.log 3 := Real.log_pos (by norm_num)
  refine ⟨1 / (4 * Real.log 3), exPlan (1 / 8), by positivity, exPlan_coupling (by norm_num) (by norm_num), ?_, ?_⟩
  · intro i j; unfold exPlan; split <;> norm_num
  intro tol htol
  rw [← square_loss']
  have hT : (entropicSr true square exC1 exC2 exHalf (fun _ _ => 0) 1 (1 / (4 * Real.log 3)) (some (exPlan (1 / 8))) 1 tol).T
      = srStep true square exC1 exC2 exHalf (fun _ _ => 0) 1 (1 / (4 * Real.log 3)) (exPlan (1 / 8)) := by
    unfold entropicSr
    rw [egwLoop_succ, if_pos (show (10 ^ 15 : ℝ) > tol from htol), egwLoop_zero]
    rfl
  have hK : Real.exp (-(1 + 4 * (1 / 8)) / (1 / (4 * Real.log 3))) = (1 / 729 : ℝ) := by
    have e : -(1 + 4 * (1 / 8)) / (1 / (4 * Real.log 3)) = -(Real.log 3 * 6) := by field_simp; ring
    rw [e, Real.exp_neg, Real.exp_mul, Real.exp_log (by norm_num)]
    norm_num
  have hK' : Real.exp (-(1 - 4 * (1 / 8)) / (1 / (4 * Real.log 3))) = (1 / 9 : ℝ) := by
    have e : -(1 - 4 * (1 / 8)) / (1 / (4 * Real.log 3)) = -(Real.log 3 * 2) := by field_simp; ring
    rw [e, Real.exp_neg, Real.exp_mul, Real.exp_log (by norm_num)]
    norm_num
  have hs : srStep true square exC1 exC2 exHalf (fun _ _ => 0) 1 (1 / (4 * Real.log 3)) (exPlan (1 / 8)) = exPlan (-(13 / 56)) := by
    have hd : ∀ i j : Fin 2, exPlan (1 / 8) i j * Real.exp (-srGrad true square exC1 exC2 exHalf (fun _ _ => 0) 1 (exPlan (1 / 8)) i j / (1 / (4 * Real.log 3)))
        = if i = j then 3 / 8 * (1 / 729) else 1 / 8 * (1 / 9) := by
      intro i j
      rw [exSrGrad]
      simp only [exPlan]
      split
      · rw [hK]; norm_num
      · rw [hK']; norm_num
    unfold srStep
    simp only [hd]
    funext i j
    fin_cases i <;> fin_cases j <;> simp [exHalf, exPlan, Fin.sum_univ_two] <;> norm_num
  rw [hT, hs, exEnergy, exEnergy]
  norm_num

/-- C87: the plan returned is not always the minimiser of the documented objective. For two identical two-point spaces and `epsilon = 1/2` the default start is a fixed point, so it is returned, for every `max_iter` and `tol`, but another coupling has a smaller regularised objective. -/
theorem C87_argmin_refuted : ∀ sk, SolvesEntropic exHalf exHalf (1 / 2) sk → ∀ maxIter tol,
    ∃ Q, IsCoupling exHalf exHalf Q ∧ fgwEntropic sqLoss exC1 exC1 (fun _ _ => 0) 1 (1 / 2) Q
      < fgwEntropic sqLoss exC1 exC1 (fun _ _ => 0) 1 (1 / 2)
        (entropicFgw true square exC1 exC1 exHalf exHalf (fun _ _ => 0) 1 (1 / 2) false sk none maxIter tol).T := by
  intro sk hsk maxIter tol
  have hst : start exHalf exHalf none = exPlan 0 := by
    funext i j
    simp only [start, Option.getD_none, exHalf, exPlan, ite_self, add_zero, sub_zero]
    norm_num
  have hg : fgwGrad true square exC1 exC1 exHalf exHalf (fun _ _ => 0) 1 (exPlan 0) = fun _ _ => 1 := by
    funext i j
    fin_cases i <;> fin_cases j <;>
      simp [fgwGrad, gwDf, gwggrad, tensorProduct, constC, dot3, mapM, square, exC1, exHalf, exPlan, Fin.sum_univ_two] <;> norm_num
  have hstep : egwStep true square exC1 exC1 exHalf exHalf (fun _ _ => 0) 1 (1 / 2) false sk (exPlan 0) = exPlan 0 := by
    have h1 : egwStep true square exC1 exC1 exHalf exHalf (fun _ _ => 0) 1 (1 / 2) false sk (exPlan 0) = sk fun _ _ => 1 := by
      rw [← hg]; rfl
    have h4 : ∀ i j, exPlan 0 i j = 1 / 4 := fun i j => by unfold exPlan; split <;> norm_num
    have hc := exPlan_coupling (t := 0) (by norm_num) (by norm_num)
    have hopt := Sinkhorn.optimal_of_form (M := fun _ _ : Fin 2 => (1 : ℝ)) (reg := 1 / 2) (by norm_num) hc (fun i j => by rw [h4]; norm_num)
      (x := fun _ => Real.log (1 / 4) + 2) (y := fun _ => 0) (fun i j => by rw [h4]; ring)
    rw [h1]
    exact (hopt.2 _ (hsk _).1).2 ((hsk _).2 _ hc).1
  have hT : (entropicFgw true square exC1 exC1 exHalf exHalf (fun _ _ => 0) 1 (1 / 2) false sk none maxIter tol).T = exPlan 0 := by
    refine egwLoop_inv (Inv := fun T => T = exPlan 0) (fun T h => ?_) tol maxIter 0 hst
    rw [h, hstep]
  refine ⟨exPlan (1 / 4), exPlan_coupling (by norm_num) le_rfl, ?_⟩
  rw [hT]
  have hl : Real.log (1 / 4) = 2 * Real.log (1 / 2) := by
    rw [show (1 / 4 : ℝ) = (1 / 2) ^ 2 by norm_num, Real.log_pow]; norm_num
  have hl2 : -1 < Real.log (1 / 2) := by
    rw [one_div, Real.log_inv]
    have := Real.log_lt_sub_one_of_pos (show (0 : ℝ) < 2 by norm_num) (by norm_num)
    linarith
  simp only [fgwEntropic, fgwCost, gwEnergy, sqLoss, cost, exC1, exPlan, Fin.sum_univ_two]
  norm_num
  norm_num at hl hl2
  linarith

/-! ## The hypotheses can be met -/

/-- A solver as assumed exists for every pair of positive weights of equal mass. -/
theorem exists_solver (hp : ∀ i, 0 < p i) (hq : ∀ j, 0 < q j) (hS : ∑ i, p i = ∑ j, q j) (hε : 0 < ε) : ∃ sk, SolvesEntropic p q ε sk :=
  ⟨fun N => (exists_form hp hq hS hε N).choose, fun N => (exists_form hp hq hS hε N).choose_spec.1⟩

/-- The example above with `epsilon` at least 1 descends and stops: the bound `2 α κ S ≤ ε` is `1 ≤ ε`. -/
example : ∃ sk, SolvesEntropic exHalf exHalf 2 sk ∧
    (∃ B : ℝ, ∀ tol : ℝ, 0 < tol → ∀ n : ℕ, B * (1 / tol ^ 2 + 1) ≤ n →
      (entropicFgw true square exC1 exC2 exHalf exHalf (fun _ _ => 0) 1 2 false sk (some (exPlan (1 / 8))) n tol).err ≤ tol) := by
  have hp : ∀ i, 0 < exHalf i := fun i => by simp [exHalf]
  obtain ⟨sk, hsk⟩ := exists_solver (ε := 2) hp hp rfl two_pos
  have hκ : CurvatureLe (square : Decomp ℝ).loss exC1 exC2 (1 * 1 / 2) := by
    rw [square_loss']
    refine C87_curvature_square (m1 := 0) (m2 := 0) (fun i k => ?_) (fun i k => ?_)
    · unfold exC1; split <;> norm_num
    · unfold exC2; split <;> norm_num
  refine ⟨sk, hsk, C87_pgd_stops (fun _ => ⟨fun i k => ?_, fun i k => ?_⟩) hp hp rfl two_pos hsk hκ zero_le_one ?_ _
    (exPlan_coupling (by norm_num) (by norm_num))⟩
  · simp only [exC1, eq_comm]
  · simp only [exC2, eq_comm]
  · simp [exHalf]

/-- The default start is a coupling. -/
example : IsCoupling exHalf exHalf (start exHalf exHalf none) :=
  (start_ok (fun i => by simp [exHalf]) (fun i => by simp [exHalf]) (by simp [exHalf]) (by simp [exHalf])).1

/-- Two squared Euclidean structures on the line: any `epsilon` qualifies. -/
example (x : Fin 3 → Fin 1 → ℝ) (y : Fin 4 → Fin 2 → ℝ) :
    2 * (∑ _i : Fin 3, (1 / 3 : ℝ)) * (1 * 0) ≤ 1 / 1000 ∧
    CurvatureLe sqLoss (fun i k => ∑ a, (x i a - x k a) ^ 2) (fun j l => ∑ b, (y j b - y l b) ^ 2) 0 :=
  ⟨by norm_num, C87_curvature_euclidean x y⟩

/-- C88 with the same structures and `epsilon = 1`. -/
example : Antitone fun n => fgwCost (square : Decomp ℝ).loss exC1 exC2 (fun _ _ => 0) 1
    (entropicSr true square exC1 exC2 exHalf (fun _ _ => 0) 1 1 none n (1 / 1000)).T := by
  have hκ : RowCurvatureLe (square : Decomp ℝ).loss exC1 exC2 (1 / 2) := by
    refine C88_curvature (m := 0) fun i k j l => ?_
    simp only [Decomp.loss, square, exC1, exC2]
    split <;> split <;> norm_num
  refine C88_monotone (fun _ => ⟨fun i k => ?_, fun i k => ?_⟩) (fun i => by simp [exHalf]) one_pos hκ zero_le_one ?_ none (by simp) _
  · simp only [exC1, eq_comm]
  · simp only [exC2, eq_comm]
  · simp [exHalf]; norm_num

end POT.Props
