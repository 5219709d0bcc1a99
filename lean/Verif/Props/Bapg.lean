import Verif.Lemmas.Bapg
import Mathlib.Tactic.FinCases

/-! # C108: Bregman alternated projected gradient for (fused) Gromov-Wasserstein -/

set_option linter.unusedSectionVars false

namespace POT.Props

open Finset Spec Gromov GwEntropic Bapg

variable {I J : Type*} [Fintype I] [Fintype J]
variable {marginal symmetric : Bool} {D : Decomp ℝ} {C1 : I → I → ℝ} {C2 : J → J → ℝ} {p : I → ℝ} {q : J → ℝ} {M : I → J → ℝ} {α ε : ℝ}

/-! ## Gradients and values -/

/-- C108: without `marginal_loss` the gradient is the gradient of the documented objective `(1-α)⟨M,T⟩ - α⟨h₁(C₁) T h₂(C₂)ᵀ, T⟩` at every plan and in every direction. -/
theorem C108_gradient_cross (hsym : symmetric = true → (∀ i k, C1 i k = C1 k i) ∧ (∀ j l, C2 j l = C2 l j)) (T Δ : I → J → ℝ) (t : ℝ) :
    fgwCost (fun a b => -(D.h1 a * D.h2 b)) C1 C2 M α (fun i j => T i j + t * Δ i j) = fgwCost (fun a b => -(D.h1 a * D.h2 b)) C1 C2 M α T
      + t * Spec.inner (bapgDf false symmetric D C1 C2 p q M α T) Δ + t ^ 2 * (α * gwEnergy (fun a b => -(D.h1 a * D.h2 b)) C1 C2 Δ) := by
  rw [df_false symmetric D C1 C2 p (rowSum T) q (colSum T), ← cross_loss]
  exact fgw_line symmetric (cross D) hsym M α (fun _ => rfl) (fun _ => rfl) Δ t

/-- C108: with `marginal_loss` it is the gradient of the fused cost at every plan with marginals `p`, `q`. -/
theorem C108_gradient_full (hsym : symmetric = true → (∀ i k, C1 i k = C1 k i) ∧ (∀ j l, C2 j l = C2 l j)) {T : I → J → ℝ}
    (hp : ∀ i, ∑ j, T i j = p i) (hq : ∀ j, ∑ i, T i j = q j) (Δ : I → J → ℝ) (t : ℝ) :
    fgwCost D.loss C1 C2 M α (fun i j => T i j + t * Δ i j) = fgwCost D.loss C1 C2 M α T
      + t * Spec.inner (bapgDf true symmetric D C1 C2 p q M α T) Δ + t ^ 2 * (α * gwEnergy D.loss C1 C2 Δ) := by
  rw [df_true]
  exact fgw_line symmetric D hsym M α hp hq Δ t

/-- C108: with or without `marginal_loss`, at any plan whatever its marginals, the gradient gives the derivative of the fused cost in every direction that keeps the marginals. -/
theorem C108_gradient (hsym : symmetric = true → (∀ i k, C1 i k = C1 k i) ∧ (∀ j l, C2 j l = C2 l j)) (T : I → J → ℝ) {Δ : I → J → ℝ}
    (hr : ZeroRows Δ) (hc : ZeroCols Δ) (t : ℝ) :
    fgwCost D.loss C1 C2 M α (fun i j => T i j + t * Δ i j) = fgwCost D.loss C1 C2 M α T
      + t * Spec.inner (bapgDf marginal symmetric D C1 C2 p q M α T) Δ + t ^ 2 * (α * gwEnergy D.loss C1 C2 Δ) := by
  have h := fgw_line symmetric D hsym M α (T := T) (p := rowSum T) (q := colSum T) (fun _ => rfl) (fun _ => rfl) Δ t
  obtain ⟨u, v, huv⟩ := grad_split symmetric D C1 C2 (rowSum T) p (colSum T) q M α T
  rw [inner_split huv hr hc] at h
  cases marginal
  · obtain ⟨u, v, huv⟩ := df_split symmetric D C1 C2 p q M α T
    rw [df_true] at huv
    rw [inner_split huv hr hc] at h
    exact h
  · rw [df_true]; exact h

/-- C108: the logged `loss` is the documented objective of the returned plan, whatever its marginals. -/
theorem C108_loss (T : I → J → ℝ) : bapgLoss D C1 C2 p q M α T = fgwCost (fun a b => -(D.h1 a * D.h2 b)) C1 C2 M α T := by
  unfold bapgLoss fgwDist fgwCost gwF gwloss
  have e1 : ∑ i, ∑ j, M i j * T i j = cost M T := by
    simp only [cost, mul_comm]
  have e2 : ∑ i, ∑ j, tensorProduct (constC (mapM D.f1 C1) (mapM D.f2 C2) p q) (mapM D.h1 C1) (mapM D.h2 C2) T i j * T i j
      - ∑ i, ∑ j, constC (mapM D.f1 C1) (mapM D.f2 C2) p q i j * T i j = gwEnergy (fun a b => -(D.h1 a * D.h2 b)) C1 C2 T := by
    have h := pair_tensor (cross D) C1 C2 T T
    rw [cross_loss] at h
    rw [gwEnergy_eq, ← h, ← sum_sub_distrib]
    refine sum_congr rfl fun i _ => ?_
    rw [← sum_sub_distrib]
    refine sum_congr rfl fun j _ => ?_
    simp only [tensorProduct, constC, cross, mapM, zero_mul, mul_zero, sum_const_zero]
    ring
  rw [e1, ← e2]; ring

/-- C108: the reported value exceeds the fused cost of a plan with column sums `q` by `α ∑_i r_i ∑_k f₁(C₁_ik) (p_k - r_k)` where `r` are its row sums; in particular it is the
fused cost when the row sums are exact. -/
theorem C108_value {T : I → J → ℝ} (hq : ∀ j, ∑ i, T i j = q j) :
    fgwDist D C1 C2 p q M α T = fgwCost D.loss C1 C2 M α T + α * ∑ i, (∑ j, T i j) * ∑ k, D.f1 (C1 i k) * (p k - ∑ j, T k j) := by
  have h1 : gwF D C1 C2 (rowSum T) q T = gwEnergy D.loss C1 C2 T := gwF_eq D C1 C2 (fun _ => rfl) hq
  have h2 : gwF D C1 C2 p q T = gwF D C1 C2 (rowSum T) q T + ∑ i, (∑ j, T i j) * ∑ k, D.f1 (C1 i k) * (p k - ∑ j, T k j) := by
    unfold gwF gwloss
    rw [← sum_add_distrib]
    refine sum_congr rfl fun i _ => ?_
    rw [sum_mul, ← sum_add_distrib]
    refine sum_congr rfl fun j _ => ?_
    simp only [tensorProduct, constC, mapM, rowSum, mul_sub, sum_sub_distrib]
    ring
  unfold fgwDist fgwCost
  rw [h2, h1]
  have e1 : ∑ i, ∑ j, M i j * T i j = cost M T := by
    simp only [cost, mul_comm]
  rw [e1]
  ring

/-- C108: `quad_loss` and `lin_loss` add up to the reported value; `lin_loss` is `(1-α)⟨M,T⟩`. -/
theorem C108_parts (G0 : Option (I → J → ℝ)) (maxIter : ℕ) (tol : ℝ) :
    (bapgFgw2 marginal symmetric D C1 C2 p q M α ε G0 maxIter tol).2.1 + (bapgFgw2 marginal symmetric D C1 C2 p q M α ε G0 maxIter tol).2.2
      = (bapgFgw2 marginal symmetric D C1 C2 p q M α ε G0 maxIter tol).1 ∧
    (bapgFgw2 marginal symmetric D C1 C2 p q M α ε G0 maxIter tol).2.2
      = (1 - α) * cost M (bapgFgw marginal symmetric D C1 C2 p q M α ε G0 maxIter tol).T ∧
    ((∀ i, ∑ j, (bapgFgw marginal symmetric D C1 C2 p q M α ε G0 maxIter tol).T i j = p i) →
      (∀ j, ∑ i, (bapgFgw marginal symmetric D C1 C2 p q M α ε G0 maxIter tol).T i j = q j) →
      (bapgFgw2 marginal symmetric D C1 C2 p q M α ε G0 maxIter tol).1 = fgwCost D.loss C1 C2 M α (bapgFgw marginal symmetric D C1 C2 p q M α ε G0 maxIter tol).T) := by
  refine ⟨?_, ?_, fun hp hq => ?_⟩
  · unfold bapgFgw2 fgwParts
    dsimp only
    ring
  · unfold bapgFgw2 fgwParts
    dsimp only
    simp only [cost, mul_sum, sum_mul]
    exact sum_congr rfl fun i _ => sum_congr rfl fun j _ => by ring
  · unfold bapgFgw2
    dsimp only
    rw [C108_value hq]
    simp [hp]

/-! ## The two half steps -/

/-- C108: the rows update is the unique minimiser of `⟨df(T), Q⟩ + ε KL(Q | T)` among the nonnegative arrays with row sums `p`. -/
theorem C108_rows_update [Nonempty J] (df : (I → J → ℝ) → I → J → ℝ) (hε : 0 < ε) (hp : ∀ i, 0 < p i) {T : I → J → ℝ} (hT : ∀ i j, 0 < T i j) :
    (∀ i j, 0 < rowHalf df ε p T i j) ∧ (∀ i, ∑ j, rowHalf df ε p T i j = p i) ∧
    ∀ Q : I → J → ℝ, (∀ i j, 0 ≤ Q i j) → (∀ i, ∑ j, Q i j = p i) →
      Spec.inner (df T) (rowHalf df ε p T) + ε * klPlan (rowHalf df ε p T) T ≤ Spec.inner (df T) Q + ε * klPlan Q T ∧
      (Spec.inner (df T) Q + ε * klPlan Q T ≤ Spec.inner (df T) (rowHalf df ε p T) + ε * klPlan (rowHalf df ε p T) T → Q = rowHalf df ε p T) := by
  have hpos := rowHalf_pos (df := df) (ε := ε) hp hT
  have hrow := rowHalf_rows (df := df) (ε := ε) (p := p) hT
  obtain ⟨x, hx⟩ := rowHalf_log (df := df) (ε := ε) hp hT
  refine ⟨hpos, hrow, fun Q h0 hQ => ?_⟩
  have hg := prox_gap (N := df T) (Q := Q) (x := x) (y := fun _ => 0) hε.ne' hT hpos (fun i j => by rw [hx]; ring)
    (sum_congr rfl fun i _ => by rw [← mul_sum, ← mul_sum, hQ, hrow])
  have hk := klPlan_nonneg h0 hpos
  refine ⟨by nlinarith [mul_nonneg hε.le hk], fun hle => klPlan_eq_zero h0 hpos ?_⟩
  by_contra h
  push Not at h
  nlinarith [mul_pos hε h]

/-- C108: the columns update is the unique minimiser of `⟨df(T), Q⟩ + ε KL(Q | T)` among the nonnegative arrays with column sums `q`. -/
theorem C108_columns_update [Nonempty I] (df : (I → J → ℝ) → I → J → ℝ) (hε : 0 < ε) (hq : ∀ j, 0 < q j) {T : I → J → ℝ} (hT : ∀ i j, 0 < T i j) :
    (∀ i j, 0 < colHalf df ε q T i j) ∧ (∀ j, ∑ i, colHalf df ε q T i j = q j) ∧
    ∀ Q : I → J → ℝ, (∀ i j, 0 ≤ Q i j) → (∀ j, ∑ i, Q i j = q j) →
      Spec.inner (df T) (colHalf df ε q T) + ε * klPlan (colHalf df ε q T) T ≤ Spec.inner (df T) Q + ε * klPlan Q T ∧
      (Spec.inner (df T) Q + ε * klPlan Q T ≤ Spec.inner (df T) (colHalf df ε q T) + ε * klPlan (colHalf df ε q T) T → Q = colHalf df ε q T) := by
  have hpos := colHalf_pos (df := df) (ε := ε) hq hT
  have hcol := colHalf_cols (df := df) (ε := ε) (q := q) hT
  obtain ⟨y, hy⟩ := colHalf_log (df := df) (ε := ε) hq hT
  refine ⟨hpos, hcol, fun Q h0 hQ => ?_⟩
  have hg := prox_gap (N := df T) (Q := Q) (x := fun _ => 0) (y := y) hε.ne' hT hpos (fun i j => by rw [hy]; ring)
    (by
      rw [sum_comm]
      conv_rhs => rw [sum_comm]
      exact sum_congr rfl fun j _ => by rw [← mul_sum, ← mul_sum, hQ, hcol])
  have hk := klPlan_nonneg h0 hpos
  refine ⟨by nlinarith [mul_nonneg hε.le hk], fun hle => klPlan_eq_zero h0 hpos ?_⟩
  by_contra h
  push Not at h
  nlinarith [mul_pos hε h]

/-! ## Results -/

theorem bapgStep_pos [Nonempty I] [Nonempty J] (df : (I → J → ℝ) → I → J → ℝ) (hp : ∀ i, 0 < p i) (hq : ∀ j, 0 < q j) {T : I → J → ℝ} (hT : ∀ i j, 0 < T i j) :
    ∀ i j, 0 < bapgStep df ε p q T i j := colHalf_pos hq (rowHalf_pos hp hT)

/-- C108: after at least one iteration from a positive start every entry is positive and the column sums are exact. -/
theorem C108_result [Nonempty I] [Nonempty J] (hp : ∀ i, 0 < p i) (hq : ∀ j, 0 < q j) (G0 : Option (I → J → ℝ)) (h0 : ∀ G, G0 = some G → ∀ i j, 0 < G i j)
    {maxIter : ℕ} (hm : 1 ≤ maxIter) {tol : ℝ} (ht : tol < 10 ^ 15) :
    (∀ i j, 0 < (bapgFgw marginal symmetric D C1 C2 p q M α ε G0 maxIter tol).T i j) ∧
      ∀ j, ∑ i, (bapgFgw marginal symmetric D C1 C2 p q M α ε G0 maxIter tol).T i j = q j := by
  obtain ⟨n, rfl⟩ : ∃ n, maxIter = n + 1 := ⟨maxIter - 1, by omega⟩
  have hs : ∀ i j, 0 < start p q G0 i j := by
    cases G0 with
    | none => exact fun i j => mul_pos (hp i) (hq j)
    | some G => exact h0 G rfl
  unfold bapgFgw
  rw [egwLoop_succ, if_pos (show (10 ^ 15 : ℝ) > tol from ht)]
  refine egwLoop_inv (Inv := fun T => (∀ i j, 0 < T i j) ∧ ∀ j, ∑ i, T i j = q j) (fun T hT => ⟨bapgStep_pos _ hp hq hT.1, colHalf_cols (rowHalf_pos hp hT.1)⟩) tol n _
    ⟨bapgStep_pos _ hp hq hs, colHalf_cols (rowHalf_pos hp hs)⟩

/-- C108: near a fixed point. `T` has positive entries and the total mass of `p`, and an iteration changes the logarithms of its entries by at most `η`. Then the midpoint `W` of `T` and the
rows update of `T` is first-order critical for the fused cost among the arrays with its own marginals, up to `ε η / 2` per unit of mass moved; and when the values of the gradient at `T`
range over at most `d` as well as those at the rows update, the entries of the rows update are within a factor `exp(3 d / ε + 2 η)` of those of `T`, so that the row sums of `T` are
within this factor of `p`. -/
theorem C108_near [Nonempty I] [Nonempty J] (hsym : symmetric = true → (∀ i k, C1 i k = C1 k i) ∧ (∀ j l, C2 j l = C2 l j)) (hε : 0 < ε)
    (hp : ∀ i, 0 < p i) (hq : ∀ j, 0 < q j) {T : I → J → ℝ} (hT : ∀ i j, 0 < T i j) (hmass : ∑ i, ∑ j, T i j = ∑ i, p i) {η : ℝ}
    (hη : ∀ i j, |Real.log (bapgStep (bapgDf marginal symmetric D C1 C2 p q M α) ε p q T i j) - Real.log (T i j)| ≤ η) :
    (∀ Δ : I → J → ℝ, ZeroRows Δ → ZeroCols Δ → ∀ t : ℝ,
      |fgwCost D.loss C1 C2 M α (fun i j => (T i j + rowHalf (bapgDf marginal symmetric D C1 C2 p q M α) ε p T i j) / 2 + t * Δ i j)
        - fgwCost D.loss C1 C2 M α (fun i j => (T i j + rowHalf (bapgDf marginal symmetric D C1 C2 p q M α) ε p T i j) / 2)
        - t ^ 2 * (α * gwEnergy D.loss C1 C2 Δ)| ≤ |t| * (ε * η / 2 * ∑ i, ∑ j, |Δ i j|)) ∧
    ∀ d m m' : ℝ, (∀ i j, m ≤ bapgDf marginal symmetric D C1 C2 p q M α T i j ∧ bapgDf marginal symmetric D C1 C2 p q M α T i j ≤ m + d) →
      (∀ i j, m' ≤ bapgDf marginal symmetric D C1 C2 p q M α (rowHalf (bapgDf marginal symmetric D C1 C2 p q M α) ε p T) i j ∧
        bapgDf marginal symmetric D C1 C2 p q M α (rowHalf (bapgDf marginal symmetric D C1 C2 p q M α) ε p T) i j ≤ m' + d) →
      (∀ i j, |Real.log (rowHalf (bapgDf marginal symmetric D C1 C2 p q M α) ε p T i j) - Real.log (T i j)| ≤ 3 * d / ε + 2 * η) ∧
      ∀ i, p i ≤ Real.exp (3 * d / ε + 2 * η) * ∑ j, T i j ∧ ∑ j, T i j ≤ Real.exp (3 * d / ε + 2 * η) * p i := by
  obtain ⟨df, hdf⟩ : ∃ df, df = bapgDf marginal symmetric D C1 C2 p q M α := ⟨_, rfl⟩
  rw [← hdf] at hη ⊢
  have hP := rowHalf_pos (df := df) (ε := ε) hp hT
  have hPr := rowHalf_rows (df := df) (ε := ε) (p := p) hT
  obtain ⟨x, hx⟩ := rowHalf_log (df := df) (ε := ε) hp hT
  obtain ⟨y, hy⟩ := colHalf_log (df := df) (ε := ε) hq hP
  obtain ⟨P, hPdef⟩ : ∃ P, P = rowHalf df ε p T := ⟨_, rfl⟩
  unfold bapgStep at hη
  rw [← hPdef] at hη hP hPr hx hy ⊢
  obtain ⟨w, hw⟩ : ∃ w : I → J → ℝ, ∀ i j, w i j = Real.log (colHalf df ε q P i j) - Real.log (T i j) := ⟨_, fun _ _ => rfl⟩
  simp only [← hw] at hη
  -- gradients at the two plans
  have hsum : ∀ i j, df T i j + df P i j = ε * (x i + y j - w i j) := by
    intro i j
    have h1 := hx i j
    have h2 := hy i j
    have h3 := hw i j
    have : (df T i j + df P i j) / ε = x i + y j - w i j := by rw [add_div]; linarith
    rw [← this]; field_simp
  refine ⟨fun Δ hr hc t => ?_, fun d m m' hm hm' => ?_⟩
  · have hl := C108_gradient (marginal := marginal) (D := D) (p := p) (q := q) (M := M) (α := α) hsym (fun i j => (T i j + P i j) / 2) hr hc t
    rw [← hdf] at hl
    rw [hl]
    have hmid : ∀ i j, df (fun i j => (T i j + P i j) / 2) i j = (-(ε / 2) * w i j) + (ε / 2 * x i) + (ε / 2 * y j) := by
      intro i j
      have := df_mid marginal symmetric D C1 C2 p q M α T P i j
      rw [← hdf] at this
      rw [this, hsum]; ring
    have hi : Spec.inner (df fun i j => (T i j + P i j) / 2) Δ = Spec.inner (fun i j => -(ε / 2) * w i j) Δ := inner_split hmid hr hc
    have hb : |Spec.inner (df fun i j => (T i j + P i j) / 2) Δ| ≤ ε * η / 2 * ∑ i, ∑ j, |Δ i j| := by
      rw [hi]
      unfold Spec.inner
      rw [mul_sum]
      refine (abs_sum_le_sum_abs _ _).trans (sum_le_sum fun i _ => ?_)
      rw [mul_sum]
      refine (abs_sum_le_sum_abs _ _).trans (sum_le_sum fun j _ => ?_)
      rw [abs_mul, abs_mul, abs_neg, abs_of_pos (half_pos hε)]
      have := mul_le_mul_of_nonneg_left (hη i j) (half_pos hε).le
      have := mul_le_mul_of_nonneg_right this (abs_nonneg (Δ i j))
      calc _ ≤ ε / 2 * η * |Δ i j| := this
        _ = _ := by ring
    have e : fgwCost D.loss C1 C2 M α (fun i j => (T i j + P i j) / 2) + t * Spec.inner (df fun i j => (T i j + P i j) / 2) Δ
        + t ^ 2 * (α * gwEnergy D.loss C1 C2 Δ) - fgwCost D.loss C1 C2 M α (fun i j => (T i j + P i j) / 2) - t ^ 2 * (α * gwEnergy D.loss C1 C2 Δ)
        = t * Spec.inner (df fun i j => (T i j + P i j) / 2) Δ := by ring
    rw [e, abs_mul]
    exact mul_le_mul_of_nonneg_left hb (abs_nonneg t)
  · obtain ⟨j0⟩ := (inferInstance : Nonempty J)
    have hxo : ∀ i k, x i - x k ≤ 2 * d / ε + 2 * η := by
      intro i k
      have a1 := hsum i j0
      have a2 := hsum k j0
      have b1 := abs_le.1 (hη i j0)
      have b2 := abs_le.1 (hη k j0)
      have : ε * (x i - x k) ≤ ε * (2 * d / ε + 2 * η) := by
        have e : ε * (2 * d / ε + 2 * η) = 2 * d + ε * (2 * η) := by field_simp
        rw [e]
        have c1 := (hm i j0).2
        have c2 := (hm k j0).1
        have c3 := (hm' i j0).2
        have c4 := (hm' k j0).1
        have : ε * (x i - x k) = (df T i j0 + df P i j0) - (df T k j0 + df P k j0) + ε * (w i j0 - w k j0) := by rw [a1, a2]; ring
        rw [this]
        have : ε * (w i j0 - w k j0) ≤ ε * (2 * η) := mul_le_mul_of_nonneg_left (by linarith) hε.le
        linarith
      exact le_of_mul_le_mul_left this hε
    have hmP : ∑ i, ∑ j, T i j = ∑ i, ∑ j, P i j := by rw [hmass]; exact (sum_congr rfl fun i _ => hPr i).symm
    have hr : ∀ i j, |Real.log (P i j) - Real.log (T i j)| ≤ 3 * d / ε + 2 * η := by
      refine ratio_bound hT hP hmP fun i j k l => ?_
      rw [hx, hx]
      have a1 := hxo i k
      have c1 := (hm i j).1
      have c2 := (hm k l).2
      have : (df T k l - df T i j) / ε ≤ d / ε := div_le_div_of_nonneg_right (by linarith) hε.le
      rw [sub_div] at this
      have e : 3 * d / ε + 2 * η = d / ε + (2 * d / ε + 2 * η) := by ring
      rw [e]
      linarith
    refine ⟨hr, fun i => ⟨?_, ?_⟩⟩
    · rw [← hPr i, mul_sum]
      exact sum_le_sum fun j _ => le_exp_mul (hP i j) (hT i j) (abs_le.1 (hr i j)).2
    · rw [← hPr i, mul_sum]
      refine sum_le_sum fun j _ => le_exp_mul (hT i j) (hP i j) ?_
      have := (abs_le.1 (hr i j)).1
      linarith

/-- C108: a positive fixed point has exact column sums, the midpoint of it and its rows update is a first-order point of the fused cost among the arrays with its own marginals. -/
theorem C108_fixed [Nonempty I] [Nonempty J] (hsym : symmetric = true → (∀ i k, C1 i k = C1 k i) ∧ (∀ j l, C2 j l = C2 l j)) (hε : 0 < ε)
    (hp : ∀ i, 0 < p i) (hq : ∀ j, 0 < q j) (hS : ∑ i, p i = ∑ j, q j) {T : I → J → ℝ} (hT : ∀ i j, 0 < T i j)
    (hfix : bapgStep (bapgDf marginal symmetric D C1 C2 p q M α) ε p q T = T) :
    (∀ j, ∑ i, T i j = q j) ∧ (∀ Δ : I → J → ℝ, ZeroRows Δ → ZeroCols Δ → ∀ t : ℝ,
      fgwCost D.loss C1 C2 M α (fun i j => (T i j + rowHalf (bapgDf marginal symmetric D C1 C2 p q M α) ε p T i j) / 2 + t * Δ i j)
        = fgwCost D.loss C1 C2 M α (fun i j => (T i j + rowHalf (bapgDf marginal symmetric D C1 C2 p q M α) ε p T i j) / 2)
        + t ^ 2 * (α * gwEnergy D.loss C1 C2 Δ)) ∧
    ∀ d m m' : ℝ, (∀ i j, m ≤ bapgDf marginal symmetric D C1 C2 p q M α T i j ∧ bapgDf marginal symmetric D C1 C2 p q M α T i j ≤ m + d) →
      (∀ i j, m' ≤ bapgDf marginal symmetric D C1 C2 p q M α (rowHalf (bapgDf marginal symmetric D C1 C2 p q M α) ε p T) i j ∧
        bapgDf marginal symmetric D C1 C2 p q M α (rowHalf (bapgDf marginal symmetric D C1 C2 p q M α) ε p T) i j ≤ m' + d) →
      ∀ i, p i ≤ Real.exp (3 * d / ε) * ∑ j, T i j ∧ ∑ j, T i j ≤ Real.exp (3 * d / ε) * p i := by
  have hcol : ∀ j, ∑ i, T i j = q j := by
    intro j
    have := colHalf_cols (df := bapgDf marginal symmetric D C1 C2 p q M α) (ε := ε) (q := q)
      (rowHalf_pos (df := bapgDf marginal symmetric D C1 C2 p q M α) (ε := ε) hp hT) j
    unfold bapgStep at hfix
    rwa [hfix] at this
  have hmass : ∑ i, ∑ j, T i j = ∑ i, p i := by
    rw [sum_comm, hS]; exact sum_congr rfl fun j _ => hcol j
  obtain ⟨h1, h2⟩ := C108_near (η := 0) hsym hε hp hq hT hmass (fun i j => by rw [hfix]; simp)
  refine ⟨hcol, fun Δ hr hc t => ?_, fun d m m' hm hm' i => ?_⟩
  · have := h1 Δ hr hc t
    rw [mul_zero, zero_div, zero_mul, mul_zero] at this
    have := abs_nonpos_iff.1 this
    linarith
  · have := (h2 d m m' hm hm').2 i
    rwa [mul_zero, add_zero] at this

/-- C108: range of the gradient without `marginal_loss` at a nonnegative plan of mass `S`, from the ranges of `h₁(C₁) h₂(C₂)` and of the linear cost. -/
theorem C108_range (hα : 0 ≤ α) (hα1 : α ≤ 1) {lo w lo' w' S : ℝ} (hC : ∀ i k j l, lo ≤ D.h1 (C1 i k) * D.h2 (C2 j l) ∧ D.h1 (C1 i k) * D.h2 (C2 j l) ≤ lo + w)
    (hM : ∀ i j, lo' ≤ M i j ∧ M i j ≤ lo' + w') {T : I → J → ℝ} (hT : ∀ i j, 0 ≤ T i j) (hS : ∑ i, ∑ j, T i j = S) (i : I) (j : J) :
    (1 - α) * lo' - 2 * α * S * (lo + w) ≤ bapgDf false symmetric D C1 C2 p q M α T i j ∧
      bapgDf false symmetric D C1 C2 p q M α T i j ≤ (1 - α) * lo' - 2 * α * S * (lo + w) + (2 * α * S * w + (1 - α) * w') := by
  have hd : ∀ (A : I → I → ℝ) (B : J → J → ℝ) (i : I) (j : J), (∀ k l, lo ≤ A i k * B l j ∧ A i k * B l j ≤ lo + w) →
      S * lo ≤ dotR A T B i j ∧ dotR A T B i j ≤ S * (lo + w) := by
    intro A B i j h
    have e : dotR A T B i j = ∑ k, ∑ l, A i k * B l j * T k l := by
      simp only [dotR, sum_mul]
      rw [sum_comm]
      exact sum_congr rfl fun k _ => sum_congr rfl fun l _ => by ring
    rw [e, ← hS, sum_mul, sum_mul]
    constructor
    · refine sum_le_sum fun k _ => ?_
      rw [sum_mul]
      exact sum_le_sum fun l _ => by rw [mul_comm]; exact mul_le_mul_of_nonneg_right (h k l).1 (hT k l)
    · refine sum_le_sum fun k _ => ?_
      rw [sum_mul]
      exact sum_le_sum fun l _ => by rw [mul_comm (T k l)]; exact mul_le_mul_of_nonneg_right (h k l).2 (hT k l)
  have hm1 := mul_le_mul_of_nonneg_left (hM i j).1 (sub_nonneg.2 hα1)
  have hm2 := mul_le_mul_of_nonneg_left (hM i j).2 (sub_nonneg.2 hα1)
  cases symmetric
  · have a := hd (mapM D.h1 C1) (mapM D.h2 (tr C2)) i j fun k l => hC i k j l
    have b := hd (mapM D.h1 (tr C1)) (mapM D.h2 C2) i j fun k l => hC k i l j
    have a1 := mul_le_mul_of_nonneg_left a.1 hα
    have a2 := mul_le_mul_of_nonneg_left a.2 hα
    have b1 := mul_le_mul_of_nonneg_left b.1 hα
    have b2 := mul_le_mul_of_nonneg_left b.2 hα
    simp only [bapgDf, Bool.false_eq_true, if_false]
    constructor <;> nlinarith
  · have a := hd (mapM D.h1 C1) (tr (mapM D.h2 C2)) i j fun k l => hC i k j l
    have a1 := mul_le_mul_of_nonneg_left a.1 hα
    have a2 := mul_le_mul_of_nonneg_left a.2 hα
    simp only [bapgDf, Bool.false_eq_true, if_false, if_true]
    constructor <;> nlinarith

/-- C108: without `marginal_loss` the row sums of a fixed point are within a factor `exp(3 (2 α S w + (1-α) w') / ε)` of `p`, where `S` is the total mass, `w` the range of
`h₁(C₁) h₂(C₂)` and `w'` the range of the linear cost: the larger `epsilon`, the better the constraint is met. -/
theorem C108_rows [Nonempty I] [Nonempty J] (hsym : symmetric = true → (∀ i k, C1 i k = C1 k i) ∧ (∀ j l, C2 j l = C2 l j)) (hε : 0 < ε) (hα : 0 ≤ α) (hα1 : α ≤ 1)
    (hp : ∀ i, 0 < p i) (hq : ∀ j, 0 < q j) {S : ℝ} (hpS : ∑ i, p i = S) (hqS : ∑ j, q j = S) {lo w lo' w' : ℝ}
    (hC : ∀ i k j l, lo ≤ D.h1 (C1 i k) * D.h2 (C2 j l) ∧ D.h1 (C1 i k) * D.h2 (C2 j l) ≤ lo + w) (hM : ∀ i j, lo' ≤ M i j ∧ M i j ≤ lo' + w')
    {T : I → J → ℝ} (hT : ∀ i j, 0 < T i j) (hfix : bapgStep (bapgDf false symmetric D C1 C2 p q M α) ε p q T = T) (i : I) :
    p i ≤ Real.exp (3 * (2 * α * S * w + (1 - α) * w') / ε) * ∑ j, T i j ∧ ∑ j, T i j ≤ Real.exp (3 * (2 * α * S * w + (1 - α) * w') / ε) * p i := by
  obtain ⟨hcol, -, h⟩ := C108_fixed hsym hε hp hq (hpS.trans hqS.symm) hT hfix
  have hm1 : ∑ i, ∑ j, T i j = S := by rw [sum_comm, ← hqS]; exact sum_congr rfl fun j _ => hcol j
  have hm2 : ∑ i, ∑ j, rowHalf (bapgDf false symmetric D C1 C2 p q M α) ε p T i j = S := by
    rw [← hpS]; exact sum_congr rfl fun i _ => rowHalf_rows hT i
  exact h _ _ _ (C108_range hα hα1 hC hM (fun i j => (hT i j).le) hm1) (C108_range hα hα1 hC hM (fun i j => (rowHalf_pos hp hT i j).le) hm2) i

/-- C108: a run that stops before `max_iter` returns the image by one iteration of a plan `T` at distance at most `tol`; when the entries of both are at least `μ > 0` and `T` is not the
start (so that its mass is right), the conclusions of the near fixed point hold with `η = tol / μ`. -/
theorem C108_stopped [Nonempty I] [Nonempty J] (hp : ∀ i, 0 < p i) (hq : ∀ j, 0 < q j) (G0 : Option (I → J → ℝ)) (h0 : ∀ G, G0 = some G → ∀ i j, 0 < G i j)
    {maxIter : ℕ} {tol : ℝ} (ht : tol < 10 ^ 15) (hstop : (bapgFgw marginal symmetric D C1 C2 p q M α ε G0 maxIter tol).err ≤ tol) :
    ∃ (k : ℕ) (T : I → J → ℝ), k < maxIter ∧ k % 10 = 0 ∧
      T = (bapgStep (bapgDf marginal symmetric D C1 C2 p q M α) ε p q)^[k] (start p q G0) ∧ (∀ i j, 0 < T i j) ∧ (1 ≤ k → ∀ j, ∑ i, T i j = q j) ∧
      (bapgFgw marginal symmetric D C1 C2 p q M α ε G0 maxIter tol).T = bapgStep (bapgDf marginal symmetric D C1 C2 p q M α) ε p q T ∧
      ∀ μ : ℝ, 0 < μ → (∀ i j, μ ≤ T i j) → (∀ i j, μ ≤ bapgStep (bapgDf marginal symmetric D C1 C2 p q M α) ε p q T i j) →
        ∀ i j, |Real.log (bapgStep (bapgDf marginal symmetric D C1 C2 p q M α) ε p q T i j) - Real.log (T i j)| ≤ tol / μ := by
  obtain ⟨k, hk, h10, hT, hf⟩ := egwLoop_stop _ tol maxIter 0 _ (show (10 ^ 15 : ℝ) > tol from ht) hstop
  have hs : ∀ i j, 0 < start p q G0 i j := by
    cases G0 with
    | none => exact fun i j => mul_pos (hp i) (hq j)
    | some G => exact h0 G rfl
  have hpos : ∀ k i j, 0 < ((bapgStep (bapgDf marginal symmetric D C1 C2 p q M α) ε p q)^[k] (start p q G0)) i j := by
    intro k
    induction k with
    | zero => exact hs
    | succ n ih => rw [Function.iterate_succ_apply']; exact bapgStep_pos _ hp hq ih
  refine ⟨k, _, hk, by simpa using h10, rfl, hpos k, fun h1 => ?_, hT, fun μ hμ hl hl' i j => ?_⟩
  · obtain ⟨n, rfl⟩ : ∃ n, k = n + 1 := ⟨k - 1, by omega⟩
    rw [Function.iterate_succ_apply']
    exact colHalf_cols (rowHalf_pos hp (hpos n))
  · have hf' := hf
    dsimp only at hf'
    obtain ⟨T, hTd⟩ : ∃ T, T = (bapgStep (bapgDf marginal symmetric D C1 C2 p q M α) ε p q)^[k] (start p q G0) := ⟨_, rfl⟩
    rw [← hTd] at hl hl' hf' ⊢
    obtain ⟨N, hN⟩ : ∃ N, N = bapgStep (bapgDf marginal symmetric D C1 C2 p q M α) ε p q T := ⟨_, rfl⟩
    rw [← hN] at hl' hf' ⊢
    have hij : |N i j - T i j| ≤ tol := by
      refine le_trans ?_ hf'
      unfold frob
      rw [← Real.sqrt_sq_eq_abs]
      refine Real.sqrt_le_sqrt ?_
      exact (single_le_sum (f := fun j => (N i j - T i j) ^ 2) (fun j _ => sq_nonneg _) (mem_univ j)).trans
        (single_le_sum (f := fun i => ∑ j, (N i j - T i j) ^ 2) (fun i _ => sum_nonneg fun j _ => sq_nonneg _) (mem_univ i))
    have hlog : ∀ x y : ℝ, μ ≤ x → μ ≤ y → |x - y| ≤ tol → Real.log x - Real.log y ≤ tol / μ := by
      intro x y hx hy hxy
      have hx0 := hμ.trans_le hx
      have hy0 := hμ.trans_le hy
      rw [← Real.log_div hx0.ne' hy0.ne']
      have h1 := Real.log_le_sub_one_of_pos (div_pos hx0 hy0)
      have h2 : x / y - 1 = (x - y) / y := by field_simp
      have h3 : (x - y) / y ≤ tol / μ := by
        have ht0 : 0 ≤ tol := (abs_nonneg _).trans hxy
        calc (x - y) / y ≤ tol / y := div_le_div_of_nonneg_right ((le_abs_self _).trans hxy) hy0.le
          _ ≤ tol / μ := div_le_div_of_nonneg_left ht0 hμ hy
      linarith
    rw [abs_le]
    have a1 := hlog _ _ (hl' i j) (hl i j) hij
    have a2 := hlog _ _ (hl i j) (hl' i j) (by rwa [abs_sub_comm])
    constructor <;> linarith

/-! ## What fails -/

/-- Two points at distance one. -/
def bapgC : Fin 2 → Fin 2 → ℝ := fun i k => if i = k then 0 else 1
/-- Weights `1/4`, `3/4`. -/
noncomputable def bapgW : Fin 2 → ℝ := ![1 / 4, 3 / 4]
/-- The plan `[[1/4 - c, b], [c, 1/4 + c]]` with `b = 1 / (2 (1 + ρ))`, `c = ρ b`, `ρ = exp(-1/ε)`. -/
noncomputable def bapgPlan (ε : ℝ) : Fin 2 → Fin 2 → ℝ :=
  ![![1 / 4 - Real.exp (-1 / ε) * (1 / (2 * (1 + Real.exp (-1 / ε)))), 1 / (2 * (1 + Real.exp (-1 / ε)))],
    ![Real.exp (-1 / ε) * (1 / (2 * (1 + Real.exp (-1 / ε)))), 1 / 4 + Real.exp (-1 / ε) * (1 / (2 * (1 + Real.exp (-1 / ε))))]]

theorem bapgPlan_pos {ε : ℝ} (hε : 0 < ε) (i j : Fin 2) : 0 < bapgPlan ε i j := by
  have hr := Real.exp_pos (-1 / ε)
  have hr1 : Real.exp (-1 / ε) < 1 := by rw [Real.exp_lt_one_iff]; exact div_neg_of_neg_of_pos (by norm_num) hε
  have hc : Real.exp (-1 / ε) * (1 / (2 * (1 + Real.exp (-1 / ε)))) < 1 / 4 := by
    rw [mul_one_div, div_lt_div_iff₀ (by positivity) (by norm_num)]; linarith
  fin_cases i <;> fin_cases j <;> simp only [bapgPlan, Fin.zero_eta, Fin.mk_one, Matrix.cons_val_zero, Matrix.cons_val_one, Fin.isValue]
  · linarith
  · positivity
  · positivity
  · positivity

theorem bapgPlan_df (T : Fin 2 → Fin 2 → ℝ) (i j : Fin 2) :
    bapgDf false true square bapgC bapgC bapgW bapgW (fun _ _ => 0) 1 T i j = -(4 * T (1 - i) (1 - j)) := by
  fin_cases i <;> fin_cases j <;> simp [bapgDf, dotR, mapM, square, bapgC, tr, Fin.sum_univ_two] <;> ring

theorem bapgPlan_half {ε : ℝ} (hε : 0 < ε) :
    rowHalf (bapgDf false true square bapgC bapgC bapgW bapgW (fun _ _ => 0) 1) ε bapgW (bapgPlan ε) = fun i j => bapgPlan ε j i := by
  obtain ⟨r, hr⟩ : ∃ r, r = Real.exp (-1 / ε) := ⟨_, rfl⟩
  obtain ⟨b, hb⟩ : ∃ b, b = 1 / (2 * (1 + r)) := ⟨_, rfl⟩
  have hr0 : 0 < r := hr ▸ Real.exp_pos _
  have hbr : 2 * b + 2 * (r * b) = 1 := by rw [hb]; field_simp
  have hb0 : 0 < b := by rw [hb]; positivity
  have h00 : bapgPlan ε 0 0 = 1 / 4 - r * b := by rw [hb, hr]; rfl
  have h01 : bapgPlan ε 0 1 = b := by rw [hb, hr]; rfl
  have h10 : bapgPlan ε 1 0 = r * b := by rw [hb, hr]; rfl
  have h11 : bapgPlan ε 1 1 = 1 / 4 + r * b := by rw [hb, hr]; rfl
  have e1 : Real.exp (4 * (r * b) / ε) = r * Real.exp (4 * (1 / 4 + r * b) / ε) := by
    rw [hr, ← Real.exp_add]; congr 1; field_simp; ring
  have e2 : r * Real.exp (4 * b / ε) = Real.exp (4 * (1 / 4 - r * b) / ε) := by
    have hb' : b = 1 / 2 - r * b := by linarith
    rw [hr, ← Real.exp_add, ← hr]; congr 1
    have : 4 * b / ε = 4 * (1 / 2 - r * b) / ε := by rw [← hb']
    rw [this]; field_simp; ring
  have p1 := Real.exp_pos (4 * (1 / 4 + r * b) / ε)
  have p2 := Real.exp_pos (4 * (1 / 4 - r * b) / ε)
  funext i j
  unfold rowHalf
  simp only [bapgPlan_df, neg_neg, Fin.sum_univ_two]
  fin_cases i <;> fin_cases j <;> simp only [Fin.zero_eta, Fin.mk_one, Fin.isValue, sub_zero, sub_self, h00, h01, h10, h11, bapgW, Matrix.cons_val_zero,
    Matrix.cons_val_one]
  · have : (1 / 4 - r * b) * Real.exp (4 * (1 / 4 + r * b) / ε) + b * Real.exp (4 * (r * b) / ε) = 1 / 4 * Real.exp (4 * (1 / 4 + r * b) / ε) := by
      rw [e1]; ring
    rw [this]; field_simp
  · have : (1 / 4 - r * b) * Real.exp (4 * (1 / 4 + r * b) / ε) + b * Real.exp (4 * (r * b) / ε) = 1 / 4 * Real.exp (4 * (1 / 4 + r * b) / ε) := by
      rw [e1]; ring
    rw [this, e1]; field_simp
  · have : r * b * Real.exp (4 * b / ε) + (1 / 4 + r * b) * Real.exp (4 * (1 / 4 - r * b) / ε) = 3 / 4 * Real.exp (4 * (1 / 4 - r * b) / ε) := by
      have : r * b * Real.exp (4 * b / ε) = b * Real.exp (4 * (1 / 4 - r * b) / ε) := by rw [← e2]; ring
      rw [this, ← add_mul]; congr 1; linarith
    rw [this]
    have h3 : r * b * Real.exp (4 * b / ε) = b * Real.exp (4 * (1 / 4 - r * b) / ε) := by rw [← e2]; ring
    rw [h3]; field_simp
  · have : r * b * Real.exp (4 * b / ε) + (1 / 4 + r * b) * Real.exp (4 * (1 / 4 - r * b) / ε) = 3 / 4 * Real.exp (4 * (1 / 4 - r * b) / ε) := by
      have : r * b * Real.exp (4 * b / ε) = b * Real.exp (4 * (1 / 4 - r * b) / ε) := by rw [← e2]; ring
      rw [this, ← add_mul]; congr 1; linarith
    rw [this]; field_simp

theorem bapgPlan_fixed {ε : ℝ} (hε : 0 < ε) :
    bapgStep (bapgDf false true square bapgC bapgC bapgW bapgW (fun _ _ => 0) 1) ε bapgW bapgW (bapgPlan ε) = bapgPlan ε := by
  unfold bapgStep
  rw [bapgPlan_half hε]
  have ht : ∀ T : Fin 2 → Fin 2 → ℝ, colHalf (bapgDf false true square bapgC bapgC bapgW bapgW (fun _ _ => 0) 1) ε bapgW (fun i j => T j i)
      = fun i j => rowHalf (bapgDf false true square bapgC bapgC bapgW bapgW (fun _ _ => 0) 1) ε bapgW T j i := by
    intro T
    funext i j
    unfold colHalf rowHalf
    simp only [bapgPlan_df]
  rw [ht, bapgPlan_half hε]

/-- C108 is false when read as "the plan returned is a coupling": for every `epsilon` there is a positive start with exact column sums that the solver returns unchanged, whatever `max_iter` and
`tol`, whose first row sums to `1/4 + (1 - ρ) / (2 (1 + ρ))` instead of `1/4`, `ρ = exp(-1/epsilon)`. -/
theorem C108_coupling_refuted {ε : ℝ} (hε : 0 < ε) : ∃ G0 : Fin 2 → Fin 2 → ℝ, (∀ i j, 0 < G0 i j) ∧ (∀ j, ∑ i, G0 i j = bapgW j) ∧
    ∀ (maxIter : ℕ) (tol : ℝ), (bapgFgw false true square bapgC bapgC bapgW bapgW (fun _ _ => 0) 1 ε (some G0) maxIter tol).T = G0 ∧
      ∑ j, (bapgFgw false true square bapgC bapgC bapgW bapgW (fun _ _ => 0) 1 ε (some G0) maxIter tol).T 0 j
        = bapgW 0 + (1 - Real.exp (-1 / ε)) / (2 * (1 + Real.exp (-1 / ε))) ∧
      bapgW 0 < ∑ j, (bapgFgw false true square bapgC bapgC bapgW bapgW (fun _ _ => 0) 1 ε (some G0) maxIter tol).T 0 j := by
  have hr := Real.exp_pos (-1 / ε)
  have hr1 : Real.exp (-1 / ε) < 1 := by rw [Real.exp_lt_one_iff]; exact div_neg_of_neg_of_pos (by norm_num) hε
  have hrun : ∀ (maxIter : ℕ) (tol : ℝ), (bapgFgw false true square bapgC bapgC bapgW bapgW (fun _ _ => 0) 1 ε (some (bapgPlan ε)) maxIter tol).T = bapgPlan ε := by
    intro maxIter tol
    exact egwLoop_inv (Inv := fun T => T = bapgPlan ε) (fun T hT => by rw [hT]; exact bapgPlan_fixed hε) tol maxIter 0 rfl
  have hsum : ∑ j, bapgPlan ε 0 j = bapgW 0 + (1 - Real.exp (-1 / ε)) / (2 * (1 + Real.exp (-1 / ε))) := by
    simp only [Fin.sum_univ_two, bapgPlan, bapgW, Matrix.cons_val_zero, Matrix.cons_val_one, Fin.isValue]
    ring
  refine ⟨bapgPlan ε, bapgPlan_pos hε, fun j => ?_, fun maxIter tol => ?_⟩
  · have hb : 1 / (2 * (1 + Real.exp (-1 / ε))) = 1 / 2 - Real.exp (-1 / ε) * (1 / (2 * (1 + Real.exp (-1 / ε)))) := by field_simp; ring
    fin_cases j <;> simp only [Fin.sum_univ_two, bapgPlan, bapgW, Matrix.cons_val_zero, Matrix.cons_val_one, Fin.isValue, Fin.zero_eta, Fin.mk_one]
    · ring
    · linarith
  · rw [hrun]
    refine ⟨rfl, hsum, ?_⟩
    rw [hsum]
    have : 0 < (1 - Real.exp (-1 / ε)) / (2 * (1 + Real.exp (-1 / ε))) := div_pos (by linarith) (by positivity)
    linarith

/-- C108 is false when read as "the value is the Gromov-Wasserstein energy of the plan returned": for `epsilon = 1 / log 9` there is a fixed point of energy `1/2` for which `0.62` is reported. -/
theorem C108_value_refuted : ∃ (ε : ℝ) (G0 : Fin 2 → Fin 2 → ℝ), 0 < ε ∧ ∀ (maxIter : ℕ) (tol : ℝ),
    (bapgFgw2 false true square bapgC bapgC bapgW bapgW (fun _ _ => 0) 1 ε (some G0) maxIter tol).1 = 31 / 50 ∧
    gwEnergy sqLoss bapgC bapgC (bapgFgw false true square bapgC bapgC bapgW bapgW (fun _ _ => 0) 1 ε (some G0) maxIter tol).T = 1 / 2 := by
  have h9 : 0 < Real.log 9 := Real.log_pos (by norm_num)
  have hε : 0 < 1 / Real.log 9 := by positivity
  have he : Real.exp (-1 / (1 / Real.log 9)) = 1 / 9 := by
    have : -1 / (1 / Real.log 9) = -Real.log 9 := by field_simp
    rw [this, Real.exp_neg, Real.exp_log (by norm_num)]; norm_num
  have hrun : ∀ (maxIter : ℕ) (tol : ℝ), (bapgFgw false true square bapgC bapgC bapgW bapgW (fun _ _ => 0) 1 (1 / Real.log 9) (some (bapgPlan (1 / Real.log 9))) maxIter tol).T
      = bapgPlan (1 / Real.log 9) := by
    intro maxIter tol
    exact egwLoop_inv (Inv := fun T => T = bapgPlan (1 / Real.log 9)) (fun T hT => by rw [hT]; exact bapgPlan_fixed hε) tol maxIter 0 rfl
  have hpl : bapgPlan (1 / Real.log 9) = ![![1 / 5, 9 / 20], ![1 / 20, 3 / 10]] := by
    unfold bapgPlan
    rw [he]
    norm_num
  refine ⟨1 / Real.log 9, bapgPlan (1 / Real.log 9), hε, fun maxIter tol => ⟨?_, ?_⟩⟩
  · unfold bapgFgw2
    dsimp only
    rw [hrun, hpl]
    simp [fgwDist, gwF, gwloss, tensorProduct, constC, dot3, mapM, square, bapgC, bapgW, Fin.sum_univ_two]
    norm_num
  · rw [hrun, hpl]
    simp [gwEnergy, sqLoss, bapgC, Fin.sum_univ_two]
    norm_num

/-- C108 fails for a weight zero: from the default start the first rows update divides `p_i = 0` by a row sum equal to zero. -/
theorem C108_zero_weight_refuted (df : (I → J → ℝ) → I → J → ℝ) {i : I} (hi : p i = 0) :
    ∑ j, start p q none i j * Real.exp (-df (start p q none) i j / ε) = 0 := by
  refine sum_eq_zero fun j _ => ?_
  simp [start, hi]

/-! ## Examples -/

/-- C108: the bound on the rows at the explicit fixed point. -/
example {ε : ℝ} (hε : 0 < ε) : (∑ j, bapgPlan ε 0 j) ≤ Real.exp (3 * (2 * 1 * 1 * 2 + (1 - 1) * 0) / ε) * bapgW 0 :=
  (C108_rows (D := square) (lo := 0) (lo' := 0) (fun _ => ⟨fun i k => by simp only [bapgC, eq_comm], fun i k => by simp only [bapgC, eq_comm]⟩) hε zero_le_one le_rfl
    (fun i => by fin_cases i <;> norm_num [bapgW]) (fun i => by fin_cases i <;> norm_num [bapgW]) (by norm_num [bapgW, Fin.sum_univ_two])
    (by norm_num [bapgW, Fin.sum_univ_two])
    (fun i k j l => by simp only [square, bapgC]; split <;> split <;> norm_num) (fun _ _ => by norm_num) (bapgPlan_pos hε) (bapgPlan_fixed hε) 0).2

/-- C108: exact columns for a fused problem on the same structures. -/
example : ∀ j, ∑ i, (bapgFgw true false square bapgC bapgC bapgW bapgW (fun i j => bapgC i j) (1 / 2) 1 none 100 (1 / 1000)).T i j = bapgW j :=
  (C108_result (fun i => by fin_cases i <;> norm_num [bapgW]) (fun i => by fin_cases i <;> norm_num [bapgW]) none (by simp) (by norm_num) (by norm_num)).2

end POT.Props
