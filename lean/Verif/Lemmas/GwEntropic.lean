import Verif.Model.GwEntropic
import Verif.Spec.GwEntropic
import Verif.Lemmas.Pinsker
import Verif.Lemmas.Gromov
import Verif.Lemmas.SinkhornOpt
import Verif.Props.Gromov

/-! # Lemmas: entropic Gromov-Wasserstein iterations -/

set_option linter.unusedSectionVars false

namespace POT.GwEntropic

open Finset Spec Gromov

variable {I J : Type*} [Fintype I] [Fintype J]

/-! ## Entropic optimal plans -/

theorem exists_form [Nonempty I] [Nonempty J] {a : I → ℝ} {b : J → ℝ} {reg : ℝ} (ha : ∀ i, 0 < a i) (hb : ∀ j, 0 < b j) (hS : ∑ i, a i = ∑ j, b j)
    (hreg : 0 < reg) (M : I → J → ℝ) : ∃ P, IsEntropicOptimal a b M reg P ∧ (∀ i j, 0 < P i j) ∧
      ∃ (x : I → ℝ) (y : J → ℝ), ∀ i j, Real.log (P i j) = x i + y j - M i j / reg := by
  obtain ⟨P, hP, hpos, ⟨x, y, hform⟩, -⟩ := Sinkhorn.exists_limit (K := Sinkhorn.kernel M reg) (s := ⟨fun _ => 1, fun _ => 1⟩)
    (fun i j => Real.exp_pos _) ha hb hS ⟨fun _ => one_pos, fun _ => one_pos⟩
  have hf : ∀ i j, Real.log (P i j) = x i + y j - M i j / reg := fun i j => by
    rw [hform, Sinkhorn.log_kernel]; ring
  exact ⟨P, Sinkhorn.optimal_of_form hreg hP hpos hf, hpos, x, y, hf⟩

theorem form_of_optimal [Nonempty I] [Nonempty J] {a : I → ℝ} {b : J → ℝ} {reg : ℝ} (ha : ∀ i, 0 < a i) (hb : ∀ j, 0 < b j) (hS : ∑ i, a i = ∑ j, b j)
    (hreg : 0 < reg) {M P : I → J → ℝ} (h : IsEntropicOptimal a b M reg P) : (∀ i j, 0 < P i j) ∧
      ∃ (x : I → ℝ) (y : J → ℝ), ∀ i j, Real.log (P i j) = x i + y j - M i j / reg := by
  obtain ⟨Q, hQ, hf⟩ := exists_form ha hb hS hreg M
  have e := (hQ.2 P h.1).2 (h.2 Q hQ.1).1
  rw [e]; exact hf

theorem pinsker_plan {Q P : I → J → ℝ} {S : ℝ} (hQ : ∀ i j, 0 ≤ Q i j) (hP : ∀ i j, 0 < P i j) (hQS : ∑ i, ∑ j, Q i j = S)
    (hPS : ∑ i, ∑ j, P i j = S) : l1dist Q P ^ 2 ≤ 2 * S * klPlan Q P := by
  have h := pinsker (p := fun x : I × J => Q x.1 x.2) (q := fun x : I × J => P x.1 x.2) (S := S) (fun x => hQ _ _)
    (fun x => hP _ _) (by rw [Fintype.sum_prod_type]; exact hQS) (by rw [Fintype.sum_prod_type]; exact hPS)
  rw [Fintype.sum_prod_type] at h
  exact h

theorem l1dist_comm (S T : I → J → ℝ) : l1dist S T = l1dist T S := by
  unfold l1dist
  exact sum_congr rfl fun i _ => sum_congr rfl fun j _ => abs_sub_comm _ _

theorem l1dist_nonneg (S T : I → J → ℝ) : 0 ≤ l1dist S T := sum_nonneg fun _ _ => sum_nonneg fun _ _ => abs_nonneg _

theorem frob_le_l1 (S T : I → J → ℝ) : frob S T ^ 2 ≤ l1dist S T ^ 2 := by
  unfold frob l1dist
  rw [Real.sq_sqrt (sum_nonneg fun _ _ => sum_nonneg fun _ _ => sq_nonneg _)]
  have h : ∀ x : I × J → ℝ, ∑ k, x k ^ 2 ≤ (∑ k, |x k|) ^ 2 := by
    intro x
    have := sum_sq_le_sq_sum_of_nonneg (s := (univ : Finset (I × J))) (f := fun k => |x k|) (fun k _ => abs_nonneg _)
    simpa using this
  have := h fun k => S k.1 k.2 - T k.1 k.2
  simpa only [Fintype.sum_prod_type] using this

theorem l1_le_frob (S T : I → J → ℝ) : l1dist S T ≤ Real.sqrt (Fintype.card I * Fintype.card J) * frob S T := by
  have h := Sinkhorn.l1_le_norm2 (fun k : I × J => S k.1 k.2 - T k.1 k.2)
  simp only [norm2, Fintype.sum_prod_type, Fintype.card_prod, Nat.cast_mul] at h
  exact h

/-! ## The bilinear form -/

theorem gwB_abs_le {L : ℝ → ℝ → ℝ} {C1 : I → I → ℝ} {C2 : J → J → ℝ} {K : ℝ} (hK : ∀ i k j l, |L (C1 i k) (C2 j l)| ≤ K)
    (S T : I → J → ℝ) : |gwB L C1 C2 S T| ≤ K * (∑ i, ∑ j, |S i j|) * ∑ k, ∑ l, |T k l| := by
  unfold gwB
  have e : K * (∑ i, ∑ j, |S i j|) * ∑ k, ∑ l, |T k l| = ∑ i, ∑ j, ∑ k, ∑ l, K * |S i j| * |T k l| := by
    simp only [mul_sum, sum_mul]
    have h : ∀ f : I → J → I → J → ℝ, ∑ k, ∑ l, ∑ i, ∑ j, f i j k l = ∑ i, ∑ j, ∑ k, ∑ l, f i j k l := by
      intro f
      have e1 : ∀ k, ∑ l, ∑ i, ∑ j, f i j k l = ∑ i, ∑ j, ∑ l, f i j k l := fun k => by
        rw [sum_comm]; exact sum_congr rfl fun i _ => sum_comm
      simp only [e1]
      rw [sum_comm]
      exact sum_congr rfl fun k _ => sum_comm
    exact h fun i j k l => K * |S i j| * |T k l|
  rw [e]
  refine (abs_sum_le_sum_abs _ _).trans (sum_le_sum fun i _ => ?_)
  refine (abs_sum_le_sum_abs _ _).trans (sum_le_sum fun j _ => ?_)
  refine (abs_sum_le_sum_abs _ _).trans (sum_le_sum fun k _ => ?_)
  refine (abs_sum_le_sum_abs _ _).trans (sum_le_sum fun l _ => ?_)
  rw [abs_mul, abs_mul]
  exact mul_le_mul_of_nonneg_right (mul_le_mul_of_nonneg_right (hK i k j l) (abs_nonneg _)) (abs_nonneg _)

theorem gwB_left_only {φ : I → I → J → ℝ} {S T : I → J → ℝ} (hS : ZeroRows S) :
    ∑ i, ∑ j, ∑ k, ∑ l, φ i k l * S i j * T k l = 0 := by
  refine sum_eq_zero fun i _ => ?_
  have : ∀ j, ∑ k, ∑ l, φ i k l * S i j * T k l = S i j * ∑ k, ∑ l, φ i k l * T k l := fun j => by
    simp only [mul_sum]
    exact sum_congr rfl fun k _ => sum_congr rfl fun l _ => by ring
  simp only [this]
  rw [← sum_mul, hS i, zero_mul]

theorem gwB_right_only {φ : J → I → J → ℝ} {S T : I → J → ℝ} (hS : ZeroCols S) :
    ∑ i, ∑ j, ∑ k, ∑ l, φ j k l * S i j * T k l = 0 := by
  rw [sum_comm]
  refine sum_eq_zero fun j _ => ?_
  have : ∀ i, ∑ k, ∑ l, φ j k l * S i j * T k l = S i j * ∑ k, ∑ l, φ j k l * T k l := fun i => by
    simp only [mul_sum]
    exact sum_congr rfl fun k _ => sum_congr rfl fun l _ => by ring
  simp only [this]
  rw [← sum_mul, hS j, zero_mul]

/-- On matrices with zero marginals only the product part of the loss counts, and the structures may be centred. -/
theorem gwB_centred (D : Decomp ℝ) (C1 : I → I → ℝ) (C2 : J → J → ℝ) (c1 c2 : ℝ) {S T : I → J → ℝ} (hr : ZeroRows S) (hc : ZeroCols S) :
    gwB D.loss C1 C2 S T = gwB (fun a b => -((D.h1 a - c1) * (D.h2 b - c2))) C1 C2 S T := by
  have h1 := gwB_left_only (φ := fun i k _ => D.f1 (C1 i k) - c2 * D.h1 (C1 i k) + c1 * c2) (T := T) hr
  have h2 := gwB_right_only (φ := fun j _ l => D.f2 (C2 j l) - c1 * D.h2 (C2 j l)) (T := T) hc
  have e : gwB D.loss C1 C2 S T = (∑ i, ∑ j, ∑ k, ∑ l, (D.f1 (C1 i k) - c2 * D.h1 (C1 i k) + c1 * c2) * S i j * T k l)
      + (∑ i, ∑ j, ∑ k, ∑ l, (D.f2 (C2 j l) - c1 * D.h2 (C2 j l)) * S i j * T k l)
      + gwB (fun a b => -((D.h1 a - c1) * (D.h2 b - c2))) C1 C2 S T := by
    unfold gwB
    simp only [← sum_add_distrib]
    refine sum_congr rfl fun i _ => sum_congr rfl fun j _ => sum_congr rfl fun k _ => sum_congr rfl fun l _ => ?_
    simp only [Decomp.loss]
    ring
  rw [e, h1, h2]; ring

/-- The bilinear form on matrices with zero marginals is bounded by the oscillations of the two transformed structures. -/
theorem gwB_osc {D : Decomp ℝ} {C1 : I → I → ℝ} {C2 : J → J → ℝ} {m1 d1 m2 d2 : ℝ} (h1 : ∀ i k, m1 ≤ D.h1 (C1 i k) ∧ D.h1 (C1 i k) ≤ m1 + d1)
    (h2 : ∀ j l, m2 ≤ D.h2 (C2 j l) ∧ D.h2 (C2 j l) ≤ m2 + d2) {S : I → J → ℝ} (T : I → J → ℝ) (hr : ZeroRows S) (hc : ZeroCols S) :
    |gwB D.loss C1 C2 S T| ≤ d1 * d2 / 4 * (∑ i, ∑ j, |S i j|) * ∑ k, ∑ l, |T k l| := by
  rw [gwB_centred D C1 C2 (m1 + d1 / 2) (m2 + d2 / 2) hr hc]
  refine gwB_abs_le (fun i k j l => ?_) S T
  have a1 : |D.h1 (C1 i k) - (m1 + d1 / 2)| ≤ d1 / 2 := abs_le.2 ⟨by linarith [(h1 i k).1], by linarith [(h1 i k).2]⟩
  have a2 : |D.h2 (C2 j l) - (m2 + d2 / 2)| ≤ d2 / 2 := abs_le.2 ⟨by linarith [(h2 j l).1], by linarith [(h2 j l).2]⟩
  rw [abs_neg, abs_mul]
  calc _ ≤ d1 / 2 * (d2 / 2) := mul_le_mul a1 a2 (abs_nonneg _) ((abs_nonneg _).trans a1)
    _ = d1 * d2 / 4 := by ring

/-- With zero row sums only, the oscillation of the loss itself. -/
theorem gwEnergy_osc_rows {L : ℝ → ℝ → ℝ} {C1 : I → I → ℝ} {C2 : J → J → ℝ} {m d : ℝ}
    (h : ∀ i k j l, m ≤ L (C1 i k) (C2 j l) ∧ L (C1 i k) (C2 j l) ≤ m + d) {Δ : I → J → ℝ} (hr : ZeroRows Δ) :
    gwEnergy L C1 C2 Δ ≤ d / 2 * (∑ i, ∑ j, |Δ i j|) ^ 2 := by
  have h0 := gwB_left_only (φ := fun _ _ _ => m + d / 2) (T := Δ) hr
  have e : gwEnergy L C1 C2 Δ = (∑ i, ∑ j, ∑ k, ∑ l, (m + d / 2) * Δ i j * Δ k l)
      + gwB (fun a b => L a b - (m + d / 2)) C1 C2 Δ Δ := by
    unfold gwB gwEnergy
    simp only [← sum_add_distrib]
    refine sum_congr rfl fun i _ => sum_congr rfl fun j _ => sum_congr rfl fun k _ => sum_congr rfl fun l _ => ?_
    ring
  rw [e, h0, zero_add]
  have hb := gwB_abs_le (L := fun a b => L a b - (m + d / 2)) (C1 := C1) (C2 := C2) (K := d / 2)
    (fun i k j l => abs_le.2 ⟨by linarith [(h i k j l).1], by linarith [(h i k j l).2]⟩) Δ Δ
  refine (le_abs_self _).trans (hb.trans (le_of_eq (by ring)))

/-- Squared Euclidean structures and square loss: the energy is nonpositive on matrices with zero marginals. -/
theorem gwEnergy_euclid {X Y : Type*} [Fintype X] [Fintype Y] (x : I → X → ℝ) (y : J → Y → ℝ) {Δ : I → J → ℝ} (hr : ZeroRows Δ)
    (hc : ZeroCols Δ) : gwEnergy (square : Decomp ℝ).loss (fun i k => ∑ a, (x i a - x k a) ^ 2) (fun j l => ∑ b, (y j b - y l b) ^ 2) Δ
      = -8 * ∑ a, ∑ b, (∑ i, ∑ j, x i a * Δ i j * y j b) ^ 2 := by
  have hr' : ∀ k, ∑ l, Δ k l = 0 := hr
  -- squared norms
  obtain ⟨nx, hnx⟩ : ∃ nx : I → ℝ, nx = fun i => ∑ a, x i a ^ 2 := ⟨_, rfl⟩
  obtain ⟨ny, hny⟩ : ∃ ny : J → ℝ, ny = fun j => ∑ b, y j b ^ 2 := ⟨_, rfl⟩
  obtain ⟨gx, hgx⟩ : ∃ gx : I → I → ℝ, gx = fun i k => ∑ a, x i a * x k a := ⟨_, rfl⟩
  obtain ⟨gy, hgy⟩ : ∃ gy : J → J → ℝ, gy = fun j l => ∑ b, y j b * y l b := ⟨_, rfl⟩
  have ex : ∀ i k, ∑ a, (x i a - x k a) ^ 2 = nx i + nx k - 2 * gx i k := fun i k => by
    rw [hnx, hgx]
    simp only [mul_sum, ← sum_add_distrib, ← sum_sub_distrib]
    exact sum_congr rfl fun a _ => by ring
  have ey : ∀ j l, ∑ b, (y j b - y l b) ^ 2 = ny j + ny l - 2 * gy j l := fun j l => by
    rw [hny, hgy]
    simp only [mul_sum, ← sum_add_distrib, ← sum_sub_distrib]
    exact sum_congr rfl fun a _ => by ring
  simp only [ex, ey]
  have key : gwEnergy (square : Decomp ℝ).loss (fun i k => nx i + nx k - 2 * gx i k) (fun j l => ny j + ny l - 2 * gy j l) Δ
      = -8 * ∑ i, ∑ j, ∑ k, ∑ l, gx i k * gy j l * Δ i j * Δ k l := by
    -- terms not depending on j, on i, on l, on k
    have t1 := gwB_left_only (φ := fun i k l => (nx i + nx k - 2 * gx i k) ^ 2 - 2 * (nx i + nx k - 2 * gx i k) * ny l) (T := Δ) hr
    have t2 := gwB_right_only (φ := fun j k l => (ny j + ny l - 2 * gy j l) ^ 2 - 2 * nx k * (ny j - 2 * gy j l)) (T := Δ) hc
    have t3 : ∑ i, ∑ j, ∑ k, ∑ l, (-2 * (nx i - 2 * gx i k) * ny j) * Δ i j * Δ k l = 0 := by
      refine sum_eq_zero fun i _ => sum_eq_zero fun j _ => sum_eq_zero fun k _ => ?_
      rw [← mul_sum, hr' k, mul_zero]
    have t4 : ∑ i, ∑ j, ∑ k, ∑ l, (4 * nx i * gy j l) * Δ i j * Δ k l = 0 := by
      refine sum_eq_zero fun i _ => sum_eq_zero fun j _ => ?_
      rw [sum_comm]
      refine sum_eq_zero fun l _ => ?_
      rw [← mul_sum, hc l, mul_zero]
    have e : gwEnergy (square : Decomp ℝ).loss (fun i k => nx i + nx k - 2 * gx i k) (fun j l => ny j + ny l - 2 * gy j l) Δ
        = (∑ i, ∑ j, ∑ k, ∑ l, ((nx i + nx k - 2 * gx i k) ^ 2 - 2 * (nx i + nx k - 2 * gx i k) * ny l) * Δ i j * Δ k l)
        + (∑ i, ∑ j, ∑ k, ∑ l, ((ny j + ny l - 2 * gy j l) ^ 2 - 2 * nx k * (ny j - 2 * gy j l)) * Δ i j * Δ k l)
        + (∑ i, ∑ j, ∑ k, ∑ l, (-2 * (nx i - 2 * gx i k) * ny j) * Δ i j * Δ k l)
        + (∑ i, ∑ j, ∑ k, ∑ l, (4 * nx i * gy j l) * Δ i j * Δ k l)
        + -8 * ∑ i, ∑ j, ∑ k, ∑ l, gx i k * gy j l * Δ i j * Δ k l := by
      unfold gwEnergy
      simp only [mul_sum, ← sum_add_distrib]
      refine sum_congr rfl fun i _ => sum_congr rfl fun j _ => sum_congr rfl fun k _ => sum_congr rfl fun l _ => ?_
      simp only [Decomp.loss, square]
      ring
    rw [e, t1, t2, t3, t4]; ring
  rw [key]
  congr 1
  have sq : ∀ a b, (∑ i, ∑ j, x i a * Δ i j * y j b) ^ 2
      = ∑ i, ∑ j, ∑ k, ∑ l, (x i a * Δ i j * y j b) * (x k a * Δ k l * y l b) := fun a b => by
    rw [pow_two, sum_mul]
    refine sum_congr rfl fun i _ => ?_
    rw [sum_mul]
    refine sum_congr rfl fun j _ => ?_
    rw [mul_sum]
    exact sum_congr rfl fun k _ => by rw [mul_sum]
  simp only [sq, hgx, hgy]
  have sw : ∀ f : X → Y → I → J → I → J → ℝ, ∑ a, ∑ b, ∑ i, ∑ j, ∑ k, ∑ l, f a b i j k l = ∑ i, ∑ j, ∑ k, ∑ l, ∑ a, ∑ b, f a b i j k l := by
    intro f
    have s2 : ∀ g : Y → I → J → I → J → ℝ, ∑ b, ∑ i, ∑ j, ∑ k, ∑ l, g b i j k l = ∑ i, ∑ j, ∑ k, ∑ l, ∑ b, g b i j k l := by
      intro g
      rw [sum_comm]
      refine sum_congr rfl fun i _ => ?_
      rw [sum_comm]
      refine sum_congr rfl fun j _ => ?_
      rw [sum_comm]
      refine sum_congr rfl fun k _ => ?_
      rw [sum_comm]
    simp only [s2]
    rw [sum_comm]
    refine sum_congr rfl fun i _ => ?_
    rw [sum_comm]
    refine sum_congr rfl fun j _ => ?_
    rw [sum_comm]
    refine sum_congr rfl fun k _ => ?_
    rw [sum_comm]
  rw [sw]
  refine sum_congr rfl fun i _ => sum_congr rfl fun j _ => sum_congr rfl fun k _ => sum_congr rfl fun l _ => ?_
  rw [sum_mul_sum, sum_mul, sum_mul]
  refine sum_congr rfl fun a _ => ?_
  rw [sum_mul, sum_mul]
  exact sum_congr rfl fun b _ => by ring

/-! ## One step -/

/-- Expansion of the fused cost around a plan `T` with row sums `p` and column sums `q`. -/
theorem fgw_line (symmetric : Bool) (D : Decomp ℝ) {C1 : I → I → ℝ} {C2 : J → J → ℝ}
    (hsym : symmetric = true → (∀ i k, C1 i k = C1 k i) ∧ (∀ j l, C2 j l = C2 l j)) {p : I → ℝ} {q : J → ℝ} (M : I → J → ℝ) (α : ℝ)
    {T : I → J → ℝ} (hp : ∀ i, ∑ j, T i j = p i) (hq : ∀ j, ∑ i, T i j = q j) (Δ : I → J → ℝ) (t : ℝ) :
    fgwCost D.loss C1 C2 M α (fun i j => T i j + t * Δ i j) = fgwCost D.loss C1 C2 M α T
      + t * Spec.inner (fgwGrad symmetric D C1 C2 p q M α T) Δ + t ^ 2 * (α * gwEnergy D.loss C1 C2 Δ) := by
  have h := Props.C39_gradient symmetric D C1 C2 hsym p q T hp hq Δ t
  unfold fgwCost
  rw [h]
  have e : Spec.inner (fgwGrad symmetric D C1 C2 p q M α T) Δ
      = α * Spec.inner (gwDf symmetric D C1 C2 p q T) Δ + (1 - α) * Spec.inner M Δ := by
    simp only [Spec.inner, fgwGrad, mul_sum, ← sum_add_distrib]
    exact sum_congr rfl fun i _ => sum_congr rfl fun j _ => by ring
  have e2 : cost M (fun i j => T i j + t * Δ i j) = cost M T + t * Spec.inner M Δ := by
    simp only [cost, Spec.inner, mul_sum, ← sum_add_distrib]
    exact sum_congr rfl fun i _ => sum_congr rfl fun j _ => by ring
  rw [e, e2]
  ring

theorem fgw_diff (symmetric : Bool) (D : Decomp ℝ) {C1 : I → I → ℝ} {C2 : J → J → ℝ}
    (hsym : symmetric = true → (∀ i k, C1 i k = C1 k i) ∧ (∀ j l, C2 j l = C2 l j)) {p : I → ℝ} {q : J → ℝ} (M : I → J → ℝ) (α : ℝ)
    {T : I → J → ℝ} (hp : ∀ i, ∑ j, T i j = p i) (hq : ∀ j, ∑ i, T i j = q j) (T' : I → J → ℝ) :
    fgwCost D.loss C1 C2 M α T' = fgwCost D.loss C1 C2 M α T
      + Spec.inner (fgwGrad symmetric D C1 C2 p q M α T) (fun i j => T' i j - T i j)
      + α * gwEnergy D.loss C1 C2 (fun i j => T' i j - T i j) := by
  have h := fgw_line symmetric D hsym M α hp hq (fun i j => T' i j - T i j) 1
  have e : (fun i j => T i j + 1 * (T' i j - T i j)) = T' := by funext i j; ring
  rw [e] at h
  rw [h]; ring

theorem zeroRows_sub {p : I → ℝ} {T T' : I → J → ℝ} (h : ∀ i, ∑ j, T i j = p i) (h' : ∀ i, ∑ j, T' i j = p i) :
    ZeroRows fun i j => T' i j - T i j := fun i => by rw [sum_sub_distrib, h, h', sub_self]

theorem zeroCols_sub {q : J → ℝ} {T T' : I → J → ℝ} (h : ∀ j, ∑ i, T i j = q j) (h' : ∀ j, ∑ i, T' i j = q j) :
    ZeroCols fun i j => T' i j - T i j := fun j => by rw [sum_sub_distrib, h, h', sub_self]

section Balanced

variable [Nonempty I] [Nonempty J] {symmetric : Bool} {D : Decomp ℝ} {C1 : I → I → ℝ} {C2 : J → J → ℝ} {p : I → ℝ} {q : J → ℝ}
  {M : I → J → ℝ} {α ε : ℝ} {sk : (I → J → ℝ) → I → J → ℝ}

/-- Projected gradient step: exact change of the regularised objective. -/
theorem pgd_identity (hsym : symmetric = true → (∀ i k, C1 i k = C1 k i) ∧ (∀ j l, C2 j l = C2 l j)) (hp : ∀ i, 0 < p i)
    (hq : ∀ j, 0 < q j) (hS : ∑ i, p i = ∑ j, q j) (hε : 0 < ε) (hsk : ∀ N, IsEntropicOptimal p q N ε (sk N)) {T : I → J → ℝ}
    (hT : IsCoupling p q T) :
    fgwEntropic D.loss C1 C2 M α ε (egwStep symmetric D C1 C2 p q M α ε false sk T)
      = fgwEntropic D.loss C1 C2 M α ε T - ε * klPlan T (egwStep symmetric D C1 C2 p q M α ε false sk T)
        + α * gwEnergy D.loss C1 C2 (fun i j => egwStep symmetric D C1 C2 p q M α ε false sk T i j - T i j) := by
  obtain ⟨T', hT'⟩ : ∃ T', T' = egwStep symmetric D C1 C2 p q M α ε false sk T := ⟨_, rfl⟩
  have ho : IsEntropicOptimal p q (fgwGrad symmetric D C1 C2 p q M α T) ε T' := by
    rw [hT']; exact hsk _
  rw [← hT']
  obtain ⟨hpos, x, y, hf⟩ := form_of_optimal hp hq hS hε ho
  have hg := entropic_gap hf hpos hε.ne' ho.1 hT
  have hd := fgw_diff symmetric D hsym M α hT.row hT.col T'
  unfold fgwEntropic
  rw [hd]
  have hi : Spec.inner (fgwGrad symmetric D C1 C2 p q M α T) (fun i j => T' i j - T i j)
      = cost (fgwGrad symmetric D C1 C2 p q M α T) T' - cost (fgwGrad symmetric D C1 C2 p q M α T) T := by
    simp only [Spec.inner, cost, ← sum_sub_distrib]
    exact sum_congr rfl fun i _ => sum_congr rfl fun j _ => by ring
  rw [hi]
  unfold entropicObjective at hg
  linarith

/-- Proximal step: exact change of the fused cost. -/
theorem ppa_identity (hsym : symmetric = true → (∀ i k, C1 i k = C1 k i) ∧ (∀ j l, C2 j l = C2 l j)) (hp : ∀ i, 0 < p i)
    (hq : ∀ j, 0 < q j) (hS : ∑ i, p i = ∑ j, q j) (hε : 0 < ε) (hsk : ∀ N, IsEntropicOptimal p q N ε (sk N)) {T : I → J → ℝ}
    (hT : IsCoupling p q T) (hpos : ∀ i j, 0 < T i j) :
    fgwCost D.loss C1 C2 M α (egwStep symmetric D C1 C2 p q M α ε true sk T)
      = fgwCost D.loss C1 C2 M α T - ε * (klPlan T (egwStep symmetric D C1 C2 p q M α ε true sk T)
          + klPlan (egwStep symmetric D C1 C2 p q M α ε true sk T) T)
        + α * gwEnergy D.loss C1 C2 (fun i j => egwStep symmetric D C1 C2 p q M α ε true sk T i j - T i j) := by
  obtain ⟨T', hT'⟩ : ∃ T', T' = egwStep symmetric D C1 C2 p q M α ε true sk T := ⟨_, rfl⟩
  have ho : IsEntropicOptimal p q (fun i j => fgwGrad symmetric D C1 C2 p q M α T i j - ε * Real.log (T i j)) ε T' := by
    rw [hT']; exact hsk _
  rw [← hT']
  obtain ⟨hpos', x, y, hf⟩ := form_of_optimal hp hq hS hε ho
  have hg := entropic_gap hf hpos' hε.ne' ho.1 hT
  have hd := fgw_diff symmetric D hsym M α hT.row hT.col T'
  rw [hd]
  have hkl : klPlan T' T = (∑ i, ∑ j, T' i j * Real.log (T' i j)) - ∑ i, ∑ j, T' i j * Real.log (T i j) := by
    rw [klPlan_eq]
    have h0 : ∑ i, ∑ j, (T i j - T' i j) = 0 := sum_eq_zero fun i _ => by
      rw [sum_sub_distrib, hT.row, ho.1.row, sub_self]
    have : ∑ i, ∑ j, (T' i j * Real.log (T' i j / T i j) - T' i j + T i j)
        = (∑ i, ∑ j, T' i j * Real.log (T' i j)) - (∑ i, ∑ j, T' i j * Real.log (T i j)) + ∑ i, ∑ j, (T i j - T' i j) := by
      simp only [← sum_sub_distrib, ← sum_add_distrib]
      refine sum_congr rfl fun i _ => sum_congr rfl fun j _ => ?_
      rw [Real.log_div (hpos' i j).ne' (hpos i j).ne']
      ring
    rw [this, h0, add_zero]
  have hi : Spec.inner (fgwGrad symmetric D C1 C2 p q M α T) (fun i j => T' i j - T i j)
      = cost (fun i j => fgwGrad symmetric D C1 C2 p q M α T i j - ε * Real.log (T i j)) T'
        - cost (fun i j => fgwGrad symmetric D C1 C2 p q M α T i j - ε * Real.log (T i j)) T
        + ε * (∑ i, ∑ j, T' i j * Real.log (T i j)) - ε * ∑ i, ∑ j, T i j * Real.log (T i j) := by
    simp only [Spec.inner, cost, mul_sum, ← sum_sub_distrib, ← sum_add_distrib]
    exact sum_congr rfl fun i _ => sum_congr rfl fun j _ => by ring
  rw [hi, hkl]
  unfold entropicObjective at hg
  linarith

theorem step_ok (hp : ∀ i, 0 < p i) (hq : ∀ j, 0 < q j) (hS : ∑ i, p i = ∑ j, q j) (hε : 0 < ε)
    (hsk : ∀ N, IsEntropicOptimal p q N ε (sk N)) (ppa : Bool) (T : I → J → ℝ) :
    IsCoupling p q (egwStep symmetric D C1 C2 p q M α ε ppa sk T) ∧ ∀ i j, 0 < egwStep symmetric D C1 C2 p q M α ε ppa sk T i j :=
  ⟨(hsk _).1, (form_of_optimal hp hq hS hε (hsk _)).1⟩

end Balanced

theorem total {p : I → ℝ} {q : J → ℝ} {T : I → J → ℝ} (h : IsCoupling p q T) : ∑ i, ∑ j, T i j = ∑ i, p i :=
  sum_congr rfl fun i _ => h.row i

/-! ## The semi-relaxed step -/

section Semirelaxed

variable {symmetric : Bool} {D : Decomp ℝ} {C1 : I → I → ℝ} {C2 : J → J → ℝ} {p : I → ℝ} {M : I → J → ℝ} {α ε : ℝ}

theorem srStep_pos [Nonempty J] (hp : ∀ i, 0 < p i) {T : I → J → ℝ} (hT : ∀ i j, 0 < T i j) (i : I) (j : J) :
    0 < srStep symmetric D C1 C2 p M α ε T i j := by
  have hK : ∀ j, 0 < T i j * Real.exp (-srGrad symmetric D C1 C2 p M α T i j / ε) := fun j => mul_pos (hT i j) (Real.exp_pos _)
  exact mul_pos (div_pos (hp i) (sum_pos (fun j _ => hK j) univ_nonempty)) (hK j)

theorem srStep_rows [Nonempty J] {T : I → J → ℝ} (hT : ∀ i j, 0 < T i j) (i : I) :
    ∑ j, srStep symmetric D C1 C2 p M α ε T i j = p i := by
  have hK : ∀ j, 0 < T i j * Real.exp (-srGrad symmetric D C1 C2 p M α T i j / ε) := fun j => mul_pos (hT i j) (Real.exp_pos _)
  have hs := sum_pos (fun j _ => hK j) univ_nonempty
  unfold srStep
  simp only
  rw [← mul_sum, div_mul_cancel₀ _ hs.ne']

/-- Mirror step: exact change of the cost. -/
theorem sr_identity [Nonempty J] (hsym : symmetric = true → (∀ i k, C1 i k = C1 k i) ∧ (∀ j l, C2 j l = C2 l j)) (hp : ∀ i, 0 < p i)
    (hε : 0 < ε) {T : I → J → ℝ} (hrow : ∀ i, ∑ j, T i j = p i) (hpos : ∀ i j, 0 < T i j) :
    fgwCost D.loss C1 C2 M α (srStep symmetric D C1 C2 p M α ε T)
      = fgwCost D.loss C1 C2 M α T - ε * (klPlan T (srStep symmetric D C1 C2 p M α ε T) + klPlan (srStep symmetric D C1 C2 p M α ε T) T)
        + α * gwEnergy D.loss C1 C2 (fun i j => srStep symmetric D C1 C2 p M α ε T i j - T i j) := by
  obtain ⟨g, hg⟩ : ∃ g, g = srGrad symmetric D C1 C2 p M α T := ⟨_, rfl⟩
  have hd := fgw_diff symmetric D hsym M α hrow (q := colSum T) (fun _ => rfl) (srStep symmetric D C1 C2 p M α ε T)
  have eg : fgwGrad symmetric D C1 C2 p (colSum T) M α T = g := by rw [hg]; rfl
  rw [eg] at hd
  have hpos' : ∀ i j, 0 < srStep symmetric D C1 C2 p M α ε T i j := srStep_pos hp hpos
  have hrow' : ∀ i, ∑ j, srStep symmetric D C1 C2 p M α ε T i j = p i := srStep_rows hpos
  have hs : ∀ i, 0 < ∑ j, T i j * Real.exp (-g i j / ε) := fun i =>
    sum_pos (fun j _ => mul_pos (hpos i j) (Real.exp_pos _)) univ_nonempty
  have hl : ∀ i j, Real.log (srStep symmetric D C1 C2 p M α ε T i j)
      = Real.log (p i / ∑ j, T i j * Real.exp (-g i j / ε)) + Real.log (T i j) - g i j / ε := by
    intro i j
    unfold srStep
    simp only [← hg]
    rw [Real.log_mul (div_pos (hp i) (hs i)).ne' (mul_pos (hpos i j) (Real.exp_pos _)).ne',
      Real.log_mul (hpos i j).ne' (Real.exp_pos _).ne', Real.log_exp]
    ring
  generalize srStep symmetric D C1 C2 p M α ε T = T' at *
  rw [hd]
  have hkl : klPlan T T' + klPlan T' T = ∑ i, ∑ j, (T' i j - T i j) * (Real.log (T' i j) - Real.log (T i j)) := by
    rw [klPlan_eq, klPlan_eq]
    simp only [← sum_add_distrib]
    refine sum_congr rfl fun i _ => sum_congr rfl fun j _ => ?_
    rw [Real.log_div (hpos' i j).ne' (hpos i j).ne', Real.log_div (hpos i j).ne' (hpos' i j).ne']
    ring
  have hi : ε * (klPlan T T' + klPlan T' T) = -Spec.inner g (fun i j => T' i j - T i j) := by
    rw [hkl, Spec.inner, mul_sum, ← sum_neg_distrib]
    refine sum_congr rfl fun i _ => ?_
    have : ∑ j, (T' i j - T i j) * (Real.log (T' i j) - Real.log (T i j))
        = Real.log (p i / ∑ j, T i j * Real.exp (-g i j / ε)) * (∑ j, (T' i j - T i j)) - ∑ j, (T' i j - T i j) * (g i j / ε) := by
      rw [mul_sum, ← sum_sub_distrib]
      exact sum_congr rfl fun j _ => by rw [hl]; ring
    rw [this, sum_sub_distrib, hrow, hrow', sub_self, mul_zero, zero_sub, mul_neg, mul_sum]
    congr 1
    refine sum_congr rfl fun j _ => ?_
    field_simp
  rw [hi]; ring

end Semirelaxed

/-! ## The loop -/

theorem egwLoop_zero (step : (I → J → ℝ) → I → J → ℝ) (tol : ℝ) (cpt : ℕ) (s : St I J) : egwLoop step tol 0 cpt s = s := rfl

theorem egwLoop_succ (step : (I → J → ℝ) → I → J → ℝ) (tol : ℝ) (n cpt : ℕ) (s : St I J) :
    egwLoop step tol (n + 1) cpt s = if s.err > tol then
      egwLoop step tol n (cpt + 1) { T := step s.T, err := if cpt % 10 = 0 then frob (step s.T) s.T else s.err } else s := rfl

theorem egwLoop_iter (step : (I → J → ℝ) → I → J → ℝ) (tol : ℝ) (n : ℕ) : ∀ (cpt : ℕ) (s : St I J),
    ∃ k ≤ n, (egwLoop step tol n cpt s).T = step^[k] s.T := by
  induction n with
  | zero => exact fun cpt s => ⟨0, le_rfl, rfl⟩
  | succ n ih =>
    intro cpt s
    rw [egwLoop_succ]
    split
    · obtain ⟨k, hk, h⟩ := ih (cpt + 1) { T := step s.T, err := if cpt % 10 = 0 then frob (step s.T) s.T else s.err }
      exact ⟨k + 1, by omega, by rw [h, Function.iterate_succ_apply]⟩
    · exact ⟨0, Nat.zero_le _, rfl⟩

theorem egwLoop_stop (step : (I → J → ℝ) → I → J → ℝ) (tol : ℝ) (n : ℕ) : ∀ (cpt : ℕ) (s : St I J), s.err > tol →
    (egwLoop step tol n cpt s).err ≤ tol → ∃ k < n, (cpt + k) % 10 = 0 ∧ (egwLoop step tol n cpt s).T = step (step^[k] s.T) ∧
      frob (step (step^[k] s.T)) (step^[k] s.T) ≤ tol := by
  induction n with
  | zero => intro cpt s h h'; rw [egwLoop_zero] at h'; exact absurd h' (not_le.2 h)
  | succ n ih =>
    intro cpt s hs
    rw [egwLoop_succ, if_pos hs]
    intro h
    by_cases hc : (if cpt % 10 = 0 then frob (step s.T) s.T else s.err) > tol
    · obtain ⟨k, hk, h10, hT, hf⟩ := ih (cpt + 1) { T := step s.T, err := if cpt % 10 = 0 then frob (step s.T) s.T else s.err } hc h
      refine ⟨k + 1, by omega, by rw [← h10]; ring_nf, ?_, ?_⟩
      · rw [Function.iterate_succ_apply]; exact hT
      · rw [Function.iterate_succ_apply]; exact hf
    · have h10 : cpt % 10 = 0 := by
        by_contra h0
        rw [if_neg h0] at hc
        exact hc hs
      rw [if_pos h10] at hc
      refine ⟨0, by omega, h10, ?_, not_lt.1 hc⟩
      have hx : ∀ m (s' : St I J), ¬ s'.err > tol → egwLoop step tol m (cpt + 1) s' = s' := by
        intro m s' hs'
        cases m with
        | zero => rfl
        | succ m => rw [egwLoop_succ, if_neg hs']
      rw [hx n _ (by simpa only [h10, if_true] using hc)]
      rfl

theorem egwLoop_run (step : (I → J → ℝ) → I → J → ℝ) (tol : ℝ) (n : ℕ) : ∀ (cpt : ℕ) (s : St I J),
    (egwLoop step tol n cpt s).err > tol → (egwLoop step tol n cpt s).T = step^[n] s.T ∧
      ∀ k < n, (cpt + k) % 10 = 0 → frob (step (step^[k] s.T)) (step^[k] s.T) > tol := by
  induction n with
  | zero => exact fun cpt s h => ⟨rfl, fun k hk => absurd hk (Nat.not_lt_zero k)⟩
  | succ n ih =>
    intro cpt s
    rw [egwLoop_succ]
    split
    · rename_i hs
      intro h
      obtain ⟨hT, hf⟩ := ih _ _ h
      refine ⟨by rw [hT, Function.iterate_succ_apply], fun k hk h10 => ?_⟩
      cases k with
      | zero =>
        by_contra hc
        have h10' : cpt % 10 = 0 := h10
        have hx : ∀ m (s' : St I J), ¬ s'.err > tol → egwLoop step tol m (cpt + 1) s' = s' := by
          intro m s' hs'
          cases m with
          | zero => rfl
          | succ m => rw [egwLoop_succ, if_neg hs']
        have hn : ¬ (if cpt % 10 = 0 then frob (step s.T) s.T else s.err) > tol := by rw [if_pos h10']; exact hc
        rw [hx n _ hn] at h
        exact hn h
      | succ k =>
        rw [Function.iterate_succ_apply]
        exact hf k (by omega) (by rw [← h10]; ring_nf)
    · exact fun h => absurd h ‹_›

/-- A quantity that decreases by at least `c * (step length)^2` and cannot decrease by more than `B` makes the loop stop by its own test. -/
theorem egwLoop_converges {step : (I → J → ℝ) → I → J → ℝ} {Inv : (I → J → ℝ) → Prop} {Φ : (I → J → ℝ) → ℝ} {T0 : I → J → ℝ} {c B tol e0 : ℝ}
    (h0 : Inv T0) (hinv : ∀ T, Inv T → Inv (step T)) (hc : 0 ≤ c) (hdec : ∀ T, Inv T → Φ (step T) ≤ Φ T - c * frob (step T) T ^ 2)
    (hB : ∀ T, Inv T → Φ T0 - Φ T ≤ B) (htol : 0 ≤ tol) {N n : ℕ} (hN : B < N * (c * tol ^ 2)) (hn : 10 * N ≤ n) :
    (egwLoop step tol n 0 { T := T0, err := e0 }).err ≤ tol := by
  by_contra hx
  push Not at hx
  obtain ⟨-, hf⟩ := egwLoop_run step tol n 0 _ hx
  have hI : ∀ k, Inv (step^[k] T0) := fun k => by
    induction k with
    | zero => exact h0
    | succ k ih => rw [Function.iterate_succ_apply']; exact hinv _ ih
  have hs : ∀ k, Φ (step^[k + 1] T0) ≤ Φ (step^[k] T0) := fun k => by
    rw [Function.iterate_succ_apply']
    have := hdec _ (hI k)
    nlinarith [mul_nonneg hc (sq_nonneg (frob (step (step^[k] T0)) (step^[k] T0)))]
  have hanti : ∀ k m, Φ (step^[k + m] T0) ≤ Φ (step^[k] T0) := fun k m => by
    induction m with
    | zero => exact le_rfl
    | succ m ih => exact (hs (k + m)).trans ih
  have hm : ∀ m, 10 * m ≤ n → Φ (step^[10 * m] T0) ≤ Φ T0 - m * (c * tol ^ 2) := by
    intro m
    induction m with
    | zero => intro _; simp
    | succ m ih =>
      intro hmn
      have h1 := ih (by omega)
      have h2 := hf (10 * m) (by omega) (by omega)
      have h3 := hdec _ (hI (10 * m))
      have h4 := hanti (10 * m + 1) 9
      rw [Function.iterate_succ_apply' step (10 * m)] at h4
      have h5 : 10 * (m + 1) = 10 * m + 1 + 9 := by ring
      rw [h5]
      have h6 : tol ^ 2 ≤ frob (step (step^[10 * m] T0)) (step^[10 * m] T0) ^ 2 := pow_le_pow_left₀ htol h2.le 2
      have h7 := mul_le_mul_of_nonneg_left h6 hc
      push_cast
      linarith
  have := hm N hn
  have := hB _ (hI (10 * N))
  linarith

theorem egwLoop_next (step : (I → J → ℝ) → I → J → ℝ) (tol : ℝ) (n : ℕ) : ∀ (cpt : ℕ) (s : St I J),
    (egwLoop step tol (n + 1) cpt s).T = (egwLoop step tol n cpt s).T ∨
      (egwLoop step tol (n + 1) cpt s).T = step (egwLoop step tol n cpt s).T := by
  induction n with
  | zero =>
    intro cpt s
    rw [egwLoop_succ, egwLoop_zero]
    split
    · exact Or.inr rfl
    · exact Or.inl rfl
  | succ n ih =>
    intro cpt s
    rw [egwLoop_succ step tol (n + 1) cpt, egwLoop_succ step tol n cpt]
    split
    · exact ih _ _
    · exact Or.inl rfl

theorem egwLoop_inv {step : (I → J → ℝ) → I → J → ℝ} {Inv : (I → J → ℝ) → Prop} (hinv : ∀ T, Inv T → Inv (step T)) (tol : ℝ) (n cpt : ℕ)
    {s : St I J} (h0 : Inv s.T) : Inv (egwLoop step tol n cpt s).T := by
  obtain ⟨k, -, h⟩ := egwLoop_iter step tol n cpt s
  rw [h]
  clear h
  induction k with
  | zero => exact h0
  | succ k ih => rw [Function.iterate_succ_apply']; exact hinv _ ih

theorem egwLoop_antitone {step : (I → J → ℝ) → I → J → ℝ} {Inv : (I → J → ℝ) → Prop} (hinv : ∀ T, Inv T → Inv (step T)) {Φ : (I → J → ℝ) → ℝ}
    (hdec : ∀ T, Inv T → Φ (step T) ≤ Φ T) (tol : ℝ) (cpt : ℕ) {s : St I J} (h0 : Inv s.T) :
    Antitone fun n => Φ (egwLoop step tol n cpt s).T := by
  refine antitone_nat_of_succ_le fun n => ?_
  rcases egwLoop_next step tol n cpt s with h | h
  · exact (congrArg Φ h).le
  · rw [h]; exact hdec _ (egwLoop_inv hinv tol n cpt h0)

/-- Rate form of `egwLoop_converges`. -/
theorem egwLoop_rate {step : (I → J → ℝ) → I → J → ℝ} {Inv : (I → J → ℝ) → Prop} {Φ : (I → J → ℝ) → ℝ} {T0 : I → J → ℝ} {c B tol e0 : ℝ}
    (h0 : Inv T0) (hinv : ∀ T, Inv T → Inv (step T)) (hc : 0 < c) (hdec : ∀ T, Inv T → Φ (step T) ≤ Φ T - c * frob (step T) T ^ 2)
    (hB : ∀ T, Inv T → Φ T0 - Φ T ≤ B) (htol : 0 < tol) {n : ℕ} (hn : 10 * (B / (c * tol ^ 2) + 1) ≤ n) :
    (egwLoop step tol n 0 { T := T0, err := e0 }).err ≤ tol := by
  have hB0 : 0 ≤ B := by have := hB T0 h0; linarith
  have hct : 0 < c * tol ^ 2 := by positivity
  have hx : 0 ≤ B / (c * tol ^ 2) := div_nonneg hB0 hct.le
  refine egwLoop_converges (N := ⌊B / (c * tol ^ 2)⌋₊ + 1) h0 hinv hc.le hdec hB htol.le ?_ ?_
  · have := Nat.lt_floor_add_one (B / (c * tol ^ 2))
    rw [div_lt_iff₀ hct] at this
    push_cast
    exact this
  · have := Nat.floor_le hx
    have h : ((10 * (⌊B / (c * tol ^ 2)⌋₊ + 1) : ℕ) : ℝ) ≤ n := by push_cast; linarith
    exact_mod_cast h

/-! ## Bounds -/

theorem mul_log_ge {x : ℝ} (hx : 0 ≤ x) : -1 ≤ x * Real.log x := by
  rcases eq_or_lt_of_le hx with h | h
  · rw [← h]; simp
  · have := Real.one_sub_inv_le_log_of_pos h
    have h2 := mul_le_mul_of_nonneg_left this hx
    rw [mul_sub, mul_one, mul_inv_cancel₀ h.ne'] at h2
    linarith

theorem fgwCost_bound_entry (L : ℝ → ℝ → ℝ) (C1 : I → I → ℝ) (C2 : J → J → ℝ) (M : I → J → ℝ) (α : ℝ) (p : I → ℝ) :
    ∃ B, ∀ T : I → J → ℝ, (∀ i j, 0 ≤ T i j) → (∀ i j, T i j ≤ p i) → -B ≤ fgwCost L C1 C2 M α T := by
  refine ⟨|1 - α| * (∑ i, ∑ j, |p i| * |M i j|) + |α| * ∑ i, ∑ j, ∑ k, ∑ l, |L (C1 i k) (C2 j l)| * |p i| * |p k|, fun T h0 hT => ?_⟩
  have hle : ∀ i j, |T i j| ≤ |p i| := fun i j => by
    rw [abs_of_nonneg (h0 i j)]
    exact (hT i j).trans (le_abs_self _)
  have h1 : |cost M T| ≤ ∑ i, ∑ j, |p i| * |M i j| := by
    unfold cost
    refine (abs_sum_le_sum_abs _ _).trans (sum_le_sum fun i _ => (abs_sum_le_sum_abs _ _).trans (sum_le_sum fun j _ => ?_))
    rw [abs_mul]
    exact mul_le_mul_of_nonneg_right (hle i j) (abs_nonneg _)
  have h2 : |gwEnergy L C1 C2 T| ≤ ∑ i, ∑ j, ∑ k, ∑ l, |L (C1 i k) (C2 j l)| * |p i| * |p k| := by
    unfold gwEnergy
    refine (abs_sum_le_sum_abs _ _).trans (sum_le_sum fun i _ => ?_)
    refine (abs_sum_le_sum_abs _ _).trans (sum_le_sum fun j _ => ?_)
    refine (abs_sum_le_sum_abs _ _).trans (sum_le_sum fun k _ => ?_)
    refine (abs_sum_le_sum_abs _ _).trans (sum_le_sum fun l _ => ?_)
    rw [abs_mul, abs_mul]
    exact mul_le_mul (mul_le_mul_of_nonneg_left (hle i j) (abs_nonneg _)) (hle k l) (abs_nonneg _)
      (mul_nonneg (abs_nonneg _) (abs_nonneg _))
  have h3 : |fgwCost L C1 C2 M α T| ≤ |1 - α| * (∑ i, ∑ j, |p i| * |M i j|) + |α| * ∑ i, ∑ j, ∑ k, ∑ l, |L (C1 i k) (C2 j l)| * |p i| * |p k| := by
    unfold fgwCost
    refine (abs_add_le _ _).trans ?_
    rw [abs_mul, abs_mul]
    exact add_le_add (mul_le_mul_of_nonneg_left h1 (abs_nonneg _)) (mul_le_mul_of_nonneg_left h2 (abs_nonneg _))
  exact (neg_le_neg h3).trans (neg_abs_le _)

theorem fgwEntropic_bound_entry (L : ℝ → ℝ → ℝ) (C1 : I → I → ℝ) (C2 : J → J → ℝ) (M : I → J → ℝ) (α : ℝ) {ε : ℝ} (hε : 0 < ε) (p : I → ℝ) :
    ∃ B, ∀ T : I → J → ℝ, (∀ i j, 0 ≤ T i j) → (∀ i j, T i j ≤ p i) → -B ≤ fgwEntropic L C1 C2 M α ε T := by
  obtain ⟨B, hB⟩ := fgwCost_bound_entry L C1 C2 M α p
  refine ⟨B + ε * ∑ _i : I, ∑ _j : J, (1 : ℝ), fun T h0 hT => ?_⟩
  have h := hB T h0 hT
  have h2 : -∑ _i : I, ∑ _j : J, (1 : ℝ) ≤ ∑ i, ∑ j, T i j * Real.log (T i j) := by
    rw [← sum_neg_distrib]
    refine sum_le_sum fun i _ => ?_
    rw [← sum_neg_distrib]
    exact sum_le_sum fun j _ => mul_log_ge (h0 i j)
  have h3 := mul_le_mul_of_nonneg_left h2 hε.le
  unfold fgwEntropic
  linarith

theorem entry_le_row {p : I → ℝ} {T : I → J → ℝ} (h0 : ∀ i j, 0 ≤ T i j) (hT : ∀ i, ∑ j, T i j = p i) (i : I) (j : J) : T i j ≤ p i := by
  rw [← hT i]
  exact single_le_sum (f := fun j => T i j) (fun j _ => h0 i j) (mem_univ j)

theorem fgwCost_bound (L : ℝ → ℝ → ℝ) (C1 : I → I → ℝ) (C2 : J → J → ℝ) (M : I → J → ℝ) (α : ℝ) (p : I → ℝ) :
    ∃ B, ∀ T : I → J → ℝ, (∀ i j, 0 ≤ T i j) → (∀ i, ∑ j, T i j = p i) → -B ≤ fgwCost L C1 C2 M α T := by
  obtain ⟨B, hB⟩ := fgwCost_bound_entry L C1 C2 M α p
  exact ⟨B, fun T h0 hT => hB T h0 (entry_le_row h0 hT)⟩

theorem fgwEntropic_bound (L : ℝ → ℝ → ℝ) (C1 : I → I → ℝ) (C2 : J → J → ℝ) (M : I → J → ℝ) (α : ℝ) {ε : ℝ} (hε : 0 < ε) (p : I → ℝ) :
    ∃ B, ∀ T : I → J → ℝ, (∀ i j, 0 ≤ T i j) → (∀ i, ∑ j, T i j = p i) → -B ≤ fgwEntropic L C1 C2 M α ε T := by
  obtain ⟨B, hB⟩ := fgwEntropic_bound_entry L C1 C2 M α hε p
  exact ⟨B, fun T h0 hT => hB T h0 (entry_le_row h0 hT)⟩

end POT.GwEntropic
