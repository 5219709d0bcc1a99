import Verif.Model.Brenier
import Mathlib.Tactic.Linarith
import Mathlib.Tactic.Ring
import Mathlib.Tactic.FieldSimp
import Mathlib.Tactic.Positivity

/-! # C97: nearest Brenier potentials (`ot/mapping.py`) -/

set_option linter.unusedSectionVars false

namespace POT.Props

open Finset Spec Brenier

variable {I J D C : Type*} [Fintype I] [Fintype J] [Fintype D]

/-- The constants in closed form. -/
theorem C97_constants {ℓ L : ℝ} (h0 : 0 < ℓ) (h : ℓ < L) : c1 ℓ L = 1 / (2 * (L - ℓ)) ∧ c2 ℓ L = ℓ * L / (2 * (L - ℓ)) ∧ c3 ℓ L = ℓ / (L - ℓ) := by
  have hL : L ≠ 0 := by linarith
  have hd : L - ℓ ≠ 0 := by linarith
  have hc : const ℓ L = L / (2 * (L - ℓ)) := by
    unfold const
    rw [show (1 - ℓ / L) = (L - ℓ) / L from by field_simp]
    field_simp
  refine ⟨?_, ?_, ?_⟩
  · unfold c1; rw [hc]; field_simp
  · unfold c2; rw [hc]; field_simp
  · unfold c3; rw [hc]; field_simp

/-- A constraint says: the value at `i` exceeds the tangent at `j` by at least `(‖u - ℓ w‖² + ℓ (L - ℓ) ‖w‖²) / (2 (L - ℓ))`, `u` the difference of the gradients and `w` of the points. -/
theorem above_iff {ℓ L : ℝ} (h0 : 0 < ℓ) (h : ℓ < L) (phii phij : ℝ) (Gi Xi Gj Xj : D → ℝ) :
    above ℓ L phii Gi Xi phij Gj Xj ↔ phij + ∑ d, Gj d * (Xi d - Xj d) +
      1 / (2 * (L - ℓ)) * ∑ d, ((Gi d - Gj d - ℓ * (Xi d - Xj d)) ^ 2 + ℓ * (L - ℓ) * (Xi d - Xj d) ^ 2) ≤ phii := by
  obtain ⟨e1, e2, e3⟩ := C97_constants h0 h
  have hd : L - ℓ ≠ 0 := by linarith
  unfold above
  have e : c1 ℓ L * sqEuclid Gi Gj + c2 ℓ L * sqEuclid Xi Xj - c3 ℓ L * ∑ d, (Gj d - Gi d) * (Xj d - Xi d) =
      1 / (2 * (L - ℓ)) * ∑ d, ((Gi d - Gj d - ℓ * (Xi d - Xj d)) ^ 2 + ℓ * (L - ℓ) * (Xi d - Xj d) ^ 2) := by
    rw [e1, e2, e3]
    unfold sqEuclid
    rw [mul_sum, mul_sum, mul_sum, mul_sum, ← sum_add_distrib, ← sum_sub_distrib]
    refine sum_congr rfl fun d _ => ?_
    field_simp; ring
  rw [← e]
  constructor <;> intro hh <;> linarith

/-- C97. Nothing regular is excluded: every `ℓ`-strongly convex, `L`-smooth function satisfies the constraint between any two points. -/
theorem C97_necessary {ℓ L : ℝ} (h0 : 0 < ℓ) (h : ℓ < L) {φ : (D → ℝ) → ℝ} {g : (D → ℝ) → D → ℝ} (hφ : StronglyConvexSmooth ℓ L φ g) (x y : D → ℝ) :
    above ℓ L (φ x) (g x) x (φ y) (g y) y := by
  rw [above_iff h0 h]
  have hd : 0 < L - ℓ := by linarith
  obtain ⟨s, hs⟩ : ∃ s : ℝ, s = 1 / (L - ℓ) := ⟨_, rfl⟩
  have hs1 : s * (L - ℓ) = 1 := by rw [hs]; field_simp
  obtain ⟨z, hz⟩ : ∃ z : D → ℝ, z = fun d => x d - s * (g x d - g y d - ℓ * (x d - y d)) := ⟨_, rfl⟩
  have a1 := (hφ y z).1
  have a2 := (hφ x z).2
  have key : ∑ d, g y d * (z d - y d) + ℓ / 2 * sqEuclid z y - ∑ d, g x d * (z d - x d) - L / 2 * sqEuclid z x =
      ∑ d, g y d * (x d - y d) + 1 / (2 * (L - ℓ)) * ∑ d, ((g x d - g y d - ℓ * (x d - y d)) ^ 2 + ℓ * (L - ℓ) * (x d - y d) ^ 2) := by
    unfold sqEuclid
    rw [mul_sum, mul_sum, mul_sum, ← sum_add_distrib, ← sum_sub_distrib, ← sum_sub_distrib, ← sum_add_distrib]
    refine sum_congr rfl fun d _ => ?_
    rw [hz]
    dsimp only
    generalize hq : g x d - g y d - ℓ * (x d - y d) = q
    have hgx : g x d = q + g y d + ℓ * (x d - y d) := by rw [← hq]; ring
    rw [hgx]
    have e : (1 : ℝ) / (2 * (L - ℓ)) = s / 2 := by rw [hs]; field_simp
    rw [e]
    have e2 : s * ℓ * (L - ℓ) = ℓ := by rw [mul_right_comm, hs1, one_mul]
    have e3 : L = ℓ + (L - ℓ) := by ring
    generalize L - ℓ = t at *
    subst e3
    linear_combination (-(s / 2) * q ^ 2 - 1 / 2 * ℓ * (x d - y d) ^ 2) * hs1
  linarith

/-- C97. Hence its values and gradients at the samples are feasible for the fit. -/
theorem C97_feasible {ℓ L : ℝ} (h0 : 0 < ℓ) (h : ℓ < L) {φ : C → (D → ℝ) → ℝ} {g : C → (D → ℝ) → D → ℝ} (hφ : ∀ k, StronglyConvexSmooth ℓ L (φ k) (g k)) (X : I → D → ℝ) (cls : I → C) :
    Feasible ℓ L X cls (fun i => φ (cls i) (X i)) (fun i => g (cls i) (X i)) := by
  intro i j hij
  dsimp only
  rw [hij]
  exact C97_necessary h0 h (hφ (cls j)) (X i) (X j)

/-- C97. What the constraints guarantee for two samples of one class: strong convexity and smoothness inequalities for the values, strong monotonicity and the Lipschitz bound for the
gradients. -/
theorem C97_regular {ℓ L : ℝ} (h0 : 0 < ℓ) (h : ℓ < L) {X : I → D → ℝ} {cls : I → C} {phi : I → ℝ} {G : I → D → ℝ} (hf : Feasible ℓ L X cls phi G) {i j : I} (hij : cls i = cls j) :
    phi j + ∑ d, G j d * (X i d - X j d) + ℓ / 2 * sqEuclid (X i) (X j) ≤ phi i ∧
    phi i ≤ phi j + ∑ d, G j d * (X i d - X j d) + L / 2 * sqEuclid (X i) (X j) ∧
    ℓ * sqEuclid (X i) (X j) ≤ ∑ d, (G i d - G j d) * (X i d - X j d) ∧
    sqEuclid (G i) (G j) ≤ L ^ 2 * sqEuclid (X i) (X j) := by
  have hd : 0 < L - ℓ := by linarith
  have a := (above_iff h0 h _ _ _ _ _ _).1 (hf i j hij)
  have b := (above_iff h0 h _ _ _ _ _ _).1 (hf j i hij.symm)
  obtain ⟨uu, huu⟩ : ∃ r, r = sqEuclid (G i) (G j) := ⟨_, rfl⟩
  obtain ⟨ww, hww⟩ : ∃ r, r = sqEuclid (X i) (X j) := ⟨_, rfl⟩
  obtain ⟨uw, huw⟩ : ∃ r, r = ∑ d, (G i d - G j d) * (X i d - X j d) := ⟨_, rfl⟩
  obtain ⟨gj, hgj⟩ : ∃ r, r = ∑ d, G j d * (X i d - X j d) := ⟨_, rfl⟩
  obtain ⟨s, hs⟩ : ∃ r : ℝ, r = 1 / (2 * (L - ℓ)) := ⟨_, rfl⟩
  have hs0 : 0 < s := by rw [hs]; positivity
  have hs1 : s * (2 * (L - ℓ)) = 1 := by rw [hs]; field_simp
  have q1 : ∑ d, ((G i d - G j d - ℓ * (X i d - X j d)) ^ 2 + ℓ * (L - ℓ) * (X i d - X j d) ^ 2) = uu - 2 * ℓ * uw + ℓ * L * ww := by
    rw [huu, huw, hww]; unfold sqEuclid
    rw [mul_sum, mul_sum, ← sum_sub_distrib, ← sum_add_distrib]
    exact sum_congr rfl fun d _ => by ring
  have q2 : ∑ d, ((G j d - G i d - ℓ * (X j d - X i d)) ^ 2 + ℓ * (L - ℓ) * (X j d - X i d) ^ 2) = uu - 2 * ℓ * uw + ℓ * L * ww := by
    rw [huu, huw, hww]; unfold sqEuclid
    rw [mul_sum, mul_sum, ← sum_sub_distrib, ← sum_add_distrib]
    exact sum_congr rfl fun d _ => by ring
  have q3 : ∑ d, G i d * (X j d - X i d) = -gj - uw := by
    rw [hgj, huw, ← sum_neg_distrib, ← sum_sub_distrib]
    exact sum_congr rfl fun d _ => by ring
  have n1 : 0 ≤ uu - 2 * ℓ * uw + ℓ ^ 2 * ww := by
    have : uu - 2 * ℓ * uw + ℓ ^ 2 * ww = ∑ d, ((G i d - G j d) - ℓ * (X i d - X j d)) ^ 2 := by
      rw [huu, huw, hww]; unfold sqEuclid
      rw [mul_sum, mul_sum, ← sum_sub_distrib, ← sum_add_distrib]
      exact sum_congr rfl fun d _ => by ring
    rw [this]; exact sum_nonneg fun _ _ => sq_nonneg _
  have n2 : 0 ≤ uu - 2 * L * uw + L ^ 2 * ww := by
    have : uu - 2 * L * uw + L ^ 2 * ww = ∑ d, ((G i d - G j d) - L * (X i d - X j d)) ^ 2 := by
      rw [huu, huw, hww]; unfold sqEuclid
      rw [mul_sum, mul_sum, ← sum_sub_distrib, ← sum_add_distrib]
      exact sum_congr rfl fun d _ => by ring
    rw [this]; exact sum_nonneg fun _ _ => sq_nonneg _
  rw [← hgj, ← hs, q1] at a
  rw [← hs, q2, q3] at b
  rw [← huu, ← hww, ← huw, ← hgj]
  have hab : 2 * s * (uu - 2 * ℓ * uw + ℓ * L * ww) ≤ uw := by linarith
  have hab' : uu - 2 * ℓ * uw + ℓ * L * ww ≤ (L - ℓ) * uw := by
    have := mul_le_mul_of_nonneg_left hab hd.le
    have e : (L - ℓ) * (2 * s * (uu - 2 * ℓ * uw + ℓ * L * ww)) = uu - 2 * ℓ * uw + ℓ * L * ww := by linear_combination (uu - 2 * ℓ * uw + ℓ * L * ww) * hs1
    linarith
  have p1 : uu + ℓ * L * ww ≤ (L + ℓ) * uw := by linarith
  have m1 : ℓ * ww ≤ uw := by nlinarith
  refine ⟨?_, ?_, m1, ?_⟩
  · have e : s * (uu - 2 * ℓ * uw + ℓ * L * ww) = s * (uu - 2 * ℓ * uw + ℓ ^ 2 * ww) + ℓ / 2 * ww := by linear_combination (ℓ / 2 * ww) * hs1
    have := mul_nonneg hs0.le n1
    linarith
  · have e : s * (uu - 2 * ℓ * uw + ℓ * L * ww) = uw + s * (uu - 2 * L * uw + L ^ 2 * ww) - L / 2 * ww := by linear_combination (uw - L / 2 * ww) * hs1
    have := mul_nonneg hs0.le n2
    linarith
  · nlinarith

/-- C97. The value that the fit reports never increases from one iteration to the next, it is the squared distance that the plan of that iteration sees, and for the plan of that
iteration no potential that is regular on every class does better. -/
theorem C97_fit {ℓ L : ℝ} (h0 : 0 < ℓ) (h : ℓ < L) {X V : I → D → ℝ} {cls : I → C} {a b : I → ℝ} {lp : (I → I → ℝ) → I → I → ℝ} (hlp : ∀ M, IsOptimal a b M (lp M))
    {qp : (I → I → ℝ) → (I → ℝ) × (I → D → ℝ)} (hqp : SolvesFit ℓ L X cls V a b qp) (G0 : I → D → ℝ) (k : ℕ) :
    fitValue V lp qp G0 (k + 1) ≤ fitValue V lp qp G0 k ∧
    (∃ phi, Feasible ℓ L X cls phi (fitG V lp qp G0 (k + 1))) ∧
    (∀ P, IsOptimal a b (fun i j => sqEuclid (fitG V lp qp G0 (k + 1) i) (V j)) P → moveCost (fitG V lp qp G0 (k + 1)) V P ≤ fitValue V lp qp G0 k) ∧
    ∃ P, IsOptimal a b (fun i j => sqEuclid (fitG V lp qp G0 k i) (V j)) P ∧ fitValue V lp qp G0 k = moveCost (fitG V lp qp G0 (k + 1)) V P ∧
      ∀ (φ : C → (D → ℝ) → ℝ) (g : C → (D → ℝ) → D → ℝ), (∀ c, StronglyConvexSmooth ℓ L (φ c) (g c)) → fitValue V lp qp G0 k ≤ moveCost (fun i => g (cls i) (X i)) V P := by
  have hval : ∀ k, fitValue V lp qp G0 k = moveCost (fitG V lp qp G0 (k + 1)) V (lp (distM (fitG V lp qp G0 k) V)) := fun k => by
    unfold fitValue moveCost
    exact sum_congr rfl fun i _ => sum_congr rfl fun j _ => mul_comm _ _
  have hfeas : ∀ k, Feasible ℓ L X cls (qp (lp (distM (fitG V lp qp G0 k) V))).1 (fitG V lp qp G0 (k + 1)) := fun k => (hqp _ (hlp _).1).1
  have hmc : ∀ (G : I → D → ℝ) P, moveCost G V P = cost (distM G V) P := fun G P => rfl
  refine ⟨?_, ⟨_, hfeas k⟩, fun P hP => ?_, _, hlp _, hval k, fun φ g hφ => ?_⟩
  · rw [hval, hval]
    refine ((hqp (lp (distM (fitG V lp qp G0 (k + 1)) V)) (hlp _).1).2 _ _ (hfeas k)).trans ?_
    rw [hmc, hmc]
    exact (hlp _).2 _ (hlp _).1
  · rw [hval, hmc, hmc]
    exact hP.2 _ (hlp _).1
  · rw [hval]
    exact (hqp _ (hlp _).1).2 _ _ (C97_feasible h0 h hφ X cls)

/-- C97. The bounds enclose every regular potential that interpolates the fitted values and gradients of the class. -/
theorem C97_bounds {ℓ L : ℝ} (h0 : 0 < ℓ) (h : ℓ < L) {X : I → D → ℝ} {cls : I → C} {phi : I → ℝ} {G : I → D → ℝ} {y : D → ℝ} {k : C} {lo up : ℝ} {Glo Gup : D → ℝ}
    (hb : Bounds ℓ L X cls phi G y k lo up Glo Gup) {φ : (D → ℝ) → ℝ} {g : (D → ℝ) → D → ℝ} (hφ : StronglyConvexSmooth ℓ L φ g)
    (hint : ∀ i, cls i = k → φ (X i) = phi i ∧ g (X i) = G i) : lo ≤ φ y ∧ φ y ≤ up := by
  refine ⟨hb.low (φ y) (g y) fun j hj => ?_, hb.upp (φ y) (g y) fun i hi => ?_⟩
  · obtain ⟨e1, e2⟩ := hint j hj
    rw [← e1, ← e2]; exact C97_necessary h0 h hφ y (X j)
  · obtain ⟨e1, e2⟩ := hint i hi
    rw [← e1, ← e2]; exact C97_necessary h0 h hφ (X i) y

/-- C97. At a training sample both bounds are the fitted value and both gradients the fitted gradient. -/
theorem C97_interpolates {ℓ L : ℝ} (h0 : 0 < ℓ) (h : ℓ < L) {X : I → D → ℝ} {cls : I → C} {phi : I → ℝ} {G : I → D → ℝ} (hf : Feasible ℓ L X cls phi G) (i : I) {lo up : ℝ} {Glo Gup : D → ℝ}
    (hb : Bounds ℓ L X cls phi G (X i) (cls i) lo up Glo Gup) : lo = phi i ∧ up = phi i ∧ Glo = G i ∧ Gup = G i := by
  have hd : 0 < L - ℓ := by linarith
  have l1 := hb.low (phi i) (G i) fun j hj => hf i j hj.symm
  have u1 := hb.upp (phi i) (G i) fun j hj => hf j i hj
  have l2 := (above_iff h0 h _ _ _ _ _ _).1 (hb.low_ok i rfl)
  have u2 := (above_iff h0 h _ _ _ _ _ _).1 (hb.up_ok i rfl)
  simp only [sub_self, mul_zero, sum_const_zero, add_zero, sub_zero, ne_eq, OfNat.ofNat_ne_zero, not_false_eq_true, zero_pow] at l2 u2
  have hs : 0 < 1 / (2 * (L - ℓ)) := by positivity
  have n1 : 0 ≤ ∑ d, (Glo d - G i d) ^ 2 := sum_nonneg fun _ _ => sq_nonneg _
  have n2 : 0 ≤ ∑ d, (G i d - Gup d) ^ 2 := sum_nonneg fun _ _ => sq_nonneg _
  have m1 := mul_nonneg hs.le n1
  have m2 := mul_nonneg hs.le n2
  have z1 : ∑ d, (Glo d - G i d) ^ 2 = 0 := by
    have : 1 / (2 * (L - ℓ)) * ∑ d, (Glo d - G i d) ^ 2 = 0 := by linarith
    exact (mul_eq_zero.1 this).resolve_left hs.ne'
  have z2 : ∑ d, (G i d - Gup d) ^ 2 = 0 := by
    have : 1 / (2 * (L - ℓ)) * ∑ d, (G i d - Gup d) ^ 2 = 0 := by linarith
    exact (mul_eq_zero.1 this).resolve_left hs.ne'
  refine ⟨by linarith, by linarith, funext fun d => ?_, funext fun d => ?_⟩
  · have := (sum_eq_zero_iff_of_nonneg fun _ _ => sq_nonneg _).1 z1 d (mem_univ _)
    have := pow_eq_zero_iff two_ne_zero |>.1 this
    linarith
  · have := (sum_eq_zero_iff_of_nonneg fun _ _ => sq_nonneg _).1 z2 d (mem_univ _)
    have := pow_eq_zero_iff two_ne_zero |>.1 this
    linarith

/-- C97. Refuted for a class without training samples: the problems are unbounded, so no finite bounds exist. -/
theorem C97_empty_class_refuted (ℓ L : ℝ) (X : I → D → ℝ) (cls : I → C) (phi : I → ℝ) (G : I → D → ℝ) (y : D → ℝ) (k : C) (hk : ∀ i, cls i ≠ k) (lo up : ℝ) (Glo Gup : D → ℝ) :
    ¬ Bounds ℓ L X cls phi G y k lo up Glo Gup := fun hb => by
  have := hb.low (lo - 1) Glo fun j hj => absurd hj (hk j)
  linarith

/-- The default constants and the potential `‖x‖² / 2` (gradient the identity): the hypotheses of C97 can be met. -/
example : StronglyConvexSmooth (3 / 5) (7 / 5) (fun x : Fin 2 → ℝ => 1 / 2 * ∑ d, x d ^ 2) (fun x => x) := by
  intro x y
  have e : 1 / 2 * ∑ d, y d ^ 2 = 1 / 2 * ∑ d, x d ^ 2 + ∑ d, x d * (y d - x d) + 1 / 2 * sqEuclid y x := by
    unfold sqEuclid
    rw [mul_sum, mul_sum, mul_sum, ← sum_add_distrib, ← sum_add_distrib]
    exact sum_congr rfl fun d _ => by ring
  have : 0 ≤ sqEuclid y x := sum_nonneg fun _ _ => sq_nonneg _
  constructor
  · dsimp only; linarith
  · dsimp only; linarith

/-- A solver that meets the contract: with every sample in its own class the minimiser is the barycentric projection. -/
example (X V : Fin 2 → Fin 1 → ℝ) : SolvesFit (3 / 5) (7 / 5) X (fun i => i) V (fun _ => 1 / 2) (fun _ => 1 / 2)
    (fun P => (fun _ => 0, fun i d => 2 * ∑ j, P i j * V j d)) := by
  intro P hP
  refine ⟨fun i j hij => ?_, fun phi G _ => ?_⟩
  · dsimp only at hij
    subst hij
    simp [above, sqEuclid]
  · unfold moveCost
    refine sum_le_sum fun i _ => ?_
    have hr := hP.row i
    simp only [sqEuclid, univ_unique, sum_singleton, Fin.sum_univ_two] at hr ⊢
    have hr1 : P i 1 = 1 / 2 - P i 0 := by linarith
    rw [hr1]
    nlinarith [sq_nonneg (G i default - 2 * (P i 0 * V 0 default + (1 / 2 - P i 0) * V 1 default))]

/-- Bounds exist, for example at a training sample. -/
example : Bounds (3 / 5) (7 / 5) (fun _ : Fin 1 => fun _ : Fin 1 => (0 : ℝ)) (fun _ => ()) (fun _ => 2) (fun _ _ => 1) (fun _ => 0) () 2 2 (fun _ => 1) (fun _ => 1) := by
  have hc : 0 ≤ c1 (3 / 5) (7 / 5) := by rw [(C97_constants (by norm_num) (by norm_num)).1]; norm_num
  refine ⟨fun j _ => ?_, fun t g ht => ?_, fun j _ => ?_, fun t g ht => ?_⟩
  · simp [above, sqEuclid]
  · have := ht 0 rfl
    simp only [above, sqEuclid, sub_self, mul_zero, sum_const_zero, add_zero, sub_zero, ne_eq, OfNat.ofNat_ne_zero, not_false_eq_true, zero_pow] at this
    have : 0 ≤ c1 (3 / 5) (7 / 5) * ∑ x : Fin 1, (g x - 1) ^ 2 := mul_nonneg hc (sum_nonneg fun _ _ => sq_nonneg _)
    linarith
  · simp [above, sqEuclid]
  · have := ht 0 rfl
    simp only [above, sqEuclid, sub_self, mul_zero, sum_const_zero, add_zero, sub_zero, ne_eq, OfNat.ofNat_ne_zero, not_false_eq_true, zero_pow] at this
    have : 0 ≤ c1 (3 / 5) (7 / 5) * ∑ x : Fin 1, (1 - g x) ^ 2 := mul_nonneg hc (sum_nonneg fun _ _ => sq_nonneg _)
    linarith

/-- C97: the barycentric initialisation sends each sample to a weighted mean of the targets (each coordinate stays within the range of the targets), and as a whole it preserves the mean of the target measure. -/
theorem C97_init {X V : I → D → ℝ} {a b : I → ℝ} (ha : ∀ i, 0 < a i) {lp : (I → I → ℝ) → I → I → ℝ} (hlp : ∀ M, IsOptimal a b M (lp M)) :
    (∀ i d lo hi, (∀ j, lo ≤ V j d ∧ V j d ≤ hi) → lo ≤ baryInit lp a X V i d ∧ baryInit lp a X V i d ≤ hi) ∧ ∀ d, ∑ i, a i * baryInit lp a X V i d = ∑ j, b j * V j d := by
  have hc := (hlp (distM X V)).1
  constructor
  · intro i d lo hi h
    have e : ∀ c : ℝ, c * a i = ∑ j, lp (distM X V) i j * c := fun c => by rw [← sum_mul, hc.row i, mul_comm]
    unfold baryInit
    rw [le_div_iff₀ (ha i), div_le_iff₀ (ha i), e, e]
    exact ⟨sum_le_sum fun j _ => mul_le_mul_of_nonneg_left (h j).1 (hc.nonneg i j), sum_le_sum fun j _ => mul_le_mul_of_nonneg_left (h j).2 (hc.nonneg i j)⟩
  · intro d
    have : ∀ i, a i * baryInit lp a X V i d = ∑ j, lp (distM X V) i j * V j d := fun i => by
      unfold baryInit; rw [mul_div_cancel₀ _ (ha i).ne']
    simp_rw [this]
    rw [sum_comm]
    exact sum_congr rfl fun j _ => by rw [← sum_mul, hc.col j]

end POT.Props
