import Verif.Lemmas.LowRank
import Mathlib.Analysis.SpecialFunctions.Log.Deriv
import Mathlib.Analysis.Calculus.Deriv.Inv
import Mathlib.Tactic.NormNum
import Mathlib.Tactic.FinCases
import Mathlib.Tactic.FieldSimp

/-!
# C100: low-rank Sinkhorn

`lowrank_sinkhorn`, `compute_lr_sqeuclidean_matrix`, `sinkhorn_low_rank_kernel` (ot/lowrank.py). Specification: `Verif/Spec/LowRank.lean`.
-/

set_option linter.unusedSectionVars false

namespace POT.Props

open Finset POT.Spec POT.LowRank Filter Topology

variable {I J K D C : Type*} [Fintype I] [Fintype J] [Fintype K] [Fintype D] [Fintype C]

/-! ### the factorised cost -/

private theorem fac_mul (X : I → D → ℝ) (Y : J → D → ℝ) (i : I) (j : J) : ∑ c, fac1 X i c * fac2 Y j c = sqEuclid (X i) (Y j) := by
  rw [Fintype.sum_sum_type, Fin.sum_univ_two]
  simp only [fac1, fac2, if_true, show ((1 : Fin 2) = 0) = False by simp, if_false, mul_one, one_mul]
  unfold sqEuclid
  rw [← sum_add_distrib, ← sum_add_distrib]
  exact sum_congr rfl fun d _ => by ring

/-- **Cost factorisation.** Without rescaling, the product of the two factors is the squared Euclidean cost matrix; with rescaling it is that matrix divided by one positive number (which depends on the data only). -/
theorem C100_cost [Nonempty I] [Nonempty J] (X : I → D → ℝ) (Y : J → D → ℝ) :
    (∀ i j, ∑ c, (lrSq X Y false).1 i c * (lrSq X Y false).2 j c = sqEuclid (X i) (Y j)) ∧
    ∃ z : ℝ, 1 ≤ z ∧ ∀ i j, ∑ c, (lrSq X Y true).1 i c * (lrSq X Y true).2 j c = sqEuclid (X i) (Y j) / z := by
  refine ⟨fun i j => by simpa [lrSq] using fac_mul X Y i j, √(maxM (fac1 X)) * √(maxM (fac2 Y)), ?_, fun i j => ?_⟩
  · obtain ⟨i0⟩ := ‹Nonempty I›
    obtain ⟨j0⟩ := ‹Nonempty J›
    have h1 : 1 ≤ maxM (fac1 X) := by
      have := le_sup' (fun x : I × (Fin 2 ⊕ D) => fac1 X x.1 x.2) (mem_univ (i0, Sum.inl 1))
      simpa [fac1, maxM] using this
    have h2 : 1 ≤ maxM (fac2 Y) := by
      have := le_sup' (fun x : J × (Fin 2 ⊕ D) => fac2 Y x.1 x.2) (mem_univ (j0, Sum.inl 0))
      simpa [fac2, maxM] using this
    have := one_le_mul_of_one_le_of_one_le (Real.one_le_sqrt.2 h1) (Real.one_le_sqrt.2 h2)
    exact this
  · rw [← fac_mul X Y i j, sum_div]
    refine sum_congr rfl fun c _ => ?_
    simp only [lrSq, if_true]
    rw [div_mul_div_comm]

/-! ### initialisation -/

private theorem ramp_pos {n : ℕ} (i : Fin n) : 0 < ramp i := by
  unfold ramp
  refine div_pos (by positivity) (sum_pos (fun k _ => by positivity) ⟨i, mem_univ i⟩)

private theorem ramp_sum {n : ℕ} [NeZero n] : ∑ i : Fin n, ramp i = 1 := by
  unfold ramp
  rw [← sum_div, div_self]
  exact (sum_pos (fun k _ => by positivity) univ_nonempty).ne'

private theorem ramp_le {n : ℕ} [NeZero n] (i : Fin n) : ramp i ≤ 1 := by
  rw [← ramp_sum (n := n)]
  exact single_le_sum (f := ramp) (fun k _ => (ramp_pos k).le) (mem_univ i)

private theorem det_ok {n r : ℕ} [NeZero n] [NeZero r] {l : ℝ} {a : Fin n → ℝ} (hl : 0 < l) (hl1 : l < 1) (h1 : ∀ i, l < a i) (h2 : l < 1 / (r : ℝ)) (hs : ∑ i, a i = 1) :
    IsCoupling a (fun _ => 1 / (r : ℝ)) (detFactor (r := r) l a) ∧ ∀ i k, 0 < detFactor (r := r) l a i k := by
  have hl' : (0 : ℝ) < 1 - l := by linarith
  have hr : (r : ℝ) ≠ 0 := Nat.cast_ne_zero.2 (NeZero.ne r)
  have hsr : ∑ k : Fin r, (1 / (r : ℝ) - l * ramp k) = 1 - l := by
    rw [sum_sub_distrib, ← mul_sum, ramp_sum, sum_const, card_univ, Fintype.card_fin, nsmul_eq_mul]; field_simp
  have hsa : ∑ i, (a i - l * ramp i) = 1 - l := by rw [sum_sub_distrib, ← mul_sum, ramp_sum, hs]; ring
  have e : ∀ i k, detFactor (r := r) l a i k = l * (ramp i * ramp k) + (a i - l * ramp i) * (1 / (r : ℝ) - l * ramp k) / (1 - l) := fun i k => by
    unfold detFactor; field_simp
  have pos : ∀ i k, 0 < detFactor (r := r) l a i k := fun i k => by
    rw [e]
    have t1 := ramp_le i
    have t2 := ramp_le k
    have u1 : 0 < a i - l * ramp i := by nlinarith [h1 i]
    have u2 : 0 < 1 / (r : ℝ) - l * ramp k := by nlinarith
    have := mul_pos hl (mul_pos (ramp_pos i) (ramp_pos k))
    have := div_pos (mul_pos u1 u2) hl'
    linarith
  refine ⟨⟨fun i k => (pos i k).le, fun i => ?_, fun k => ?_⟩, pos⟩
  · simp_rw [e]
    rw [sum_add_distrib, ← sum_div, ← mul_sum, ← mul_sum, ← mul_sum, hsr, ramp_sum, mul_div_cancel_right₀ _ hl'.ne']; ring
  · simp_rw [e]
    rw [sum_add_distrib, ← sum_div, ← mul_sum, ← sum_mul, ← sum_mul, hsa, ramp_sum, mul_div_assoc, mul_comm (1 - l), div_mul_cancel₀ _ hl'.ne']; ring

/-- **Deterministic start.** For positive weights of total one it is a feasible low-rank coupling (inner weights `1/rank`) with positive entries. -/
theorem C100_init {n m r : ℕ} [NeZero n] [NeZero m] [NeZero r] {a : Fin n → ℝ} {b : Fin m → ℝ} (ha : ∀ i, 0 < a i) (hb : ∀ j, 0 < b j) (sa : ∑ i, a i = 1) (sb : ∑ j, b j = 1) :
    IsLowRank a b (1 / (r : ℝ)) (initDet (r := r) a b).1 (initDet (r := r) a b).2.1 (initDet (r := r) a b).2.2 ∧ (∀ i k, 0 < (initDet (r := r) a b).1 i k) ∧ ∀ j k, 0 < (initDet (r := r) a b).2.1 j k := by
  have hr : (0 : ℝ) < 1 / r := by have := NeZero.pos r; positivity
  have m1 : 0 < univ.inf' univ_nonempty a := (lt_inf'_iff _).2 fun i _ => ha i
  have m2 : 0 < univ.inf' univ_nonempty b := (lt_inf'_iff _).2 fun i _ => hb i
  have l0 : 0 < lam (r := r) a b := half_pos (lt_min (lt_min m1 hr) m2)
  have la : ∀ i, lam (r := r) a b < a i := fun i => by
    have h1 : min (min (univ.inf' univ_nonempty a) (1 / (r : ℝ))) (univ.inf' univ_nonempty b) ≤ a i := ((min_le_left _ _).trans (min_le_left _ _)).trans (inf'_le _ (mem_univ i))
    unfold lam at l0 ⊢; linarith
  have lb : ∀ i, lam (r := r) a b < b i := fun i => by
    have h1 : min (min (univ.inf' univ_nonempty a) (1 / (r : ℝ))) (univ.inf' univ_nonempty b) ≤ b i := (min_le_right _ _).trans (inf'_le _ (mem_univ i))
    unfold lam at l0 ⊢; linarith
  have lr : lam (r := r) a b < 1 / (r : ℝ) := by
    have h1 : min (min (univ.inf' univ_nonempty a) (1 / (r : ℝ))) (univ.inf' univ_nonempty b) ≤ 1 / (r : ℝ) := (min_le_left _ _).trans (min_le_right _ _)
    unfold lam at l0 ⊢; linarith
  have l1 : lam (r := r) a b < 1 := lt_of_lt_of_le (la 0) (by rw [← sa]; exact single_le_sum (fun i _ => (ha i).le) (mem_univ 0))
  obtain ⟨c1, p1⟩ := det_ok (r := r) l0 l1 la lr sa
  obtain ⟨c2, p2⟩ := det_ok (r := r) l0 l1 lb lr sb
  exact ⟨⟨c1, c2, fun _ => le_rfl⟩, p1, p2⟩

/-- **Random start.** For positive random numbers every factor has positive entries and the prescribed row sums. -/
theorem C100_init_random [Nonempty K] {W : I → K → ℝ} {a : I → ℝ} (hW : ∀ i k, 0 < W i k) (ha : ∀ i, 0 < a i) : (∀ i k, 0 < randFactor W a i k) ∧ ∀ i, ∑ k, randFactor W a i k = a i := by
  have s : ∀ i, 0 < ∑ l, W i l := fun i => sum_pos (fun l _ => hW i l) univ_nonempty
  refine ⟨fun i k => mul_pos (hW i k) (div_pos (ha i) (s i)), fun i => ?_⟩
  unfold randFactor
  rw [← sum_mul, mul_div_cancel₀ _ (s i).ne']

/-! ### one outer iteration is a mirror descent step -/

private theorem plan_cost (M1 : I → C → ℝ) (M2 : J → C → ℝ) (Q : I → K → ℝ) (R : J → K → ℝ) (g : K → ℝ) :
    cost (fun i j => ∑ c, M1 i c * M2 j c) (lrPlan Q R g) = ∑ k, omega M1 M2 Q R k / g k := by
  have h : ∀ k, omega M1 M2 Q R k / g k = ∑ i, ∑ j, Q i k * R j k / g k * ∑ c, M1 i c * M2 j c := fun k => by
    unfold omega
    rw [sum_div]
    refine sum_congr rfl fun i _ => ?_
    simp_rw [mul_sum]
    rw [sum_comm, sum_div]
    refine sum_congr rfl fun j _ => ?_
    rw [sum_div]
    exact sum_congr rfl fun c _ => by ring
  simp_rw [h]
  unfold cost lrPlan
  rw [show (∑ k, ∑ i, ∑ j, Q i k * R j k / g k * ∑ c, M1 i c * M2 j c) = ∑ i, ∑ j, ∑ k, Q i k * R j k / g k * ∑ c, M1 i c * M2 j c from by
    rw [sum_comm]; exact sum_congr rfl fun i _ => sum_comm]
  exact sum_congr rfl fun i _ => sum_congr rfl fun j _ => by rw [sum_mul]

private theorem grad_omegaQ (M1 : I → C → ℝ) (M2 : J → C → ℝ) (Q : I → K → ℝ) (R : J → K → ℝ) (g : K → ℝ) : ∑ i, ∑ k, gradQ M1 M2 R g i k * Q i k = ∑ k, omega M1 M2 Q R k / g k := by
  rw [sum_comm]
  refine sum_congr rfl fun k _ => ?_
  unfold gradQ omega
  rw [sum_div]
  exact sum_congr rfl fun i _ => by ring

private theorem grad_omegaR (M1 : I → C → ℝ) (M2 : J → C → ℝ) (Q : I → K → ℝ) (R : J → K → ℝ) (g : K → ℝ) : ∑ j, ∑ k, gradR M1 M2 Q g j k * R j k = ∑ k, omega M1 M2 Q R k / g k := by
  rw [sum_comm]
  refine sum_congr rfl fun k _ => ?_
  unfold gradR omega
  rw [sum_div]
  have e : ∑ i, Q i k * ∑ c, M1 i c * ∑ j, M2 j c * R j k = ∑ j, (∑ c, M2 j c * ∑ i, M1 i c * Q i k) * R j k := by
    simp_rw [mul_sum, sum_mul]
    rw [sum_comm]
    rw [show (∑ j, ∑ c, ∑ i, M2 j c * (M1 i c * Q i k) * R j k) = ∑ c, ∑ i, ∑ j, M2 j c * (M1 i c * Q i k) * R j k from by
      rw [sum_comm]; exact sum_congr rfl fun c _ => sum_comm]
    exact sum_congr rfl fun c _ => sum_congr rfl fun i _ => sum_congr rfl fun j _ => by ring
  rw [← sum_div, e, sum_div]
  exact sum_congr rfl fun j _ => by ring

private theorem deriv_ent (x d : ℝ) (hx : 0 < x) : HasDerivAt (fun t : ℝ => (x + t * d) * (Real.log (x + t * d) - 1)) (Real.log x * d) 0 := by
  have h1 : HasDerivAt (fun t : ℝ => x + t * d) d 0 := by simpa using ((hasDerivAt_id (0 : ℝ)).mul_const d).const_add x
  have h2 := h1.mul ((h1.log (by simpa using hx.ne')).sub_const 1)
  refine h2.congr_deriv ?_
  simp only [zero_mul, add_zero]
  field_simp
  ring

/-- **The gradients are the gradients.** The matrices computed by the code, together with `reg · log`, are the directional derivatives of the low-rank objective at every positive point. -/
theorem C100_gradient (M1 : I → C → ℝ) (M2 : J → C → ℝ) (reg : ℝ) {Q : I → K → ℝ} {R : J → K → ℝ} {g : K → ℝ} (hQ : ∀ i k, 0 < Q i k) (hR : ∀ j k, 0 < R j k) (hg : ∀ k, 0 < g k)
    (dQ : I → K → ℝ) (dR : J → K → ℝ) (dg : K → ℝ) :
    HasDerivAt (fun t : ℝ => lrObjective (fun i j => ∑ c, M1 i c * M2 j c) reg (fun i k => Q i k + t * dQ i k) (fun j k => R j k + t * dR j k) fun k => g k + t * dg k)
      (∑ i, ∑ k, (gradQ M1 M2 R g i k + reg * Real.log (Q i k)) * dQ i k + ∑ j, ∑ k, (gradR M1 M2 Q g j k + reg * Real.log (R j k)) * dR j k +
        ∑ k, (-(omega M1 M2 Q R k / g k ^ 2) + reg * Real.log (g k)) * dg k) 0 := by
  unfold lrObjective
  simp_rw [plan_cost]
  have h1 : ∀ k, HasDerivAt (fun t : ℝ => omega M1 M2 (fun i k => Q i k + t * dQ i k) (fun j k => R j k + t * dR j k) k) (omega M1 M2 dQ R k + omega M1 M2 Q dR k) 0 := fun k => by
    have e : ∀ t : ℝ, omega M1 M2 (fun i k => Q i k + t * dQ i k) (fun j k => R j k + t * dR j k) k = omega M1 M2 Q R k + t * (omega M1 M2 dQ R k + omega M1 M2 Q dR k) + t ^ 2 * omega M1 M2 dQ dR k := fun t => by
      unfold omega
      rw [← sum_add_distrib, mul_sum, ← sum_add_distrib, mul_sum, ← sum_add_distrib]
      refine sum_congr rfl fun i _ => ?_
      have e2 : ∑ c, M1 i c * ∑ j, M2 j c * (R j k + t * dR j k) = ∑ c, M1 i c * ∑ j, M2 j c * R j k + t * ∑ c, M1 i c * ∑ j, M2 j c * dR j k := by
        rw [mul_sum, ← sum_add_distrib]
        refine sum_congr rfl fun c _ => ?_
        rw [mul_left_comm, ← mul_add, mul_sum univ (fun j => M2 j c * dR j k) t, ← sum_add_distrib]
        exact congrArg _ (sum_congr rfl fun j _ => by ring)
      rw [e2]; ring
    simp_rw [e]
    have := (((hasDerivAt_id (0 : ℝ)).mul_const (omega M1 M2 dQ R k + omega M1 M2 Q dR k)).const_add (omega M1 M2 Q R k)).add (((hasDerivAt_id (0 : ℝ)).pow 2).mul_const (omega M1 M2 dQ dR k))
    refine this.congr_deriv ?_
    simp
  have h2 : HasDerivAt (fun t : ℝ => ∑ k, omega M1 M2 (fun i k => Q i k + t * dQ i k) (fun j k => R j k + t * dR j k) k / (g k + t * dg k))
      (∑ k, ((omega M1 M2 dQ R k + omega M1 M2 Q dR k) / g k - omega M1 M2 Q R k / g k ^ 2 * dg k)) 0 := by
    refine HasDerivAt.fun_sum fun k _ => ?_
    have hd : HasDerivAt (fun t : ℝ => g k + t * dg k) (dg k) 0 := by simpa using ((hasDerivAt_id (0 : ℝ)).mul_const (dg k)).const_add (g k)
    refine ((h1 k).div hd (by simpa using (hg k).ne')).congr_deriv ?_
    have := (hg k).ne'
    simp only [zero_mul, add_zero]
    field_simp
  have h3 : HasDerivAt (fun t : ℝ => ∑ i, ∑ k, (Q i k + t * dQ i k) * (Real.log (Q i k + t * dQ i k) - 1)) (∑ i, ∑ k, Real.log (Q i k) * dQ i k) 0 :=
    HasDerivAt.fun_sum fun i _ => HasDerivAt.fun_sum fun k _ => deriv_ent _ _ (hQ i k)
  have h4 : HasDerivAt (fun t : ℝ => ∑ i, ∑ k, (R i k + t * dR i k) * (Real.log (R i k + t * dR i k) - 1)) (∑ i, ∑ k, Real.log (R i k) * dR i k) 0 :=
    HasDerivAt.fun_sum fun i _ => HasDerivAt.fun_sum fun k _ => deriv_ent _ _ (hR i k)
  have h5 : HasDerivAt (fun t : ℝ => ∑ k, (g k + t * dg k) * (Real.log (g k + t * dg k) - 1)) (∑ k, Real.log (g k) * dg k) 0 :=
    HasDerivAt.fun_sum fun k _ => deriv_ent _ _ (hg k)
  refine (h2.add (((h3.add h4).add h5).const_mul reg)).congr_deriv ?_
  have s1 := grad_omegaQ M1 M2 dQ R g
  have s2 := grad_omegaR M1 M2 Q dR g
  simp_rw [add_mul, sum_add_distrib]
  rw [s1, s2, sum_sub_distrib]
  simp_rw [add_div, sum_add_distrib, neg_mul, sum_neg_distrib, mul_assoc, ← mul_sum]
  ring

private theorem kern1_kl {L : Type*} [Fintype L] (γ reg : ℝ) {G X X' : L → K → ℝ} (hX : ∀ i k, 0 < X i k) (hX' : ∀ i k, 0 ≤ X' i k) :
    klPlan X' (kern1 γ reg G X) = γ * ∑ i, ∑ k, (G i k + reg * Real.log (X i k)) * X' i k + klPlan X' X + (-(∑ i, ∑ k, X i k) + ∑ i, ∑ k, kern1 γ reg G X i k) := by
  have hp : ∀ i k, 0 < kern1 γ reg G X i k := fun i k => Real.exp_pos _
  rw [klPlan_lin hX hX' hp]
  have e : ∑ i, ∑ k, X' i k * Real.log (X i k / kern1 γ reg G X i k) = γ * ∑ i, ∑ k, (G i k + reg * Real.log (X i k)) * X' i k := by
    rw [mul_sum]
    refine sum_congr rfl fun i _ => ?_
    rw [mul_sum]
    refine sum_congr rfl fun k _ => ?_
    rw [Real.log_div (hX i k).ne' (hp i k).ne', kern1, Real.log_exp]
    ring
  rw [e]; ring

/-- **Mirror descent.** The divergence to the three kernels is, up to a constant, `γ` times the linearised objective plus the divergence to the current factors: projecting the kernels is one mirror descent step. -/
theorem C100_mirror (γ reg : ℝ) {GQ Q : I → K → ℝ} {GR R : J → K → ℝ} {ω g : K → ℝ} (hQ : ∀ i k, 0 < Q i k) (hR : ∀ j k, 0 < R j k) (hg : ∀ k, 0 < g k) :
    ∃ c : ℝ, ∀ (Q' : I → K → ℝ) (R' : J → K → ℝ) (g' : K → ℝ), (∀ i k, 0 ≤ Q' i k) → (∀ j k, 0 ≤ R' j k) → (∀ k, 0 ≤ g' k) →
      lrDivergence (kern1 γ reg GQ Q) (kern1 γ reg GR R) (kern3 γ reg ω g) Q' R' g' =
        γ * (∑ i, ∑ k, (GQ i k + reg * Real.log (Q i k)) * Q' i k + ∑ j, ∑ k, (GR j k + reg * Real.log (R j k)) * R' j k + ∑ k, (-(ω k / g k ^ 2) + reg * Real.log (g k)) * g' k) +
        lrDivergence Q R g Q' R' g' + c := by
  have aux3 : ∀ g' : K → ℝ, (∀ k, 0 ≤ g' k) → klDivergence g' (kern3 γ reg ω g) = γ * ∑ k, (-(ω k / g k ^ 2) + reg * Real.log (g k)) * g' k + klDivergence g' g + (-(∑ k, g k) + ∑ k, kern3 γ reg ω g k) := by
    intro g' hg'
    have hp : ∀ k, 0 < kern3 γ reg ω g k := fun k => Real.exp_pos _
    rw [kl_lin hg hg' hp]
    have e : ∑ k, g' k * Real.log (g k / kern3 γ reg ω g k) = γ * ∑ k, (-(ω k / g k ^ 2) + reg * Real.log (g k)) * g' k := by
      rw [mul_sum]
      refine sum_congr rfl fun k _ => ?_
      rw [Real.log_div (hg k).ne' (hp k).ne', kern3, Real.log_exp]
      ring
    rw [e]; ring
  refine ⟨(-(∑ i, ∑ k, Q i k) + ∑ i, ∑ k, kern1 γ reg GQ Q i k) + (-(∑ i, ∑ k, R i k) + ∑ i, ∑ k, kern1 γ reg GR R i k) + (-(∑ k, g k) + ∑ k, kern3 γ reg ω g k), fun Q' R' g' h1 h2 h3 => ?_⟩
  unfold lrDivergence
  rw [kern1_kl γ reg hQ h1, kern1_kl γ reg hR h2, aux3 g' h3]
  ring

/-! ### plans of low rank -/

/-- **The marginals of a low-rank plan** are the row sums of its factors as soon as both factors have the inner weights as column sums. -/
theorem C100_plan_marginals {Q : I → K → ℝ} {R : J → K → ℝ} {g : K → ℝ} (hg : ∀ k, 0 < g k) (h1 : ∀ k, ∑ i, Q i k = g k) (h2 : ∀ k, ∑ j, R j k = g k) :
    (∀ i, ∑ j, lrPlan Q R g i j = ∑ k, Q i k) ∧ ∀ j, ∑ i, lrPlan Q R g i j = ∑ k, R j k := by
  unfold lrPlan
  refine ⟨fun i => ?_, fun j => ?_⟩
  · rw [sum_comm]
    refine sum_congr rfl fun k _ => ?_
    rw [← sum_div, ← mul_sum, h2, mul_div_cancel_right₀ _ (hg k).ne']
  · rw [sum_comm]
    refine sum_congr rfl fun k _ => ?_
    rw [← sum_div, ← sum_mul, h1, mul_div_cancel_left₀ _ (hg k).ne']

/-- Low-rank factors give a coupling of the two marginals. -/
theorem C100_plan_coupling {a : I → ℝ} {b : J → ℝ} {α : ℝ} (hα : 0 < α) {Q : I → K → ℝ} {R : J → K → ℝ} {g : K → ℝ} (h : IsLowRank a b α Q R g) : IsCoupling a b (lrPlan Q R g) := by
  have hg : ∀ k, 0 < g k := fun k => lt_of_lt_of_le hα (h.lower k)
  obtain ⟨h1, h2⟩ := C100_plan_marginals hg h.left.col h.right.col
  exact ⟨fun i j => sum_nonneg fun k _ => div_nonneg (mul_nonneg (h.left.nonneg i k) (h.right.nonneg j k)) (hg k).le, fun i => (h1 i).trans (h.left.row i), fun j => (h2 j).trans (h.right.row j)⟩

/-- **The check `1/rank < alpha`.** Such a lower bound on the inner weights is infeasible; every smaller one is feasible. -/
theorem C100_alpha [Nonempty K] {a : I → ℝ} {b : J → ℝ} {α : ℝ} (ha : ∀ i, 0 ≤ a i) (hb : ∀ j, 0 ≤ b j) (sa : ∑ i, a i = 1) (sb : ∑ j, b j = 1) :
    (∃ (Q : I → K → ℝ) (R : J → K → ℝ) (g : K → ℝ), IsLowRank a b α Q R g) ↔ ¬ 1 / (Fintype.card K : ℝ) < α := by
  have hK : (0 : ℝ) < Fintype.card K := Nat.cast_pos.2 Fintype.card_pos
  constructor
  · rintro ⟨Q, R, g, h⟩ hlt
    have e : ∑ k, g k = 1 := by
      rw [← sa, ← sum_congr rfl fun k _ => h.left.col k, sum_comm]
      exact sum_congr rfl fun i _ => h.left.row i
    have e2 : ∑ _k : K, α ≤ ∑ k, g k := sum_le_sum fun k _ => h.lower k
    rw [e, sum_const, card_univ, nsmul_eq_mul] at e2
    rw [div_lt_iff₀ hK] at hlt
    linarith
  · intro h
    have aux : ∀ {L : Type _} [Fintype L] (p : L → ℝ), (∀ i, 0 ≤ p i) → ∑ i, p i = 1 → IsCoupling p (fun _ : K => 1 / (Fintype.card K : ℝ)) fun i _ => p i * (1 / Fintype.card K) := fun p hp hs =>
      ⟨fun i k => mul_nonneg (hp i) (by positivity), fun i => by rw [sum_const, card_univ, nsmul_eq_mul]; field_simp, fun k => by rw [← sum_mul, hs, one_mul]⟩
    refine ⟨fun i _ => a i * (1 / Fintype.card K), fun i _ => b i * (1 / Fintype.card K), fun _ => 1 / Fintype.card K, aux a ha sa, ?_, fun _ => not_lt.1 h⟩
    exact ⟨fun i k => mul_nonneg (hb i) (by positivity), fun i => by rw [sum_const, card_univ, nsmul_eq_mul]; field_simp, fun k => by rw [← sum_mul, sb, one_mul]⟩

/-! ### the Dykstra loop -/

section dyk

variable [Nonempty I] [Nonempty J] [Nonempty K]
variable {E1 : I → K → ℝ} {E2 : J → K → ℝ} {e : K → ℝ} {a : I → ℝ} {b : J → ℝ} {α stopThr : ℝ}

/-- **What the inner loop returns**, for every tolerance and every iteration limit: positive factors, both with the inner weights as column sums. -/
theorem C100_dykstra_columns (d : Data E1 E2 e a b) (hs : stopThr < 1) {n : ℕ} (hn : 0 < n) : ∃ Q R g, dykstra E1 E2 e a b α stopThr n = some (Q, R, g) ∧
    (∀ i k, 0 < Q i k) ∧ (∀ j k, 0 < R j k) ∧ (∀ k, 0 < g k) ∧ (∀ k, ∑ i, Q i k = g k) ∧ ∀ k, ∑ j, R j k = g k := by
  obtain ⟨k, -, h1, -, -⟩ := dykstra_spec (E1 := E1) (E2 := E2) (e := e) (p1 := a) (p2 := b) (α := α) hs hn
  refine ⟨_, _, _, h1, dykQ_pos d k, dykR_pos d k, (seq_inv d (k + 1)).g, fun l => ?_, fun l => ?_⟩
  · rw [seq_succ]; exact col_after1 d (seq_inv d k) l
  · rw [seq_succ]; exact col_after2 d (seq_inv d k) l

/-- **Termination.** For a feasible lower bound and a positive tolerance below one, every large enough iteration limit gives one and the same result; the marginals of its plan are within the tolerance (sum of absolute deviations). -/
theorem C100_terminates (d : Data E1 E2 e a b) (hα : α ≤ 1 / Fintype.card K) (h0 : 0 < stopThr) (hs : stopThr < 1) : ∃ Q R g N, (∀ n, N ≤ n → dykstra E1 E2 e a b α stopThr n = some (Q, R, g)) ∧
    ∑ i, |∑ j, lrPlan Q R g i j - a i| + ∑ j, |∑ i, lrPlan Q R g i j - b j| ≤ stopThr := by
  have hev : ∃ k, (seq E1 E2 e a b α (k + 1)).err ≤ stopThr := by
    obtain ⟨k, hk⟩ := ((err_tendsto d hα).eventually (gt_mem_nhds h0)).exists
    exact ⟨k, hk.le⟩
  classical
  obtain ⟨k0, hk0⟩ : ∃ k0, k0 = Nat.find hev := ⟨_, rfl⟩
  have s0 : (seq E1 E2 e a b α (k0 + 1)).err ≤ stopThr := by rw [hk0]; exact Nat.find_spec hev
  have m0 : ∀ l < k0, stopThr < (seq E1 E2 e a b α (l + 1)).err := fun l hl => not_le.1 (Nat.find_min hev (hk0 ▸ hl))
  refine ⟨dykQ E1 (seq E1 E2 e a b α (k0 + 1)), dykR E2 (seq E1 E2 e a b α (k0 + 1)), (seq E1 E2 e a b α (k0 + 1)).g, k0 + 2, fun n hn => ?_, ?_⟩
  · obtain ⟨k, hk, h1, h2, h3⟩ := dykstra_spec (E1 := E1) (E2 := E2) (e := e) (p1 := a) (p2 := b) (α := α) hs (n := n) (by omega)
    have : k = k0 := by
      rcases lt_trichotomy k k0 with h | h | h
      · exact absurd (h3 (by omega)) (not_le.2 (m0 k h))
      · exact h
      · exact absurd s0 (not_le.2 (h2 k0 h))
    rw [h1, this]
  · obtain ⟨r1, r2⟩ := C100_plan_marginals (Q := dykQ E1 (seq E1 E2 e a b α (k0 + 1))) (R := dykR E2 (seq E1 E2 e a b α (k0 + 1))) (seq_inv d (k0 + 1)).g
      (fun l => by rw [seq_succ]; exact col_after1 d (seq_inv d k0) l) fun l => by rw [seq_succ]; exact col_after2 d (seq_inv d k0) l
    simp_rw [r1, r2]
    rw [← err_eq]
    exact s0

/-- **Convergence.** If the lower bound is strictly feasible, there is a Kullback-Leibler projection of the kernels onto the low-rank couplings, and the factors returned when only the iteration limit stops the loop converge to it. -/
theorem C100_converges (d : Data E1 E2 e a b) (hα : α < 1 / Fintype.card K) (hs : stopThr < 0) : ∃ Q R g, IsLrProjection a b α E1 E2 e Q R g ∧
    ∃ (Qs : ℕ → I → K → ℝ) (Rs : ℕ → J → K → ℝ) (gs : ℕ → K → ℝ), (∀ n, dykstra E1 E2 e a b α stopThr (n + 1) = some (Qs n, Rs n, gs n)) ∧
      (∀ i k, Tendsto (fun n => Qs n i k) atTop (𝓝 (Q i k))) ∧ (∀ j k, Tendsto (fun n => Rs n j k) atTop (𝓝 (R j k))) ∧ ∀ k, Tendsto (fun n => gs n k) atTop (𝓝 (g k)) := by
  obtain ⟨Q, R, g, hp, t1, t2, t3⟩ := converges d hα
  refine ⟨Q, R, g, hp, fun n => dykQ E1 (seq E1 E2 e a b α (n + 1)), fun n => dykR E2 (seq E1 E2 e a b α (n + 1)), fun n => (seq E1 E2 e a b α (n + 1)).g, fun n => ?_, t1, t2, t3⟩
  obtain ⟨k, hk, h1, h2, h3⟩ := dykstra_spec (E1 := E1) (E2 := E2) (e := e) (p1 := a) (p2 := b) (α := α) (stopThr := stopThr) (by linarith) (Nat.succ_pos n)
  have : k = n := by
    by_contra hne
    have h4 := h3 (by omega)
    rw [err_eq] at h4
    have h5 : 0 ≤ ∑ i, |∑ l, dykQ E1 (seq E1 E2 e a b α (k + 1)) i l - a i| := sum_nonneg fun i _ => abs_nonneg _
    have h6 : 0 ≤ ∑ j, |∑ l, dykR E2 (seq E1 E2 e a b α (k + 1)) j l - b j| := sum_nonneg fun i _ => abs_nonneg _
    linarith
  rw [h1, this]

/-- **No iteration, no result.** With an iteration limit of zero, or a tolerance of at least one, the loop body is never entered and the factors are undefined (the function raises). -/
theorem C100_unbound_refuted (h : 1 ≤ stopThr) (n : ℕ) : dykstra E1 E2 e a b α stopThr n = none ∧ ∀ s : ℝ, dykstra E1 E2 e a b α s 0 = none := by
  refine ⟨?_, fun s => ?_⟩
  · unfold dykstra; rw [if_pos (Or.inr h)]
  · unfold dykstra; rw [if_pos (Or.inl rfl)]

end dyk

/-! ### the outer loop and the reported values -/

/-- **The factors returned after any positive number of outer iterations**: the column sums of `Q` and `R` are the inner weights, up to the added safety constant; so, without it, the marginals of the plan are the row sums of the factors. -/
theorem C100_outer [Nonempty I] [Nonempty J] [Nonempty K] (M1 : I → C → ℝ) (M2 : J → C → ℝ) {a : I → ℝ} {b : J → ℝ} (ha : ∀ i, 0 < a i) (hb : ∀ j, 0 < b j) (sa : ∑ i, a i = 1) (sb : ∑ j, b j = 1)
    (reg α : ℝ) {stopThr tiny : ℝ} (hs : stopThr < 1) (ht : 0 ≤ tiny) {numItermax : ℕ} (hn : 0 < numItermax) (γ : (I → K → ℝ) → (J → K → ℝ) → (K → ℝ) → ℝ) (init : (I → K → ℝ) × (J → K → ℝ) × (K → ℝ)) (n : ℕ) :
    ∃ Q R g g', outer M1 M2 a b reg α stopThr numItermax tiny γ init (n + 1) = some (Q, R, g, g') ∧ (∀ i k, 0 < Q i k) ∧ (∀ j k, 0 < R j k) ∧ (∀ k, 0 < g k) ∧
      (∀ k, ∑ i, Q i k = g k - tiny + Fintype.card I * tiny) ∧ (∀ k, ∑ j, R j k = g k - tiny + Fintype.card J * tiny) ∧
      (tiny = 0 → (∀ i, ∑ j, lrPlan Q R g i j = ∑ k, Q i k) ∧ ∀ j, ∑ i, lrPlan Q R g i j = ∑ k, R j k) := by
  have hprev : ∃ s, outer M1 M2 a b reg α stopThr numItermax tiny γ init n = some s := by
    induction n with
    | zero => exact ⟨_, rfl⟩
    | succ n ih =>
      obtain ⟨s, h⟩ := ih
      have d : Data (kern1 (γ s.1 s.2.1 s.2.2.1) reg (gradQ M1 M2 s.2.1 s.2.2.1) s.1) (kern1 (γ s.1 s.2.1 s.2.2.1) reg (gradR M1 M2 s.1 s.2.2.1) s.2.1) (kern3 (γ s.1 s.2.1 s.2.2.1) reg (omega M1 M2 s.1 s.2.1) s.2.2.1) a b :=
        ⟨fun _ _ => Real.exp_pos _, fun _ _ => Real.exp_pos _, fun _ => Real.exp_pos _, ha, hb, sa, sb⟩
      obtain ⟨Q, R, g, h1, -⟩ := C100_dykstra_columns (α := α) d hs hn
      unfold outer
      rw [h]
      dsimp only [Option.bind_some]
      rw [h1]
      exact ⟨_, rfl⟩
  obtain ⟨s, h⟩ := hprev
  have d : Data (kern1 (γ s.1 s.2.1 s.2.2.1) reg (gradQ M1 M2 s.2.1 s.2.2.1) s.1) (kern1 (γ s.1 s.2.1 s.2.2.1) reg (gradR M1 M2 s.1 s.2.2.1) s.2.1) (kern3 (γ s.1 s.2.1 s.2.2.1) reg (omega M1 M2 s.1 s.2.1) s.2.2.1) a b :=
    ⟨fun _ _ => Real.exp_pos _, fun _ _ => Real.exp_pos _, fun _ => Real.exp_pos _, ha, hb, sa, sb⟩
  obtain ⟨Q, R, g, h1, p1, p2, p3, c1, c2⟩ := C100_dykstra_columns (α := α) d hs hn
  refine ⟨fun i k => Q i k + tiny, fun j k => R j k + tiny, fun k => g k + tiny, s.2.2.1, ?_, fun i k => by linarith [p1 i k], fun i k => by linarith [p2 i k], fun k => by linarith [p3 k], fun k => ?_, fun k => ?_, fun h0 => ?_⟩
  · unfold outer
    rw [h]
    dsimp only [Option.bind_some]
    rw [h1]
    rfl
  · rw [sum_add_distrib, c1, sum_const, card_univ, nsmul_eq_mul]; ring
  · rw [sum_add_distrib, c2, sum_const, card_univ, nsmul_eq_mul]; ring
  · subst h0
    simp only [add_zero]
    exact C100_plan_marginals p3 c1 c2

/-- **Every outer iteration is the projection of a mirror descent step**: the next factors are what the inner loop returns for the kernels of the current factors, and the last component is the previous `g`. -/
theorem C100_outer_step (M1 : I → C → ℝ) (M2 : J → C → ℝ) {a : I → ℝ} {b : J → ℝ} (reg α : ℝ) {stopThr : ℝ} {numItermax : ℕ} (γ : (I → K → ℝ) → (J → K → ℝ) → (K → ℝ) → ℝ) (init : (I → K → ℝ) × (J → K → ℝ) × (K → ℝ)) (n : ℕ)
    {Q Q' : I → K → ℝ} {R R' : J → K → ℝ} {g h g' h' : K → ℝ} (h1 : outer M1 M2 a b reg α stopThr numItermax 0 γ init n = some (Q, R, g, h)) (h2 : outer M1 M2 a b reg α stopThr numItermax 0 γ init (n + 1) = some (Q', R', g', h')) :
    dykstra (kern1 (γ Q R g) reg (gradQ M1 M2 R g) Q) (kern1 (γ Q R g) reg (gradR M1 M2 Q g) R) (kern3 (γ Q R g) reg (omega M1 M2 Q R) g) a b α stopThr numItermax = some (Q', R', g') ∧ h' = g := by
  unfold outer at h2
  rw [h1] at h2
  dsimp only [Option.bind_some] at h2
  rw [Option.map_eq_some_iff] at h2
  obtain ⟨t, ht, h3⟩ := h2
  simp only [add_zero, Prod.mk.injEq] at h3
  obtain ⟨rfl, rfl, rfl, rfl⟩ := h3
  exact ⟨ht, rfl⟩

/-- **`value_linear`** is the cost of the plan `Q diag(1/h) Rᵀ` for the cost matrix `M1 M2ᵀ`, where `h` is the `g` used for `diag_g` (by `C100_outer_step` the `g` before the last inner loop, not the returned one). -/
theorem C100_value (M1 : I → C → ℝ) (M2 : J → C → ℝ) (Q : I → K → ℝ) (R : J → K → ℝ) (h : K → ℝ) : valueLinear M1 M2 Q R h = cost (fun i j => ∑ c, M1 i c * M2 j c) (lrPlan Q R h) := by
  rw [plan_cost]
  unfold valueLinear omega
  rw [sum_comm]
  refine sum_congr rfl fun k _ => ?_
  rw [sum_div]
  simp_rw [sum_mul, mul_sum]
  rw [sum_comm]
  refine sum_congr rfl fun i _ => ?_
  rw [sum_div]
  refine sum_congr rfl fun c _ => ?_
  rw [sum_div]
  exact sum_congr rfl fun j _ => by ring

/-- With the default `rescale_cost=True`, the reported value is not the transport cost: moving a unit mass from `0` to `2` costs `4`, the value is `2`. -/
theorem C100_value_rescaled_refuted : ∃ (X Y : Fin 1 → Fin 1 → ℝ), cost (fun i j => sqEuclid (X i) (Y j)) (lrPlan (fun _ _ => 1) (fun _ _ => 1) (fun _ : Fin 1 => 1)) = 4 ∧
    IsCoupling (fun _ => 1) (fun _ => 1) (lrPlan (I := Fin 1) (J := Fin 1) (fun _ _ => 1) (fun _ _ => 1) (fun _ : Fin 1 => 1)) ∧
    valueLinear (lrSq X Y true).1 (lrSq X Y true).2 (fun _ _ => 1) (fun _ _ => 1) (fun _ : Fin 1 => 1) = 2 := by
  refine ⟨fun _ _ => 0, fun _ _ => 2, ?_, ?_, ?_⟩
  · norm_num [cost, lrPlan, sqEuclid]
  · constructor <;> intros <;> norm_num [lrPlan]
  · have m1 : maxM (fac1 (fun _ _ => 0 : Fin 1 → Fin 1 → ℝ)) = 1 := by
      apply le_antisymm
      · refine sup'_le _ _ fun x _ => ?_
        rcases x with ⟨i, k | k⟩
        · fin_cases k <;> norm_num [fac1]
        · norm_num [fac1]
      · have := le_sup' (fun x : Fin 1 × (Fin 2 ⊕ Fin 1) => fac1 (fun _ _ => 0 : Fin 1 → Fin 1 → ℝ) x.1 x.2) (mem_univ ((0 : Fin 1), Sum.inl 1))
        refine le_trans (le_of_eq ?_) this
        norm_num [fac1]
    have m2 : maxM (fac2 (fun _ _ => 2 : Fin 1 → Fin 1 → ℝ)) = 4 := by
      apply le_antisymm
      · refine sup'_le _ _ fun x _ => ?_
        rcases x with ⟨i, k | k⟩
        · fin_cases k <;> norm_num [fac2]
        · norm_num [fac2]
      · have := le_sup' (fun x : Fin 1 × (Fin 2 ⊕ Fin 1) => fac2 (fun _ _ => 2 : Fin 1 → Fin 1 → ℝ) x.1 x.2) (mem_univ ((0 : Fin 1), Sum.inl 1))
        refine le_trans (le_of_eq ?_) this
        norm_num [fac2]
    have s4 : √(4 : ℝ) = 2 := by rw [show (4 : ℝ) = 2 ^ 2 by norm_num]; exact Real.sqrt_sq (by norm_num)
    rw [C100_value]
    norm_num [cost, lrPlan, lrSq, m1, m2, s4, Fintype.sum_sum_type, fac1, fac2]

/-! ### Sinkhorn with a factorised kernel -/

/-- **`sinkhorn_low_rank_kernel` is `sinkhorn_knopp`.** If the product of the kernel factors is the Gibbs kernel of `M`, both functions carry out the same run (scalings, iteration count, way of stopping), and the lazy plan is the plan. -/
theorem C100_kernel (K1 : I → C → ℝ) (K2 : J → C → ℝ) {M : I → J → ℝ} {reg : ℝ} (hK : ∀ i j, ∑ c, K1 i c * K2 j c = Real.exp (-(M i j) / reg)) {a : I → ℝ} (b : J → ℝ) (ha : ∀ i, 0 < a i) (numItermax : ℕ) (stopThr : ℝ)
    (warm : Option ((I → ℝ) × (J → ℝ))) :
    lrKernel K1 K2 a b numItermax stopThr warm = Sinkhorn.sinkhornKnopp a b M reg numItermax stopThr warm ∧
    ∀ s, lrkPlan K1 K2 s = Sinkhorn.plan (Sinkhorn.kernel M reg) s := by
  have hK' : ∀ i j, ∑ c, K1 i c * K2 j c = Sinkhorn.kernel M reg i j := fun i j => by rw [hK, Sinkhorn.kernel, div_neg, neg_div]
  have e1 : ∀ u, lrkTu K1 K2 u = Sinkhorn.ktu (Sinkhorn.kernel M reg) u := fun u => by
    funext j
    unfold lrkTu Sinkhorn.ktu
    simp_rw [← hK', mul_sum, sum_mul]
    rw [sum_comm]
    exact sum_congr rfl fun i _ => sum_congr rfl fun c _ => by ring
  have e2 : ∀ v i, Sinkhorn.kpv a (Sinkhorn.kernel M reg) v i = lrkV K1 K2 v i / a i := fun v i => by
    unfold lrkV Sinkhorn.kpv
    rw [sum_div]
    simp_rw [← hK', mul_sum, sum_mul, sum_div]
    rw [sum_comm]
    exact sum_congr rfl fun i _ => sum_congr rfl fun c _ => by ring
  have e3 : lrkStep K1 K2 a b = Sinkhorn.knoppStep a b (Sinkhorn.kernel M reg) := by
    funext s
    unfold lrkStep Sinkhorn.knoppStep
    dsimp only
    rw [Sinkhorn.UV.mk.injEq]
    refine ⟨funext fun i => ?_, by rw [e1]⟩
    rw [if_neg (ha i).ne', e2, one_div_div, e1]
  have e4 : lrkBad K1 K2 b = Sinkhorn.knoppBad a b (Sinkhorn.kernel M reg) := by
    funext s
    unfold lrkBad Sinkhorn.knoppBad
    rw [e1 s.u]
    refine propext (or_congr Iff.rfl ⟨fun ⟨i, h⟩ => Or.inl ⟨i, (ha i).ne', by rw [e2, h, zero_div]⟩, fun h => ?_⟩)
    rcases h with ⟨i, -, h⟩ | ⟨i, j, h, -⟩
    · rw [e2, div_eq_zero_iff] at h
      exact ⟨i, h.resolve_right (ha i).ne'⟩
    · exact absurd h (ha i).ne'
  have e5 : ∀ s, lrkErr K1 K2 b s = Sinkhorn.colErr b (Sinkhorn.kernel M reg) s := fun s => by
    unfold lrkErr Sinkhorn.colErr
    congr 1
    funext j
    rw [e1, Sinkhorn.ktu, mul_sum]
    congr 1
    exact sum_congr rfl fun i _ => by ring
  refine ⟨?_, fun s => ?_⟩
  · unfold lrKernel Sinkhorn.sinkhornKnopp
    rw [e3, e4]
    simp_rw [e5]
  · funext i j
    unfold lrkPlan Sinkhorn.plan
    rw [← hK', mul_sum, sum_mul]
    exact sum_congr rfl fun c _ => by ring

/-! ### non-vacuity -/

/-- a non-uniform instance with two points, three points and rank two -/
theorem exLrData : Data (fun i k : Fin 2 => (i : ℝ) + k + 1) (fun (j : Fin 3) (k : Fin 2) => (j : ℝ) * k + 1) (fun k : Fin 2 => (k : ℝ) + 1) (fun i : Fin 2 => if i = 0 then 1 / 3 else 2 / 3) fun _ : Fin 3 => 1 / 3 := by
  refine ⟨fun i k => by positivity, fun i k => by positivity, fun k => by positivity, fun i => ?_, fun _ => by norm_num, ?_, ?_⟩
  · split_ifs <;> norm_num
  · norm_num [Fin.sum_univ_two]
  · norm_num

example := C100_converges exLrData (α := 1 / 4) (stopThr := -1) (by norm_num) (by norm_num)
example := C100_terminates exLrData (α := 1 / 2) (stopThr := 1 / 100) (by norm_num) (by norm_num) (by norm_num)
example := C100_init (r := 3) (a := fun i : Fin 2 => if i = 0 then (1 / 3 : ℝ) else 2 / 3) (b := fun _ : Fin 3 => (1 / 3 : ℝ)) exLrData.h1 exLrData.h2 exLrData.s1 exLrData.s2
example : ∀ i j : Fin 2, ∑ _c : Fin 1, Real.exp (-(i : ℝ)) * Real.exp (-(2 * j : ℝ)) = Real.exp (-((i : ℝ) + 2 * j) / 1) := fun i j => by
  rw [Fin.sum_univ_one, ← Real.exp_add]; congr 1; ring

end POT.Props
