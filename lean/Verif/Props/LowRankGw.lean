import Verif.Props.LowRank
import Verif.Model.LowRankGw
import Verif.Spec.LowRankGw
import Mathlib.Tactic.FunProp
import Mathlib.Analysis.Calculus.Deriv.Mul
import Mathlib.Analysis.Calculus.Deriv.Add

/-!
# C110: low-rank Gromov-Wasserstein

`lowrank_gromov_wasserstein_samples`, `_flat_product_operator` (ot/gromov/_lowrank.py). Specification: `Verif/Spec/LowRankGw.lean`, `Verif/Spec/LowRank.lean`, `Verif/Spec/Gromov.lean`.
-/

set_option linter.unusedSectionVars false

namespace POT.Props

open Finset POT.Spec POT.LowRank POT.LowRankGw Filter Topology

variable {I J K C E : Type*} [Fintype I] [Fintype J] [Fintype K] [Fintype C] [Fintype E]

/-- the product of two factors -/
private def fp (A1 A2 : I → C → ℝ) : I → I → ℝ := fun i k => ∑ c, A1 i c * A2 k c

private theorem gwC_eq (A1 A2 : I → C → ℝ) (B1 B2 : J → E → ℝ) (Q : I → K → ℝ) (R : J → K → ℝ) (g : K → ℝ) (i : I) (j : J) :
    ∑ l, gwC1 A1 A2 Q g i l * gwC2 B1 B2 R j l = -4 * ∑ i', ∑ j', fp A1 A2 i i' * fp B1 B2 j' j * lrPlan Q R g i' j' := by
  have e1 : ∀ l, gwC1 A1 A2 Q g i l = -4 * ∑ i', fp A1 A2 i i' * (Q i' l / g l) := fun l => by
    unfold gwC1 fp
    congr 1
    simp_rw [mul_sum, sum_mul]
    rw [sum_comm]
    exact sum_congr rfl fun i' _ => sum_congr rfl fun c _ => by ring
  have e2 : ∀ l, gwC2 B1 B2 R j l = ∑ j', fp B1 B2 j' j * R j' l := fun l => by
    unfold gwC2 fp
    simp_rw [sum_mul]
    rw [sum_comm]
    exact sum_congr rfl fun i' _ => sum_congr rfl fun c _ => by ring
  simp_rw [e1, e2, mul_assoc, ← mul_sum]
  congr 1
  simp_rw [sum_mul, mul_sum]
  rw [sum_comm]
  refine sum_congr rfl fun i' _ => ?_
  rw [sum_comm]
  refine sum_congr rfl fun j' _ => ?_
  unfold lrPlan
  rw [mul_sum]
  rw [mul_sum]
  exact sum_congr rfl fun l _ => by ring

/-! ### the gradients -/

/-- **The gradients are the gradients.** For symmetric distance matrices `A1 A2ᵀ` and `B1 B2ᵀ`, the matrices computed by the code, together with `reg · log`, are the directional derivatives of the low-rank
Gromov-Wasserstein objective at every positive point. -/
theorem C110_gradient (A1 A2 : I → C → ℝ) (B1 B2 : J → E → ℝ) {D1 : I → I → ℝ} {D2 : J → J → ℝ} (h1 : ∀ i k, ∑ c, A1 i c * A2 k c = D1 i k) (h2 : ∀ j l, ∑ c, B1 j c * B2 l c = D2 j l)
    (s1 : ∀ i k, D1 i k = D1 k i) (s2 : ∀ j l, D2 j l = D2 l j) (a : I → ℝ) (b : J → ℝ) (reg : ℝ)
    {Q : I → K → ℝ} {R : J → K → ℝ} {g : K → ℝ} (hQ : ∀ i k, 0 < Q i k) (hR : ∀ j k, 0 < R j k) (hg : ∀ k, 0 < g k) (dQ : I → K → ℝ) (dR : J → K → ℝ) (dg : K → ℝ) :
    HasDerivAt (fun t : ℝ => lrGwObjective D1 D2 a b reg (fun i k => Q i k + t * dQ i k) (fun j k => R j k + t * dR j k) fun k => g k + t * dg k)
      (∑ i, ∑ k, (gradQ (gwC1 A1 A2 Q g) (gwC2 B1 B2 R) R g i k + reg * Real.log (Q i k)) * dQ i k +
        ∑ j, ∑ k, (gradR (gwC1 A1 A2 Q g) (gwC2 B1 B2 R) Q g j k + reg * Real.log (R j k)) * dR j k +
        ∑ k, (-(omega (gwC1 A1 A2 Q g) (gwC2 B1 B2 R) Q R k / g k ^ 2) + reg * Real.log (g k)) * dg k) 0 := by
  have f1 : fp A1 A2 = D1 := funext fun i => funext fun k => h1 i k
  have f2 : fp B1 B2 = D2 := funext fun i => funext fun k => h2 i k
  have hd : ∀ i j, ∃ d, HasDerivAt (fun t : ℝ => lrPlan (fun i k => Q i k + t * dQ i k) (fun j k => R j k + t * dR j k) (fun k => g k + t * dg k) i j) d 0 := fun i j => by
    refine ⟨_, DifferentiableAt.hasDerivAt ?_⟩
    unfold lrPlan
    refine DifferentiableAt.fun_sum fun k _ => ?_
    refine DifferentiableAt.div (by fun_prop) (by fun_prop) ?_
    simpa using (hg k).ne'
  choose T' hT' using hd
  obtain ⟨T, hT⟩ : ∃ T : ℝ → I → J → ℝ, T = fun t => lrPlan (fun i k => Q i k + t * dQ i k) (fun j k => R j k + t * dR j k) (fun k => g k + t * dg k) := ⟨_, rfl⟩
  have hTd : ∀ i j, HasDerivAt (fun t => T t i j) (T' i j) 0 := fun i j => by rw [hT]; exact hT' i j
  have hT0 : T 0 = lrPlan Q R g := by rw [hT]; simp
  have hG := C100_gradient (gwC1 A1 A2 Q g) (gwC2 B1 B2 R) reg hQ hR hg dQ dR dg
  have eC : (fun i j => ∑ c, gwC1 A1 A2 Q g i c * gwC2 B1 B2 R j c) = fun i j => -4 * ∑ i', ∑ j', D1 i i' * D2 j' j * T 0 i' j' := by
    funext i j; rw [gwC_eq, f1, f2, hT0]
  rw [eC] at hG
  unfold lrObjective at hG
  have hlin : HasDerivAt (fun t => cost (fun i j => -4 * ∑ i', ∑ j', D1 i i' * D2 j' j * T 0 i' j') (T t)) (∑ i, ∑ j, T' i j * (-4 * ∑ i', ∑ j', D1 i i' * D2 j' j * T 0 i' j')) 0 := by
    unfold cost
    exact HasDerivAt.fun_sum fun i _ => HasDerivAt.fun_sum fun j _ => (hTd i j).mul_const _
  have hquad : HasDerivAt (fun t => gwMixed D1 D2 a b (T t) (T t)) (∑ i, ∑ j, T' i j * (-4 * ∑ i', ∑ j', D1 i i' * D2 j' j * T 0 i' j')) 0 := by
    unfold gwMixed
    have q : HasDerivAt (fun t => ∑ i, ∑ j, ∑ k, ∑ l, D1 i k * D2 j l * T t i j * T t k l)
        (∑ i, ∑ j, ∑ k, ∑ l, (D1 i k * D2 j l * T' i j * T 0 k l + D1 i k * D2 j l * T 0 i j * T' k l)) 0 :=
      HasDerivAt.fun_sum fun i _ => HasDerivAt.fun_sum fun j _ => HasDerivAt.fun_sum fun k _ => HasDerivAt.fun_sum fun l _ => ((hTd i j).const_mul _).mul (hTd k l)
    refine ((q.const_mul 2).const_sub _).congr_deriv ?_
    simp_rw [sum_add_distrib]
    have sw : ∑ i, ∑ j, ∑ k, ∑ l, D1 i k * D2 j l * T 0 i j * T' k l = ∑ i, ∑ j, ∑ k, ∑ l, D1 i k * D2 j l * T' i j * T 0 k l := by
      have e1 : ∀ F : I → J → I → J → ℝ, ∑ i, ∑ j, ∑ k, ∑ l, F i j k l = ∑ x : I × J, ∑ y : I × J, F x.1 x.2 y.1 y.2 := fun F => by
        rw [Fintype.sum_prod_type]
        exact sum_congr rfl fun i _ => sum_congr rfl fun j _ => by rw [Fintype.sum_prod_type]
      rw [e1, e1 (fun i j k l => D1 i k * D2 j l * T' i j * T 0 k l), sum_comm]
      refine sum_congr rfl fun x _ => sum_congr rfl fun y _ => ?_
      rw [s1, s2]; ring
    rw [sw, ← two_mul, ← mul_assoc, mul_sum, ← sum_neg_distrib]
    refine sum_congr rfl fun i _ => ?_
    rw [mul_sum, ← sum_neg_distrib]
    refine sum_congr rfl fun j _ => ?_
    rw [mul_left_comm, mul_sum, mul_sum, mul_sum, ← sum_neg_distrib]
    refine sum_congr rfl fun k _ => ?_
    rw [mul_sum, mul_sum, mul_sum, ← sum_neg_distrib]
    refine sum_congr rfl fun l _ => ?_
    rw [s2 j l]; ring
  have hfun : ∀ t, lrGwObjective D1 D2 a b reg (fun i k => Q i k + t * dQ i k) (fun j k => R j k + t * dR j k) (fun k => g k + t * dg k) =
      (cost (fun i j => -4 * ∑ i', ∑ j', D1 i i' * D2 j' j * T 0 i' j') (lrPlan (fun i k => Q i k + t * dQ i k) (fun j k => R j k + t * dR j k) fun k => g k + t * dg k) +
        reg * (∑ i, ∑ k, (Q i k + t * dQ i k) * (Real.log (Q i k + t * dQ i k) - 1) + ∑ j, ∑ k, (R j k + t * dR j k) * (Real.log (R j k + t * dR j k) - 1) + ∑ k, (g k + t * dg k) * (Real.log (g k + t * dg k) - 1))) +
      (gwMixed D1 D2 a b (T t) (T t) - cost (fun i j => -4 * ∑ i', ∑ j', D1 i i' * D2 j' j * T 0 i' j') (T t)) := fun t => by
    rw [hT]; unfold lrGwObjective; ring
  simp_rw [hfun]
  refine (hG.add (hquad.sub hlin)).congr_deriv ?_
  rw [sub_self, add_zero]

/-! ### one iteration -/

section iter

variable [Nonempty I] [Nonempty J] [Nonempty K] {a : I → ℝ} {b : J → ℝ}

/-- **One iteration** never fails for positive weights of total one: it returns positive factors whose columns sum to the new inner weights (up to the added constant), and keeps the previous inner weights for `diag_g`. -/
theorem C110_step (A1 A2 : I → C → ℝ) (B1 B2 : J → E → ℝ) (ha : ∀ i, 0 < a i) (hb : ∀ j, 0 < b j) (sa : ∑ i, a i = 1) (sb : ∑ j, b j = 1) (reg α : ℝ) {stopThrD : ℝ} (hs : stopThrD < 1)
    {n : ℕ} (hn : 0 < n) (eps : ℝ) {tiny : ℝ} (ht : 0 ≤ tiny) (γ : (I → K → ℝ) → (I → K → ℝ) → (J → K → ℝ) → (J → K → ℝ) → (K → ℝ) → (K → ℝ) → ℝ) (s : St I J K) :
    ∃ s', gwStep A1 A2 B1 B2 a b reg α stopThrD n eps tiny γ s = some s' ∧ (∀ i k, tiny < s'.Q i k) ∧ (∀ j k, tiny < s'.R j k) ∧ (∀ k, tiny < s'.g k) ∧ s'.gd = s.g ∧
      (∀ k, ∑ i, s'.Q i k = s'.g k - tiny + Fintype.card I * tiny) ∧ (∀ k, ∑ j, s'.R j k = s'.g k - tiny + Fintype.card J * tiny) := by
  obtain ⟨γ', hγ⟩ : ∃ γ' : ℝ, γ' = γ (gradQ (gwC1 A1 A2 s.Q s.g) (gwC2 B1 B2 s.R) s.R s.g) s.Q (gradR (gwC1 A1 A2 s.Q s.g) (gwC2 B1 B2 s.R) s.Q s.g) s.R (omega (gwC1 A1 A2 s.Q s.g) (gwC2 B1 B2 s.R) s.Q s.R) s.g := ⟨_, rfl⟩
  have d : Data (kern1 γ' reg (gradQ (gwC1 A1 A2 s.Q s.g) (gwC2 B1 B2 s.R) s.R s.g) s.Q) (kern1 γ' reg (gradR (gwC1 A1 A2 s.Q s.g) (gwC2 B1 B2 s.R) s.Q s.g) s.R)
      (kern3 γ' reg (omega (gwC1 A1 A2 s.Q s.g) (gwC2 B1 B2 s.R) s.Q s.R) s.g) a b := ⟨fun _ _ => Real.exp_pos _, fun _ _ => Real.exp_pos _, fun _ => Real.exp_pos _, ha, hb, sa, sb⟩
  obtain ⟨Q, R, g, h1, p1, p2, p3, c1, c2⟩ := C100_dykstra_columns (α := α) d hs hn
  unfold gwStep
  dsimp only
  rw [← hγ, h1]
  refine ⟨_, rfl, fun i k => ?_, fun i k => ?_, fun k => ?_, rfl, fun k => ?_, fun k => ?_⟩
  · have := p1 i k; dsimp only; linarith
  · have := p2 i k; dsimp only; linarith
  · have := p3 k; dsimp only; linarith
  · dsimp only; rw [sum_add_distrib, c1, sum_const, card_univ, nsmul_eq_mul]; ring
  · dsimp only; rw [sum_add_distrib, c2, sum_const, card_univ, nsmul_eq_mul]; ring

/-- **Marginals of an iteration.** For a feasible lower bound and an inner tolerance in `(0, 1)`, every large enough inner iteration limit gives the same iterate, and the marginals of its plan are within the inner tolerance of `a` and `b`. -/
theorem C110_step_marginals (A1 A2 : I → C → ℝ) (B1 B2 : J → E → ℝ) (ha : ∀ i, 0 < a i) (hb : ∀ j, 0 < b j) (sa : ∑ i, a i = 1) (sb : ∑ j, b j = 1) (reg : ℝ) {α stopThrD : ℝ} (hα : α ≤ 1 / Fintype.card K)
    (h0 : 0 < stopThrD) (hs : stopThrD < 1) (eps : ℝ) (γ : (I → K → ℝ) → (I → K → ℝ) → (J → K → ℝ) → (J → K → ℝ) → (K → ℝ) → (K → ℝ) → ℝ) (s : St I J K) :
    ∃ s' N, (∀ n, N ≤ n → gwStep A1 A2 B1 B2 a b reg α stopThrD n eps 0 γ s = some s') ∧
      ∑ i, |∑ j, lrPlan s'.Q s'.R s'.g i j - a i| + ∑ j, |∑ i, lrPlan s'.Q s'.R s'.g i j - b j| ≤ stopThrD := by
  obtain ⟨γ', hγ⟩ : ∃ γ' : ℝ, γ' = γ (gradQ (gwC1 A1 A2 s.Q s.g) (gwC2 B1 B2 s.R) s.R s.g) s.Q (gradR (gwC1 A1 A2 s.Q s.g) (gwC2 B1 B2 s.R) s.Q s.g) s.R (omega (gwC1 A1 A2 s.Q s.g) (gwC2 B1 B2 s.R) s.Q s.R) s.g := ⟨_, rfl⟩
  have d : Data (kern1 γ' reg (gradQ (gwC1 A1 A2 s.Q s.g) (gwC2 B1 B2 s.R) s.R s.g) s.Q) (kern1 γ' reg (gradR (gwC1 A1 A2 s.Q s.g) (gwC2 B1 B2 s.R) s.Q s.g) s.R)
      (kern3 γ' reg (omega (gwC1 A1 A2 s.Q s.g) (gwC2 B1 B2 s.R) s.Q s.R) s.g) a b := ⟨fun _ _ => Real.exp_pos _, fun _ _ => Real.exp_pos _, fun _ => Real.exp_pos _, ha, hb, sa, sb⟩
  obtain ⟨Q, R, g, N, h1, h2⟩ := C100_terminates d hα h0 hs
  refine ⟨⟨Q, R, g, s.g, lrErr eps γ' Q s.Q R s.R g s.g⟩, N, fun n hn => ?_, h2⟩
  · unfold gwStep
    dsimp only
    rw [← hγ, h1 n hn]
    simp

/-- **One iteration is a mirror descent step on the Gromov-Wasserstein objective.** With a negative inner tolerance the iterates of the inner loop converge to the low-rank factors that minimise
`γ ⟨∇, ·⟩ + KL(· | current factors)` among all feasible ones, where `∇` is the gradient of the objective at the current factors (`C110_gradient`). -/
theorem C110_mirror_step (A1 A2 : I → C → ℝ) (B1 B2 : J → E → ℝ) (ha : ∀ i, 0 < a i) (hb : ∀ j, 0 < b j) (sa : ∑ i, a i = 1) (sb : ∑ j, b j = 1) (reg : ℝ) {α stopThrD : ℝ} (hα : α < 1 / Fintype.card K)
    (hs : stopThrD < 0) (eps γ : ℝ) (s : St I J K) (hQ : ∀ i k, 0 < s.Q i k) (hR : ∀ j k, 0 < s.R j k) (hg : ∀ k, 0 < s.g k) :
    ∃ (Q : I → K → ℝ) (R : J → K → ℝ) (g : K → ℝ), IsLowRank a b α Q R g ∧
      (∃ ss : ℕ → St I J K, (∀ n, gwStep A1 A2 B1 B2 a b reg α stopThrD (n + 1) eps 0 (fun _ _ _ _ _ _ => γ) s = some (ss n)) ∧ (∀ i k, Tendsto (fun n => (ss n).Q i k) atTop (𝓝 (Q i k))) ∧
        (∀ j k, Tendsto (fun n => (ss n).R j k) atTop (𝓝 (R j k))) ∧ ∀ k, Tendsto (fun n => (ss n).g k) atTop (𝓝 (g k))) ∧
      ∀ Q' R' g', IsLowRank a b α Q' R' g' →
        γ * (∑ i, ∑ k, (gradQ (gwC1 A1 A2 s.Q s.g) (gwC2 B1 B2 s.R) s.R s.g i k + reg * Real.log (s.Q i k)) * Q i k + ∑ j, ∑ k, (gradR (gwC1 A1 A2 s.Q s.g) (gwC2 B1 B2 s.R) s.Q s.g j k + reg * Real.log (s.R j k)) * R j k +
          ∑ k, (-(omega (gwC1 A1 A2 s.Q s.g) (gwC2 B1 B2 s.R) s.Q s.R k / s.g k ^ 2) + reg * Real.log (s.g k)) * g k) + lrDivergence s.Q s.R s.g Q R g ≤
        γ * (∑ i, ∑ k, (gradQ (gwC1 A1 A2 s.Q s.g) (gwC2 B1 B2 s.R) s.R s.g i k + reg * Real.log (s.Q i k)) * Q' i k + ∑ j, ∑ k, (gradR (gwC1 A1 A2 s.Q s.g) (gwC2 B1 B2 s.R) s.Q s.g j k + reg * Real.log (s.R j k)) * R' j k +
          ∑ k, (-(omega (gwC1 A1 A2 s.Q s.g) (gwC2 B1 B2 s.R) s.Q s.R k / s.g k ^ 2) + reg * Real.log (s.g k)) * g' k) + lrDivergence s.Q s.R s.g Q' R' g' := by
  have d : Data (kern1 γ reg (gradQ (gwC1 A1 A2 s.Q s.g) (gwC2 B1 B2 s.R) s.R s.g) s.Q) (kern1 γ reg (gradR (gwC1 A1 A2 s.Q s.g) (gwC2 B1 B2 s.R) s.Q s.g) s.R)
      (kern3 γ reg (omega (gwC1 A1 A2 s.Q s.g) (gwC2 B1 B2 s.R) s.Q s.R) s.g) a b := ⟨fun _ _ => Real.exp_pos _, fun _ _ => Real.exp_pos _, fun _ => Real.exp_pos _, ha, hb, sa, sb⟩
  obtain ⟨Q, R, g, ⟨hf, hp⟩, Qs, Rs, gs, hn, t1, t2, t3⟩ := C100_converges d hα hs
  obtain ⟨c, hc⟩ := C100_mirror γ reg (GQ := gradQ (gwC1 A1 A2 s.Q s.g) (gwC2 B1 B2 s.R) s.R s.g) (GR := gradR (gwC1 A1 A2 s.Q s.g) (gwC2 B1 B2 s.R) s.Q s.g) (ω := omega (gwC1 A1 A2 s.Q s.g) (gwC2 B1 B2 s.R) s.Q s.R) hQ hR hg
  have hg0 : ∀ {Q' : I → K → ℝ} {R' : J → K → ℝ} {g' : K → ℝ}, IsLowRank a b α Q' R' g' → ∀ k, 0 ≤ g' k := fun h k => by
    rw [← h.left.col k]; exact sum_nonneg fun i _ => h.left.nonneg i k
  refine ⟨Q, R, g, hf, ⟨fun n => ⟨Qs n, Rs n, gs n, s.g, lrErr eps γ (Qs n) s.Q (Rs n) s.R (gs n) s.g⟩, fun n => ?_, t1, t2, t3⟩, fun Q' R' g' h' => ?_⟩
  · unfold gwStep
    dsimp only
    rw [hn n]
    simp
  · have h3 := (hp Q' R' g' h').1
    rw [hc Q R g hf.left.nonneg hf.right.nonneg (hg0 hf), hc Q' R' g' h'.left.nonneg h'.right.nonneg (hg0 h')] at h3
    linarith

/-- **The returned factors**, whatever the number of iterations carried out: positive, columns summing to the inner weights up to the added constant; and the loop never fails when at least one iteration is allowed. -/
theorem C110_factors (A1 A2 : I → C → ℝ) (B1 B2 : J → E → ℝ) (ha : ∀ i, 0 < a i) (hb : ∀ j, 0 < b j) (sa : ∑ i, a i = 1) (sb : ∑ j, b j = 1) (reg α : ℝ) {stopThr stopThrD : ℝ} (hst : stopThr < 1) (hs : stopThrD < 1)
    {N n : ℕ} (hN : 0 < N) (hn : 0 < n) (eps : ℝ) {tiny : ℝ} (ht : 0 ≤ tiny) (γ : (I → K → ℝ) → (I → K → ℝ) → (J → K → ℝ) → (J → K → ℝ) → (K → ℝ) → (K → ℝ) → ℝ) (Q0 : I → K → ℝ) (R0 : J → K → ℝ) (g0 : K → ℝ) :
    ∃ Q R g v, lrGw A1 A2 B1 B2 a b reg α stopThr stopThrD N n eps tiny γ Q0 R0 g0 = some (Q, R, g, v) ∧ (∀ i k, 0 < Q i k) ∧ (∀ j k, 0 < R j k) ∧ (∀ k, 0 < g k) ∧
      (∀ k, ∑ i, Q i k = g k - tiny + Fintype.card I * tiny) ∧ (∀ k, ∑ j, R j k = g k - tiny + Fintype.card J * tiny) ∧
      (tiny = 0 → (∀ i, ∑ j, lrPlan Q R g i j = ∑ k, Q i k) ∧ ∀ j, ∑ i, lrPlan Q R g i j = ∑ k, R j k) := by
  have key : ∀ (M : ℕ) (s : St I J K), ((∀ i k, tiny < s.Q i k) ∧ (∀ j k, tiny < s.R j k) ∧ (∀ k, tiny < s.g k) ∧
      (∀ k, ∑ i, s.Q i k = s.g k - tiny + Fintype.card I * tiny) ∧ (∀ k, ∑ j, s.R j k = s.g k - tiny + Fintype.card J * tiny)) →
      ∃ s', gwLoop A1 A2 B1 B2 a b reg α stopThr stopThrD n eps tiny γ M s = some s' ∧ (∀ i k, tiny < s'.Q i k) ∧ (∀ j k, tiny < s'.R j k) ∧ (∀ k, tiny < s'.g k) ∧
      (∀ k, ∑ i, s'.Q i k = s'.g k - tiny + Fintype.card I * tiny) ∧ (∀ k, ∑ j, s'.R j k = s'.g k - tiny + Fintype.card J * tiny) := by
    intro M
    induction M with
    | zero => intro s h; exact ⟨s, rfl, h⟩
    | succ M ih =>
      intro s h
      unfold gwLoop
      split_ifs with he
      · obtain ⟨s', h1, h2, h3, h4, -, h5⟩ := C110_step A1 A2 B1 B2 ha hb sa sb reg α hs hn eps ht γ s
        rw [h1]
        exact ih s' ⟨h2, h3, h4, h5⟩
      · exact ⟨s, rfl, h⟩
  obtain ⟨M, rfl⟩ : ∃ M, N = M + 1 := ⟨N - 1, by omega⟩
  obtain ⟨s1, h1, h2, h3, h4, -, h5⟩ := C110_step A1 A2 B1 B2 ha hb sa sb reg α hs hn eps ht γ ⟨Q0, R0, g0, g0, 1⟩
  obtain ⟨s', k1, k2, k3, k4, k5, k6⟩ := key M s1 ⟨h2, h3, h4, h5⟩
  refine ⟨s'.Q, s'.R, s'.g, valueQuad A1 A2 B1 B2 a b s'.Q s'.R s'.g s'.gd, ?_, fun i k => lt_of_le_of_lt ht (k2 i k), fun i k => lt_of_le_of_lt ht (k3 i k), fun k => lt_of_le_of_lt ht (k4 k), k5, k6, fun h0 => ?_⟩
  · unfold lrGw
    rw [if_neg (by push Not; exact ⟨by omega, hst⟩)]
    unfold gwLoop
    rw [if_pos hst, h1]
    dsimp only [Option.bind_some]
    rw [k1]
    rfl
  · subst h0
    exact C100_plan_marginals k4 (fun k => by rw [k5]; ring) fun k => by rw [k6]; ring

end iter

/-! ### the reported values -/

private theorem const_eq (A1 A2 : I → C → ℝ) (a : I → ℝ) : constTerm A1 A2 a = ∑ i, ∑ k, fp A1 A2 i k ^ 2 * a i * a k := by
  unfold constTerm
  refine sum_congr rfl fun i _ => ?_
  have e : ∑ x, flatProd A1 i x * ∑ i', flatProd A2 i' x * a i' = ∑ i', fp A1 A2 i i' ^ 2 * a i' := by
    simp_rw [mul_sum]
    rw [sum_comm]
    refine sum_congr rfl fun i' _ => ?_
    unfold flatProd fp
    rw [Fintype.sum_prod_type, sq, sum_mul_sum, sum_mul]
    refine sum_congr rfl fun c _ => ?_
    rw [sum_mul]
    exact sum_congr rfl fun c' _ => by ring
  rw [e, sum_mul]
  exact sum_congr rfl fun k _ => by ring

/-- **`value_quad`**, for every input: the two constant terms of the given weights minus twice the cross term *between the plan of the returned `g` and the plan of the `g` before the last inner loop* (`h`). -/
theorem C110_value (A1 A2 : I → C → ℝ) (B1 B2 : J → E → ℝ) {D1 : I → I → ℝ} {D2 : J → J → ℝ} (h1 : ∀ i k, ∑ c, A1 i c * A2 k c = D1 i k) (h2 : ∀ j l, ∑ c, B1 j c * B2 l c = D2 j l)
    (s2 : ∀ j l, D2 j l = D2 l j) (a : I → ℝ) (b : J → ℝ) (Q : I → K → ℝ) (R : J → K → ℝ) (g h : K → ℝ) :
    valueQuad A1 A2 B1 B2 a b Q R g h = gwMixed D1 D2 a b (lrPlan Q R h) (lrPlan Q R g) := by
  have f1 : fp A1 A2 = D1 := funext fun i => funext fun k => h1 i k
  have f2 : fp B1 B2 = D2 := funext fun i => funext fun k => h2 i k
  unfold valueQuad gwMixed
  rw [const_eq, const_eq, f1, f2]
  have e : ∑ k, ∑ i, Q i k * ((∑ l, gwC1 A1 A2 Q g i l * ∑ j, gwC2 B1 B2 R j l * R j k) * (1 / h k)) = -4 * ∑ i, ∑ j, ∑ k, ∑ l, D1 i k * D2 j l * lrPlan Q R h i j * lrPlan Q R g k l := by
    have e1 : ∀ i k, ∑ l, gwC1 A1 A2 Q g i l * ∑ j, gwC2 B1 B2 R j l * R j k = ∑ j, (-4 * ∑ i', ∑ j', D1 i i' * D2 j' j * lrPlan Q R g i' j') * R j k := fun i k => by
      rw [← f1, ← f2]
      simp_rw [← gwC_eq, mul_sum, sum_mul]
      rw [sum_comm]
      exact sum_congr rfl fun j _ => sum_congr rfl fun l _ => by ring
    simp_rw [e1]
    rw [sum_comm, mul_sum]
    refine sum_congr rfl fun i _ => ?_
    have e0 : ∀ k, Q i k * ((∑ j, (-4 * ∑ i', ∑ j', D1 i i' * D2 j' j * lrPlan Q R g i' j') * R j k) * (1 / h k)) =
        ∑ j, Q i k * ((-4 * ∑ i', ∑ j', D1 i i' * D2 j' j * lrPlan Q R g i' j') * R j k * (1 / h k)) := fun k => by rw [sum_mul, mul_sum]
    rw [sum_congr rfl fun k _ => e0 k, sum_comm, mul_sum]
    refine sum_congr rfl fun j _ => ?_
    have e2 : ∀ k, Q i k * ((-4 * ∑ i', ∑ j', D1 i i' * D2 j' j * lrPlan Q R g i' j') * R j k * (1 / h k)) = (-4 * ∑ i', ∑ j', D1 i i' * D2 j' j * lrPlan Q R g i' j') * (Q i k * R j k / h k) := fun k => by ring
    simp_rw [e2]
    rw [← mul_sum, mul_assoc]
    congr 1
    rw [show ∑ k, Q i k * R j k / h k = lrPlan Q R h i j from rfl, sum_mul]
    refine sum_congr rfl fun k _ => ?_
    rw [sum_mul]
    refine sum_congr rfl fun l _ => ?_
    rw [s2 j l]; ring
  rw [e]; ring

private theorem mixed_energy {a : I → ℝ} {b : J → ℝ} (D1 : I → I → ℝ) (D2 : J → J → ℝ) {T : I → J → ℝ} (hT : IsCoupling a b T) : gwMixed D1 D2 a b T T = gwEnergy sqLoss D1 D2 T := by
  have e : gwEnergy sqLoss D1 D2 T = ∑ i, ∑ j, ∑ k, ∑ l, D1 i k ^ 2 * T i j * T k l + ∑ i, ∑ j, ∑ k, ∑ l, D2 j l ^ 2 * T i j * T k l - 2 * ∑ i, ∑ j, ∑ k, ∑ l, D1 i k * D2 j l * T i j * T k l := by
    unfold gwEnergy sqLoss
    simp_rw [mul_sum, ← sum_add_distrib, ← sum_sub_distrib]
    exact sum_congr rfl fun i _ => sum_congr rfl fun j _ => sum_congr rfl fun k _ => sum_congr rfl fun l _ => by ring
  rw [e]
  unfold gwMixed
  congr 2
  · refine sum_congr rfl fun i _ => ?_
    rw [sum_comm]
    refine sum_congr rfl fun k _ => ?_
    rw [← hT.row i, ← hT.row k, mul_assoc, sum_mul_sum, mul_sum]
    refine sum_congr rfl fun j _ => ?_
    rw [mul_sum]
    exact sum_congr rfl fun l _ => by ring
  · symm
    rw [sum_comm]
    refine sum_congr rfl fun j _ => ?_
    have e3 : ∀ i, ∑ k, ∑ l, D2 j l ^ 2 * T i j * T k l = ∑ l, D2 j l ^ 2 * T i j * b l := fun i => by
      rw [sum_comm]
      refine sum_congr rfl fun l _ => ?_
      rw [← mul_sum, hT.col]
    simp_rw [e3]
    rw [sum_comm]
    refine sum_congr rfl fun l _ => ?_
    rw [← sum_mul, ← mul_sum, hT.col]

/-- **At a fixed point of the inner loop** (`h = g`) with feasible factors, `value_quad` is the Gromov-Wasserstein energy of the returned plan, which is a coupling of `a` and `b`. -/
theorem C110_value_energy (A1 A2 : I → C → ℝ) (B1 B2 : J → E → ℝ) {D1 : I → I → ℝ} {D2 : J → J → ℝ} (h1 : ∀ i k, ∑ c, A1 i c * A2 k c = D1 i k) (h2 : ∀ j l, ∑ c, B1 j c * B2 l c = D2 j l)
    (s2 : ∀ j l, D2 j l = D2 l j) {a : I → ℝ} {b : J → ℝ} {α : ℝ} (hα : 0 < α) {Q : I → K → ℝ} {R : J → K → ℝ} {g : K → ℝ} (h : IsLowRank a b α Q R g) :
    IsCoupling a b (lrPlan Q R g) ∧ valueQuad A1 A2 B1 B2 a b Q R g g = gwEnergy sqLoss D1 D2 (lrPlan Q R g) := by
  have hc := C100_plan_coupling hα h
  exact ⟨hc, by rw [C110_value A1 A2 B1 B2 h1 h2 s2, mixed_energy D1 D2 hc]⟩

/-- **`value`** (without the guard inside the logarithms) at a fixed point with feasible factors of total mass one: the objective plus `3 reg` (the code leaves the `-1` of the entropies out). -/
theorem C110_value_objective (A1 A2 : I → C → ℝ) (B1 B2 : J → E → ℝ) {D1 : I → I → ℝ} {D2 : J → J → ℝ} (h1 : ∀ i k, ∑ c, A1 i c * A2 k c = D1 i k) (h2 : ∀ j l, ∑ c, B1 j c * B2 l c = D2 j l)
    (s2 : ∀ j l, D2 j l = D2 l j) {a : I → ℝ} {b : J → ℝ} {α : ℝ} (sa : ∑ i, a i = 1) (sb : ∑ j, b j = 1) (reg : ℝ) {Q : I → K → ℝ} {R : J → K → ℝ} {g : K → ℝ} (h : IsLowRank a b α Q R g) :
    lrValue 0 reg (valueQuad A1 A2 B1 B2 a b Q R g g) Q R g = lrGwObjective D1 D2 a b reg Q R g + 3 * reg := by
  have mQ : ∑ i, ∑ k, Q i k = 1 := by rw [← sa]; exact sum_congr rfl fun i _ => h.left.row i
  have mR : ∑ j, ∑ k, R j k = 1 := by rw [← sb]; exact sum_congr rfl fun i _ => h.right.row i
  have mg : ∑ k, g k = 1 := by rw [← mQ, sum_comm]; exact sum_congr rfl fun k _ => (h.left.col k).symm
  rw [C110_value A1 A2 B1 B2 h1 h2 s2]
  unfold lrValue lrGwObjective
  simp only [add_zero, mul_sub, mul_one, sum_sub_distrib, mQ, mR, mg]
  split_ifs with hr
  · ring
  · push Not at hr; subst hr; ring

/-- **The step size** of `gamma_init="rescale"`: positive, and `γ · (entry of the gradient)² ≤ 10` for every entry, unless all entries vanish. -/
theorem C110_gamma [Nonempty I] [Nonempty J] [Nonempty K] (reg : ℝ) (GQ Q : I → K → ℝ) (GR R : J → K → ℝ) (ω g : K → ℝ)
    (hne : (∃ i k, GQ i k + reg * Real.log (Q i k) ≠ 0) ∨ (∃ j k, GR j k + reg * Real.log (R j k) ≠ 0) ∨ ∃ k, ω k / g k ^ 2 ≠ 0) :
    0 < gammaRescale reg GQ Q GR R ω g ∧ (∀ i k, gammaRescale reg GQ Q GR R ω g * (GQ i k + reg * Real.log (Q i k)) ^ 2 ≤ 10) ∧
    (∀ j k, gammaRescale reg GQ Q GR R ω g * (GR j k + reg * Real.log (R j k)) ^ 2 ≤ 10) ∧ ∀ k, gammaRescale reg GQ Q GR R ω g * (ω k / g k ^ 2) ^ 2 ≤ 10 := by
  have b1 : ∀ i k, (GQ i k + reg * Real.log (Q i k)) ^ 2 ≤ gammaDen reg GQ Q GR R ω g := fun i k => by
    have := le_sup' (fun x : I × K => |GQ x.1 x.2 + reg * Real.log (Q x.1 x.2)|) (mem_univ (i, k))
    rw [← sq_abs]
    exact (pow_le_pow_left₀ (abs_nonneg _) this 2).trans ((le_max_left _ _).trans (le_max_left _ _))
  have b2 : ∀ i k, (GR i k + reg * Real.log (R i k)) ^ 2 ≤ gammaDen reg GQ Q GR R ω g := fun i k => by
    have := le_sup' (fun x : J × K => |GR x.1 x.2 + reg * Real.log (R x.1 x.2)|) (mem_univ (i, k))
    rw [← sq_abs]
    exact (pow_le_pow_left₀ (abs_nonneg _) this 2).trans ((le_max_right _ _).trans (le_max_left _ _))
  have b3 : ∀ k, (ω k / g k ^ 2) ^ 2 ≤ gammaDen reg GQ Q GR R ω g := fun k => by
    have := le_sup' (fun k => |-ω k * (1 / g k) ^ 2|) (mem_univ k)
    have e : (ω k / g k ^ 2) ^ 2 = |-ω k * (1 / g k) ^ 2| ^ 2 := by rw [sq_abs, one_div, inv_pow]; ring
    rw [e]
    exact (pow_le_pow_left₀ (abs_nonneg _) this 2).trans (le_max_right _ _)
  have hpos : 0 < gammaDen reg GQ Q GR R ω g := by
    rcases hne with ⟨i, k, h⟩ | ⟨i, k, h⟩ | ⟨k, h⟩
    · exact lt_of_lt_of_le (by positivity) (b1 i k)
    · exact lt_of_lt_of_le (by positivity) (b2 i k)
    · exact lt_of_lt_of_le (by positivity) (b3 k)
  have key : ∀ x, x ≤ gammaDen reg GQ Q GR R ω g → gammaRescale reg GQ Q GR R ω g * x ≤ 10 := fun x hx => by
    unfold gammaRescale
    rw [div_mul_eq_mul_div, div_le_iff₀ hpos]
    linarith
  exact ⟨div_pos (by norm_num) hpos, fun i k => key _ (b1 i k), fun i k => key _ (b2 i k), fun k => key _ (b3 k)⟩

/-- **Division by zero.** If all points of one side coincide (`A1 A2ᵀ = 0`) and `reg = 0`, the quantity the default step size divides by is `0`. -/
theorem C110_gamma_refuted [Nonempty I] [Nonempty J] [Nonempty K] (A1 A2 : I → C → ℝ) (B1 B2 : J → E → ℝ) (h1 : ∀ i k, ∑ c, A1 i c * A2 k c = 0) (Q : I → K → ℝ) (R : J → K → ℝ) (g : K → ℝ) :
    gammaDen 0 (gradQ (gwC1 A1 A2 Q g) (gwC2 B1 B2 R) R g) Q (gradR (gwC1 A1 A2 Q g) (gwC2 B1 B2 R) Q g) R (omega (gwC1 A1 A2 Q g) (gwC2 B1 B2 R) Q R) g = 0 := by
  have e : gwC1 A1 A2 Q g = fun _ _ => 0 := by
    funext i l
    unfold gwC1
    rw [show ∑ c, A1 i c * ∑ i', A2 i' c * (Q i' l * (1 / g l)) = ∑ i', (∑ c, A1 i c * A2 i' c) * (Q i' l * (1 / g l)) by
      simp_rw [mul_sum, sum_mul]; rw [sum_comm]; exact sum_congr rfl fun i' _ => sum_congr rfl fun c _ => by ring]
    simp [h1]
  rw [e]
  unfold gammaDen gradQ gradR omega
  simp

/-- **The stale `diag_g` is visible.** For two points at distance one on both sides and the feasible factors `Q = R = g/2`, whose plan is the product coupling of energy `1/2` for every `g`, the reported `value_quad` is
strictly below that energy as soon as the last inner loop has changed `g`; it can be negative. -/
theorem C110_value_refuted : ∃ (A1 A2 : Fin 2 → Fin 2 → ℝ), (∀ i k, ∑ c, A1 i c * A2 k c = if i = k then 0 else 1) ∧
    (∀ g h : Fin 2 → ℝ, (∀ k, 0 < g k) → (∀ k, 0 < h k) → ∑ k, g k = 1 → ∑ k, h k = 1 →
      IsLowRank (fun _ : Fin 2 => 1 / 2) (fun _ : Fin 2 => 1 / 2) (min (g 0) (g 1)) (fun _ k => g k / 2) (fun _ k => g k / 2) g ∧
      gwEnergy sqLoss (fun i k => if i = k then (0 : ℝ) else 1) (fun i k => if i = k then (0 : ℝ) else 1) (lrPlan (fun _ : Fin 2 => fun k => g k / 2) (fun _ : Fin 2 => fun k => g k / 2) g) = 1 / 2 ∧
      (g ≠ h → valueQuad A1 A2 A1 A2 (fun _ => 1 / 2) (fun _ => 1 / 2) (fun _ k => g k / 2) (fun _ k => g k / 2) g h < 1 / 2)) ∧
    ∃ g h : Fin 2 → ℝ, (∀ k, 0 < g k) ∧ (∀ k, 0 < h k) ∧ ∑ k, g k = 1 ∧ ∑ k, h k = 1 ∧ valueQuad A1 A2 A1 A2 (fun _ => 1 / 2) (fun _ => 1 / 2) (fun _ k => g k / 2) (fun _ k => g k / 2) g h < 0 := by
  have hA : ∀ i k : Fin 2, ∑ c : Fin 2, (if i = c then (1 : ℝ) else 0) * (if k = c then (0 : ℝ) else 1) = if i = k then (0 : ℝ) else 1 := fun i k => by
    fin_cases i <;> fin_cases k <;> norm_num [Fin.sum_univ_two]
  have hs : ∀ j l : Fin 2, (if j = l then (0 : ℝ) else 1) = if l = j then 0 else 1 := fun j l => by simp [eq_comm]
  have hv : ∀ g h : Fin 2 → ℝ, (∀ k, 0 < g k) → ∑ k, g k = 1 →
      valueQuad (fun i c : Fin 2 => if i = c then (1 : ℝ) else 0) (fun i c => if i = c then 0 else 1) (fun i c : Fin 2 => if i = c then (1 : ℝ) else 0) (fun i c => if i = c then 0 else 1)
        (fun _ => 1 / 2) (fun _ => 1 / 2) (fun _ k => g k / 2) (fun _ k => g k / 2) g h = 1 - (g 0 ^ 2 / h 0 + g 1 ^ 2 / h 1) / 2 := fun g h hg sg => by
    rw [C110_value _ _ _ _ hA hA hs]
    rw [Fin.sum_univ_two] at sg
    have eg : lrPlan (fun _ : Fin 2 => fun k => g k / 2) (fun _ : Fin 2 => fun k => g k / 2) g = fun _ _ => 1 / 4 := by
      funext i j
      unfold lrPlan
      rw [Fin.sum_univ_two]
      have := (hg 0).ne'; have := (hg 1).ne'
      field_simp
      linarith
    rw [eg]
    unfold gwMixed lrPlan
    norm_num [Fin.sum_univ_two]
    ring
  refine ⟨fun i c => if i = c then 1 else 0, fun i c => if i = c then 0 else 1, hA, fun g h hg hh sg sh => ⟨?_, ?_, fun hne => ?_⟩, ?_⟩
  · rw [Fin.sum_univ_two] at sg
    have hcp : IsCoupling (fun _ : Fin 2 => (1 : ℝ) / 2) g (fun _ k => g k / 2) := by
      refine ⟨fun i k => (half_pos (hg k)).le, fun i => ?_, fun k => ?_⟩
      · rw [Fin.sum_univ_two]; linarith
      · rw [Fin.sum_univ_two]; ring
    refine ⟨hcp, hcp, fun k => ?_⟩
    fin_cases k
    · exact min_le_left _ _
    · exact min_le_right _ _
  · rw [Fin.sum_univ_two] at sg
    have eg : lrPlan (fun _ : Fin 2 => fun k => g k / 2) (fun _ : Fin 2 => fun k => g k / 2) g = fun _ _ => 1 / 4 := by
      funext i j
      unfold lrPlan
      rw [Fin.sum_univ_two]
      have := (hg 0).ne'; have := (hg 1).ne'
      field_simp
      linarith
    rw [eg]
    norm_num [gwEnergy, sqLoss, Fin.sum_univ_two]
  · rw [hv g h hg sg]
    rw [Fin.sum_univ_two] at sg sh
    have h0 := hh 0; have h1 := hh 1
    have hne0 : g 0 ≠ h 0 := fun e => hne (funext fun k => by
      fin_cases k
      · exact e
      · change g 1 = h 1; linarith)
    have key : g 0 ^ 2 / h 0 + g 1 ^ 2 / h 1 - 1 = (g 0 - h 0) ^ 2 / (h 0 * h 1) := by
      have e1 : g 1 = 1 - g 0 := by linarith
      have e2 : h 1 = 1 - h 0 := by linarith
      rw [e2] at h1
      rw [e1, e2]
      have := h1.ne'
      field_simp
      ring
    have : 0 < (g 0 - h 0) ^ 2 / (h 0 * h 1) := div_pos (by have := sub_ne_zero.2 hne0; positivity) (mul_pos h0 h1)
    linarith
  · refine ⟨fun k => if k = 0 then 9 / 10 else 1 / 10, fun k => if k = 0 then 1 / 10 else 9 / 10, fun k => ?_, fun k => ?_, ?_, ?_, ?_⟩
    · dsimp only; split_ifs <;> norm_num
    · dsimp only; split_ifs <;> norm_num
    · norm_num [Fin.sum_univ_two]
    · norm_num [Fin.sum_univ_two]
    · rw [hv]
      · norm_num
      · intro k; split_ifs <;> norm_num
      · norm_num [Fin.sum_univ_two]

/-- **No iteration, no result**: with `numItermax = 0` or `stopThr ≥ 1` the function raises, because `diag_g` is unbound. -/
theorem C110_unbound_refuted (A1 A2 : I → C → ℝ) (B1 B2 : J → E → ℝ) (a : I → ℝ) (b : J → ℝ) (reg α stopThrD : ℝ) (n : ℕ) (eps tiny : ℝ)
    (γ : (I → K → ℝ) → (I → K → ℝ) → (J → K → ℝ) → (J → K → ℝ) → (K → ℝ) → (K → ℝ) → ℝ) (Q : I → K → ℝ) (R : J → K → ℝ) (g : K → ℝ) :
    (∀ stopThr, lrGw A1 A2 B1 B2 a b reg α stopThr stopThrD 0 n eps tiny γ Q R g = none) ∧ ∀ N stopThr, 1 ≤ stopThr → lrGw A1 A2 B1 B2 a b reg α stopThr stopThrD N n eps tiny γ Q R g = none := by
  refine ⟨fun s => ?_, fun N s h => ?_⟩
  · unfold lrGw; rw [if_pos (Or.inl rfl)]
  · unfold lrGw; rw [if_pos (Or.inr (not_lt.2 h))]

/-- **The default `rescale_cost=True` identifies different spaces.** Each side is divided by its own constant: the pairs `{0, 2}` and `{0, 4}` of the line both become two points at squared distance one, so a coupling has energy `0`
for the rescaled costs, although every coupling of the uniform weights has energy at least `8` for the squared distances themselves. -/
theorem C110_rescale_refuted : ∃ (X Y : Fin 2 → Fin 1 → ℝ),
    (∃ T : Fin 2 → Fin 2 → ℝ, IsCoupling (fun _ => 1 / 2) (fun _ => 1 / 2) T ∧
      gwEnergy sqLoss (fun i k => ∑ c, (lrSq X X true).1 i c * (lrSq X X true).2 k c) (fun j l => ∑ c, (lrSq Y Y true).1 j c * (lrSq Y Y true).2 l c) T = 0) ∧
    ∀ T : Fin 2 → Fin 2 → ℝ, IsCoupling (fun _ => 1 / 2) (fun _ => 1 / 2) T → 8 ≤ gwEnergy sqLoss (fun i k => sqEuclid (X i) (X k)) (fun j l => sqEuclid (Y j) (Y l)) T := by
  have hD : ∀ z : ℝ, 2 ≤ z → ∀ i k : Fin 2, ∑ c, (lrSq (fun (i : Fin 2) (_ : Fin 1) => if i = 0 then (0 : ℝ) else z) (fun (i : Fin 2) (_ : Fin 1) => if i = 0 then (0 : ℝ) else z) true).1 i c *
      (lrSq (fun (i : Fin 2) (_ : Fin 1) => if i = 0 then (0 : ℝ) else z) (fun (i : Fin 2) (_ : Fin 1) => if i = 0 then (0 : ℝ) else z) true).2 k c = if i = k then 0 else 1 := fun z hz i k => by
    have hz2 : 1 ≤ |z| := by rw [abs_of_pos (by linarith)]; linarith
    have m1 : maxM (fac1 (fun (i : Fin 2) (_ : Fin 1) => if i = 0 then (0 : ℝ) else z)) = z ^ 2 := by
      apply le_antisymm
      · refine sup'_le _ _ fun x _ => ?_
        rcases x with ⟨i, k | k⟩
        · fin_cases k <;> fin_cases i <;> norm_num [fac1] <;> first | exact hz2 | nlinarith
        · fin_cases i <;> norm_num [fac1] <;> first | exact hz2 | nlinarith
      · have := le_sup' (fun x : Fin 2 × (Fin 2 ⊕ Fin 1) => fac1 (fun (i : Fin 2) (_ : Fin 1) => if i = 0 then (0 : ℝ) else z) x.1 x.2) (mem_univ ((1 : Fin 2), Sum.inl 0))
        refine le_trans (le_of_eq ?_) this
        norm_num [fac1]
    have m2 : maxM (fac2 (fun (i : Fin 2) (_ : Fin 1) => if i = 0 then (0 : ℝ) else z)) = z ^ 2 := by
      apply le_antisymm
      · refine sup'_le _ _ fun x _ => ?_
        rcases x with ⟨i, k | k⟩
        · fin_cases k <;> fin_cases i <;> norm_num [fac2] <;> first | exact hz2 | nlinarith
        · fin_cases i <;> norm_num [fac2] <;> first | exact hz2 | nlinarith
      · have := le_sup' (fun x : Fin 2 × (Fin 2 ⊕ Fin 1) => fac2 (fun (i : Fin 2) (_ : Fin 1) => if i = 0 then (0 : ℝ) else z) x.1 x.2) (mem_univ ((1 : Fin 2), Sum.inl 1))
        refine le_trans (le_of_eq ?_) this
        norm_num [fac2]
    have s4 : √(z ^ 2) = z := Real.sqrt_sq (by linarith)
    have hz0 : z ≠ 0 := by positivity
    fin_cases i <;> fin_cases k <;> norm_num [lrSq, m1, m2, s4, Fintype.sum_sum_type, fac1, fac2] <;> field_simp <;> norm_num
  refine ⟨fun i _ => if i = 0 then 0 else 2, fun i _ => if i = 0 then 0 else 4, ⟨fun i j => if i = j then 1 / 2 else 0, ?_, ?_⟩, fun T hT => ?_⟩
  · refine ⟨fun i j => ?_, fun i => ?_, fun j => ?_⟩
    · split_ifs <;> norm_num
    · fin_cases i <;> norm_num [Fin.sum_univ_two]
    · fin_cases j <;> norm_num [Fin.sum_univ_two]
  · simp_rw [hD 2 le_rfl, hD 4 (by norm_num)]
    norm_num [gwEnergy, sqLoss, Fin.sum_univ_two]
  · have r0 := hT.row 0; have r1 := hT.row 1; have c0 := hT.col 0; have c1 := hT.col 1
    have p00 := hT.nonneg 0 0; have p01 := hT.nonneg 0 1; have p10 := hT.nonneg 1 0; have p11 := hT.nonneg 1 1
    rw [Fin.sum_univ_two] at r0 r1 c0 c1
    norm_num [gwEnergy, sqLoss, sqEuclid, Fin.sum_univ_two]
    have e1 : T 0 1 = 1 / 2 - T 0 0 := by linarith
    have e2 : T 1 0 = 1 / 2 - T 0 0 := by linarith
    have e3 : T 1 1 = T 0 0 := by linarith
    rw [e1, e2, e3]
    rw [e1] at p01
    nlinarith [mul_nonneg p00 p01]

/-! ### non-vacuity -/

/-- the gradient theorem applies to every pair of point clouds, without rescaling -/
example (X : Fin 3 → Fin 1 → ℝ) (Y : Fin 2 → Fin 1 → ℝ) (a : Fin 3 → ℝ) (b : Fin 2 → ℝ) (dQ : Fin 3 → Fin 2 → ℝ) (dR : Fin 2 → Fin 2 → ℝ) (dg : Fin 2 → ℝ) :=
  C110_gradient (lrSq X X false).1 (lrSq X X false).2 (lrSq Y Y false).1 (lrSq Y Y false).2 (D1 := fun i k => sqEuclid (X i) (X k)) (D2 := fun i k => sqEuclid (Y i) (Y k))
    (fun i k => (C100_cost _ _).1 i k) (fun j l => (C100_cost _ _).1 j l) (fun i k => by unfold sqEuclid; exact sum_congr rfl fun d _ => by ring) (fun i k => by unfold sqEuclid; exact sum_congr rfl fun d _ => by ring)
    a b (1 / 10) (Q := fun (i : Fin 3) (k : Fin 2) => (i : ℝ) + k + 1) (R := fun (j k : Fin 2) => (j : ℝ) * k + 1) (g := fun k : Fin 2 => (k : ℝ) + 1) (fun i k => by positivity) (fun j k => by positivity) (fun k => by positivity) dQ dR dg

example (A1 A2 : Fin 2 → Fin 3 → ℝ) (B1 B2 : Fin 3 → Fin 3 → ℝ) (W1 : Fin 2 → Fin 2 → ℝ) (W2 : Fin 3 → Fin 2 → ℝ) (g : Fin 2 → ℝ) :=
  C110_factors A1 A2 B1 B2 exLrData.h1 exLrData.h2 exLrData.s1 exLrData.s2 (1 / 10) (1 / 4) (stopThr := 1 / 10000) (stopThrD := 1 / 1000) (by norm_num) (by norm_num) (N := 1000) (n := 10000) (by norm_num) (by norm_num)
    0 (tiny := 1 / 10 ^ 16) (by positivity) (gammaRescale (1 / 10)) W1 W2 g

example (A1 A2 : Fin 2 → Fin 3 → ℝ) (B1 B2 : Fin 3 → Fin 3 → ℝ) :=
  C110_mirror_step A1 A2 B1 B2 exLrData.h1 exLrData.h2 exLrData.s1 exLrData.s2 (1 / 10) (α := 1 / 4) (stopThrD := -1) (by norm_num) (by norm_num) 0 (1 / 2)
    ⟨fun (i k : Fin 2) => (i : ℝ) + k + 1, fun (j : Fin 3) (k : Fin 2) => (j : ℝ) * k + 1, fun k => (k : ℝ) + 1, fun _ => 1, 1⟩ (fun i k => by positivity) (fun j k => by positivity) fun k => by positivity

end POT.Props
