import Verif.Lemmas.Lbfgs
import Mathlib.Analysis.Calculus.LocalExtr.Basic
import Mathlib.Analysis.Calculus.Deriv.Slope
import Mathlib.Analysis.Complex.ExponentialBounds
import Mathlib.Tactic.FinCases

/-!
# C101: unbalanced transport with general penalties (`lbfgsb_unbalanced`, `lbfgsb_unbalanced2`)

Specification: `Verif/Spec/Lbfgs.lean`. SciPy's solver is a parameter.
-/

set_option linter.unusedSectionVars false

namespace POT.Props

open Finset POT.Spec POT.Lbfgs Filter Topology

variable {I J : Type*} [Fintype I] [Fintype J]
variable {eps : ℝ} {M : I → J → ℝ} {a : I → ℝ} {b : J → ℝ} {c : I → J → ℝ} {reg m1 m2 : ℝ} {rd : RegDiv I J} {md : RegmDiv} {G : I → J → ℝ}

/-- the penalty that the name `regm_div` stands for -/
def margOf : RegmDiv → MargPenalty
  | .kl => .kl
  | .tv => .tv
  | .l2 => .l2

/-- the penalty that `reg_div` stands for -/
def planOf : RegDiv I J → PlanPenalty I J
  | .kl => .kl
  | .entropy => .entropy
  | .l2 => .l2
  | .pair f _ => .custom f

private theorem klMass_zero {L : Type*} [Fintype L] (p q : L → ℝ) : Mm.klDivMass 0 p q = klDivergence p q := by
  unfold Mm.klDivMass klDivergence
  rw [← sum_add_distrib]
  exact sum_congr rfl fun l _ => by rw [add_zero]; ring

/-- **The loss** handed to the solver is the documented objective (guard constants taken as zero), for every plan. -/
theorem C101_value (hr : 0 ≤ reg) (G : I → J → ℝ) : value 0 M a b c reg m1 m2 rd md G = penObjective M a b c reg m1 m2 (margOf md) (planOf rd) G := by
  have e1 : margFun 0 a b m1 m2 md G = m1 * (margOf md).div (fun i => ∑ j, G i j) a + m2 * (margOf md).div (fun j => ∑ i, G i j) b := by
    cases md with
    | kl => simp only [margFun, margOf, MargPenalty.div, klMass_zero]
    | tv => rfl
    | l2 =>
      simp only [margFun, margOf, MargPenalty.div, l2Divergence]
      rw [show m1 * 0.5 = m1 * (1 / 2) by norm_num, show m2 * 0.5 = m2 * (1 / 2) by norm_num]
      ring
  have e2 : regFun 0 c rd G = (planOf rd).eval c G := by
    cases rd with
    | kl =>
      simp only [regFun, planOf, PlanPenalty.eval, klPlan, Mm.klDivMass, klDivergence]
      rw [← sum_add_distrib]
      exact sum_congr rfl fun l _ => by rw [add_zero]; ring
    | entropy =>
      simp only [regFun, planOf, PlanPenalty.eval, add_zero, sum_sub_distrib]
    | l2 => rfl
    | pair f df => rfl
  rw [value_eq hr, e1, e2, penObjective, cost]
  ring

private theorem corr_zero (i : I) (j : J) : corr 0 a b c reg m1 m2 rd md G i j = 0 := by
  unfold corr
  cases md <;> cases rd <;> simp [corrMarg, corrReg]

private theorem ok_of_smooth (h : SmoothAt reg (margOf md) (planOf rd) G) : MargOk 0 G md ∧ (0 < reg → RegOk 0 G rd) := by
  obtain ⟨h1, h2⟩ := h
  refine ⟨?_, fun hr => ?_⟩
  · cases md with
    | kl => exact Or.inr h1
    | tv => trivial
    | l2 => trivial
  · have := h2 hr
    cases rd with
    | kl => exact Or.inr this
    | entropy => exact Or.inr this
    | l2 => trivial
    | pair f df => trivial

/-- **The gradient** handed to the solver is the gradient of the documented objective at every smooth point (guard constants taken as zero; total variation excepted; user functions must come with their derivative). -/
theorem C101_gradient (ha : ∀ i, 0 < a i) (hb : ∀ j, 0 < b j) (hc : ∀ i j, 0 < c i j) (hr : 0 ≤ reg) (hG : ∀ i j, 0 ≤ G i j) (hs : SmoothAt reg (margOf md) (planOf rd) G) (hmd : md ≠ .tv) (D : I → J → ℝ)
    (hu : ∀ f df, rd = .pair f df → HasDerivAt (fun t : ℝ => f fun i j => G i j + t * D i j) (∑ i, ∑ j, df G i j * D i j) 0) :
    HasDerivAt (fun t : ℝ => penObjective M a b c reg m1 m2 (margOf md) (planOf rd) fun i j => G i j + t * D i j) (∑ i, ∑ j, grad 0 M a b c reg m1 m2 rd md G i j * D i j) 0 := by
  obtain ⟨o1, o2⟩ := ok_of_smooth hs
  have := deriv_value (M := M) (m1 := m1) (m2 := m2) ha hb hc hr le_rfl hG o1 hmd o2 D hu
  simp only [corr_zero, sub_zero] at this
  refine this.congr_of_eventuallyEq (Eventually.of_forall fun t => ?_)
  exact (C101_value hr _).symm

/-- **With the guard constants** the loss is smooth at every non-negative plan, but the gradient handed to the solver exceeds its gradient by an amount between zero and `reg + m1 + m2`. -/
theorem C101_gradient_guard (he : 0 < eps) (ha : ∀ i, 0 < a i) (hb : ∀ j, 0 < b j) (hc : ∀ i j, 0 < c i j) (hr : 0 ≤ reg) (h1 : 0 ≤ m1) (h2 : 0 ≤ m2) (hG : ∀ i j, 0 ≤ G i j) (hmd : md ≠ .tv) (hrd : ∀ f df, rd ≠ .pair f df) :
    ∃ w : I → J → ℝ, (∀ i j, 0 ≤ w i j ∧ w i j ≤ reg + m1 + m2) ∧
      ∀ D : I → J → ℝ, HasDerivAt (fun t : ℝ => value eps M a b c reg m1 m2 rd md fun i j => G i j + t * D i j) (∑ i, ∑ j, (grad eps M a b c reg m1 m2 rd md G i j - w i j) * D i j) 0 := by
  have frac : ∀ x : ℝ, 0 ≤ x → 0 ≤ eps / (x + eps) ∧ eps / (x + eps) ≤ 1 := fun x hx => ⟨by positivity, by rw [div_le_one (by positivity)]; linarith⟩
  refine ⟨corr eps a b c reg m1 m2 rd md G, fun i j => ?_, fun D => ?_⟩
  · have r : 0 ≤ (∑ j, G i j) / a i := div_nonneg (sum_nonneg fun j _ => hG i j) (ha i).le
    have s : 0 ≤ (∑ i, G i j) / b j := div_nonneg (sum_nonneg fun i _ => hG i j) (hb j).le
    have c1 : 0 ≤ corrMarg eps a b m1 m2 md G i j ∧ corrMarg eps a b m1 m2 md G i j ≤ m1 + m2 := by
      cases md with
      | kl =>
        simp only [corrMarg]
        obtain ⟨f1, f2⟩ := frac _ r
        obtain ⟨f3, f4⟩ := frac _ s
        exact ⟨add_nonneg (mul_nonneg h1 f1) (mul_nonneg h2 f3), add_le_add (mul_le_of_le_one_right h1 f2) (mul_le_of_le_one_right h2 f4)⟩
      | tv => exact ⟨le_rfl, add_nonneg h1 h2⟩
      | l2 => exact ⟨le_rfl, add_nonneg h1 h2⟩
    have c2 : 0 ≤ corrReg eps c rd G i j ∧ corrReg eps c rd G i j ≤ 1 := by
      cases rd with
      | kl => exact frac _ (div_nonneg (hG i j) (hc i j).le)
      | entropy => exact frac _ (hG i j)
      | l2 => exact ⟨le_rfl, zero_le_one⟩
      | pair f df => exact ⟨le_rfl, zero_le_one⟩
    unfold corr
    exact ⟨add_nonneg c1.1 (mul_nonneg hr c2.1), by linarith [mul_le_of_le_one_right hr c2.2, c1.2]⟩
  · refine deriv_value ha hb hc hr he.le hG ?_ hmd (fun _ => ?_) D fun f df h => absurd h (hrd f df)
    · cases md <;> first | exact Or.inl he | trivial
    · cases rd <;> first | exact Or.inl he | trivial

/-- **A certificate at every point.** For every non-negative smooth plan, how much worse it is than any other non-negative plan is bounded through the gradient handed to the solver. -/
theorem C101_gap (ha : ∀ i, 0 < a i) (hb : ∀ j, 0 < b j) (hc : ∀ i j, 0 < c i j) (hr : 0 ≤ reg) (h1 : 0 ≤ m1) (h2 : 0 ≤ m2) (hu : UserOk rd) (hG : ∀ i j, 0 ≤ G i j) (hs : SmoothAt reg (margOf md) (planOf rd) G)
    {G' : I → J → ℝ} (hG' : ∀ i j, 0 ≤ G' i j) :
    penObjective M a b c reg m1 m2 (margOf md) (planOf rd) G - penObjective M a b c reg m1 m2 (margOf md) (planOf rd) G' ≤
      ∑ i, ∑ j, G i j * grad 0 M a b c reg m1 m2 rd md G i j + ∑ i, ∑ j, G' i j * max 0 (-grad 0 M a b c reg m1 m2 rd md G i j) := by
  obtain ⟨o1, o2⟩ := ok_of_smooth hs
  have := tangent (M := M) ha hb hc hr h1 h2 le_rfl hG hG' hu o1 o2
  rw [C101_value hr, C101_value hr] at this
  have e : ∑ i, ∑ j, (grad 0 M a b c reg m1 m2 rd md G i j - corr 0 a b c reg m1 m2 rd md G i j) * (G' i j - G i j) ≥
      -(∑ i, ∑ j, G i j * grad 0 M a b c reg m1 m2 rd md G i j) - ∑ i, ∑ j, G' i j * max 0 (-grad 0 M a b c reg m1 m2 rd md G i j) := by
    rw [ge_iff_le, ← sum_neg_distrib, ← sum_sub_distrib]
    refine sum_le_sum fun i _ => ?_
    rw [← sum_neg_distrib, ← sum_sub_distrib]
    refine sum_le_sum fun j _ => ?_
    rw [corr_zero, sub_zero]
    have := mul_le_mul_of_nonneg_left (le_max_right 0 (-grad 0 M a b c reg m1 m2 rd md G i j)) (hG' i j)
    linarith
  linarith

/-- **First-order points are global minimisers**, for all penalties (total variation and convex user functions included). -/
theorem C101_kkt (ha : ∀ i, 0 < a i) (hb : ∀ j, 0 < b j) (hc : ∀ i j, 0 < c i j) (hr : 0 ≤ reg) (h1 : 0 ≤ m1) (h2 : 0 ≤ m2) (hu : UserOk rd) (hs : SmoothAt reg (margOf md) (planOf rd) G)
    (hk : IsKkt (grad 0 M a b c reg m1 m2 rd md G) G) {G' : I → J → ℝ} (hG' : ∀ i j, 0 ≤ G' i j) :
    penObjective M a b c reg m1 m2 (margOf md) (planOf rd) G ≤ penObjective M a b c reg m1 m2 (margOf md) (planOf rd) G' := by
  obtain ⟨k1, k2, k3⟩ := hk
  have := C101_gap (M := M) ha hb hc hr h1 h2 hu k1 hs hG'
  have e1 : ∑ i, ∑ j, G i j * grad 0 M a b c reg m1 m2 rd md G i j = 0 := sum_eq_zero fun i _ => sum_eq_zero fun j _ => k3 i j
  have e2 : ∑ i, ∑ j, G' i j * max 0 (-grad 0 M a b c reg m1 m2 rd md G i j) = 0 := sum_eq_zero fun i _ => sum_eq_zero fun j _ => by
    rw [max_eq_left (by linarith [k2 i j]), mul_zero]
  linarith

/-- **Minimisers are first-order points** (total variation and user functions excepted): every smooth minimiser satisfies the conditions that the solver tests. -/
theorem C101_kkt_necessary (ha : ∀ i, 0 < a i) (hb : ∀ j, 0 < b j) (hc : ∀ i j, 0 < c i j) (hr : 0 ≤ reg) (hG : ∀ i j, 0 ≤ G i j) (hs : SmoothAt reg (margOf md) (planOf rd) G) (hmd : md ≠ .tv) (hrd : ∀ f df, rd ≠ .pair f df)
    (hmin : ∀ G' : I → J → ℝ, (∀ i j, 0 ≤ G' i j) → penObjective M a b c reg m1 m2 (margOf md) (planOf rd) G ≤ penObjective M a b c reg m1 m2 (margOf md) (planOf rd) G') :
    IsKkt (grad 0 M a b c reg m1 m2 rd md G) G := by
  classical
  have key : ∀ i j, HasDerivAt (fun t : ℝ => penObjective M a b c reg m1 m2 (margOf md) (planOf rd) fun i' j' => G i' j' + t * (if i' = i then if j' = j then 1 else 0 else 0)) (grad 0 M a b c reg m1 m2 rd md G i j) 0 := fun i j => by
    refine (C101_gradient (M := M) (m1 := m1) (m2 := m2) ha hb hc hr hG hs hmd (fun i' j' => if i' = i then if j' = j then 1 else 0 else 0) fun f df h => absurd h (hrd f df)).congr_deriv ?_
    rw [Fintype.sum_eq_single i (fun i' h => by simp [h]), Fintype.sum_eq_single j (fun j' h => by simp [h])]
    simp
  have low : ∀ i j (t : ℝ), 0 ≤ G i j + t → penObjective M a b c reg m1 m2 (margOf md) (planOf rd) G ≤
      penObjective M a b c reg m1 m2 (margOf md) (planOf rd) fun i' j' => G i' j' + t * (if i' = i then if j' = j then 1 else 0 else 0) := fun i j t ht => by
    refine hmin _ fun i' j' => ?_
    by_cases hi : i' = i
    · by_cases hj : j' = j
      · subst hi; subst hj; simpa using ht
      · simpa [hj] using hG i' j'
    · simpa [hi] using hG i' j'
  have z : ∀ i j, (fun i' j' => G i' j' + (0 : ℝ) * (if i' = i then if j' = j then 1 else 0 else 0)) = G := fun i j => by funext i' j'; ring
  refine ⟨hG, fun i j => ?_, fun i j => ?_⟩
  · have h := (key i j).tendsto_slope_zero_right
    refine ge_of_tendsto h ?_
    filter_upwards [self_mem_nhdsWithin] with t ht
    have ht' : 0 < t := ht
    rw [zero_add, z, smul_eq_mul]
    exact mul_nonneg (inv_nonneg.2 ht'.le) (sub_nonneg.2 (low i j t (by linarith [hG i j])))
  · rcases (hG i j).eq_or_lt with h0 | h0
    · rw [← h0, zero_mul]
    · have : IsLocalMin (fun t : ℝ => penObjective M a b c reg m1 m2 (margOf md) (planOf rd) fun i' j' => G i' j' + t * (if i' = i then if j' = j then 1 else 0 else 0)) 0 := by
        filter_upwards [lt_mem_nhds (neg_neg_of_pos h0)] with t ht
        rw [z]
        exact low i j t (by linarith)
      rw [this.hasDerivAt_eq_zero (key i j), mul_zero]

/-- **End to end.** If SciPy's solver returns a smooth first-order point of the pair it is given, and the loss there, then `lbfgsb_unbalanced` returns a minimiser of the documented objective with the default reference measure `a bᵀ`, its linear cost and its objective
(guard constants taken as zero), and `lbfgsb_unbalanced2` returns the one that was asked for. -/
theorem C101_solver (minimize : Minimize I J) (ha : ∀ i, 0 < a i) (hb : ∀ j, 0 < b j) (hr : 0 ≤ reg) (h1 : 0 ≤ m1) (h2 : 0 ≤ m2) (hu : UserOk rd) (cOpt : Option (I → J → ℝ)) (hc : cOpt = some c ∧ (∀ i j, 0 < c i j) ∨ cOpt = none ∧ c = fun i j => a i * b j)
    (G0 : Option (I → J → ℝ)) {x : I → J → ℝ} {v : ℝ}
    (hx : minimize (fun G => (value 0 M a b c reg m1 m2 rd md G, grad 0 M a b c reg m1 m2 rd md G)) (G0.getD fun i j => a i * b j) = (x, v)) (hv : v = value 0 M a b c reg m1 m2 rd md x)
    (hs : SmoothAt reg (margOf md) (planOf rd) x) (hk : IsKkt (grad 0 M a b c reg m1 m2 rd md x) x) :
    (lbfgsb 0 minimize a b M reg m1 m2 cOpt rd md G0).G = x ∧
    (∀ G' : I → J → ℝ, (∀ i j, 0 ≤ G' i j) → penObjective M a b c reg m1 m2 (margOf md) (planOf rd) x ≤ penObjective M a b c reg m1 m2 (margOf md) (planOf rd) G') ∧
    lbfgsb2 0 minimize a b M reg m1 m2 cOpt rd md G0 "linear" = some (cost M x) ∧
    lbfgsb2 0 minimize a b M reg m1 m2 cOpt rd md G0 "total" = some (penObjective M a b c reg m1 m2 (margOf md) (planOf rd) x) ∧
    ∀ s : String, s ≠ "linear" → s ≠ "total" → lbfgsb2 0 minimize a b M reg m1 m2 cOpt rd md G0 s = none := by
  have hcp : ∀ i j, 0 < c i j := by
    rcases hc with h | h
    · exact h.2
    · intro i j; rw [h.2]; exact mul_pos (ha i) (hb j)
  have href : cOpt.getD (fun i j => a i * b j) = c := by
    rcases hc with h | h
    · rw [h.1]; rfl
    · rw [h.1, h.2]; rfl
  have hrun : lbfgsb 0 minimize a b M reg m1 m2 cOpt rd md G0 = ⟨x, ∑ i, ∑ j, x i j * M i j, v⟩ := by
    unfold lbfgsb
    dsimp only
    rw [href, hx]
  refine ⟨by rw [hrun], fun G' hG' => C101_kkt ha hb hcp hr h1 h2 hu hs hk hG', ?_, ?_, fun s n1 n2 => ?_⟩
  · unfold lbfgsb2
    rw [hrun]
    simp [cost]
  · unfold lbfgsb2
    rw [hrun]
    simp [hv, C101_value hr]
  · unfold lbfgsb2
    simp [n1, n2]

/-- With total variation the conditions may hold nowhere: for one point of mass one on either side, `M = 1` and `reg_m = 1`, the minimiser is the plan `1`, and no plan is a first-order point of the gradient handed to the solver. -/
theorem C101_tv_refuted : ∃ (M : Fin 1 → Fin 1 → ℝ) (a b : Fin 1 → ℝ) (c : Fin 1 → Fin 1 → ℝ), (∀ i, 0 < a i) ∧ (∀ j, 0 < b j) ∧
    (∀ G' : Fin 1 → Fin 1 → ℝ, (∀ i j, 0 ≤ G' i j) → penObjective M a b c 0 1 1 .tv .kl (fun _ _ => 1) ≤ penObjective M a b c 0 1 1 .tv .kl G') ∧
    ∀ G : Fin 1 → Fin 1 → ℝ, ¬ IsKkt (grad 0 M a b c 0 1 1 .kl .tv G) G := by
  refine ⟨fun _ _ => 1, fun _ => 1, fun _ => 1, fun _ _ => 1, fun _ => one_pos, fun _ => one_pos, fun G' hG' => ?_, fun G hk => ?_⟩
  · simp only [penObjective, cost, MargPenalty.div, Fin.sum_univ_one, zero_mul, add_zero, sub_self, abs_zero, mul_zero, mul_one, one_mul]
    have := neg_abs_le (G' 0 0 - 1)
    linarith [abs_nonneg (G' 0 0 - 1)]
  · obtain ⟨k1, k2, k3⟩ := hk
    have g := grad_eq (eps := 0) (M := fun _ _ : Fin 1 => (1 : ℝ)) (a := fun _ => 1) (b := fun _ => 1) (c := fun _ _ => 1) (m1 := 1) (m2 := 1) (rd := .kl) (md := .tv) (G := G) le_rfl 0 0
    simp only [gradMarg, Fin.sum_univ_one, zero_mul, add_zero, one_mul] at g
    have p := k2 0 0
    have q := k3 0 0
    rcases lt_trichotomy (G 0 0 - 1) 0 with h | h | h
    · rw [sign_neg h] at g
      norm_num at g
      rw [g] at p
      linarith
    · rw [h, sign_zero] at g
      norm_num at g
      rw [g] at q
      linarith
    · rw [sign_pos h] at g
      norm_num at g
      rw [g] at q
      linarith

/-- With the guard constant a first-order point of the pair handed to the solver need not minimise the loss handed to the solver. -/
theorem C101_guard_refuted (he : 0 < eps) : ∃ (M : Fin 1 → Fin 1 → ℝ) (a b : Fin 1 → ℝ) (c G G' : Fin 1 → Fin 1 → ℝ), (∀ i, 0 < a i) ∧ (∀ j, 0 < b j) ∧ (∀ i j, 0 < c i j) ∧ (∀ i j, 0 ≤ G' i j) ∧
    IsKkt (grad eps M a b c 1 0 0 .kl .kl G) G ∧ value eps M a b c 1 0 0 .kl .kl G' < value eps M a b c 1 0 0 .kl .kl G := by
  refine ⟨fun _ _ => -Real.log eps, fun _ => 1, fun _ => 1, fun _ _ => 1, fun _ _ => 0, fun _ _ => eps, fun _ => one_pos, fun _ => one_pos, fun _ _ => one_pos, fun _ _ => he.le, ?_, ?_⟩
  · have g : ∀ i j : Fin 1, grad eps (fun _ _ : Fin 1 => -Real.log eps) (fun _ : Fin 1 => (1 : ℝ)) (fun _ : Fin 1 => (1 : ℝ)) (fun _ _ : Fin 1 => (1 : ℝ)) 1 0 0 .kl .kl (fun _ _ => 0) i j = 0 := fun i j => by
      rw [grad_eq zero_le_one]
      simp [gradMarg, gradReg]
    exact ⟨fun _ _ => le_rfl, fun i j => (g i j).ge, fun i j => by rw [zero_mul]⟩
  · rw [value_eq zero_le_one, value_eq zero_le_one]
    simp only [margFun, regFun, Mm.klDivMass, Fintype.sum_prod_type, Fin.sum_univ_one, zero_mul, zero_add, div_one, add_zero, one_mul, sub_zero]
    have e : Real.log (eps + eps) = Real.log 2 + Real.log eps := by rw [← two_mul, Real.log_mul (by norm_num) he.ne']
    rw [e]
    have l2 := Real.log_two_lt_d9
    nlinarith

/-! ### non-vacuity -/

/-- a sparse first-order point: two points of mass one, quadratic penalties, no regularisation -/
example : IsKkt (grad 0 (fun i j : Fin 2 => if i = j then (1 : ℝ) else 4) (fun _ => 1) (fun _ => 1) (fun _ _ => 1) 0 1 1 .kl .l2 (fun i j => if i = j then 1 / 2 else 0)) (fun i j => if i = j then 1 / 2 else 0) ∧
    SmoothAt 0 (margOf .l2) (planOf (RegDiv.kl : RegDiv (Fin 2) (Fin 2))) (fun i j : Fin 2 => if i = j then (1 / 2 : ℝ) else 0) := by
  refine ⟨⟨fun i j => ?_, fun i j => ?_, fun i j => ?_⟩, trivial, fun h => absurd h (lt_irrefl _)⟩
  · fin_cases i <;> fin_cases j <;> norm_num
  · rw [grad_eq le_rfl]
    fin_cases i <;> fin_cases j <;> norm_num [gradMarg, Fin.sum_univ_two]
  · rw [grad_eq le_rfl]
    fin_cases i <;> fin_cases j <;> norm_num [gradMarg, Fin.sum_univ_two]

/-- the same point as the result of a solver, and a user function -/
example : UserOk (RegDiv.pair (fun G : Fin 2 → Fin 2 → ℝ => ∑ i : Fin 2, ∑ j, ((i : ℕ) : ℝ) * G i j) fun _ i _ => ((i : ℕ) : ℝ)) := fun G G' _ _ => by
  rw [← sum_add_distrib]
  refine le_of_eq (sum_congr rfl fun i _ => ?_)
  rw [← sum_add_distrib]
  exact sum_congr rfl fun j _ => by ring

end POT.Props
