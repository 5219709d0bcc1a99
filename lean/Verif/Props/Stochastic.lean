import Verif.Lemmas.Stochastic
import Mathlib.Analysis.Calculus.LocalExtr.Basic
import Mathlib.Analysis.SpecialFunctions.Pow.Asymptotics
import Mathlib.Data.Finset.Powerset

/-! # C54, C66: stochastic solvers for entropic transport (`ot/stochastic.py`) -/

set_option linter.unusedSectionVars false

namespace POT.Props

open Finset Spec Stoch Filter Topology

variable {I J : Type*} [Fintype I] [Fintype J]

/-! ## the plan of `solve_semi_dual_entropic` -/

/-- C54. Whatever `beta` the stochastic solver returned, the plan of `solve_semi_dual_entropic` is non-negative and its row sums are exactly `a`. -/
theorem C54_row_sums [Nonempty J] (a : I → ℝ) (b : J → ℝ) (M : I → J → ℝ) (reg : ℝ) (hreg : 0 < reg) (ha : ∀ i, 0 ≤ a i) (hb : ∀ j, 0 < b j)
    (beta : J → ℝ) : (∀ i j, 0 ≤ semiPlan a b M reg beta i j) ∧ ∀ i, ∑ j, semiPlan a b M reg beta i j = a i := by
  refine ⟨fun i j => ?_, fun i => ?_⟩
  · rw [semiPlan_eq hreg hb]; exact mul_nonneg (ha i) (chi_nonneg hb beta i j)
  · simp only [semiPlan_eq hreg hb]; rw [← mul_sum, chi_sum hb, mul_one]

/-- C54. Whatever `beta`, that plan is the unique entropic optimum between `a` and its own column sums. -/
theorem C54_plan_optimal [Nonempty J] (a : I → ℝ) (b : J → ℝ) (M : I → J → ℝ) (reg : ℝ) (hreg : 0 < reg) (ha : ∀ i, 0 < a i) (hb : ∀ j, 0 < b j)
    (beta : J → ℝ) : IsEntropicOptimal a (fun j => ∑ i, semiPlan a b M reg beta i j) M reg (semiPlan a b M reg beta) := by
  have h := C54_row_sums a b M reg hreg (fun i => (ha i).le) hb beta
  have hpos : ∀ i j, 0 < semiPlan a b M reg beta i j := fun i j => by
    simp only [semiPlan]; exact mul_pos (mul_pos (Real.exp_pos _) (ha i)) (hb j)
  refine Sinkhorn.optimal_of_form hreg ⟨h.1, h.2, fun j => rfl⟩ hpos (x := fun i => cTransform b M reg beta i / reg + Real.log (a i))
    (y := fun j => beta j / reg + Real.log (b j)) fun i j => ?_
  simp only [semiPlan]
  rw [Real.log_mul (mul_pos (Real.exp_pos _) (ha i)).ne' (hb j).ne', Real.log_mul (Real.exp_pos _).ne' (ha i).ne', Real.log_exp]
  ring

/-- C54. `c_transform_entropic` computes `-reg log ∑ⱼ bⱼ exp((βⱼ - Mᵢⱼ)/reg)`: the shift by the minimum does not change the result. -/
theorem C54_c_transform [Nonempty J] (b : J → ℝ) (M : I → J → ℝ) (reg : ℝ) (hreg : 0 < reg) (hb : ∀ j, 0 < b j) (beta : J → ℝ) (i : I) :
    cTransform b M reg beta i = -reg * Real.log (∑ j, b j * Real.exp ((beta j - M i j) / reg)) := cTransform_eq hreg hb beta i

/-- C54. The coordinate gradients, averaged with the weights `a`, are the derivative of the semi-dual objective, and they are the error of the target
marginal of the plan. -/
theorem C54_gradient [Nonempty J] (a : I → ℝ) (b : J → ℝ) (M : I → J → ℝ) (reg : ℝ) (hreg : 0 < reg) (ha : ∀ i, 0 ≤ a i) (hA : ∑ i, a i = 1)
    (hb : ∀ j, 0 < b j) (beta d : J → ℝ) :
    HasDerivAt (fun t : ℝ => semiDual a b M reg fun j => beta j + t * d j) (∑ j, (∑ i, a i * coordGrad b M reg beta i j) * d j) 0 ∧
    ∀ j, ∑ i, a i * coordGrad b M reg beta i j = b j - ∑ i, semiPlan a b M reg beta i j := by
  constructor
  · have hcont : ∀ i j, Continuous fun t : ℝ => coordGrad b M reg (fun j => beta j + t * d j) i j := by
      intro i j
      simp only [coordGrad_eq, chi, zed]
      refine continuous_const.sub (Continuous.div ?_ ?_ ?_)
      · exact continuous_const.mul (Real.continuous_exp.comp (by fun_prop))
      · exact continuous_finsetSum _ fun k _ => continuous_const.mul (Real.continuous_exp.comp (by fun_prop))
      · intro t
        exact (sum_pos (fun k _ => mul_pos (hb k) (Real.exp_pos _)) univ_nonempty).ne'
    have key := Smooth.hasDerivAt_of_sub (fun t => -semiDual a b M reg fun j => beta j + t * d j)
      (fun t => -∑ j, (∑ i, a i * coordGrad b M reg (fun j => beta j + t * d j) i j) * d j) (fun x y => by
        have := semiDual_le (M := M) hreg ha hb (fun j => beta j + x * d j) (fun j => beta j + y * d j)
        have e1 : ∀ j, beta j + y * d j - (beta j + x * d j) = d j * (y - x) := fun j => by ring
        simp only [e1, ← mul_assoc] at this
        rw [← sum_mul] at this
        linarith) 0 (by
        refine Continuous.continuousAt (Continuous.neg ?_)
        exact continuous_finsetSum _ fun j _ => (continuous_finsetSum _ fun i _ => continuous_const.mul (hcont i j)).mul continuous_const)
    have h2 := key.neg
    have hneg : (-fun t => -semiDual a b M reg fun j => beta j + t * d j) = fun t => semiDual a b M reg fun j => beta j + t * d j :=
      funext fun t => neg_neg _
    rw [hneg, neg_neg] at h2
    simpa using h2
  · intro j
    simp only [coordGrad_eq, semiPlan_eq hreg hb, mul_sub, sum_sub_distrib]
    rw [← sum_mul, hA, one_mul]

/-- the Fenchel inequality behind the dual losses -/
theorem loss_le (u : I → ℝ) (v : J → ℝ) (M : I → J → ℝ) (reg : ℝ) (hreg : 0 < reg) (ws : I → ℝ) (wt : J → ℝ) (hs : ∀ i, 0 < ws i) (ht : ∀ j, 0 < wt j)
    (a : I → ℝ) (b : J → ℝ) (P : I → J → ℝ) (hP : IsCoupling a b P) :
    ∑ i, u i * a i + ∑ j, v j * b j - reg * ∑ i, ∑ j, planEntropic u v M reg ws wt i j ≤ relObjective ws wt M reg P - reg * ∑ i, a i ∧
    (relObjective ws wt M reg P - reg * ∑ i, a i ≤ ∑ i, u i * a i + ∑ j, v j * b j - reg * ∑ i, ∑ j, planEntropic u v M reg ws wt i j →
      P = planEntropic u v M reg ws wt) := by
  have h := fun i j => relScalar (x := u i + v j - M i j) hreg (hP.nonneg i j) (mul_pos (hs i) (ht j))
  have ep : ∀ i j, ws i * wt j * Real.exp ((u i + v j - M i j) / reg) = planEntropic u v M reg ws wt i j := fun i j => by unfold planEntropic; ring
  simp only [ep] at h
  have e1 : ∑ i, ∑ j, (P i j * (u i + v j - M i j) - reg * (P i j * Real.log (P i j / (ws i * wt j)))) =
      ∑ i, u i * a i + ∑ j, v j * b j - relObjective ws wt M reg P := by
    unfold relObjective cost
    have f1 : ∑ i, u i * a i = ∑ i, ∑ j, u i * P i j := sum_congr rfl fun i _ => by rw [← mul_sum, hP.row]
    have f2 : ∑ j, v j * b j = ∑ i, ∑ j, v j * P i j := by rw [sum_comm]; exact sum_congr rfl fun j _ => by rw [← mul_sum, hP.col]
    rw [f1, f2, mul_sum, ← sum_add_distrib, ← sum_add_distrib, ← sum_sub_distrib]
    refine sum_congr rfl fun i _ => ?_
    rw [mul_sum, ← sum_add_distrib, ← sum_add_distrib, ← sum_sub_distrib]
    exact sum_congr rfl fun j _ => by ring
  have e2 : ∑ i, ∑ j, (reg * planEntropic u v M reg ws wt i j - reg * P i j) = reg * ∑ i, ∑ j, planEntropic u v M reg ws wt i j - reg * ∑ i, a i := by
    simp only [sum_sub_distrib, ← mul_sum, hP.row]
  have hle : ∀ i ∈ (univ : Finset I), ∑ j, (P i j * (u i + v j - M i j) - reg * (P i j * Real.log (P i j / (ws i * wt j)))) ≤
      ∑ j, (reg * planEntropic u v M reg ws wt i j - reg * P i j) := fun i _ => sum_le_sum fun j _ => (h i j).1
  have h1 := sum_le_sum hle
  rw [e1, e2] at h1
  refine ⟨by linarith, fun hge => ?_⟩
  have h2 := (sum_eq_sum_iff_of_le hle).1 (by rw [e1, e2]; linarith)
  funext i j
  have h3 := (sum_eq_sum_iff_of_le (fun j (_ : j ∈ (univ : Finset J)) => (h i j).1)).1 (h2 i (mem_univ i)) j (mem_univ j)
  exact (h i j).2 h3.ge

/-- C54. The semi-dual objective is at most `⟨P, M⟩ + reg ∑ P log (P/ab)` for every coupling. -/
theorem C54_weak_duality [Nonempty J] (a : I → ℝ) (b : J → ℝ) (M : I → J → ℝ) (reg : ℝ) (hreg : 0 < reg) (ha : ∀ i, 0 < a i) (hA : ∑ i, a i = 1)
    (hb : ∀ j, 0 < b j) (beta : J → ℝ) (P : I → J → ℝ) (hP : IsCoupling a b P) : semiDual a b M reg beta ≤ relObjective a b M reg P := by
  have h := (loss_le (cTransform b M reg beta) beta M reg hreg a b ha hb a b P hP).1
  have e : ∀ i j, planEntropic (cTransform b M reg beta) beta M reg a b i j = semiPlan a b M reg beta i j := fun i j => by
    simp only [planEntropic, semiPlan]; ring
  simp only [e] at h
  have hr : ∑ i, ∑ j, semiPlan a b M reg beta i j = ∑ i, a i :=
    sum_congr rfl fun i _ => (C54_row_sums a b M reg hreg (fun i => (ha i).le) hb beta).2 i
  rw [hr] at h
  have e2 : semiDual a b M reg beta = ∑ i, cTransform b M reg beta i * a i + ∑ j, beta j * b j := by
    rw [semiDual_eq]
    simp only [rowTerm, mul_sub, sum_sub_distrib, cTransform_eq hreg hb]
    rw [← sum_mul, hA, one_mul]
    have : ∑ i, -reg * Real.log (zed b M reg beta i) * a i = -∑ i, a i * (reg * Real.log (zed b M reg beta i)) := by
      rw [← sum_neg_distrib]; exact sum_congr rfl fun i _ => by ring
    rw [this]; ring
  rw [e2]
  linarith

/-- C54. `beta` maximises the semi-dual exactly when the plan has the target marginal `b`; the plan is then the entropic optimum between `a` and `b`. -/
theorem C54_maximiser_iff [Nonempty J] (a : I → ℝ) (b : J → ℝ) (M : I → J → ℝ) (reg : ℝ) (hreg : 0 < reg) (ha : ∀ i, 0 < a i) (hA : ∑ i, a i = 1)
    (hb : ∀ j, 0 < b j) (beta : J → ℝ) :
    ((∀ beta', semiDual a b M reg beta' ≤ semiDual a b M reg beta) ↔ ∀ j, ∑ i, semiPlan a b M reg beta i j = b j) ∧
    ((∀ j, ∑ i, semiPlan a b M reg beta i j = b j) → IsEntropicOptimal a b M reg (semiPlan a b M reg beta)) := by
  have ha' := fun i => (ha i).le
  refine ⟨⟨fun hmax j => ?_, fun hc beta' => ?_⟩, fun hc => ?_⟩
  · classical
    obtain ⟨hd, hg⟩ := C54_gradient a b M reg hreg ha' hA hb beta fun k => if k = j then 1 else 0
    have := IsLocalMax.hasDerivAt_eq_zero (Filter.Eventually.of_forall fun t => by
      have := hmax (fun k => beta k + t * if k = j then 1 else 0)
      simpa using this) hd
    simp only [mul_ite, mul_one, mul_zero, sum_ite_eq', mem_univ, if_true] at this
    rw [hg] at this
    linarith
  · have h := semiDual_le (M := M) hreg ha' hb beta beta'
    have hz : ∀ j, ∑ i, a i * coordGrad b M reg beta i j = 0 := fun j => by
      rw [(C54_gradient a b M reg hreg ha' hA hb beta beta).2 j, hc j, sub_self]
    simp only [hz, zero_mul, sum_const_zero, add_zero] at h
    exact h
  · have h := C54_plan_optimal a b M reg hreg ha hb beta
    rw [funext hc] at h
    exact h

/-- C54. The semi-dual problem has a solution. -/
theorem C54_maximiser_exists [Nonempty I] [Nonempty J] (a : I → ℝ) (b : J → ℝ) (M : I → J → ℝ) (reg : ℝ) (hreg : 0 < reg) (ha : ∀ i, 0 < a i)
    (hA : ∑ i, a i = 1) (hb : ∀ j, 0 < b j) (hB : ∑ j, b j = 1) : ∃ beta, ∀ beta', semiDual a b M reg beta' ≤ semiDual a b M reg beta := by
  obtain ⟨P, hP, hpos, ⟨x, y, hform⟩, -⟩ := Sinkhorn.exists_limit (Sinkhorn.kernel_pos M reg) ha hb (hA.trans hB.symm)
    (s := ⟨fun _ => 1, fun _ => 1⟩) ⟨fun _ => one_pos, fun _ => one_pos⟩
  refine ⟨fun j => reg * (y j - Real.log (b j)), ((C54_maximiser_iff a b M reg hreg ha hA hb _).1).2 fun j => ?_⟩
  have hexp : ∀ i j, b j * Real.exp ((reg * (y j - Real.log (b j)) - M i j) / reg) = P i j * Real.exp (-x i) := by
    intro i j
    have : (reg * (y j - Real.log (b j)) - M i j) / reg = Real.log (P i j) - x i - Real.log (b j) := by
      rw [hform, Sinkhorn.log_kernel]; field_simp; ring
    rw [this, Real.exp_sub, Real.exp_sub, Real.exp_log (hpos i j), Real.exp_log (hb j), Real.exp_neg]
    have := (hb j).ne'
    field_simp
  have hz : ∀ i, zed b M reg (fun j => reg * (y j - Real.log (b j))) i = a i * Real.exp (-x i) := fun i => by
    unfold zed
    simp only [hexp]
    rw [← sum_mul, hP.row]
  simp only [semiPlan_eq hreg hb, chi, hexp, hz]
  rw [← hP.col j]
  refine sum_congr rfl fun i _ => ?_
  have := (ha i).ne'
  have := (Real.exp_pos (-x i)).ne'
  field_simp

/-! ## SAG -/

/-- C54. For every sequence of draws the running sum of SAG is the sum of the stored gradients; the gradient stored for `i` is the one computed when `i` was
last drawn (zero if it never was); and each iteration moves `beta` by `lr / n` times that sum. -/
theorem C54_sag [DecidableEq I] (a : I → ℝ) (b : J → ℝ) (M : I → J → ℝ) (reg lr : ℝ) (draws : List I) :
    (∀ j, (sag a b M reg lr draws).sum j = ∑ i, (sag a b M reg lr draws).stored i j) ∧
    (∀ i, i ∉ draws → (sag a b M reg lr draws).stored i = fun _ => 0) ∧
    (∀ before i after, draws = before ++ i :: after → i ∉ after →
      (sag a b M reg lr draws).stored i = fun j => a i * coordGrad b M reg (sag a b M reg lr before).cur i j) ∧
    (∀ i j, (sag a b M reg lr (draws ++ [i])).cur j =
      (sag a b M reg lr draws).cur j + lr / Fintype.card I * ∑ k, (sag a b M reg lr (draws ++ [i])).stored k j) ∧
    (sag a b M reg lr []).cur = fun _ => 0 := by
  have hs : ∀ (l : List I) i, sag a b M reg lr (l ++ [i]) = sagStep a b M reg lr (sag a b M reg lr l) i := fun l i => by
    unfold sag; rw [List.foldl_append]; rfl
  have h1 : ∀ l : List I, ∀ j, (sag a b M reg lr l).sum j = ∑ i, (sag a b M reg lr l).stored i j := by
    intro l
    induction l using List.reverseRecOn with
    | nil => intro j; simp [sag]
    | append_singleton l i ih =>
      intro j
      rw [hs]
      simp only [sagStep]
      rw [ih j, ← add_sum_erase univ (fun k => Function.update (sag a b M reg lr l).stored i _ k j) (mem_univ i),
        ← add_sum_erase univ (fun k => (sag a b M reg lr l).stored k j) (mem_univ i), Function.update_self]
      have : ∑ k ∈ univ.erase i, Function.update (sag a b M reg lr l).stored i (fun j => a i * coordGrad b M reg (sag a b M reg lr l).cur i j) k j =
          ∑ k ∈ univ.erase i, (sag a b M reg lr l).stored k j := sum_congr rfl fun k hk => by rw [Function.update_of_ne (ne_of_mem_erase hk)]
      rw [this]; ring
  refine ⟨h1 draws, ?_, ?_, fun i j => ?_, rfl⟩
  · intro i
    induction draws using List.reverseRecOn with
    | nil => intro _; rfl
    | append_singleton l k ih =>
      intro hi
      rw [List.mem_append, not_or, List.mem_singleton] at hi
      rw [hs]
      simp only [sagStep]
      rw [Function.update_of_ne hi.2]
      exact ih hi.1
  · intro before i after
    induction after using List.reverseRecOn generalizing draws with
    | nil =>
      intro he _
      rw [he, hs]
      simp only [sagStep, Function.update_self]
    | append_singleton l k ih =>
      intro he hi
      rw [List.mem_append, not_or, List.mem_singleton] at hi
      have he' : draws = (before ++ i :: l) ++ [k] := by rw [he]; simp
      rw [he', hs]
      simp only [sagStep]
      rw [Function.update_of_ne hi.2]
      exact ih _ rfl hi.1
  · rw [← h1 (draws ++ [i]) j, hs]
    simp only [sagStep]
    ring

/-! ## averaged SGD -/

/-- C54. For every sequence of draws the vector returned by ASGD is the arithmetic mean of its iterates. -/
theorem C54_asgd_mean (b : J → ℝ) (M : I → J → ℝ) (reg lr : ℝ) (draws : List I) (j : J) :
    (draws.length : ℝ) * (asgd b M reg lr draws).ave j = ∑ k ∈ range draws.length, (asgd b M reg lr (draws.take (k + 1))).cur j := by
  induction draws using List.reverseRecOn with
  | nil => simp
  | append_singleton l i ih =>
    rw [List.length_append, List.length_singleton, sum_range_succ]
    have h1 : ∑ k ∈ range l.length, (asgd b M reg lr ((l ++ [i]).take (k + 1))).cur j = ∑ k ∈ range l.length, (asgd b M reg lr (l.take (k + 1))).cur j :=
      sum_congr rfl fun k hk => by rw [List.take_append_of_le_length (by have := mem_range.1 hk; omega)]
    rw [h1, ← ih, List.take_of_length_le (by simp), asgd_snoc]
    have hp : ((l.length : ℝ) + 1) ≠ 0 := by positivity
    simp only [asgdStep, asgd_iter]
    push_cast
    field_simp
    ring

/-- C54. When the source weights are uniform, ASGD converges: averaged over the uniform draws, the semi-dual value of the returned vector is within
`√(N+1)/N · ((‖β*‖² + 2 lr² (1 + log(N+1)))/(2 lr) + 2 lr)` of the maximum after `N` iterations. -/
theorem C54_asgd_converges [Nonempty I] [Nonempty J] (a : I → ℝ) (b : J → ℝ) (M : I → J → ℝ) (reg lr : ℝ) (hreg : 0 < reg) (hlr : 0 < lr)
    (ha : ∀ i, a i = 1 / Fintype.card I) (hb : ∀ j, 0 < b j) (hB : ∑ j, b j = 1)
    (beta : J → ℝ) (hmax : ∀ beta', semiDual a b M reg beta' ≤ semiDual a b M reg beta) (N : ℕ) (hN : 0 < N) :
    0 ≤ (mean N fun ω : Fin N → I => semiDual a b M reg beta - semiDual a b M reg (asgd b M reg lr (List.ofFn ω)).ave) ∧
    (mean N fun ω : Fin N → I => semiDual a b M reg beta - semiDual a b M reg (asgd b M reg lr (List.ofFn ω)).ave) ≤
      Real.sqrt (N + 1) / N * ((∑ j, beta j ^ 2 + 2 * lr ^ 2 * (1 + Real.log (N + 1))) / (2 * lr) + 2 * lr) := by
  have e : a = unif I := funext ha
  rw [e] at hmax ⊢
  refine ⟨?_, hT_rate hreg hb hB lr hlr beta hmax N hN⟩
  rw [← mean_const (I := I) (N := N) 0]
  exact mean_le fun ω => sub_nonneg.2 (hmax _)

theorem rate_tendsto (c lr : ℝ) :
    Tendsto (fun N : ℕ => Real.sqrt (N + 1) / N * ((c + 2 * lr ^ 2 * (1 + Real.log (N + 1))) / (2 * lr) + 2 * lr)) atTop (𝓝 0) := by
  have h1 : Tendsto (fun x : ℝ => Real.log x / x ^ (1 / 2 : ℝ)) atTop (𝓝 0) := (isLittleO_log_rpow_atTop (by norm_num)).tendsto_div_nhds_zero
  have h2 : Tendsto (fun x : ℝ => 1 / x ^ (1 / 2 : ℝ)) atTop (𝓝 0) := by
    have := tendsto_rpow_atTop (show (0 : ℝ) < 1 / 2 by norm_num)
    refine this.inv_tendsto_atTop.congr fun x => ?_
    simp
  have hN : Tendsto (fun N : ℕ => (N : ℝ) + 1) atTop atTop := tendsto_atTop_add_const_right _ _ tendsto_natCast_atTop_atTop
  have h3 := h1.comp hN
  have h4 := h2.comp hN
  have h5 : Tendsto (fun N : ℕ => ((N : ℝ) + 1) / N) atTop (𝓝 1) := by
    have : Tendsto (fun N : ℕ => 1 + 1 / (N : ℝ)) atTop (𝓝 (1 + 0)) := tendsto_const_nhds.add tendsto_one_div_atTop_nhds_zero_nat
    rw [add_zero] at this
    refine this.congr' ?_
    filter_upwards [eventually_gt_atTop 0] with N hN
    have : (N : ℝ) ≠ 0 := by exact_mod_cast hN.ne'
    field_simp
  have h6 := h5.mul ((h4.const_mul ((c + 2 * lr ^ 2) / (2 * lr) + 2 * lr)).add (h3.const_mul (2 * lr ^ 2 / (2 * lr))))
  simp only [mul_zero, add_zero] at h6
  refine h6.congr fun N => ?_
  simp only [Function.comp]
  rw [← Real.sqrt_eq_rpow]
  have hs : Real.sqrt ((N : ℝ) + 1) ≠ 0 := (Real.sqrt_pos.2 (by positivity)).ne'
  have hq : ((N : ℝ) + 1) = Real.sqrt (N + 1) * Real.sqrt (N + 1) := (Real.mul_self_sqrt (by positivity)).symm
  have e : ((N : ℝ) + 1) / N = Real.sqrt (N + 1) * Real.sqrt (N + 1) / N := by rw [← hq]
  rw [e]
  field_simp
  ring

/-- C54. In particular the mean gap tends to zero. -/
theorem C54_asgd_limit [Nonempty I] [Nonempty J] (a : I → ℝ) (b : J → ℝ) (M : I → J → ℝ) (reg lr : ℝ) (hreg : 0 < reg) (hlr : 0 < lr)
    (ha : ∀ i, a i = 1 / Fintype.card I) (hb : ∀ j, 0 < b j) (hB : ∑ j, b j = 1)
    (beta : J → ℝ) (hmax : ∀ beta', semiDual a b M reg beta' ≤ semiDual a b M reg beta) :
    Tendsto (fun N => mean N fun ω : Fin N → I => semiDual a b M reg beta - semiDual a b M reg (asgd b M reg lr (List.ofFn ω)).ave) atTop (𝓝 0) := by
  refine squeeze_zero' ?_ ?_ (rate_tendsto (∑ j, beta j ^ 2) lr)
  · filter_upwards [eventually_gt_atTop 0] with N hN
    exact (C54_asgd_converges a b M reg lr hreg hlr ha hb hB beta hmax N hN).1
  · filter_upwards [eventually_gt_atTop 0] with N hN
    exact (C54_asgd_converges a b M reg lr hreg hlr ha hb hB beta hmax N hN).2

/-! ### ... but not for other weights -/

noncomputable def wA : Fin 2 → ℝ := ![3 / 4, 1 / 4]
noncomputable def wB : Fin 2 → ℝ := ![5 / 8, 3 / 8]
def wM : Fin 2 → Fin 2 → ℝ := fun i j => if i = j then 0 else 1

theorem wB_pos (j : Fin 2) : 0 < wB j := by fin_cases j <;> norm_num [wB]
theorem wA_pos (j : Fin 2) : 0 < wA j := by fin_cases j <;> norm_num [wA]
theorem wB_sum : ∑ j, wB j = 1 := by rw [Fin.sum_univ_two]; norm_num [wB]

/-- lower bound by the unregularised dual value -/
theorem semiDual_ge (a : Fin 2 → ℝ) (b : Fin 2 → ℝ) (M : Fin 2 → Fin 2 → ℝ) (reg : ℝ) (hreg : 0 < reg) (ha : ∀ i, 0 ≤ a i) (hA : ∑ i, a i = 1)
    (hb : ∀ j, 0 < b j) (hB : ∑ j, b j = 1) (beta alpha : Fin 2 → ℝ) (h : ∀ i j, alpha i + beta j ≤ M i j) :
    ∑ i, a i * alpha i + ∑ j, beta j * b j ≤ semiDual a b M reg beta := by
  rw [semiDual_eq]
  have h1 : ∀ i, alpha i ≤ -reg * Real.log (zed b M reg beta i) := by
    intro i
    have hz : zed b M reg beta i ≤ Real.exp (-alpha i / reg) := by
      unfold zed
      calc ∑ j, b j * Real.exp ((beta j - M i j) / reg) ≤ ∑ j, b j * Real.exp (-alpha i / reg) :=
            sum_le_sum fun j _ => mul_le_mul_of_nonneg_left (Real.exp_le_exp.2 (div_le_div_of_nonneg_right (by linarith [h i j]) hreg.le)) (hb j).le
        _ = _ := by rw [← sum_mul, hB, one_mul]
    have := Real.log_le_log (zed_pos hb beta i) hz
    rw [Real.log_exp] at this
    have := mul_le_mul_of_nonneg_left this hreg.le
    have e : reg * (-alpha i / reg) = -alpha i := by field_simp
    linarith
  unfold rowTerm
  have : ∑ i, a i * (∑ j, beta j * b j - reg * Real.log (zed b M reg beta i)) =
      ∑ j, beta j * b j + ∑ i, a i * (-reg * Real.log (zed b M reg beta i)) := by
    have e : ∀ i, a i * (∑ j, beta j * b j - reg * Real.log (zed b M reg beta i)) = a i * ∑ j, beta j * b j + a i * (-reg * Real.log (zed b M reg beta i)) :=
      fun i => by ring
    rw [sum_congr rfl fun i _ => e i, sum_add_distrib, ← sum_mul, hA, one_mul]
  rw [this]
  have := sum_le_sum fun i (_ : i ∈ (univ : Finset (Fin 2))) => mul_le_mul_of_nonneg_left (h1 i) (ha i)
  linarith

/-- C54 fails for ASGD when the source weights are not uniform: the draws are uniform and the gradients are not weighted by `a`, so the iterates approach the
solution for uniform weights.  For `a = (3/4, 1/4)`, `b = (5/8, 3/8)`, the cost `0`/`1` and `reg = 1/16`, whatever the learning rate, the mean distance of the
semi-dual value from the maximum stays above `1/16` from some iteration on. -/
theorem C54_asgd_weights_refuted : ∃ z : Fin 2 → ℝ, ∀ lr : ℝ, 0 < lr → ∃ N₀, ∀ N ≥ N₀,
    1 / 16 ≤ mean N fun ω : Fin N → Fin 2 => semiDual wA wB wM (1 / 16) z - semiDual wA wB wM (1 / 16) (asgd wB wM (1 / 16) lr (List.ofFn ω)).ave := by
  refine ⟨![0, 1], fun lr hlr => ?_⟩
  have hUs : ∑ i, unif (Fin 2) i = 1 := by simp [unif]
  have hUp : ∀ i, 0 < unif (Fin 2) i := fun i => by simp [unif]
  obtain ⟨zs, hzs⟩ := C54_maximiser_exists (unif (Fin 2)) wB wM (1 / 16) (by norm_num) hUp hUs wB_pos wB_sum
  have hlim := C54_asgd_limit (unif (Fin 2)) wB wM (1 / 16) lr (by norm_num) hlr (fun i => rfl) wB_pos wB_sum zs hzs
  -- the two problems cannot be solved at the same time
  have hA1 : (1 : ℝ) / 8 ≤ semiDual wA wB wM (1 / 16) ![0, 1] := by
    refine le_trans ?_ (semiDual_ge wA wB wM (1 / 16) (by norm_num) (fun i => (wA_pos i).le) (by rw [Fin.sum_univ_two]; norm_num [wA]) wB_pos wB_sum ![0, 1] ![0, -1] ?_)
    · simp only [Fin.sum_univ_two]; norm_num [wA, wB]
    · intro i j; fin_cases i <;> fin_cases j <;> norm_num [wM]
  have hU1 : (1 : ℝ) / 8 ≤ semiDual (unif (Fin 2)) wB wM (1 / 16) zs := by
    refine le_trans ?_ (hzs ![1, 0])
    refine le_trans ?_ (semiDual_ge (unif (Fin 2)) wB wM (1 / 16) (by norm_num) (fun i => (hUp i).le) hUs wB_pos wB_sum ![1, 0] ![-1, 0] ?_)
    · simp only [Fin.sum_univ_two]; norm_num [unif, wB]
    · intro i j; fin_cases i <;> fin_cases j <;> norm_num [wM]
  have hsum : ∀ beta, semiDual wA wB wM (1 / 16) beta + semiDual (unif (Fin 2)) wB wM (1 / 16) beta = 2 * semiDual wB wB wM (1 / 16) beta := by
    intro beta
    simp only [semiDual_eq, Fin.sum_univ_two]
    norm_num [wA, wB, unif]
    ring
  have hB1 : ∀ beta, semiDual wB wB wM (1 / 16) beta ≤ 1 / 16 := by
    intro beta
    have hc : IsCoupling wB wB (fun i j : Fin 2 => if i = j then wB i else 0) := by
      refine ⟨fun i j => ?_, fun i => by simp, fun j => by simp⟩
      split_ifs
      · exact (wB_pos i).le
      · exact le_rfl
    refine (C54_weak_duality wB wB wM (1 / 16) (by norm_num) wB_pos wB_sum wB_pos beta _ hc).trans ?_
    have e : relObjective wB wB wM (1 / 16) (fun i j : Fin 2 => if i = j then wB i else 0) = 1 / 16 * (5 / 8 * Real.log (8 / 5) + 3 / 8 * Real.log (8 / 3)) := by
      simp only [relObjective, cost, Fin.sum_univ_two]
      norm_num [wM, wB]
    rw [e]
    have h1 := Real.log_le_sub_one_of_pos (show (0 : ℝ) < 8 / 5 by norm_num)
    have h2 := Real.log_le_sub_one_of_pos (show (0 : ℝ) < 8 / 3 by norm_num)
    linarith
  have key : ∀ beta, 1 / 8 - (semiDual (unif (Fin 2)) wB wM (1 / 16) zs - semiDual (unif (Fin 2)) wB wM (1 / 16) beta) ≤
      semiDual wA wB wM (1 / 16) ![0, 1] - semiDual wA wB wM (1 / 16) beta := by
    intro beta
    have := hsum beta
    have := hB1 beta
    linarith
  obtain ⟨N₀, hN₀⟩ := (hlim.eventually (gt_mem_nhds (show (0 : ℝ) < 1 / 16 by norm_num))).exists_forall_of_atTop
  refine ⟨N₀, fun N hN => ?_⟩
  have h1 := hN₀ N hN
  have h2 : mean N (fun ω : Fin N → Fin 2 => 1 / 8 - (semiDual (unif (Fin 2)) wB wM (1 / 16) zs -
      semiDual (unif (Fin 2)) wB wM (1 / 16) (asgd wB wM (1 / 16) lr (List.ofFn ω)).ave)) ≤ _ := mean_le fun ω => key _
  rw [mean_sub, mean_const] at h2
  linarith

/-! ## C66: the dual losses and plans -/

theorem rel_value (u : I → ℝ) (v : J → ℝ) (M : I → J → ℝ) (reg : ℝ) (hreg : 0 < reg) (ws : I → ℝ) (wt : J → ℝ) (hs : ∀ i, 0 < ws i) (ht : ∀ j, 0 < wt j) :
    relObjective ws wt M reg (planEntropic u v M reg ws wt) =
      ∑ i, u i * ∑ j, planEntropic u v M reg ws wt i j + ∑ j, v j * ∑ i, planEntropic u v M reg ws wt i j := by
  unfold relObjective cost
  have f2 : ∑ j, v j * ∑ i, planEntropic u v M reg ws wt i j = ∑ i, ∑ j, v j * planEntropic u v M reg ws wt i j := by
    rw [sum_comm]; exact sum_congr rfl fun j _ => by rw [← mul_sum]
  rw [f2, mul_sum, ← sum_add_distrib, ← sum_add_distrib]
  refine sum_congr rfl fun i _ => ?_
  rw [mul_sum, mul_sum, ← sum_add_distrib, ← sum_add_distrib]
  refine sum_congr rfl fun j _ => ?_
  have : planEntropic u v M reg ws wt i j / (ws i * wt j) = Real.exp ((u i + v j - M i j) / reg) := by
    have := (hs i).ne'
    have := (ht j).ne'
    unfold planEntropic; field_simp
  rw [this, Real.log_exp]
  field_simp
  ring

theorem lossEntropic_eq (u : I → ℝ) (v : J → ℝ) (M : I → J → ℝ) (reg : ℝ) (ws : I → ℝ) (wt : J → ℝ) :
    lossEntropic u v M reg ws wt = ∑ i, u i * ws i + ∑ j, v j * wt j - reg * ∑ i, ∑ j, planEntropic u v M reg ws wt i j := by
  unfold lossEntropic planEntropic
  rw [mul_sum, sub_eq_add_neg, ← sum_neg_distrib]
  refine congrArg _ (sum_congr rfl fun i _ => ?_)
  rw [mul_sum, ← sum_neg_distrib]
  exact sum_congr rfl fun j _ => by ring

/-- C66. `loss_dual_entropic` plus `reg` is a lower bound of the regularised cost of every coupling of the two weight vectors, attained exactly when the plan
of `plan_dual_entropic` is that coupling. -/
theorem C66_entropic_duality (u : I → ℝ) (v : J → ℝ) (M : I → J → ℝ) (reg : ℝ) (hreg : 0 < reg) (ws : I → ℝ) (wt : J → ℝ) (hs : ∀ i, 0 < ws i)
    (ht : ∀ j, 0 < wt j) (hS : ∑ i, ws i = 1) (P : I → J → ℝ) (hP : IsCoupling ws wt P) :
    lossEntropic u v M reg ws wt + reg ≤ relObjective ws wt M reg P ∧
    (lossEntropic u v M reg ws wt + reg = relObjective ws wt M reg P ↔ P = planEntropic u v M reg ws wt) := by
  have h := loss_le u v M reg hreg ws wt hs ht ws wt P hP
  rw [hS, mul_one] at h
  rw [lossEntropic_eq]
  refine ⟨by linarith [h.1], fun he => h.2 (by linarith), fun he => ?_⟩
  have h2 := rel_value u v M reg hreg ws wt hs ht
  have h3 : ∑ i, ∑ j, planEntropic u v M reg ws wt i j = 1 := by rw [← he, ← hS]; exact sum_congr rfl fun i _ => hP.row i
  rw [← he] at h2 h3 ⊢
  simp only [hP.row, hP.col] at h2
  rw [h2, h3]; ring

/-- C66. Whatever the potentials, the plan of `plan_dual_entropic` is the unique minimiser of the regularised cost among plans with its marginals. -/
theorem C66_entropic_plan (u : I → ℝ) (v : J → ℝ) (M : I → J → ℝ) (reg : ℝ) (hreg : 0 < reg) (ws : I → ℝ) (wt : J → ℝ) (hs : ∀ i, 0 < ws i)
    (ht : ∀ j, 0 < wt j) (Q : I → J → ℝ)
    (hQ : IsCoupling (fun i => ∑ j, planEntropic u v M reg ws wt i j) (fun j => ∑ i, planEntropic u v M reg ws wt i j) Q) :
    relObjective ws wt M reg (planEntropic u v M reg ws wt) ≤ relObjective ws wt M reg Q ∧
    (relObjective ws wt M reg Q ≤ relObjective ws wt M reg (planEntropic u v M reg ws wt) → Q = planEntropic u v M reg ws wt) := by
  have h := loss_le u v M reg hreg ws wt hs ht _ _ Q hQ
  rw [rel_value u v M reg hreg ws wt hs ht]
  exact ⟨by linarith [h.1], fun he => h.2 (by linarith)⟩

/-- C66. The derivative of `loss_dual_entropic` with respect to the potentials is the error of the marginals of `plan_dual_entropic`. -/
theorem C66_entropic_gradient (u : I → ℝ) (v : J → ℝ) (M : I → J → ℝ) (reg : ℝ) (hreg : 0 < reg) (ws : I → ℝ) (wt : J → ℝ) (du : I → ℝ) (dv : J → ℝ) :
    HasDerivAt (fun t : ℝ => lossEntropic (fun i => u i + t * du i) (fun j => v j + t * dv j) M reg ws wt)
      (∑ i, (ws i - ∑ j, planEntropic u v M reg ws wt i j) * du i + ∑ j, (wt j - ∑ i, planEntropic u v M reg ws wt i j) * dv j) 0 := by
  have hlin : ∀ c d : ℝ, HasDerivAt (fun t : ℝ => c + t * d) d 0 := fun c d => by simpa using ((hasDerivAt_id (0 : ℝ)).mul_const d).const_add c
  have h1 : HasDerivAt (fun t : ℝ => ∑ i, (u i + t * du i) * ws i) (∑ i, du i * ws i) 0 := HasDerivAt.fun_sum fun i _ => (hlin (u i) (du i)).mul_const (ws i)
  have h2 : HasDerivAt (fun t : ℝ => ∑ j, (v j + t * dv j) * wt j) (∑ j, dv j * wt j) 0 := HasDerivAt.fun_sum fun j _ => (hlin (v j) (dv j)).mul_const (wt j)
  have h3 : HasDerivAt (fun t : ℝ => ∑ i, ∑ j, planEntropic (fun i => u i + t * du i) (fun j => v j + t * dv j) M reg ws wt i j)
      (∑ i, ∑ j, planEntropic u v M reg ws wt i j * ((du i + dv j) / reg)) 0 := by
    refine HasDerivAt.fun_sum fun i _ => HasDerivAt.fun_sum fun j _ => ?_
    have := (((((hlin (u i) (du i)).add (hlin (v j) (dv j))).sub_const (M i j)).div_const reg).exp.const_mul (ws i)).mul_const (wt j)
    refine this.congr_deriv ?_
    simp [planEntropic]
    ring
  have h4 := (h1.add h2).sub (h3.const_mul reg)
  have e : (fun t : ℝ => lossEntropic (fun i => u i + t * du i) (fun j => v j + t * dv j) M reg ws wt) = fun t =>
      ∑ i, (u i + t * du i) * ws i + ∑ j, (v j + t * dv j) * wt j -
        reg * ∑ i, ∑ j, planEntropic (fun i => u i + t * du i) (fun j => v j + t * dv j) M reg ws wt i j := funext fun t => lossEntropic_eq _ _ _ _ _ _
  rw [e]
  refine h4.congr_deriv ?_
  have e2 : ∑ j, (wt j - ∑ i, planEntropic u v M reg ws wt i j) * dv j = ∑ j, dv j * wt j - ∑ i, ∑ j, planEntropic u v M reg ws wt i j * dv j := by
    simp only [sub_mul, sum_sub_distrib, sum_mul]
    rw [sum_comm (f := fun j i => planEntropic u v M reg ws wt i j * dv j)]
    simp only [mul_comm]
  have e1 : ∑ i, (ws i - ∑ j, planEntropic u v M reg ws wt i j) * du i = ∑ i, du i * ws i - ∑ i, ∑ j, planEntropic u v M reg ws wt i j * du i := by
    simp only [sub_mul, sum_sub_distrib, sum_mul]
    simp only [mul_comm]
  have e3 : reg * ∑ i, ∑ j, planEntropic u v M reg ws wt i j * ((du i + dv j) / reg) =
      ∑ i, ∑ j, planEntropic u v M reg ws wt i j * du i + ∑ i, ∑ j, planEntropic u v M reg ws wt i j * dv j := by
    rw [mul_sum, ← sum_add_distrib]
    refine sum_congr rfl fun i _ => ?_
    rw [mul_sum, ← sum_add_distrib]
    refine sum_congr rfl fun j _ => ?_
    field_simp
  rw [e1, e2, e3]; ring

theorem quad_le (u : I → ℝ) (v : J → ℝ) (M : I → J → ℝ) (reg : ℝ) (hreg : 0 < reg) (ws : I → ℝ) (wt : J → ℝ) (hs : ∀ i, 0 < ws i) (ht : ∀ j, 0 < wt j)
    (a : I → ℝ) (b : J → ℝ) (P : I → J → ℝ) (hP : IsCoupling a b P) :
    ∑ i, u i * a i + ∑ j, v j * b j - ∑ i, ∑ j, ws i * wt j * (1 / (4 * reg) * max (u i + v j - M i j) 0 ^ 2) +
      ∑ i, ∑ j, reg / (ws i * wt j) * (P i j - planQuadratic u v M reg ws wt i j) ^ 2 ≤ quadObjective ws wt M reg P := by
  have h := fun i j => quadScalar (x := u i + v j - M i j) hreg (hP.nonneg i j) (mul_pos (hs i) (ht j))
  have ep : ∀ i j, ws i * wt j * (1 / (2 * reg) * max (u i + v j - M i j) 0) = planQuadratic u v M reg ws wt i j := fun i j => by unfold planQuadratic; ring
  simp only [ep] at h
  have e1 : ∑ i, ∑ j, (P i j * (u i + v j - M i j) - reg * (P i j ^ 2 / (ws i * wt j)) + reg / (ws i * wt j) * (P i j - planQuadratic u v M reg ws wt i j) ^ 2) =
      ∑ i, u i * a i + ∑ j, v j * b j - quadObjective ws wt M reg P + ∑ i, ∑ j, reg / (ws i * wt j) * (P i j - planQuadratic u v M reg ws wt i j) ^ 2 := by
    unfold quadObjective cost
    have f1 : ∑ i, u i * a i = ∑ i, ∑ j, u i * P i j := sum_congr rfl fun i _ => by rw [← mul_sum, hP.row]
    have f2 : ∑ j, v j * b j = ∑ i, ∑ j, v j * P i j := by rw [sum_comm]; exact sum_congr rfl fun j _ => by rw [← mul_sum, hP.col]
    rw [f1, f2, mul_sum, ← sum_add_distrib, ← sum_add_distrib, ← sum_sub_distrib, ← sum_add_distrib]
    refine sum_congr rfl fun i _ => ?_
    rw [mul_sum, ← sum_add_distrib, ← sum_add_distrib, ← sum_sub_distrib, ← sum_add_distrib]
    exact sum_congr rfl fun j _ => by ring
  have := sum_le_sum fun i (_ : i ∈ (univ : Finset I)) => sum_le_sum fun j (_ : j ∈ (univ : Finset J)) => h i j
  rw [e1] at this
  linarith

theorem quad_value (u : I → ℝ) (v : J → ℝ) (M : I → J → ℝ) (reg : ℝ) (hreg : 0 < reg) (ws : I → ℝ) (wt : J → ℝ) (hs : ∀ i, 0 < ws i) (ht : ∀ j, 0 < wt j) :
    quadObjective ws wt M reg (planQuadratic u v M reg ws wt) =
      ∑ i, u i * ∑ j, planQuadratic u v M reg ws wt i j + ∑ j, v j * ∑ i, planQuadratic u v M reg ws wt i j -
        ∑ i, ∑ j, ws i * wt j * (1 / (4 * reg) * max (u i + v j - M i j) 0 ^ 2) := by
  unfold quadObjective cost
  have f2 : ∑ j, v j * ∑ i, planQuadratic u v M reg ws wt i j = ∑ i, ∑ j, v j * planQuadratic u v M reg ws wt i j := by
    rw [sum_comm]; exact sum_congr rfl fun j _ => by rw [← mul_sum]
  rw [f2, mul_sum, ← sum_add_distrib, ← sum_add_distrib, ← sum_sub_distrib]
  refine sum_congr rfl fun i _ => ?_
  rw [mul_sum, mul_sum, ← sum_add_distrib, ← sum_add_distrib, ← sum_sub_distrib]
  refine sum_congr rfl fun j _ => ?_
  have h1 := (hs i).ne'
  have h2 := (ht j).ne'
  have hm : max (u i + v j - M i j) 0 * (u i + v j - M i j) = max (u i + v j - M i j) 0 ^ 2 := by
    rcases le_total (u i + v j - M i j) 0 with h | h
    · rw [max_eq_right h]; ring
    · rw [max_eq_left h]; ring
  obtain ⟨m, hmm⟩ : ∃ m, m = max (u i + v j - M i j) 0 := ⟨_, rfl⟩
  simp only [planQuadratic, ← hmm] at hm ⊢
  have e : reg * ((ws i * (1 / (2 * reg) * m) * wt j) ^ 2 / (ws i * wt j)) = ws i * wt j * (1 / (4 * reg) * m ^ 2) := by field_simp; ring
  rw [e]
  have e2 : ws i * wt j * (1 / (4 * reg) * m ^ 2) * 2 = ws i * wt j * (1 / (2 * reg) * (m * (u i + v j - M i j))) := by rw [hm]; field_simp; ring
  linear_combination e2

theorem lossQuadratic_eq (u : I → ℝ) (v : J → ℝ) (M : I → J → ℝ) (reg : ℝ) (ws : I → ℝ) (wt : J → ℝ) :
    lossQuadratic u v M reg ws wt = ∑ i, u i * ws i + ∑ j, v j * wt j - ∑ i, ∑ j, ws i * wt j * (1 / (4 * reg) * max (u i + v j - M i j) 0 ^ 2) := by
  unfold lossQuadratic
  rw [sub_eq_add_neg, ← sum_neg_distrib]
  refine congrArg _ (sum_congr rfl fun i _ => ?_)
  rw [← sum_neg_distrib]
  exact sum_congr rfl fun j _ => by ring

theorem eq_of_sq_sum {ws : I → ℝ} {wt : J → ℝ} {reg : ℝ} (hreg : 0 < reg) (hs : ∀ i, 0 < ws i) (ht : ∀ j, 0 < wt j) {P Q : I → J → ℝ}
    (h : ∑ i, ∑ j, reg / (ws i * wt j) * (P i j - Q i j) ^ 2 ≤ 0) : P = Q := by
  have hn : ∀ i j, 0 ≤ reg / (ws i * wt j) * (P i j - Q i j) ^ 2 := fun i j => mul_nonneg (div_pos hreg (mul_pos (hs i) (ht j))).le (sq_nonneg _)
  have h0 := le_antisymm h (sum_nonneg fun i _ => sum_nonneg fun j _ => hn i j)
  funext i j
  have h1 := (sum_eq_zero_iff_of_nonneg fun i _ => sum_nonneg fun j _ => hn i j).1 h0 i (mem_univ i)
  have h2 := (sum_eq_zero_iff_of_nonneg fun j _ => hn i j).1 h1 j (mem_univ j)
  have h3 := (mul_eq_zero.1 h2).resolve_left (div_pos hreg (mul_pos (hs i) (ht j))).ne'
  exact sub_eq_zero.1 (pow_eq_zero_iff (two_ne_zero) |>.1 h3)

/-- C66. `loss_dual_quadratic` is a lower bound of the regularised cost of every coupling of the two weight vectors, attained exactly when the plan of
`plan_dual_quadratic` is that coupling. -/
theorem C66_quadratic_duality (u : I → ℝ) (v : J → ℝ) (M : I → J → ℝ) (reg : ℝ) (hreg : 0 < reg) (ws : I → ℝ) (wt : J → ℝ) (hs : ∀ i, 0 < ws i)
    (ht : ∀ j, 0 < wt j) (P : I → J → ℝ) (hP : IsCoupling ws wt P) :
    lossQuadratic u v M reg ws wt ≤ quadObjective ws wt M reg P ∧
    (lossQuadratic u v M reg ws wt = quadObjective ws wt M reg P ↔ P = planQuadratic u v M reg ws wt) := by
  have h := quad_le u v M reg hreg ws wt hs ht ws wt P hP
  have hn : 0 ≤ ∑ i, ∑ j, reg / (ws i * wt j) * (P i j - planQuadratic u v M reg ws wt i j) ^ 2 :=
    sum_nonneg fun i _ => sum_nonneg fun j _ => mul_nonneg (div_pos hreg (mul_pos (hs i) (ht j))).le (sq_nonneg _)
  rw [lossQuadratic_eq]
  refine ⟨by linarith, fun he => eq_of_sq_sum hreg hs ht (by linarith), fun he => ?_⟩
  have h2 := quad_value u v M reg hreg ws wt hs ht
  rw [← he] at h2
  simp only [hP.row, hP.col] at h2
  rw [h2]

/-- C66. Whatever the potentials, the plan of `plan_dual_quadratic` is non-negative and the unique minimiser of the regularised cost among plans with its
marginals. -/
theorem C66_quadratic_plan (u : I → ℝ) (v : J → ℝ) (M : I → J → ℝ) (reg : ℝ) (hreg : 0 < reg) (ws : I → ℝ) (wt : J → ℝ) (hs : ∀ i, 0 < ws i)
    (ht : ∀ j, 0 < wt j) :
    (∀ i j, 0 ≤ planQuadratic u v M reg ws wt i j) ∧
    ∀ Q : I → J → ℝ, IsCoupling (fun i => ∑ j, planQuadratic u v M reg ws wt i j) (fun j => ∑ i, planQuadratic u v M reg ws wt i j) Q →
      quadObjective ws wt M reg (planQuadratic u v M reg ws wt) ≤ quadObjective ws wt M reg Q ∧
      (quadObjective ws wt M reg Q ≤ quadObjective ws wt M reg (planQuadratic u v M reg ws wt) → Q = planQuadratic u v M reg ws wt) := by
  refine ⟨fun i j => mul_nonneg (mul_nonneg (hs i).le (mul_nonneg (by positivity) (le_max_right _ _))) (ht j).le, fun Q hQ => ?_⟩
  have h := quad_le u v M reg hreg ws wt hs ht _ _ Q hQ
  have hn : 0 ≤ ∑ i, ∑ j, reg / (ws i * wt j) * (Q i j - planQuadratic u v M reg ws wt i j) ^ 2 :=
    sum_nonneg fun i _ => sum_nonneg fun j _ => mul_nonneg (div_pos hreg (mul_pos (hs i) (ht j))).le (sq_nonneg _)
  rw [quad_value u v M reg hreg ws wt hs ht]
  exact ⟨by linarith, fun he => eq_of_sq_sum hreg hs ht (by linarith)⟩

theorem hasDerivAt_maxSq (x : ℝ) : HasDerivAt (fun x : ℝ => max x 0 ^ 2) (2 * max x 0) x := by
  refine Smooth.hasDerivAt_of_sub (fun x : ℝ => max x 0 ^ 2) (fun x => 2 * max x 0) (fun x y => ?_) x (by fun_prop)
  have h1 : max x 0 * x = max x 0 * max x 0 := by
    rcases le_total x 0 with h | h
    · rw [max_eq_right h]; ring
    · rw [max_eq_left h]
  nlinarith [sq_nonneg (max y 0 - max x 0), mul_le_mul_of_nonneg_left (le_max_left y 0) (le_max_right x 0)]

/-- C66. The derivative of `loss_dual_quadratic` with respect to the potentials is the error of the marginals of `plan_dual_quadratic`. -/
theorem C66_quadratic_gradient (u : I → ℝ) (v : J → ℝ) (M : I → J → ℝ) (reg : ℝ) (hreg : 0 < reg) (ws : I → ℝ) (wt : J → ℝ) (du : I → ℝ) (dv : J → ℝ) :
    HasDerivAt (fun t : ℝ => lossQuadratic (fun i => u i + t * du i) (fun j => v j + t * dv j) M reg ws wt)
      (∑ i, (ws i - ∑ j, planQuadratic u v M reg ws wt i j) * du i + ∑ j, (wt j - ∑ i, planQuadratic u v M reg ws wt i j) * dv j) 0 := by
  have hlin : ∀ c d : ℝ, HasDerivAt (fun t : ℝ => c + t * d) d 0 := fun c d => by simpa using ((hasDerivAt_id (0 : ℝ)).mul_const d).const_add c
  have h1 : HasDerivAt (fun t : ℝ => ∑ i, (u i + t * du i) * ws i) (∑ i, du i * ws i) 0 := HasDerivAt.fun_sum fun i _ => (hlin (u i) (du i)).mul_const (ws i)
  have h2 : HasDerivAt (fun t : ℝ => ∑ j, (v j + t * dv j) * wt j) (∑ j, dv j * wt j) 0 := HasDerivAt.fun_sum fun j _ => (hlin (v j) (dv j)).mul_const (wt j)
  have h3 : HasDerivAt (fun t : ℝ => ∑ i, ∑ j, ws i * wt j * (1 / (4 * reg) * max (u i + t * du i + (v j + t * dv j) - M i j) 0 ^ 2))
      (∑ i, ∑ j, planQuadratic u v M reg ws wt i j * (du i + dv j)) 0 := by
    refine HasDerivAt.fun_sum fun i _ => HasDerivAt.fun_sum fun j _ => ?_
    have hin := ((hlin (u i) (du i)).add (hlin (v j) (dv j))).sub_const (M i j)
    have := (((hasDerivAt_maxSq _).comp (0 : ℝ) hin).const_mul (1 / (4 * reg))).const_mul (ws i * wt j)
    refine this.congr_deriv ?_
    simp [planQuadratic]
    field_simp
    ring
  have h4 := (h1.add h2).sub h3
  have e : (fun t : ℝ => lossQuadratic (fun i => u i + t * du i) (fun j => v j + t * dv j) M reg ws wt) = fun t =>
      ∑ i, (u i + t * du i) * ws i + ∑ j, (v j + t * dv j) * wt j -
        ∑ i, ∑ j, ws i * wt j * (1 / (4 * reg) * max (u i + t * du i + (v j + t * dv j) - M i j) 0 ^ 2) := funext fun t => lossQuadratic_eq _ _ _ _ _ _
  rw [e]
  refine h4.congr_deriv ?_
  have e2 : ∑ j, (wt j - ∑ i, planQuadratic u v M reg ws wt i j) * dv j = ∑ j, dv j * wt j - ∑ i, ∑ j, planQuadratic u v M reg ws wt i j * dv j := by
    simp only [sub_mul, sum_sub_distrib, sum_mul]
    rw [sum_comm (f := fun j i => planQuadratic u v M reg ws wt i j * dv j)]
    simp only [mul_comm]
  have e1 : ∑ i, (ws i - ∑ j, planQuadratic u v M reg ws wt i j) * du i = ∑ i, du i * ws i - ∑ i, ∑ j, planQuadratic u v M reg ws wt i j * du i := by
    simp only [sub_mul, sum_sub_distrib, sum_mul]
    simp only [mul_comm]
  have e3 : ∑ i, ∑ j, planQuadratic u v M reg ws wt i j * (du i + dv j) =
      ∑ i, ∑ j, planQuadratic u v M reg ws wt i j * du i + ∑ i, ∑ j, planQuadratic u v M reg ws wt i j * dv j := by
    rw [← sum_add_distrib]
    refine sum_congr rfl fun i _ => ?_
    rw [← sum_add_distrib]
    exact sum_congr rfl fun j _ => by ring
  rw [e1, e2, e3]; ring

/-! ### batches -/

theorem card_batches_mem {T : Type*} [Fintype T] [DecidableEq T] (s : ℕ) (t : T) :
    (Fintype.card T : ℝ) * ((powersetCard s (univ : Finset T)).filter (t ∈ ·)).card = s * (Fintype.card T).choose s := by
  cases s with
  | zero =>
    simp [Finset.powersetCard_zero, Finset.filter_singleton]
  | succ s =>
    have hc : ((powersetCard (s + 1) (univ : Finset T)).filter (t ∈ ·)).card = (Fintype.card T - 1).choose s := by
      have e : (powersetCard (s + 1) (univ : Finset T)).filter (t ∈ ·) = (powersetCard s (univ.erase t)).image (insert t) := by
        ext B
        simp only [mem_filter, mem_image, mem_powersetCard]
        constructor
        · rintro ⟨⟨-, hc⟩, ht⟩
          exact ⟨B.erase t, ⟨fun x hx => mem_erase.2 ⟨ne_of_mem_erase hx, mem_univ _⟩, by rw [card_erase_of_mem ht, hc]; rfl⟩, insert_erase ht⟩
        · rintro ⟨C, ⟨hC, hcard⟩, rfl⟩
          have : t ∉ C := fun h => (mem_erase.1 (hC h)).1 rfl
          exact ⟨⟨subset_univ _, by rw [card_insert_of_notMem this, hcard]⟩, mem_insert_self _ _⟩
      rw [e, card_image_of_injOn, card_powersetCard, card_erase_of_mem (mem_univ t), card_univ]
      intro C hC D hD h
      have hC' : t ∉ C := fun hh => (mem_erase.1 ((mem_powersetCard.1 (mem_coe.1 hC)).1 hh)).1 rfl
      have hD' : t ∉ D := fun hh => (mem_erase.1 ((mem_powersetCard.1 (mem_coe.1 hD)).1 hh)).1 rfl
      have h' : insert t C = insert t D := h
      rw [← erase_insert hC', ← erase_insert hD', h']
    rw [hc]
    have hpos : 0 < Fintype.card T := Fintype.card_pos_iff.2 ⟨t⟩
    obtain ⟨n, hn⟩ : ∃ n, Fintype.card T = n + 1 := ⟨Fintype.card T - 1, by omega⟩
    rw [hn]
    have := Nat.add_one_mul_choose_eq n s
    rw [Nat.add_sub_cancel, mul_comm ((s + 1 : ℕ) : ℝ)]
    exact_mod_cast this

theorem sum_batches {T : Type*} [Fintype T] [DecidableEq T] (s : ℕ) (f : T → ℝ) :
    (Fintype.card T : ℝ) * ∑ B ∈ powersetCard s (univ : Finset T), ∑ t ∈ B, f t = s * (Fintype.card T).choose s * ∑ t, f t := by
  have h1 : ∀ B : Finset T, ∑ t ∈ B, f t = ∑ t, if t ∈ B then f t else 0 := fun B => by rw [sum_ite_mem, univ_inter]
  rw [sum_congr rfl fun B _ => h1 B, sum_comm, mul_sum, mul_sum]
  refine sum_congr rfl fun t _ => ?_
  rw [← sum_filter, sum_const, nsmul_eq_mul, ← mul_assoc, card_batches_mem]

/-- C66. The batch gradient is unbiased up to a constant: averaged over all pairs of batches of size `s`, it is `s²/(nm)` times the gradient of the dual loss,
that is the error of the marginals of the plan.  With full batches it is that gradient. -/
theorem C66_batch_gradient [DecidableEq I] [DecidableEq J] (a : I → ℝ) (b : J → ℝ) (M : I → J → ℝ) (reg : ℝ) (alpha : I → ℝ) (beta : J → ℝ) (s : ℕ)
    (hn : s ≤ Fintype.card I) (hm : s ≤ Fintype.card J) (hs : 0 < s) :
    (∀ i, (∑ A ∈ powersetCard s univ, ∑ B ∈ powersetCard s univ, (batchGrad a b M reg alpha beta A B).1 i) /
        ((Fintype.card I).choose s * (Fintype.card J).choose s) =
      (s : ℝ) ^ 2 / (Fintype.card I * Fintype.card J) * (a i - ∑ j, planEntropic alpha beta M reg a b i j)) ∧
    (∀ j, (∑ A ∈ powersetCard s univ, ∑ B ∈ powersetCard s univ, (batchGrad a b M reg alpha beta A B).2 j) /
        ((Fintype.card I).choose s * (Fintype.card J).choose s) =
      (s : ℝ) ^ 2 / (Fintype.card I * Fintype.card J) * (b j - ∑ i, planEntropic alpha beta M reg a b i j)) ∧
    (∀ i, (batchGrad a b M reg alpha beta univ univ).1 i = a i - ∑ j, planEntropic alpha beta M reg a b i j) ∧
    (∀ j, (batchGrad a b M reg alpha beta univ univ).2 j = b j - ∑ i, planEntropic alpha beta M reg a b i j) := by
  have hcI : (0 : ℝ) < (Fintype.card I).choose s := by exact_mod_cast Nat.choose_pos hn
  have hcJ : (0 : ℝ) < (Fintype.card J).choose s := by exact_mod_cast Nat.choose_pos hm
  have hI : (0 : ℝ) < Fintype.card I := by exact_mod_cast hs.trans_le hn
  have hJ : (0 : ℝ) < Fintype.card J := by exact_mod_cast hs.trans_le hm
  have eG : ∀ i j, -(Real.exp ((alpha i + beta j - M i j) / reg) * a i * b j) = -planEntropic alpha beta M reg a b i j := fun i j => by unfold planEntropic; ring
  refine ⟨fun i => ?_, fun j => ?_, fun i => ?_, fun j => ?_⟩
  · simp only [batchGrad, eG]
    have h1 : ∀ A : Finset I, ∑ B ∈ powersetCard s (univ : Finset J), (if i ∈ A then a i * (B.card : ℝ) / Fintype.card J + ∑ j ∈ B, -planEntropic alpha beta M reg a b i j else 0) =
        if i ∈ A then (Fintype.card J).choose s * (a i * s / Fintype.card J) + ∑ B ∈ powersetCard s (univ : Finset J), ∑ j ∈ B, -planEntropic alpha beta M reg a b i j else 0 := by
      intro A
      split_ifs
      · rw [sum_add_distrib]
        refine congrArg (· + _) ?_
        rw [sum_congr rfl fun B hB => by rw [(mem_powersetCard.1 hB).2], sum_const, card_powersetCard, card_univ, nsmul_eq_mul]
      · simp
    rw [sum_congr rfl fun A _ => h1 A, ← sum_filter, sum_const, nsmul_eq_mul]
    have h2 := card_batches_mem s i
    have h3 := sum_batches s fun j => -planEntropic alpha beta M reg a b i j
    rw [sum_neg_distrib] at h3
    have h2' := eq_div_of_mul_eq hI.ne' ((mul_comm _ _).trans h2)
    have h3' := eq_div_of_mul_eq hJ.ne' ((mul_comm _ _).trans h3)
    rw [h2', h3']
    field_simp
    ring
  · simp only [batchGrad, eG]
    rw [sum_comm]
    have h1 : ∀ B : Finset J, ∑ A ∈ powersetCard s (univ : Finset I), (if j ∈ B then b j * (A.card : ℝ) / Fintype.card I + ∑ i ∈ A, -planEntropic alpha beta M reg a b i j else 0) =
        if j ∈ B then (Fintype.card I).choose s * (b j * s / Fintype.card I) + ∑ A ∈ powersetCard s (univ : Finset I), ∑ i ∈ A, -planEntropic alpha beta M reg a b i j else 0 := by
      intro B
      split_ifs
      · rw [sum_add_distrib]
        refine congrArg (· + _) ?_
        rw [sum_congr rfl fun A hA => by rw [(mem_powersetCard.1 hA).2], sum_const, card_powersetCard, card_univ, nsmul_eq_mul]
      · simp
    rw [sum_congr rfl fun B _ => h1 B, ← sum_filter, sum_const, nsmul_eq_mul]
    have h2 := card_batches_mem s j
    have h3 := sum_batches s fun i => -planEntropic alpha beta M reg a b i j
    rw [sum_neg_distrib] at h3
    have h2' := eq_div_of_mul_eq hJ.ne' ((mul_comm _ _).trans h2)
    have h3' := eq_div_of_mul_eq hI.ne' ((mul_comm _ _).trans h3)
    rw [h2', h3']
    field_simp
    ring
  · simp only [batchGrad, eG, mem_univ, if_true, card_univ, sum_neg_distrib]
    rw [mul_div_assoc, div_self hJ.ne', mul_one]; ring
  · simp only [batchGrad, eG, mem_univ, if_true, card_univ, sum_neg_distrib]
    rw [mul_div_assoc, div_self hI.ne', mul_one]; ring

/-- C66. `sgd_entropic_regularization` starts at zero and its `k`-th iteration adds `lr/√k` times the batch gradient to the potentials (which vanishes
outside the batch). -/
theorem C66_sgd_step [DecidableEq I] [DecidableEq J] (a : I → ℝ) (b : J → ℝ) (M : I → J → ℝ) (reg lr : ℝ) (draws : List (Finset I × Finset J))
    (A : Finset I) (B : Finset J) :
    (∀ i, (sgd a b M reg lr (draws ++ [(A, B)])).2.1 i = (sgd a b M reg lr draws).2.1 i + lr / Real.sqrt (draws.length + 1) *
      (batchGrad a b M reg (sgd a b M reg lr draws).2.1 (sgd a b M reg lr draws).2.2 A B).1 i) ∧
    (∀ j, (sgd a b M reg lr (draws ++ [(A, B)])).2.2 j = (sgd a b M reg lr draws).2.2 j + lr / Real.sqrt (draws.length + 1) *
      (batchGrad a b M reg (sgd a b M reg lr draws).2.1 (sgd a b M reg lr draws).2.2 A B).2 j) ∧
    (sgd a b M reg lr []).2 = (fun _ => 0, fun _ => 0) := by
  have hs : ∀ (l : List (Finset I × Finset J)) d, sgd a b M reg lr (l ++ [d]) = sgdStep a b M reg lr (sgd a b M reg lr l) d := fun l d => by
    unfold sgd; rw [List.foldl_append]; rfl
  have hk : ∀ l : List (Finset I × Finset J), (sgd a b M reg lr l).1 = l.length := by
    intro l
    induction l using List.reverseRecOn with
    | nil => rfl
    | append_singleton l d ih => rw [hs]; simp [sgdStep, ih]
  refine ⟨fun i => ?_, fun j => ?_, rfl⟩
  · rw [hs]
    simp only [sgdStep, hk]
    split_ifs with h
    · rfl
    · simp [batchGrad, h]
  · rw [hs]
    simp only [sgdStep, hk]
    split_ifs with h
    · rfl
    · simp [batchGrad, h]

/-! ## non-vacuity -/

/-- the hypotheses of C54 hold for the instance of the refutation, with uniform weights -/
example : (0 : ℝ) < 1 / 16 ∧ (∀ i : Fin 2, (unif (Fin 2)) i = 1 / Fintype.card (Fin 2)) ∧ (∀ j, 0 < wB j) ∧ (∑ j, wB j = 1) ∧
    ∃ beta, ∀ beta', semiDual (unif (Fin 2)) wB wM (1 / 16) beta' ≤ semiDual (unif (Fin 2)) wB wM (1 / 16) beta :=
  ⟨by norm_num, fun _ => rfl, wB_pos, wB_sum,
    C54_maximiser_exists _ wB wM _ (by norm_num) (fun i => by simp [unif]) (by simp [unif]) wB_pos wB_sum⟩

/-- SAG: two draws of the same index; the stored gradient is the second one -/
example (b : Fin 2 → ℝ) (M : Fin 2 → Fin 2 → ℝ) : (sag wA b M 1 1 [0, 0]).stored 0 = fun j => wA 0 * coordGrad b M 1 (sag wA b M 1 1 [0]).cur 0 j :=
  (C54_sag wA b M 1 1 [0, 0]).2.2.1 [0] 0 [] rfl (by simp)

/-- a coupling for the duality theorems -/
example : IsCoupling wA wB (fun i j => wA i * wB j) := by
  refine ⟨fun i j => (mul_pos (wA_pos i) (wB_pos j)).le, fun i => by rw [← mul_sum, wB_sum, mul_one], fun j => ?_⟩
  rw [← sum_mul, Fin.sum_univ_two]; norm_num [wA]

/-- a batch of one out of two -/
example : 0 < 1 ∧ 1 ≤ Fintype.card (Fin 2) ∧ 1 ≤ Fintype.card (Fin 2) := by simp

end POT.Props
