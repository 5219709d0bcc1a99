import Verif.Model.Solve
import Verif.Spec.Solve
import Verif.Props.SinkhornLog
import Verif.Props.EmdPy
import Verif.Props.Mm
import Verif.Props.Smooth
import Verif.Props.Optim
import Verif.Lemmas.ExactEmd
import Mathlib.Analysis.Complex.ExponentialBounds

/-! # C85, C86: `ot.solve` -/

set_option linter.unusedSectionVars false

namespace POT.Props

open Finset Spec Sinkhorn Filter Topology Solve

variable {n m : ℕ} [NeZero n] [NeZero m]

/-! ### the entropic branch -/

/-- the plans of `sinkhorn_log` converge to the entropic optimum, which is positive -/
theorem log_converges {I J : Type*} [Fintype I] [Fintype J] [Nonempty I] [Nonempty J] {a : I → ℝ} {b : J → ℝ} (M : I → J → ℝ) {reg : ℝ} (hreg : 0 < reg) (ha : ∀ i, 0 < a i) (hb : ∀ j, 0 < b j) (hS : ∑ i, a i = ∑ j, b j) :
    ∃ P, IsEntropicOptimal a b M reg P ∧ (∀ i j, 0 < P i j) ∧
      ∀ i j, Tendsto (fun N => logPlan M reg (sinkhornLog a b M reg (N + 1) 0 none).s i j) atTop (𝓝 (P i j)) := by
  obtain ⟨P, hP, hlim⟩ := C27_converges a b M reg hreg none ha hb hS
  obtain ⟨P', h1, h2, ⟨x, y, h3⟩, _⟩ := exists_limit (kernel_pos M reg) ha hb hS (s := { u := fun _ => 1, v := fun _ => 1 }) ⟨fun _ => one_pos, fun _ => one_pos⟩
  have hP' : IsEntropicOptimal a b M reg P' := optimal_of_form hreg h1 h2 (x := x) (y := y) fun i j => by rw [h3, log_kernel]; ring
  have e : P' = P := (hP.2 P' hP'.1).2 (hP'.2 P hP.1).1
  refine ⟨P, hP, e ▸ h2, fun i j => ?_⟩
  have := (tendsto_add_atTop_iff_nat 1).2 (hlim i j)
  refine this.congr fun N => ?_
  have h := C28_log_equals_knopp a b M reg (N + 1) N.succ_pos 0 none ha hb
  rw [h.2.2.1]

/-- effect of the guard inside a logarithm -/
theorem guard_log {p q g : ℝ} (hp : 0 ≤ p) (hq : 0 < q) (hg : 0 ≤ g) : p * Real.log (p / q) ≤ p * Real.log (p / q + g) ∧ p * Real.log (p / q + g) ≤ p * Real.log (p / q) + g * q := by
  rcases hp.eq_or_lt with rfl | hp
  · simp; positivity
  have hd : 0 < p / q := div_pos hp hq
  refine ⟨mul_le_mul_of_nonneg_left (Real.log_le_log hd (by linarith)) hp.le, ?_⟩
  have e : Real.log (p / q + g) = Real.log (p / q) + Real.log (1 + g * q / p) := by
    rw [← Real.log_mul hd.ne' (by positivity)]
    congr 1
    field_simp
  have := Real.log_le_sub_one_of_pos (show 0 < 1 + g * q / p by positivity)
  have h2 : p * Real.log (1 + g * q / p) ≤ p * (g * q / p) := mul_le_mul_of_nonneg_left (by linarith) hp.le
  rw [mul_div_cancel₀ _ hp.ne'] at h2
  rw [e, mul_add]
  linarith

/-- the objective documented for the entropic branch: with the entropy, or with the KL divergence to `a bᵀ` -/
noncomputable def entObj (entropy : Bool) (a : Fin n → ℝ) (b : Fin m → ℝ) (M : Fin n → Fin m → ℝ) (reg : ℝ) (P : Fin n → Fin m → ℝ) : ℝ :=
  if entropy then entropicObjective M reg P else klObjective M reg (fun i j => a i * b j) P

/-- the reference measure of the entropic branch -/
def entRef (entropy : Bool) (a : Fin n → ℝ) (b : Fin m → ℝ) : Fin n → Fin m → ℝ := if entropy then fun _ _ => 1 else fun i j => a i * b j

theorem value_guard {reg g : ℝ} (hreg : 0 < reg) (hg : 0 ≤ g) (entropy : Bool) {a : Fin n → ℝ} {b : Fin m → ℝ} (ha : ∀ i, 0 < a i) (hb : ∀ j, 0 < b j) (M : Fin n → Fin m → ℝ) {P : Fin n → Fin m → ℝ}
    (hP : ∀ i j, 0 ≤ P i j) (hm : entropy = false → mass P = (∑ i, a i) * ∑ j, b j) :
    entObj entropy a b M reg P ≤ entropicValue g reg entropy a b M P ∧ entropicValue g reg entropy a b M P ≤ entObj entropy a b M reg P + reg * (g * mass (entRef entropy a b)) := by
  have hc : ∑ i, ∑ j, M i j * P i j = cost M P := by unfold cost; simp only [mul_comm]
  have hr : ∀ i j, 0 < entRef entropy a b i j := by
    intro i j; unfold entRef; split_ifs
    · exact one_pos
    · exact mul_pos (ha i) (hb j)
  have e1 : entropicValue g reg entropy a b M P = cost M P + reg * ∑ i, ∑ j, P i j * Real.log (P i j / entRef entropy a b i j + g) := by
    unfold entropicValue entRef
    cases entropy <;> simp [hc, klDiv]
  have e2 : entObj entropy a b M reg P = cost M P + reg * ∑ i, ∑ j, P i j * Real.log (P i j / entRef entropy a b i j) := by
    unfold entObj entRef
    cases entropy
    · have h := hm rfl
      simp only [Bool.false_eq_true, if_false, klObjective, klPlan_eq]
      congr 2
      have : ∑ i, ∑ j, (P i j * Real.log (P i j / (a i * b j)) - P i j + a i * b j) = ∑ i, ∑ j, P i j * Real.log (P i j / (a i * b j)) - mass P + ∑ i, ∑ j, a i * b j := by
        unfold mass; simp only [sum_add_distrib, sum_sub_distrib]
      rw [this, h, ← sum_mul_sum]
      ring
    · simp [entropicObjective]
  rw [e1, e2]
  constructor
  · have : ∑ i, ∑ j, P i j * Real.log (P i j / entRef entropy a b i j) ≤ ∑ i, ∑ j, P i j * Real.log (P i j / entRef entropy a b i j + g) :=
      sum_le_sum fun i _ => sum_le_sum fun j _ => (guard_log (hP i j) (hr i j) hg).1
    nlinarith
  · have : ∑ i, ∑ j, P i j * Real.log (P i j / entRef entropy a b i j + g) ≤ ∑ i, ∑ j, P i j * Real.log (P i j / entRef entropy a b i j) + g * mass (entRef entropy a b) := by
      unfold mass
      rw [mul_sum, ← sum_add_distrib]
      refine sum_le_sum fun i _ => ?_
      rw [mul_sum, ← sum_add_distrib]
      exact sum_le_sum fun j _ => (guard_log (hP i j) (hr i j) hg).2
    nlinarith

/-- `reg_type` of the entropic branch -/
def entArg (entropy : Bool) : RegArg n m := if entropy then .entropy else .kl

theorem solve_entropic (e : Ext n m) (entropy : Bool) (M : Fin n → Fin m → ℝ) (a : Fin n → ℝ) (b : Fin m → ℝ) {reg : ℝ} (hreg : 0 < reg) (c : Option (Fin n → Fin m → ℝ)) (ut : UnbArg) (N : ℕ)
    (pi : Option (Fin n → Fin m → ℝ)) (pot : Option ((Fin n → ℝ) × (Fin m → ℝ))) (tol : ℝ) {grad : Grad} (hg : grad ≠ .lastStep) :
    solve e M (some a) (some b) (some reg) c (entArg entropy) none ut (some (N + 1)) pi pot (some tol) grad = .ok {
      potentials := some ((sinkhornLog a b M reg (N + 1) tol none).s.u, (sinkhornLog a b M reg (N + 1) tol none).s.v)
      value := entropicValue e.guard reg entropy a b M (logPlan M reg (sinkhornLog a b M reg (N + 1) tol none).s)
      valueLinear := ∑ i, ∑ j, M i j * logPlan M reg (sinkhornLog a b M reg (N + 1) tol none).s i j
      plan := logPlan M reg (sinkhornLog a b M reg (N + 1) tol none).s
      status := none
      gradients := if grad = .envelope then some (logPlan M reg (sinkhornLog a b M reg (N + 1) tol none).s,
        (fun i => reg * ((sinkhornLog a b M reg (N + 1) tol none).s.u i - mean (sinkhornLog a b M reg (N + 1) tol none).s.u)),
        fun j => reg * ((sinkhornLog a b M reg (N + 1) tol none).s.v j - mean (sinkhornLog a b M reg (N + 1) tol none).s.v)) else none } := by
  cases entropy <;> simp [solve, entArg, hreg.ne', solveEntropic, hg]

/-- **C85, entropic regularisation (`reg_type` "KL" or "entropy").** For positive weights of equal mass (mass 1 for "KL") the returned plans converge, as `max_iter` grows (no early stop), to the unique minimiser over the couplings
of the documented objective, `value_linear` converges to its linear cost, and `value` to a number that exceeds the minimum by at most what the guard `1e-16` in the logarithm accounts for. -/
theorem C85_entropic (e : Ext n m) (hguard : 0 ≤ e.guard) (entropy : Bool) (M : Fin n → Fin m → ℝ) {a : Fin n → ℝ} {b : Fin m → ℝ} {reg : ℝ} (hreg : 0 < reg) (ha : ∀ i, 0 < a i) (hb : ∀ j, 0 < b j)
    (hS : ∑ i, a i = ∑ j, b j) (h1 : entropy = false → ∑ i, a i = 1) (c : Option (Fin n → Fin m → ℝ)) (ut : UnbArg) (pi : Option (Fin n → Fin m → ℝ)) (pot : Option ((Fin n → ℝ) × (Fin m → ℝ)))
    {grad : Grad} (hg : grad ≠ .lastStep) :
    ∃ (r : ℕ → OTResult n m) (P : Fin n → Fin m → ℝ), (∀ N, solve e M (some a) (some b) (some reg) c (entArg entropy) none ut (some (N + 1)) pi pot (some 0) grad = .ok (r N)) ∧
      IsMinimum (IsCoupling a b) (entObj entropy a b M reg) P ∧ (∀ Q, IsMinimum (IsCoupling a b) (entObj entropy a b M reg) Q → Q = P) ∧
      (∀ i j, Tendsto (fun N => (r N).plan i j) atTop (𝓝 (P i j))) ∧ Tendsto (fun N => (r N).valueLinear) atTop (𝓝 (cost M P)) ∧
      ∃ v, Tendsto (fun N => (r N).value) atTop (𝓝 v) ∧ entObj entropy a b M reg P ≤ v ∧ v ≤ entObj entropy a b M reg P + reg * (e.guard * mass (entRef entropy a b)) := by
  obtain ⟨P, hP, hpos, hlim⟩ := log_converges M hreg ha hb hS
  have hmin : ∀ Q, IsCoupling a b Q → entObj entropy a b M reg P ≤ entObj entropy a b M reg Q ∧ (entObj entropy a b M reg Q ≤ entObj entropy a b M reg P → Q = P) := by
    intro Q hQ
    cases entropy
    · exact C26_kl_regularisation a b M reg ha hb P hP Q hQ
    · exact hP.2 Q hQ
  refine ⟨fun N => _, P, fun N => solve_entropic e entropy M a b hreg c ut N pi pot 0 hg, ⟨hP.1, fun Q hQ => (hmin Q hQ).1⟩, fun Q hQ => (hmin Q hQ.1).2 (hQ.2 P hP.1), hlim, ?_,
    entropicValue e.guard reg entropy a b M P, ?_, ?_⟩
  · have : cost M P = ∑ i, ∑ j, M i j * P i j := by unfold cost; simp only [mul_comm]
    rw [this]
    exact tendsto_finsetSum _ fun i _ => tendsto_finsetSum _ fun j _ => (hlim i j).const_mul _
  · have hl : Tendsto (fun N => ∑ i, ∑ j, M i j * logPlan M reg (sinkhornLog a b M reg (N + 1) 0 none).s i j) atTop (𝓝 (∑ i, ∑ j, M i j * P i j)) :=
      tendsto_finsetSum _ fun i _ => tendsto_finsetSum _ fun j _ => (hlim i j).const_mul _
    cases entropy
    · simp only [entropicValue, Bool.false_eq_true, if_false, klDiv]
      refine hl.add (Tendsto.const_mul _ ?_)
      refine tendsto_finsetSum _ fun i _ => tendsto_finsetSum _ fun j _ => (hlim i j).mul ?_
      refine Tendsto.log (((hlim i j).div_const _).add_const _) ?_
      have := div_pos (hpos i j) (mul_pos (ha i) (hb j))
      positivity
    · simp only [entropicValue, if_true]
      refine hl.add (Tendsto.const_mul _ ?_)
      refine tendsto_finsetSum _ fun i _ => tendsto_finsetSum _ fun j _ => (hlim i j).mul ?_
      refine Tendsto.log ((hlim i j).add_const _) ?_
      have := hpos i j
      positivity
  · refine value_guard hreg hguard entropy ha hb M (fun i j => (hpos i j).le) fun h => ?_
    have : mass P = ∑ i, a i := by unfold mass; exact sum_congr rfl fun i _ => hP.1.row i
    rw [this, ← hS, h1 h, mul_one]

/-- dual value of the scaled potentials -/
theorem dual_gap {I J : Type*} [Fintype I] [Fintype J] {a : I → ℝ} {b : J → ℝ} {M P : I → J → ℝ} {reg : ℝ} (hreg : 0 < reg) (hP : IsCoupling a b P) (hpos : ∀ i j, 0 < P i j) (s : UV I J) :
    entropicDual a b M reg (fun i => reg * s.u i) (fun j => reg * s.v j) = entropicObjective M reg P - reg * ∑ i, a i - reg * klPlan P (logPlan M reg s) := by
  have hl : ∀ i j, Real.exp ((reg * s.u i + reg * s.v j - M i j) / reg) = logPlan M reg s i j := by
    intro i j
    unfold logPlan logT
    congr 1
    field_simp
    ring
  have hk : klPlan P (logPlan M reg s) = ∑ i, ∑ j, P i j * Real.log (P i j) + ∑ i, ∑ j, P i j * M i j / reg - ∑ i, a i * s.u i - ∑ j, b j * s.v j - ∑ i, a i + ∑ i, ∑ j, logPlan M reg s i j := by
    rw [klPlan_eq]
    have e : ∀ i j, P i j * Real.log (P i j / logPlan M reg s i j) - P i j + logPlan M reg s i j
        = P i j * Real.log (P i j) + P i j * M i j / reg - P i j * s.u i - P i j * s.v j - P i j + logPlan M reg s i j := by
      intro i j
      have hq : 0 < logPlan M reg s i j := Real.exp_pos _
      rw [Real.log_div (hpos i j).ne' hq.ne', show Real.log (logPlan M reg s i j) = -M i j / reg + s.u i + s.v j from Real.log_exp _]
      ring
    simp only [e, sum_add_distrib, sum_sub_distrib]
    congr 2
    · congr 1
      · congr 1
        exact sum_congr rfl fun i _ => by rw [← sum_mul, hP.row]
      · rw [sum_comm]
        exact sum_congr rfl fun j _ => by rw [← sum_mul, hP.col]
    · exact sum_congr rfl fun i _ => hP.row i
  unfold entropicDual entropicObjective cost
  simp only [hl]
  rw [hk]
  have e1 : ∑ i, reg * s.u i * a i = reg * ∑ i, a i * s.u i := by rw [mul_sum]; exact sum_congr rfl fun i _ => by ring
  have e2 : ∑ j, reg * s.v j * b j = reg * ∑ j, b j * s.v j := by rw [mul_sum]; exact sum_congr rfl fun i _ => by ring
  have e3 : ∑ i, ∑ j, P i j * M i j / reg = (∑ i, ∑ j, P i j * M i j) / reg := by rw [sum_div]; exact sum_congr rfl fun i _ => by rw [sum_div]
  rw [e1, e2, e3]
  field_simp
  ring

theorem kl_tendsto {I J : Type*} [Fintype I] [Fintype J] {P : I → J → ℝ} (hpos : ∀ i j, 0 < P i j) {x : ℕ → I → J → ℝ} (hlim : ∀ i j, Tendsto (fun N => x N i j) atTop (𝓝 (P i j))) :
    Tendsto (fun N => klPlan P (x N)) atTop (𝓝 0) := by
  have h0 : klPlan P P = 0 := by rw [klPlan_eq]; exact sum_eq_zero fun i _ => sum_eq_zero fun j _ => by rw [div_self (hpos i j).ne', Real.log_one]; ring
  rw [← h0]
  simp only [klPlan_eq]
  refine tendsto_finsetSum _ fun i _ => tendsto_finsetSum _ fun j _ => ?_
  refine (((Tendsto.log (tendsto_const_nhds.div (hlim i j) (hpos i j).ne') ?_).const_mul _).sub_const _).add (hlim i j)
  rw [div_self (hpos i j).ne']
  exact one_ne_zero

/-- **C85, entropic potentials.** The returned potentials multiplied by `reg` become optimal for the dual problem: their dual value converges to its maximum. -/
theorem C85_entropic_potentials (e : Ext n m) (entropy : Bool) (M : Fin n → Fin m → ℝ) {a : Fin n → ℝ} {b : Fin m → ℝ} {reg : ℝ} (hreg : 0 < reg) (ha : ∀ i, 0 < a i) (hb : ∀ j, 0 < b j)
    (hS : ∑ i, a i = ∑ j, b j) (c : Option (Fin n → Fin m → ℝ)) (ut : UnbArg) (pi : Option (Fin n → Fin m → ℝ)) (pot : Option ((Fin n → ℝ) × (Fin m → ℝ))) {grad : Grad} (hg : grad ≠ .lastStep) :
    ∃ (r : ℕ → OTResult n m) (u : ℕ → Fin n → ℝ) (v : ℕ → Fin m → ℝ) (D : ℝ),
      (∀ N, solve e M (some a) (some b) (some reg) c (entArg entropy) none ut (some (N + 1)) pi pot (some 0) grad = .ok (r N) ∧ (r N).potentials = some (u N, v N)) ∧
      (∀ f g, entropicDual a b M reg f g ≤ D) ∧ Tendsto (fun N => entropicDual a b M reg (fun i => reg * u N i) (fun j => reg * v N j)) atTop (𝓝 D) := by
  obtain ⟨P, hP, hpos, hlim⟩ := log_converges M hreg ha hb hS
  refine ⟨fun N => _, fun N => (sinkhornLog a b M reg (N + 1) 0 none).s.u, fun N => (sinkhornLog a b M reg (N + 1) 0 none).s.v, entropicObjective M reg P - reg * ∑ i, a i,
    fun N => ⟨solve_entropic e entropy M a b hreg c ut N pi pot 0 hg, rfl⟩, fun f g => entropic_weak_duality hreg hP.1 f g, ?_⟩
  simp_rw [dual_gap hreg hP.1 hpos]
  have := ((kl_tendsto hpos hlim).const_mul reg).const_sub (entropicObjective M reg P - reg * ∑ i, a i)
  rwa [mul_zero, sub_zero] at this

/-! ### zero costs: one iteration is enough -/

/-- the state of `sinkhorn_log` for zero costs, after any positive number of iterations -/
theorem log_zero {a : Fin n → ℝ} {b : Fin m → ℝ} (ha : ∀ i, 0 < a i) (hb : ∀ j, 0 < b j) (hsa : ∑ i, a i = 1) (hsb : ∑ j, b j = 1) (reg tol : ℝ) (N : ℕ) :
    (sinkhornLog a b (fun _ _ => 0) reg (N + 1) tol none).s = { u := fun i => Real.log (a i) + Real.log n, v := fun j => Real.log (b j) - Real.log n } := by
  have hn : (0 : ℝ) < n := by exact_mod_cast Nat.pos_of_ne_zero (NeZero.ne n)
  have hv : ∑ j, Real.exp (Real.log (b j) - Real.log n) = 1 / n := by
    rw [← hsb, sum_div]; exact sum_congr rfl fun j _ => by rw [Real.exp_sub, Real.exp_log (hb j), Real.exp_log hn]
  have hu : ∑ i, Real.exp (Real.log (a i) + Real.log n) = n := by
    have : ∀ i, Real.exp (Real.log (a i) + Real.log n) = a i * n := fun i => by rw [Real.exp_add, Real.exp_log (ha i), Real.exp_log hn]
    simp only [this, ← sum_mul, hsa, one_mul]
  have step1 : logStep a b (fun _ _ => 0) reg (logInit none) = { u := fun i => Real.log (a i) + Real.log n, v := fun j => Real.log (b j) - Real.log n } := by
    unfold logStep logInit logsumexp
    simp [hv]
  have step2 : logStep a b (fun _ _ => 0) reg { u := fun i => Real.log (a i) + Real.log n, v := fun j => Real.log (b j) - Real.log n } = { u := fun i => Real.log (a i) + Real.log n, v := fun j => Real.log (b j) - Real.log n } := by
    unfold logStep logsumexp
    simp [hu, hv]
  have it : ∀ k, (logStep a b (fun _ _ => 0) reg)^[k + 1] (logInit none) = { u := fun i => Real.log (a i) + Real.log n, v := fun j => Real.log (b j) - Real.log n } := by
    intro k
    induction k with
    | zero => exact step1
    | succ k ih => rw [Function.iterate_succ_apply', ih, step2]
  unfold sinkhornLog
  obtain ⟨k, _, h1, _, _, h4, h5, h6⟩ := loop_spec (step := logStep a b (fun _ _ => 0) reg) (bad := fun _ => False) (stop := fun ii _ s => ii % 10 = 0 ∧ logErr b (fun _ _ => 0) reg s < tol) (N + 1) 0 (logInit none)
  rw [h1]
  rcases he : (loop (logStep a b (fun _ _ => 0) reg) (fun _ => False) (fun ii _ s => ii % 10 = 0 ∧ logErr b (fun _ _ => 0) reg s < tol) (N + 1) 0 (logInit none)).exit with _ | _ | _
  · obtain ⟨l, rfl, _⟩ := h5 he; exact it l
  · rw [h4 he]; exact it N
  · exact absurd (h6 he).2 id

theorem log_zero_plan {a : Fin n → ℝ} {b : Fin m → ℝ} (ha : ∀ i, 0 < a i) (hb : ∀ j, 0 < b j) (hsa : ∑ i, a i = 1) (hsb : ∑ j, b j = 1) (reg tol : ℝ) (N : ℕ) :
    logPlan (fun _ _ => 0) reg (sinkhornLog a b (fun _ _ => 0) reg (N + 1) tol none).s = fun i j => a i * b j := by
  rw [log_zero ha hb hsa hsb]
  funext i j
  unfold logPlan logT
  simp only [neg_zero, zero_div, zero_add]
  rw [show Real.log (a i) + Real.log n + (Real.log (b j) - Real.log n) = Real.log (a i) + Real.log (b j) by ring, Real.exp_add, Real.exp_log (ha i), Real.exp_log (hb j)]

/-- **C85, defect: potentials.** `res.potentials` of the entropic branch are not the dual variables (Lagrange multipliers) of the problem, unless `reg = 1`: in this call, for every iteration limit and tolerance, another pair (the returned
one times `reg`) has a larger dual value. -/
theorem C85_potentials_refuted (e : Ext 2 2) (entropy : Bool) (N : ℕ) (tol : ℝ) : ∃ (r : OTResult 2 2) (u v : Fin 2 → ℝ),
    solve e (fun _ _ => 0) (some fun _ => 1 / 2) (some fun _ => 1 / 2) (some 2) none (entArg entropy) none .kl (some (N + 1)) none none (some tol) .autodiff = .ok r ∧ r.potentials = some (u, v) ∧
    entropicDual (fun _ => 1 / 2) (fun _ => 1 / 2) (fun _ _ => 0) 2 u v < entropicDual (fun _ => 1 / 2) (fun _ => 1 / 2) (fun _ _ => 0) 2 (fun i => 2 * u i) (fun j => 2 * v j) := by
  have hs : ∑ _i : Fin 2, (1 / 2 : ℝ) = 1 := by norm_num [Fin.sum_univ_two]
  refine ⟨_, _, _, solve_entropic e entropy _ _ _ two_pos none .kl N none none tol (by decide), rfl, ?_⟩
  rw [log_zero (fun _ => by norm_num) (fun _ => by norm_num) hs hs]
  have h2 : Real.log (1 / 2) = -Real.log 2 := by rw [one_div, Real.log_inv]
  have hl : Real.log 2 < 0.6931471808 := Real.log_two_lt_d9
  unfold entropicDual
  simp only [Fin.sum_univ_two, Nat.cast_ofNat, h2]
  have e1 : Real.exp ((-Real.log 2 + Real.log 2 + (-Real.log 2 - Real.log 2) - 0) / 2) = 1 / 2 := by
    rw [show (-Real.log 2 + Real.log 2 + (-Real.log 2 - Real.log 2) - 0) / 2 = Real.log (1 / 2) by rw [h2]; ring, Real.exp_log (by norm_num)]
  have e2 : Real.exp ((2 * (-Real.log 2 + Real.log 2) + 2 * (-Real.log 2 - Real.log 2) - 0) / 2) = 1 / 4 := by
    rw [show (2 * (-Real.log 2 + Real.log 2) + 2 * (-Real.log 2 - Real.log 2) - 0) / 2 = Real.log (1 / 2) + Real.log (1 / 2) by rw [h2]; ring, Real.exp_add, Real.exp_log (by norm_num)]; norm_num
  rw [e1, e2]
  linarith

/-- **C85, defect: reference measure.** The parameter `c` is ignored by the balanced branch: with `reg_type="KL"` and this `c` every call returns the independent coupling, which is not a minimiser of the documented objective
`⟨T, M⟩ + reg KL(T | c)`. -/
theorem C85_reference_refuted (e : Ext 2 2) (N : ℕ) (tol : ℝ) : ∃ (r : OTResult 2 2),
    solve e (fun _ _ => 0) (some fun _ => 1 / 2) (some fun _ => 1 / 2) (some 1) (some fun i j => if i = j then 2 else 1) .kl none .kl (some (N + 1)) none none (some tol) .autodiff = .ok r ∧
    ¬ IsMinimum (IsCoupling (fun _ => 1 / 2) (fun _ => 1 / 2)) (klObjective (fun _ _ => 0) 1 fun i j => if i = j then 2 else 1) r.plan := by
  have hs : ∑ _i : Fin 2, (1 / 2 : ℝ) = 1 := by norm_num [Fin.sum_univ_two]
  refine ⟨_, solve_entropic e false _ _ _ one_pos _ .kl N none none tol (by decide), fun h => ?_⟩
  simp only at h
  rw [log_zero_plan (fun _ => by norm_num) (fun _ => by norm_num) hs hs] at h
  have := h.2 (fun i j => if i = j then 1 / 3 else 1 / 6) ⟨fun i j => by split_ifs <;> norm_num, fun i => by fin_cases i <;> norm_num [Fin.sum_univ_two], fun i => by fin_cases i <;> norm_num [Fin.sum_univ_two]⟩
  unfold klObjective cost at this
  simp only [klPlan_eq, Fin.sum_univ_two] at this
  norm_num at this
  have h8 : Real.log (1 / 8) = -3 * Real.log 2 := by rw [one_div, Real.log_inv, show (8 : ℝ) = 2 ^ 3 by norm_num, Real.log_pow]; push_cast; ring
  have h4 : Real.log (1 / 4) = -2 * Real.log 2 := by rw [one_div, Real.log_inv, show (4 : ℝ) = 2 ^ 2 by norm_num, Real.log_pow]; push_cast; ring
  have h6 : Real.log (1 / 6) = -(5 / 2 * Real.log 2 + (Real.log 6 - 5 / 2 * Real.log 2)) := by rw [one_div, Real.log_inv]; ring
  have h36 : 2 * Real.log 6 > 5 * Real.log 2 := by
    have e1 : 2 * Real.log 6 = Real.log 36 := by rw [show (36 : ℝ) = 6 ^ 2 by norm_num, Real.log_pow]; push_cast; ring
    have e2 : 5 * Real.log 2 = Real.log 32 := by rw [show (32 : ℝ) = 2 ^ 5 by norm_num, Real.log_pow]; push_cast; ring
    rw [e1, e2]
    exact Real.log_lt_log (by norm_num) (by norm_num)
  rw [h8, h4, h6] at this
  linarith

/-! ### the other branches -/

/-- **C85, exact transport (`reg` absent or 0, balanced).** For nonnegative weights of equal positive mass and costs in `[0, C]`: the call returns; `value` and `value_linear` are the cost of the returned plan. Either the status is optimal, and then the
plan is a coupling that no other one beats by more than the pivot tolerance accounts for, and the potentials are feasible up to this tolerance and have the same value; or the iteration limit was reached, and the plan is a partial one. -/
theorem C85_exact (e : Ext n m) (he : 0 ≤ e.eps) (he8 : 8 * e.eps ≤ 1) (hf : 0 ≤ e.feps) (ht : 0 < e.massTol) (hturns : 2 ^ (n * m + (n + m)) < e.turns) {M : Fin n → Fin m → ℝ} {C : ℝ} (hM0 : ∀ i j, 0 ≤ M i j)
    (hMC : ∀ i j, M i j ≤ C) {a : Fin n → ℝ} {b : Fin m → ℝ} (ha : ∀ i, 0 ≤ a i) (hb : ∀ j, 0 ≤ b j) (hpa : 0 < ∑ i, a i) (hS : ∑ i, a i = ∑ j, b j) {reg : Option ℝ} (hreg : reg = none ∨ reg = some 0)
    (c : Option (Fin n → Fin m → ℝ)) (rt : RegArg n m) (ut : UnbArg) (mi : Option ℕ) (pi : Option (Fin n → Fin m → ℝ)) (pot : Option ((Fin n → ℝ) × (Fin m → ℝ))) (tol : Option ℝ) (grad : Grad) :
    ∃ r, solve e M (some a) (some b) reg c rt none ut mi pi pot tol grad = .ok r ∧ r.value = r.valueLinear ∧ r.value = cost M r.plan ∧
      (r.status = some .optimal ∧ IsEpsOptimal (e.eps * (2 * (C + 1) * (n + m)) * ∑ i, a i) a b M r.plan ∧
          (∃ u v, r.potentials = some (u, v) ∧ (∀ i j, u i + v j ≤ M i j + e.eps * (2 * (C + 1) * (n + m))) ∧ dualValue a b u v = r.value) ∨
        r.status = some .maxIter ∧ mi ≠ some 0 ∧ IsPartial a b r.plan) := by
  have hr : reg.getD 0 = 0 := by rcases hreg with rfl | rfl <;> rfl
  have hpb : 0 < ∑ j, b j := hS ▸ hpa
  rcases C62_emd_end_to_end true true (tol := e.massTol) (junk := e.junk) he he8 hf hM0 hMC ha hb hpa hpb e.bs (mi.getD 1000000) e.turns e.arcs hturns with ⟨_, h2, _⟩ | ⟨r, hr1, h⟩
  · rw [hS, sub_self, abs_zero] at h2
    exact absurd h2 (not_le.2 ht)
  · rw [rescale_self hpb.ne' hS] at h
    refine ⟨{ potentials := some (r.u, r.v), value := r.cost, valueLinear := r.cost, plan := r.G, status := some r.status, gradients := none }, ?_, rfl, ?_, ?_⟩
    · simp only [solve, hr, if_true, Option.getD_some, hr1]
    · rcases h with ⟨_, h, _⟩ | ⟨_, _, _, h⟩
      · exact h.cost_eq
      · exact h
    · rcases h with ⟨h1, h, _⟩ | ⟨h1, h2, h3, _⟩
      · exact .inl ⟨by rw [h1], h.optimal, r.u, r.v, rfl, h.feasible, h.value_eq.symm⟩
      · exact .inr ⟨by rw [h1], fun h => by rw [h] at h2; exact lt_irrefl _ h2, h3⟩

/-- **C85, general regularisation (`reg_type` a pair of functions).** With an exact linear solver and SciPy's contract for the line search the call returns a coupling, `value` is the objective `⟨T, M⟩ + reg f(T)` of the
returned plan and not larger than at the start, and `value_linear` is its linear part. -/
theorem C85_general (e : Ext n m) {M : Fin n → Fin m → ℝ} {a : Fin n → ℝ} {b : Fin m → ℝ} (hlp : ∀ Mi, IsOptimal a b Mi (e.lp a b Mi)) {c1 : ℝ} (hc1 : 0 ≤ c1) (hs : SearchOk c1 e.search) {reg : ℝ} (hreg : reg ≠ 0)
    (f : (Fin n → Fin m → ℝ) → ℝ) (df : (Fin n → Fin m → ℝ) → Fin n → Fin m → ℝ) (c : Option (Fin n → Fin m → ℝ)) (ut : UnbArg) (mi : Option ℕ) (pi : Option (Fin n → Fin m → ℝ))
    (h0 : IsCoupling a b (pi.getD fun i j => a i * b j)) (pot : Option ((Fin n → ℝ) × (Fin m → ℝ))) (tol : Option ℝ) (grad : Grad) :
    ∃ r, solve e M (some a) (some b) (some reg) c (.general f df) none ut mi pi pot tol grad = .ok r ∧ IsCoupling a b r.plan ∧ r.valueLinear = cost M r.plan ∧
      r.value = cost M r.plan + reg * f r.plan ∧ r.value ≤ cost M (pi.getD fun i j => a i * b j) + reg * f (pi.getD fun i j => a i * b j) := by
  have hc : ∀ G : Fin n → Fin m → ℝ, ∑ i, ∑ j, M i j * G i j = cost M G := fun G => by unfold cost; simp only [mul_comm]
  obtain ⟨s, h1, h2, h3, h4⟩ := Optim.Problem.returned (P := Optim.cgProblem M f df reg (e.lp a b) e.search (mi.getD 1000) (tol.getD (1 / 10 ^ 9)) (1 / 10 ^ 9)) (G0 := pi.getD fun i j => a i * b j) (Inv := IsCoupling a b)
    (obj := fun G => Spec.inner M G + reg * f G) (C36_cg_armijo a b M f df reg c1 hc1 (e.lp a b) hlp e.search hs (mi.getD 1000) (tol.getD (1 / 10 ^ 9)) (1 / 10 ^ 9) (pi.getD fun i j => a i * b j) h0)
  refine ⟨{ potentials := none, value := s.losses.head?.getD 0, valueLinear := ∑ i, ∑ j, M i j * s.G i j, plan := s.G, status := none, gradients := none }, ?_, h2, hc _, ?_, ?_⟩
  · simp only [solve, Option.getD_some, hreg, if_false]
    have h1' : (Optim.cgProblem M f df reg (e.lp a b) e.search (mi.getD 1000) (tol.getD (1 / 10 ^ 9)) (1 / 10 ^ 9)).loop (max 1 (mi.getD 1000)) ((Optim.cgProblem M f df reg (e.lp a b) e.search (mi.getD 1000) (tol.getD (1 / 10 ^ 9)) (1 / 10 ^ 9)).init (pi.getD (Optim.outer a b))) = some s := h1
    rw [h1']
  · simp only [h3, Option.getD_some]
    rw [← hc]; rfl
  · simp only [h3, Option.getD_some]
    rw [← hc]; exact h4

theorem solve_l2 (e : Ext n m) (M : Fin n → Fin m → ℝ) (a : Fin n → ℝ) (b : Fin m → ℝ) {reg : ℝ} (hreg : 0 < reg) (c : Option (Fin n → Fin m → ℝ)) (ut : UnbArg) (mi : ℕ) (pi : Option (Fin n → Fin m → ℝ))
    (pot : Option ((Fin n → ℝ) × (Fin m → ℝ))) (tol : ℝ) (grad : Grad) :
    solve e M (some a) (some b) (some reg) c .l2 none ut (some mi) pi pot (some tol) grad = .ok {
      potentials := some (e.smooth a b M reg mi tol)
      value := squareObjective M reg (Smooth.planFromDual e.oracle .l2 reg (e.smooth a b M reg mi tol).1 (e.smooth a b M reg mi tol).2 M)
      valueLinear := cost M (Smooth.planFromDual e.oracle .l2 reg (e.smooth a b M reg mi tol).1 (e.smooth a b M reg mi tol).2 M)
      plan := Smooth.planFromDual e.oracle .l2 reg (e.smooth a b M reg mi tol).1 (e.smooth a b M reg mi tol).2 M
      status := none
      gradients := none } := by
  have hc : ∀ G : Fin n → Fin m → ℝ, ∑ i, ∑ j, M i j * G i j = cost M G := fun G => by unfold cost; simp only [mul_comm]
  simp only [solve, Option.getD_some, hreg.ne', if_false, hc, squareObjective]

/-- **C85, quadratic regularisation (`reg_type="L2"`).** At a stationary point of the dual the returned plan is the unique minimiser of `⟨T, M⟩ + reg/2 ∑ T²` over the couplings; the reported `value` is `⟨T, M⟩ + reg ∑ T²` at this plan. -/
theorem C85_l2 (e : Ext n m) (ho : e.oracle.Ok) {M : Fin n → Fin m → ℝ} {a : Fin n → ℝ} {b : Fin m → ℝ} {reg : ℝ} (hreg : 0 < reg) (c : Option (Fin n → Fin m → ℝ)) (ut : UnbArg) (mi : ℕ) (pi : Option (Fin n → Fin m → ℝ))
    (pot : Option ((Fin n → ℝ) × (Fin m → ℝ))) (tol : ℝ) (grad : Grad)
    (hα : ∀ i, (Smooth.dualObjGrad e.oracle .l2 reg (e.smooth a b M reg mi tol).1 (e.smooth a b M reg mi tol).2 a b M).2.1 i = 0)
    (hβ : ∀ j, (Smooth.dualObjGrad e.oracle .l2 reg (e.smooth a b M reg mi tol).1 (e.smooth a b M reg mi tol).2 a b M).2.2 j = 0) :
    ∃ r, solve e M (some a) (some b) (some reg) c .l2 none ut (some mi) pi pot (some tol) grad = .ok r ∧
      IsMinimum (IsCoupling a b) (squareObjective M (reg / 2)) r.plan ∧ (∀ Q, IsMinimum (IsCoupling a b) (squareObjective M (reg / 2)) Q → Q = r.plan) ∧
      r.valueLinear = cost M r.plan ∧ r.value = squareObjective M reg r.plan := by
  have ho2 : ∀ G : Fin n → Fin m → ℝ, regObjective .l2 reg M G = squareObjective M (reg / 2) G := fun G => by
    unfold regObjective squareObjective omega
    rw [← mul_sum, sum_comm]
  obtain ⟨⟨h1, h2⟩, h3, _⟩ := C52_stationary e.oracle ho .l2 trivial reg hreg a b M _ _ hα hβ
  have hadm : ∀ Q, IsCoupling a b Q → RegCoupling .l2 a b Q := fun Q hQ => ⟨hQ, fun j => ⟨fun i => hQ.nonneg i j, trivial⟩⟩
  refine ⟨_, solve_l2 e M a b hreg c ut mi pi pot tol grad, ⟨h1.1, fun Q hQ => ?_⟩, fun Q hQ => ?_, rfl, rfl⟩
  · rw [← ho2, ← ho2]; exact h2 Q (hadm Q hQ)
  · refine h3 (fun k hk => by cases hk) Q (hadm Q hQ.1) ?_
    rw [ho2, ho2]; exact hQ.2 _ h1.1

/-- **C85, defect: quadratic regularisation.** Although the optimiser has found a stationary point, so that the plan is optimal for `⟨T, M⟩ + reg/2 ∑ T²`, the `value` of this call is neither the minimum of this objective, nor the minimum of
`⟨T, M⟩ + reg ∑ T²` (another coupling has a smaller value). -/
theorem C85_l2_refuted (e : Ext 2 2) (hsm : ∀ a b M reg mi tol, e.smooth a b M reg mi tol = (fun _ => 3 / 4, fun _ => 3 / 4)) (ho : e.oracle.Ok) (mi : ℕ) (tol : ℝ) : ∃ (r : OTResult 2 2) (Q : Fin 2 → Fin 2 → ℝ),
    solve e (fun i j => if i = j then 0 else 1) (some fun _ => 1 / 2) (some fun _ => 1 / 2) (some 4) none .l2 none .kl (some mi) none none (some tol) .autodiff = .ok r ∧
    IsMinimum (IsCoupling (fun _ => 1 / 2) (fun _ => 1 / 2)) (squareObjective (fun i j => if i = j then 0 else 1) (4 / 2)) r.plan ∧
    squareObjective (fun i j => if i = j then 0 else 1) (4 / 2) r.plan < r.value ∧
    IsCoupling (fun _ => 1 / 2) (fun _ => 1 / 2) Q ∧ squareObjective (fun i j => if i = j then 0 else 1) 4 Q < r.value := by
  obtain ⟨r, h1, h2, _, h4, h5⟩ := C85_l2 e ho (M := fun i j => if i = j then 0 else 1) (a := fun _ => 1 / 2) (b := fun _ => 1 / 2) (reg := 4) (by norm_num) none .kl mi none none tol .autodiff
    (fun i => by rw [hsm]; fin_cases i <;> simp [Smooth.dualObjGrad, Smooth.deltaOmega, Fin.sum_univ_two] <;> norm_num)
    (fun j => by rw [hsm]; fin_cases j <;> simp [Smooth.dualObjGrad, Smooth.deltaOmega, Fin.sum_univ_two] <;> norm_num)
  have hp : r.plan = fun i j => if i = j then 3 / 8 else 1 / 8 := by
    rw [solve_l2 e _ _ _ (by norm_num)] at h1
    obtain rfl := Outcome.ok.inj h1
    simp only [hsm]
    funext i j
    fin_cases i <;> fin_cases j <;> simp [Smooth.planFromDual, Smooth.deltaOmega] <;> norm_num
  refine ⟨r, fun i j => if i = j then 5 / 16 else 3 / 16, h1, h2, ?_, ⟨fun i j => by split_ifs <;> norm_num, fun i => by fin_cases i <;> norm_num [Fin.sum_univ_two], fun i => by fin_cases i <;> norm_num [Fin.sum_univ_two]⟩, ?_⟩
  · rw [h5, hp]; unfold squareObjective cost; norm_num [Fin.sum_univ_two]
  · rw [h5, hp]; unfold squareObjective cost; norm_num [Fin.sum_univ_two]

/-- **C85, unbalanced without regularisation, `unbalanced_type="KL"`.** Up to any `ε` the call reaches the value of every competing plan, for small tolerances and enough iterations; `value` is the objective
`⟨T, M⟩ + ρ₁ KL(T 1 | a) + ρ₂ KL(Tᵀ 1 | b)` of the returned plan and `value_linear` its linear part. -/
theorem C85_unbalanced_exact_kl (e : Ext n m) (hguard : e.guard = 0) {M : Fin n → Fin m → ℝ} {a : Fin n → ℝ} {b : Fin m → ℝ} (ha : ∀ i, 0 < a i) (hb : ∀ j, 0 < b j) {reg : Option ℝ} (hreg : reg = none ∨ reg = some 0)
    {ρ₁ ρ₂ : ℝ} (h1 : 0 < ρ₁) (h2 : 0 ≤ ρ₂) (c : Option (Fin n → Fin m → ℝ)) (hc : ∀ C, c = some C → ∀ i j, 0 < C i j) (rt : RegArg n m) (pi : Option (Fin n → Fin m → ℝ)) (hpi : ∀ G, pi = some G → ∀ i j, 0 < G i j)
    (pot : Option ((Fin n → ℝ) × (Fin m → ℝ))) (grad : Grad) (P : Fin n → Fin m → ℝ) (hP : ∀ i j, 0 ≤ P i j) :
    ∀ ε > 0, ∃ thr₀ > 0, ∀ thr, 0 < thr → thr ≤ thr₀ → ∃ N, ∀ k ≥ N, ∃ r,
      solve e M (some a) (some b) reg c rt (some (some ρ₁, some ρ₂)) .kl (some k) pi pot (some thr) grad = .ok r ∧ (∀ i j, 0 ≤ r.plan i j) ∧ r.valueLinear = cost M r.plan ∧
      r.value = cost M r.plan + ρ₁ * klDivergence (fun i => ∑ j, r.plan i j) a + ρ₂ * klDivergence (fun j => ∑ i, r.plan i j) b ∧
      r.value < cost M P + ρ₁ * klDivergence (fun i => ∑ j, P i j) a + ρ₂ * klDivergence (fun j => ∑ i, P i j) b + ε := by
  have hr : reg.getD 0 = 0 := by rcases hreg with rfl | rfl <;> rfl
  have hobj : ∀ (C Q : Fin n → Fin m → ℝ), unbObjective a b M 0 C (some ρ₁) (some ρ₂) Q = cost M Q + ρ₁ * klDivergence (fun i => ∑ j, Q i j) a + ρ₂ * klDivergence (fun j => ∑ i, Q i j) b := by
    intro C Q; unfold unbObjective marginalTerm; ring
  intro ε hε
  obtain ⟨t, ht, h⟩ := C48_kl_call_unregularised a b M (some (c.getD fun i j => a i * b j)) ρ₁ ρ₂ pi h1 h2 ha hb hpi P hP ε hε
  refine ⟨t, ht, fun thr h3 h4 => ?_⟩
  obtain ⟨N, hN⟩ := h thr h3 h4
  refine ⟨N, fun k hk => ?_⟩
  obtain ⟨_, h5, h6⟩ := hN k hk
  have hcpos : ∀ C, some (c.getD fun i j => a i * b j) = some C → ∀ i j, 0 < C i j := by
    intro C hC i j
    obtain rfl := Option.some.inj hC
    cases c with
    | none => exact mul_pos (ha i) (hb j)
    | some C => exact hc C rfl i j
  obtain ⟨_, h7, h8⟩ := C48_total_cost a b M (some (c.getD fun i j => a i * b j)) 0 ρ₁ ρ₂ 0 (Mm.mm 0 true a b M 0 (some (c.getD fun i j => a i * b j)) ρ₁ ρ₂ pi k thr).s le_rfl h1.le h2 le_rfl ha hb hcpos fun i j => (h5 i j).le
  rw [zero_mul, add_zero] at h8
  refine ⟨_, by simp only [solve, hr, if_true, Option.getD_some, hguard, true_or, decide_true]; exact rfl, fun i j => (h5 i j).le, rfl, ?_, ?_⟩
  · simp only
    rw [le_antisymm h8 h7, hobj]
  · simp only
    rw [le_antisymm h8 h7, hobj]
    rw [hobj, hobj] at h6
    exact h6

/-- **C85, unbalanced without regularisation, `unbalanced_type="L2"`.** The same with the penalties `ρ/2 ‖·‖²`; the guard of the division shifts the costs. -/
theorem C85_unbalanced_exact_l2 (e : Ext n m) (hguard : 0 ≤ e.guard) {M : Fin n → Fin m → ℝ} {a : Fin n → ℝ} {b : Fin m → ℝ} (ha : ∀ i, 0 < a i) (hb : ∀ j, 0 < b j) {reg : Option ℝ} (hreg : reg = none ∨ reg = some 0)
    {ρ₁ ρ₂ : ℝ} (h1 : 0 ≤ ρ₁) (h2 : 0 ≤ ρ₂) (hs : 0 < ρ₁ + ρ₂) (c : Option (Fin n → Fin m → ℝ)) (hc : ∀ C, c = some C → ∀ i j, 0 < C i j) (rt : RegArg n m) (pi : Option (Fin n → Fin m → ℝ))
    (hpi : ∀ G, pi = some G → ∀ i j, 0 < G i j) (pot : Option ((Fin n → ℝ) × (Fin m → ℝ))) (grad : Grad) (P : Fin n → Fin m → ℝ) (hP : ∀ i j, 0 ≤ P i j) :
    ∀ ε > 0, ∃ thr₀ > 0, ∀ thr, 0 < thr → thr ≤ thr₀ → ∃ N, ∀ k ≥ N, ∃ r,
      solve e M (some a) (some b) reg c rt (some (some ρ₁, some ρ₂)) .l2 (some k) pi pot (some thr) grad = .ok r ∧ (∀ i j, 0 ≤ r.plan i j) ∧ r.valueLinear = cost M r.plan ∧
      r.value = cost M r.plan + ρ₁ * (1 / 2 * ∑ i, (∑ j, r.plan i j - a i) ^ 2) + ρ₂ * (1 / 2 * ∑ j, (∑ i, r.plan i j - b j) ^ 2) ∧
      r.value + e.guard * mass r.plan < cost M P + ρ₁ * (1 / 2 * ∑ i, (∑ j, P i j - a i) ^ 2) + ρ₂ * (1 / 2 * ∑ j, (∑ i, P i j - b j) ^ 2) + e.guard * mass P + ε := by
  have hr : reg.getD 0 = 0 := by rcases hreg with rfl | rfl <;> rfl
  have hobj : ∀ (M C Q : Fin n → Fin m → ℝ), unbObjectiveL2 a b M 0 C ρ₁ ρ₂ Q = cost M Q + ρ₁ * (1 / 2 * ∑ i, (∑ j, Q i j - a i) ^ 2) + ρ₂ * (1 / 2 * ∑ j, (∑ i, Q i j - b j) ^ 2) := by
    intro M C Q; unfold unbObjectiveL2 l2Divergence; ring
  have hshift : ∀ Q : Fin n → Fin m → ℝ, cost (fun i j => M i j + e.guard) Q = cost M Q + e.guard * mass Q := by
    intro Q; unfold cost mass; simp only [mul_add, sum_add_distrib]; congr 1
    rw [mul_sum]; exact sum_congr rfl fun i _ => by rw [mul_sum]; exact sum_congr rfl fun j _ => mul_comm _ _
  intro ε hε
  obtain ⟨t, ht, h⟩ := C48_l2_call a b M (some (c.getD fun i j => a i * b j)) 0 ρ₁ ρ₂ e.guard pi (by linarith) le_rfl h1 h2 hguard ha hb hpi P hP ε hε
  refine ⟨t, ht, fun thr h3 h4 => ?_⟩
  obtain ⟨N, hN⟩ := h thr h3 h4
  refine ⟨N, fun k hk => ?_⟩
  obtain ⟨_, h5, h6⟩ := hN k hk
  have hcpos : ∀ C, some (c.getD fun i j => a i * b j) = some C → ∀ i j, 0 < C i j := by
    intro C hC i j
    obtain rfl := Option.some.inj hC
    cases c with
    | none => exact mul_pos (ha i) (hb j)
    | some C => exact hc C rfl i j
  obtain ⟨h7, _, _⟩ := C48_total_cost a b M (some (c.getD fun i j => a i * b j)) 0 ρ₁ ρ₂ e.guard (Mm.mm e.guard false a b M 0 (some (c.getD fun i j => a i * b j)) ρ₁ ρ₂ pi k thr).s le_rfl h1 h2 hguard ha hb hcpos h5
  refine ⟨_, by simp only [solve, hr, if_true, Option.getD_some, or_true, reduceCtorEq, decide_false]; exact rfl, h5, rfl, ?_, ?_⟩
  · simp only
    rw [h7, hobj]
  · simp only
    rw [h7, hobj]
    rw [hobj, hobj, hshift, hshift] at h6
    linarith

/-- **C85, unbalanced with `reg_type="KL"`, `unbalanced_type="KL"`.** The returned plan approaches the unique minimiser of `⟨T, M⟩ + reg KL(T | c) + ρ₁ KL(T 1 | a) + ρ₂ KL(Tᵀ 1 | b)`, with the reference measure `c` of the call. -/
theorem C85_unbalanced_kl (e : Ext n m) {M : Fin n → Fin m → ℝ} {a : Fin n → ℝ} {b : Fin m → ℝ} (ha : ∀ i, 0 < a i) (hb : ∀ j, 0 < b j) {reg : ℝ} (hreg : 0 < reg) {ρ₁ ρ₂ : Option ℝ} (h1 : ∀ r, ρ₁ = some r → 0 ≤ r)
    (h2 : ∀ r, ρ₂ = some r → 0 ≤ r) (hfin : ρ₁ ≠ none ∨ ρ₂ ≠ none) (c : Option (Fin n → Fin m → ℝ)) (hc : ∀ C, c = some C → ∀ i j, 0 < C i j) (pi : Option (Fin n → Fin m → ℝ)) (pot : Option ((Fin n → ℝ) × (Fin m → ℝ)))
    (grad : Grad) : ∃ P, IsUnbOptimal a b M reg (c.getD fun i j => a i * b j) ρ₁ ρ₂ P ∧ ∀ ε > 0, ∃ thr₀ > 0, ∀ thr, 0 < thr → thr ≤ thr₀ → ∃ N, ∀ k ≥ N, ∃ r,
      solve e M (some a) (some b) (some reg) c .kl (some (ρ₁, ρ₂)) .kl (some k) pi pot (some thr) grad = .ok r ∧ (∀ i j, |r.plan i j - P i j| < ε) ∧ r.valueLinear = cost M r.plan := by
  have hcpos : ∀ C, some (c.getD fun i j => a i * b j) = some C → ∀ i j, 0 < C i j := by
    intro C hC i j
    obtain rfl := Option.some.inj hC
    cases c with
    | none => exact mul_pos (ha i) (hb j)
    | some C => exact hc C rfl i j
  obtain ⟨_, P, hP, h⟩ := C49_call a b M reg ρ₁ ρ₂ false (some (c.getD fun i j => a i * b j)) pot hreg h1 h2 hfin ha hb hcpos
  refine ⟨P, by simpa using hP, fun ε hε => ?_⟩
  obtain ⟨t, ht, h⟩ := h ε hε
  refine ⟨t, ht, fun thr h3 h4 => ?_⟩
  obtain ⟨N, hN⟩ := h thr h3 h4
  exact ⟨N, fun k hk => ⟨_, by simp only [solve, Option.getD_some, hreg.ne', if_false]; exact rfl, (hN k hk).2, rfl⟩⟩

/-- **C85, defect: value of the regularised unbalanced problem.** In this call (any number of iterations, any tolerance) the returned plan is the minimiser, `value` is 0, and the minimum of the objective is `e - 1`. -/
theorem C85_unbalanced_value_refuted (e : Ext 2 2) (hguard : e.guard = 0) (k : ℕ) (tol : ℝ) : ∃ r : OTResult 2 2,
    solve e (fun _ _ => 1) (some fun _ => 1 / 2) (some fun _ => 1 / 2) (some 1) (some fun _ _ => Real.exp 1 / 4) .kl (some (some 1, some 1)) .kl (some k) none none (some tol) .autodiff = .ok r ∧
    IsUnbOptimal (fun _ => 1 / 2) (fun _ => 1 / 2) (fun _ _ => 1) 1 (fun _ _ => Real.exp 1 / 4) (some 1) (some 1) r.plan ∧ r.value = 0 ∧
    unbObjective (fun _ => 1 / 2) (fun _ => 1 / 2) (fun _ _ => 1) 1 (fun _ _ => Real.exp 1 / 4) (some 1) (some 1) r.plan = Real.exp 1 - 1 := by
  have hK : Unbalanced.unbKernel (fun _ _ => 1) 1 (Unbalanced.reference (fun _ : Fin 2 => 1 / 2) (fun _ : Fin 2 => 1 / 2) false (some fun _ _ => Real.exp 1 / 4)) = fun _ _ => 1 / 4 := by
    funext i j
    simp only [Unbalanced.unbKernel, Unbalanced.reference, Bool.false_eq_true, if_false, Option.getD_some, div_one]
    rw [← mul_div_assoc, ← Real.exp_add]; norm_num
  have hfix : Unbalanced.unbStep (fun _ : Fin 2 => (1 / 2 : ℝ)) (fun _ : Fin 2 => 1 / 2) (fun _ _ => 1 / 4) (Unbalanced.fi 1 (some 1)) (Unbalanced.fi 1 (some 1)) { u := fun _ => 1, v := fun _ => 1 } = { u := fun _ => 1, v := fun _ => 1 } := by
    simp only [Unbalanced.unbStep, Unbalanced.kv, Unbalanced.ktu, Fin.sum_univ_two]
    norm_num
  have hs : (Unbalanced.sinkhornUnb (fun _ : Fin 2 => 1 / 2) (fun _ : Fin 2 => 1 / 2) (fun _ _ => 1) 1 (some 1) (some 1) false (some fun _ _ => Real.exp 1 / 4) none k tol).s = { u := fun _ => 1, v := fun _ => 1 } := by
    unfold Unbalanced.sinkhornUnb
    simp only [hK]
    obtain ⟨l, _, h, _⟩ := loop_spec (step := Unbalanced.unbStep (fun _ : Fin 2 => (1 / 2 : ℝ)) (fun _ : Fin 2 => 1 / 2) (fun _ _ => 1 / 4) (Unbalanced.fi 1 (some 1)) (Unbalanced.fi 1 (some 1)))
      (bad := Unbalanced.unbBad (fun _ => 1 / 2) (fun _ _ => 1 / 4) (Unbalanced.fi 1 (some 1))) (stop := fun _ s t => Unbalanced.unbErr s t < tol) k 0 (Unbalanced.unbInit none)
    rw [h]
    exact Function.iterate_fixed hfix l
  have hp : Unbalanced.sinkhornUnbPlan (fun _ : Fin 2 => 1 / 2) (fun _ : Fin 2 => 1 / 2) (fun _ _ => 1) 1 (some 1) (some 1) false (some fun _ _ => Real.exp 1 / 4) none k tol = fun _ _ => 1 / 4 := by
    unfold Unbalanced.sinkhornUnbPlan
    rw [hs, hK]
    funext i j; simp [plan]
  have hl : Real.log (1 / 4 / (Real.exp 1 / 4)) = -1 := by
    rw [div_div_div_cancel_right₀ (by norm_num), Real.log_div one_ne_zero (Real.exp_ne_zero _), Real.log_one, Real.log_exp]; ring
  refine ⟨_, by simp only [solve, Option.getD_some, one_ne_zero, if_false, hp]; exact rfl, ?_, ?_, ?_⟩
  · have := C49_fixed_point_optimal (fun _ : Fin 2 => 1 / 2) (fun _ : Fin 2 => 1 / 2) (fun _ _ => 1) 1 (fun _ _ => Real.exp 1 / 4) (some 1) (some 1) one_pos (by simp) (by simp) (by norm_num) (by norm_num) (fun _ _ => by positivity)
      { u := fun _ => 1, v := fun _ => 1 } (fun _ => one_pos) (by
        have hK' : Unbalanced.unbKernel (fun _ _ => 1) 1 (fun (_ _ : Fin 2) => Real.exp 1 / 4) = fun _ _ => 1 / 4 := hK
        rw [hK']; exact hfix)
    have hK' : Unbalanced.unbKernel (fun _ _ => 1) 1 (fun (_ _ : Fin 2) => Real.exp 1 / 4) = fun _ _ => 1 / 4 := hK
    rw [hK'] at this
    have e1 : plan (fun (_ _ : Fin 2) => (1 / 4 : ℝ)) { u := fun _ => 1, v := fun _ => 1 } = fun _ _ => 1 / 4 := by funext i j; simp [plan]
    rw [e1] at this
    exact this
  · simp only [Unbalanced.totalCost, Unbalanced.klDivNoMass, hguard, Fintype.sum_prod_type, Fin.sum_univ_two, add_zero, hl]
    norm_num
  · simp only [unbObjective, cost, klPlan_eq, marginalTerm, klDivergence, Fin.sum_univ_two, hl]
    norm_num
    ring

/-- **C85, unsupported combinations.** `NotImplementedError` is raised exactly for an unknown penalty type of an unbalanced problem, and for an unknown regularisation type of a regularised problem. -/
theorem C85_not_implemented (e : Ext n m) (M : Fin n → Fin m → ℝ) (a : Option (Fin n → ℝ)) (b : Option (Fin m → ℝ)) (reg : Option ℝ) (c : Option (Fin n → Fin m → ℝ)) (rt : RegArg n m) (unb : Option (Option ℝ × Option ℝ))
    (ut : UnbArg) (mi : Option ℕ) (pi : Option (Fin n → Fin m → ℝ)) (pot : Option ((Fin n → ℝ) × (Fin m → ℝ))) (tol : Option ℝ) (grad : Grad) :
    solve e M a b reg c rt unb ut mi pi pot tol grad = .notImplemented ↔ (unb ≠ none ∧ ut = .other) ∨ (reg.getD 0 ≠ 0 ∧ rt = .other) := by
  by_cases hr : reg.getD 0 = 0
  · cases unb with
    | none =>
      simp only [solve, hr, if_true, ne_eq, not_true_eq_false, false_and, or_self, iff_false]
      split <;> simp
    | some ρ =>
      obtain ⟨ρ₁, ρ₂⟩ := ρ
      cases ut <;> cases ρ₁ <;> cases ρ₂ <;> simp [solve, hr]
  · cases unb with
    | none =>
      cases rt
      case general f df =>
        simp only [solve, hr, if_false]
        split <;> simp
      all_goals simp [solve, hr, solveEntropic]
      all_goals split_ifs <;> first | simp | (split <;> simp)
    | some ρ => cases rt <;> cases ut <;> simp [solve, hr]

/-- **C85, default weights.** Without weights the call is the one with uniform weights of mass 1. -/
theorem C85_default_weights (e : Ext n m) (M : Fin n → Fin m → ℝ) (reg : Option ℝ) (c : Option (Fin n → Fin m → ℝ)) (rt : RegArg n m) (unb : Option (Option ℝ × Option ℝ))
    (ut : UnbArg) (mi : Option ℕ) (pi : Option (Fin n → Fin m → ℝ)) (pot : Option ((Fin n → ℝ) × (Fin m → ℝ))) (tol : Option ℝ) (grad : Grad) : ∃ (a : Fin n → ℝ) (b : Fin m → ℝ),
    (∀ i i', a i = a i') ∧ (∀ j j', b j = b j') ∧ ∑ i, a i = 1 ∧ ∑ j, b j = 1 ∧
    solve e M none none reg c rt unb ut mi pi pot tol grad = solve e M (some a) (some b) reg c rt unb ut mi pi pot tol grad :=
  ⟨fun _ => 1 / n, fun _ => 1 / m, fun _ _ => rfl, fun _ _ => rfl, by simp [NeZero.ne n], by simp [NeZero.ne m], rfl⟩

/-! ### envelope gradients -/

/-- **C86, `reg_type="entropy"`.** With `grad="envelope"` the gradient attached for `M` converges to the optimal plan, which is a supergradient of the optimal value as a function of the costs; the gradients for `a` and `b` become
subgradients of the optimal value as a function of the weights (of the same mass): up to any `ε`, the value at all other weights lies above the linear function they define. -/
theorem C86_entropy (e : Ext n m) (M : Fin n → Fin m → ℝ) {a : Fin n → ℝ} {b : Fin m → ℝ} {reg : ℝ} (hreg : 0 < reg) (ha : ∀ i, 0 < a i) (hb : ∀ j, 0 < b j)
    (hS : ∑ i, a i = ∑ j, b j) (c : Option (Fin n → Fin m → ℝ)) (ut : UnbArg) (pi : Option (Fin n → Fin m → ℝ)) (pot : Option ((Fin n → ℝ) × (Fin m → ℝ))) :
    ∃ (r : ℕ → OTResult n m) (gM : ℕ → Fin n → Fin m → ℝ) (ga : ℕ → Fin n → ℝ) (gb : ℕ → Fin m → ℝ) (P : Fin n → Fin m → ℝ),
      (∀ N, solve e M (some a) (some b) (some reg) c .entropy none ut (some (N + 1)) pi pot (some 0) .envelope = .ok (r N) ∧ (r N).gradients = some (gM N, ga N, gb N)) ∧
      IsMinimum (IsCoupling a b) (entropicObjective M reg) P ∧ (∀ i j, Tendsto (fun N => gM N i j) atTop (𝓝 (P i j))) ∧
      (∀ M' P', IsMinimum (IsCoupling a b) (entropicObjective M' reg) P' → entropicObjective M' reg P' ≤ entropicObjective M reg P + ∑ i, ∑ j, P i j * (M' i j - M i j)) ∧
      ∀ ε > 0, ∃ N₀, ∀ N ≥ N₀, ∀ a' b' Q, ∑ i, a' i = ∑ i, a i → IsCoupling a' b' Q →
        entropicObjective M reg P + ∑ i, ga N i * (a' i - a i) + ∑ j, gb N j * (b' j - b j) - ε ≤ entropicObjective M reg Q := by
  obtain ⟨P, hP, hpos, hlim⟩ := log_converges M hreg ha hb hS
  refine ⟨fun N => _, _, _, _, P, fun N => ⟨solve_entropic e true M a b hreg c ut N pi pot 0 (by decide), rfl⟩, ⟨hP.1, fun Q hQ => (hP.2 Q hQ).1⟩, hlim, fun M' P' h' => ?_, fun ε hε => ?_⟩
  · refine (h'.2 P hP.1).trans (le_of_eq ?_)
    unfold entropicObjective cost
    simp only [mul_sub, sum_sub_distrib]
    ring
  · have hk := ((kl_tendsto hpos hlim).const_mul reg)
    rw [mul_zero] at hk
    obtain ⟨N₀, hN₀⟩ := eventually_atTop.1 (hk.eventually (gt_mem_nhds hε))
    refine ⟨N₀, fun N hN a' b' Q hm hQ => ?_⟩
    have h1 := dual_gap hreg hP.1 hpos (sinkhornLog a b M reg (N + 1) 0 none).s (M := M)
    have h2 := entropic_weak_duality (M := M) hreg hQ (fun i => reg * (sinkhornLog a b M reg (N + 1) 0 none).s.u i) (fun j => reg * (sinkhornLog a b M reg (N + 1) 0 none).s.v j)
    have h3 := hN₀ N hN
    obtain ⟨s, hs⟩ : ∃ s, s = (sinkhornLog a b M reg (N + 1) 0 none).s := ⟨_, rfl⟩
    simp only [← hs] at h1 h2 h3 ⊢
    have hbm : ∑ j, b' j = ∑ j, b j := by
      rw [← hS, ← hm, show ∑ i, a' i = ∑ i, ∑ j, Q i j from sum_congr rfl fun i _ => (hQ.row i).symm, sum_comm]
      exact sum_congr rfl fun j _ => (hQ.col j).symm
    have e1 : ∑ i, reg * (s.u i - mean s.u) * (a' i - a i) = ∑ i, reg * s.u i * a' i - ∑ i, reg * s.u i * a i := by
      have : ∀ i, reg * (s.u i - mean s.u) * (a' i - a i) = reg * s.u i * a' i - reg * s.u i * a i - (reg * mean s.u) * a' i + (reg * mean s.u) * a i := fun i => by ring
      simp only [this, sum_add_distrib, sum_sub_distrib, ← mul_sum, hm]
      ring
    have e2 : ∑ j, reg * (s.v j - mean s.v) * (b' j - b j) = ∑ j, reg * s.v j * b' j - ∑ j, reg * s.v j * b j := by
      have : ∀ j, reg * (s.v j - mean s.v) * (b' j - b j) = reg * s.v j * b' j - reg * s.v j * b j - (reg * mean s.v) * b' j + (reg * mean s.v) * b j := fun i => by ring
      simp only [this, sum_add_distrib, sum_sub_distrib, ← mul_sum, hbm]
      ring
    rw [e1, e2]
    unfold entropicDual at h1 h2
    rw [hm] at h2
    linarith

/-- **C86, defect: `reg_type="KL"` (the default).** For zero costs the optimal value is 0 whatever the weights, so its derivative in every direction that keeps the mass is 0; but the gradient attached for `a` by this call is not 0 in the direction
`(1, -1)`: the dependence of the reference measure `a bᵀ` on the weights is forgotten. -/
theorem C86_kl_refuted (e : Ext 2 2) (N : ℕ) (tol : ℝ) :
    (∀ a b : Fin 2 → ℝ, (∀ i, 0 < a i) → (∀ j, 0 < b j) → ∑ i, a i = 1 → ∑ j, b j = 1 → ∃ P, IsMinimum (IsCoupling a b) (klObjective (fun _ _ => 0) 1 fun i j => a i * b j) P ∧ klObjective (fun _ _ => 0) 1 (fun i j => a i * b j) P = 0) ∧
    ∃ (r : OTResult 2 2) (gM : Fin 2 → Fin 2 → ℝ) (ga gb : Fin 2 → ℝ),
      solve e (fun _ _ => 0) (some fun i => if i = 0 then 1 / 4 else 3 / 4) (some fun _ => 1 / 2) (some 1) none .kl none .kl (some (N + 1)) none none (some tol) .envelope = .ok r ∧
      r.gradients = some (gM, ga, gb) ∧ ga 0 * 1 + ga 1 * (-1) ≠ 0 := by
  constructor
  · intro a b ha hb hsa hsb
    have hp : ∀ i j, 0 < a i * b j := fun i j => mul_pos (ha i) (hb j)
    have hz : klObjective (fun _ _ => 0) 1 (fun i j => a i * b j) (fun i j => a i * b j) = 0 := by
      have : ∀ i j, Real.log (a i * b j / (a i * b j)) = 0 := fun i j => by rw [div_self (hp i j).ne', Real.log_one]
      unfold klObjective cost
      rw [klPlan_eq]
      simp [this]
    refine ⟨fun i j => a i * b j, ⟨⟨fun i j => (hp i j).le, fun i => by rw [← mul_sum, hsb, mul_one], fun j => by rw [← sum_mul, hsa, one_mul]⟩, fun Q hQ => ?_⟩, hz⟩
    rw [hz]
    have := klPlan_nonneg hQ.nonneg hp
    unfold klObjective cost
    simp only [mul_zero, sum_const_zero, one_mul, zero_add]
    exact this
  · refine ⟨_, _, _, _, solve_entropic e false _ _ _ one_pos none .kl N none none tol (by decide), rfl, ?_⟩
    rw [log_zero (fun i => by split_ifs <;> norm_num) (fun _ => by norm_num) (by norm_num [Fin.sum_univ_two]) (by norm_num [Fin.sum_univ_two])]
    simp only [if_true, one_ne_zero, if_false]
    have h : Real.log (1 / 4) < Real.log (3 / 4) := Real.log_lt_log (by norm_num) (by norm_num)
    intro h0
    linarith

/-! ### the hypotheses are met -/

/-- an environment: exact linear solver, line search that tries the full step, optimiser that returns `(3/4, 3/4)` -/
noncomputable def exExt (n m : ℕ) : Ext n m where
  junk := 0
  eps := 1 / 10 ^ 16
  feps := 1 / 10 ^ 8
  bs := 10
  turns := 2 ^ (n * m + (n + m)) + 1
  arcs := fun _ => []
  massTol := 1 / 10 ^ 6
  search := fun phi phi0 _ => if phi 1 ≤ phi0 then some (1, phi 1) else none
  lp := exactEmd
  oracle := exOracle n
  smooth := fun _ _ _ _ _ _ => (fun _ => 3 / 4, fun _ => 3 / 4)
  lbfgs := (fun _ _ => 0, 0, 0)
  guard := 0

/-- exact transport between two points and three points -/
example : ∃ r, solve (exExt 2 3) (fun i j => if j = 0 then i else 1) (some fun _ => 1 / 2) (some fun _ => 1 / 3) none none .kl none .kl none none none none .autodiff = .ok r ∧ r.value = cost (fun (i : Fin 2) (j : Fin 3) => if j = 0 then ((i : ℕ) : ℝ) else 1) r.plan := by
  obtain ⟨r, h, _, h2, _⟩ := C85_exact (exExt 2 3) (by norm_num [exExt]) (by norm_num [exExt]) (by norm_num [exExt]) (by norm_num [exExt]) (by norm_num [exExt]) (M := fun i j => if j = 0 then ((i : ℕ) : ℝ) else 1) (C := 1)
    (fun i j => by fin_cases i <;> split_ifs <;> norm_num) (fun i j => by fin_cases i <;> split_ifs <;> norm_num) (a := fun _ => 1 / 2) (b := fun _ => 1 / 3) (by norm_num) (by norm_num) (by norm_num) (by norm_num)
    (reg := none) (.inl rfl) none .kl .kl none none none none .autodiff
  exact ⟨r, h, h2⟩

/-- general regularisation: the square of the plan -/
example : ∃ r, solve (exExt 2 3) (fun i j => if j = 0 then i else 1) (some fun _ => 1 / 2) (some fun _ => 1 / 3) (some 1) none (.general (fun G => ∑ i, ∑ j, G i j ^ 2) fun G i j => 2 * G i j) none .kl none none none none .autodiff = .ok r ∧
    IsCoupling (fun _ => 1 / 2) (fun _ => 1 / 3) r.plan := by
  have h0 : IsCoupling (fun _ : Fin 2 => (1 / 2 : ℝ)) (fun _ : Fin 3 => 1 / 3) ((none : Option (Fin 2 → Fin 3 → ℝ)).getD fun i j => 1 / 2 * (1 / 3)) :=
    ⟨fun i j => by norm_num, fun i => by norm_num, fun j => by norm_num⟩
  obtain ⟨r, h, h2, _⟩ := C85_general (exExt 2 3) (M := fun i j => if j = 0 then ((i : ℕ) : ℝ) else 1) (fun Mi => exactEmd_optimal _ _ _ ⟨_, h0⟩) (c1 := 0) le_rfl (fun phi phi0 der x y h => by
    simp only [exExt] at h
    split_ifs at h with hc
    simp only [Option.some.injEq, Prod.mk.injEq] at h
    obtain ⟨rfl, rfl⟩ := h
    exact ⟨rfl, by linarith, le_rfl⟩) (reg := 1) one_ne_zero _ _ none .kl none none h0 none none .autodiff
  exact ⟨r, h, h2⟩

example : ∃ (r : OTResult 2 2) (Q : Fin 2 → Fin 2 → ℝ), solve (exExt 2 2) (fun i j => if i = j then 0 else 1) (some fun _ => 1 / 2) (some fun _ => 1 / 2) (some 4) none .l2 none .kl (some 10) none none (some 0) .autodiff = .ok r ∧
    squareObjective (fun i j => if i = j then 0 else 1) 4 Q < r.value := by
  obtain ⟨r, Q, h1, _, _, _, h2⟩ := C85_l2_refuted (exExt 2 2) (fun _ _ _ _ _ _ => rfl) (exOracle_ok 2) 10 0
  exact ⟨r, Q, h1, h2⟩

/-- entropic and unbalanced problems with positive weights of mass 1 -/
example : ∃ (r : ℕ → OTResult 2 3) (P : Fin 2 → Fin 3 → ℝ), (∀ N, solve (exExt 2 3) (fun i j => if j = 0 then i else 1) (some fun _ => 1 / 2) (some fun _ => 1 / 3) (some 1) none .kl none .kl (some (N + 1)) none none (some 0) .autodiff = .ok (r N)) ∧
    ∀ i j, Tendsto (fun N => (r N).plan i j) atTop (𝓝 (P i j)) := by
  obtain ⟨r, P, h1, _, _, h2, _⟩ := C85_entropic (exExt 2 3) le_rfl false (fun i j => if j = 0 then ((i : ℕ) : ℝ) else 1) (a := fun _ => 1 / 2) (b := fun _ => 1 / 3) one_pos (by norm_num) (by norm_num) (by norm_num) (by norm_num) none .kl none none (grad := .autodiff) (by decide)
  exact ⟨r, P, h1, h2⟩

example : ∃ P, IsUnbOptimal (fun _ : Fin 2 => 1) (fun _ : Fin 3 => 2) (fun i j => if j = 0 then ((i : ℕ) : ℝ) else 1) 1 (fun _ _ => 1 * 2) (some 1) none P := by
  obtain ⟨P, h, _⟩ := C85_unbalanced_kl (exExt 2 3) (M := fun i j => if j = 0 then ((i : ℕ) : ℝ) else 1) (a := fun _ => 1) (b := fun _ => 2) (by norm_num) (by norm_num) one_pos (ρ₁ := some 1) (ρ₂ := none) (by simp) (by simp) (by simp) none (by simp) none none .autodiff
  exact ⟨P, h⟩

end POT.Props
