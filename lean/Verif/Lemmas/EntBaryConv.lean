import Verif.Lemmas.EntBary
import Mathlib.Topology.Algebra.Order.Group
import Mathlib.Topology.MetricSpace.Sequences
import Mathlib.Topology.MetricSpace.Bounded
import Mathlib.Analysis.SpecialFunctions.Pow.Real
import Mathlib.Topology.Order.Compact

/-! # Convergence of the iterative Bregman projections for entropic barycenters -/

set_option linter.unusedSectionVars false

namespace POT.EntBary

open Finset Spec Sinkhorn Filter Topology

variable {I S : Type*} [Fintype I] [Fintype S] [Nonempty I] [Nonempty S]
variable {K : I → I → ℝ} {A : I → S → ℝ} {w : S → ℝ} {u : I → S → ℝ}

/-! ### divergences with zero entries -/

theorem kl1_ge' {x y : ℝ} (hx : 0 ≤ x) (hy : 0 ≤ y) (h : y = 0 → x = 0) : (Real.sqrt x - Real.sqrt y) ^ 2 ≤ x * Real.log (x / y) - x + y := by
  rcases hy.eq_or_lt with e | e
  · have := h e.symm
    subst this
    simp [← e]
  · exact kl1_ge hx e

theorem kl_nonneg' {X : Type*} [Fintype X] {p q : X → ℝ} (hp : ∀ x, 0 ≤ p x) (hq : ∀ x, 0 ≤ q x) (h : ∀ x, q x = 0 → p x = 0) : 0 ≤ klDivergence p q :=
  sum_nonneg fun x _ => (sq_nonneg _).trans (kl1_ge' (hp x) (hq x) (h x))

theorem kl_eq_zero' {X : Type*} [Fintype X] {p q : X → ℝ} (hp : ∀ x, 0 ≤ p x) (hq : ∀ x, 0 ≤ q x) (h : ∀ x, q x = 0 → p x = 0) (h0 : klDivergence p q ≤ 0) : p = q := by
  funext x
  have h1 := (kl1_ge' (hp x) (hq x) (h x)).trans ((single_le_sum (f := fun x => p x * Real.log (p x / q x) - p x + q x)
    (fun x _ => (sq_nonneg _).trans (kl1_ge' (hp x) (hq x) (h x))) (mem_univ x)).trans h0)
  have h2 : Real.sqrt (p x) - Real.sqrt (q x) = 0 := pow_eq_zero_iff two_ne_zero |>.1 (le_antisymm h1 (sq_nonneg _))
  rw [← Real.sq_sqrt (hp x), ← Real.sq_sqrt (hq x), sub_eq_zero.1 h2]

/-- a form of Pinsker's inequality -/
theorem l1_le_kl {X : Type*} [Fintype X] {p q : X → ℝ} (hp : ∀ x, 0 ≤ p x) (hq : ∀ x, 0 ≤ q x) (h : ∀ x, q x = 0 → p x = 0) (sp : ∑ x, p x ≤ 1) (sq : ∑ x, q x ≤ 1) :
    ∑ x, |p x - q x| ≤ 2 * Real.sqrt (klDivergence p q) := by
  have h1 : ∀ x, |p x - q x| = |Real.sqrt (p x) - Real.sqrt (q x)| * (Real.sqrt (p x) + Real.sqrt (q x)) := by
    intro x
    rw [← abs_of_nonneg (add_nonneg (Real.sqrt_nonneg (p x)) (Real.sqrt_nonneg (q x))), ← abs_mul]
    congr 1
    have e1 := Real.sq_sqrt (hp x)
    have e2 := Real.sq_sqrt (hq x)
    linear_combination e2 - e1
  have h2 : (∑ x, |p x - q x|) ^ 2 ≤ (2 * Real.sqrt (klDivergence p q)) ^ 2 := by
    rw [sum_congr rfl fun x _ => h1 x]
    refine (sum_mul_sq_le_sq_mul_sq _ _ _).trans ?_
    rw [mul_pow, Real.sq_sqrt (kl_nonneg' hp hq h), mul_comm]
    refine mul_le_mul ?_ ?_ (sum_nonneg fun x _ => sq_nonneg _) (by norm_num)
    · have : ∀ x, (Real.sqrt (p x) + Real.sqrt (q x)) ^ 2 ≤ 2 * p x + 2 * q x := fun x => by
        nlinarith [sq_nonneg (Real.sqrt (p x) - Real.sqrt (q x)), Real.sq_sqrt (hp x), Real.sq_sqrt (hq x)]
      refine (sum_le_sum fun x _ => this x).trans ?_
      rw [sum_add_distrib, ← mul_sum, ← mul_sum]
      linarith
    · exact sum_le_sum fun x _ => by rw [sq_abs]; exact kl1_ge' (hp x) (hq x) (h x)
  exact abs_le_of_sq_le_sq' h2 (by positivity) |>.2

/-! ### objective and optimality -/

/-- `∑ Q log (Q / K)` -/
noncomputable def obj1 (K Q : I → I → ℝ) : ℝ := ∑ i, ∑ j, Q i j * Real.log (Q i j / K i j)

/-- value of the rows -/
noncomputable def rowVal (K : I → I → ℝ) (A : I → S → ℝ) (u : I → S → ℝ) (s : S) : ℝ := ∑ i, A i s * Real.log (A i s / dotK K u i s)

theorem plan_zero (h : Ok K A w) (hu : ∀ j s, 0 < u j s) {s : S} {i j : I} (e : planU K A u s i j = 0) : A i s = 0 := by
  unfold planU at e
  have h1 := (dotK_pos h.kpos hu i s).ne'
  have h2 := (h.kpos i j).ne'
  have h3 := (hu j s).ne'
  simpa [h1, h2, h3] using e

theorem row_zero {Q : I → I → ℝ} {a : I → ℝ} (hQ : ∀ i j, 0 ≤ Q i j) (hr : ∀ i, ∑ j, Q i j = a i) {i : I} (e : a i = 0) (j : I) : Q i j = 0 := by
  have h1 := hr i
  rw [e] at h1
  exact (sum_eq_zero_iff_of_nonneg fun j _ => hQ i j).1 h1 j (mem_univ j)

theorem obj_eq (h : Ok K A w) (hu : ∀ j s, 0 < u j s) (s : S) {Q : I → I → ℝ} (hQ : ∀ i j, 0 ≤ Q i j) (hr : ∀ i, ∑ j, Q i j = A i s) :
    obj1 K Q = rowVal K A u s + ∑ j, (∑ i, Q i j) * Real.log (u j s) + klPlan Q (planU K A u s) := by
  have h1 : ∀ i j, Q i j * Real.log (Q i j / K i j) = Q i j * Real.log (A i s / dotK K u i s) + Q i j * Real.log (u j s)
      + (Q i j * Real.log (Q i j / planU K A u s i j) - Q i j + planU K A u s i j) + (Q i j - planU K A u s i j) := by
    intro i j
    rcases (hQ i j).eq_or_lt with e | e
    · simp [← e]
    · have hA : A i s ≠ 0 := fun e' => e.ne' (row_zero hQ hr e' j)
      have h1 := (dotK_pos h.kpos hu i s).ne'
      have h2 := (h.kpos i j).ne'
      have h3 := (hu j s).ne'
      unfold planU
      rw [Real.log_div e.ne' h2, Real.log_div e.ne' (mul_ne_zero (mul_ne_zero (div_ne_zero hA h1) h2) h3), Real.log_mul (mul_ne_zero (div_ne_zero hA h1) h2) h3,
        Real.log_mul (div_ne_zero hA h1) h2]
      ring
  unfold obj1 rowVal
  rw [sum_congr rfl fun i _ => sum_congr rfl fun j _ => h1 i j]
  simp_rw [sum_add_distrib, sum_sub_distrib]
  have e1 : ∑ i, ∑ j, planU K A u s i j = ∑ i, ∑ j, Q i j := by
    simp_rw [plan_row h hu, hr]
  have e2 : ∑ i, ∑ j, Q i j * Real.log (A i s / dotK K u i s) = ∑ i, A i s * Real.log (A i s / dotK K u i s) :=
    sum_congr rfl fun i _ => by rw [← sum_mul, hr]
  have e3 : ∑ i, ∑ j, Q i j * Real.log (u j s) = ∑ j, (∑ i, Q i j) * Real.log (u j s) := by
    rw [sum_comm]
    exact sum_congr rfl fun j _ => by rw [← sum_mul]
  have e4 : klPlan Q (planU K A u s) = ∑ i, ∑ j, Q i j * Real.log (Q i j / planU K A u s i j) - ∑ i, ∑ j, Q i j + ∑ i, ∑ j, planU K A u s i j := by
    unfold klPlan klDivergence
    rw [Fintype.sum_prod_type]
    simp_rw [sum_add_distrib, sum_sub_distrib]
  rw [e1, e2, e3, e4, e1]
  ring

theorem klPlan_nonneg (h : Ok K A w) (hu : ∀ j s, 0 < u j s) (s : S) {Q : I → I → ℝ} (hQ : ∀ i j, 0 ≤ Q i j) (hr : ∀ i, ∑ j, Q i j = A i s) :
    0 ≤ klPlan Q (planU K A u s) :=
  kl_nonneg' (fun _ => hQ _ _) (fun _ => plan_nonneg h hu s _ _) fun _ e => row_zero hQ hr (plan_zero h hu e) _

/-- plans with a common second marginal -/
theorem obj_common (h : Ok K A w) (hu : ∀ j s, 0 < u j s) (hb : Bal w u) {q : I → ℝ} {Q : S → I → I → ℝ} (hQ : ∀ s, IsCoupling (fun i => A i s) q (Q s)) :
    ∑ s, w s * obj1 K (Q s) = ∑ s, w s * rowVal K A u s + ∑ s, w s * klPlan (Q s) (planU K A u s) := by
  have e : ∀ s, w s * obj1 K (Q s) = w s * rowVal K A u s + w s * klPlan (Q s) (planU K A u s) + ∑ j, q j * (w s * Real.log (u j s)) := by
    intro s
    rw [obj_eq h hu s (hQ s).nonneg (hQ s).row, mul_add, mul_add, mul_sum]
    simp_rw [(hQ s).col]
    rw [sum_congr rfl fun j _ => show w s * (q j * Real.log (u j s)) = q j * (w s * Real.log (u j s)) by ring]
    ring
  rw [sum_congr rfl fun s _ => e s, sum_add_distrib, sum_add_distrib, sum_comm]
  have e2 : ∀ j, ∑ s, q j * (w s * Real.log (u j s)) = 0 := fun j => by rw [← mul_sum, hb j, mul_zero]
  rw [sum_congr rfl fun j _ => e2 j]
  simp

/-- scalings whose plans have equal second marginals solve the barycenter problem -/
theorem optimal_of_fixed (h : Ok K A w) (hu : ∀ j s, 0 < u j s) (hb : Bal w u) {b : I → ℝ} (he : ∀ j s, ukv K A u j s = b j) :
    (∀ s, IsCoupling (fun i => A i s) b (planU K A u s)) ∧
    ∀ (q : I → ℝ) (Q : S → I → I → ℝ), (∀ s, IsCoupling (fun i => A i s) q (Q s)) →
      ∑ s, w s * obj1 K (Q s) = ∑ s, w s * obj1 K (planU K A u s) + ∑ s, w s * klPlan (Q s) (planU K A u s) := by
  have hP : ∀ s, IsCoupling (fun i => A i s) b (planU K A u s) := fun s =>
    ⟨fun i j => plan_nonneg h hu s i j, fun i => plan_row h hu i s, fun j => by rw [plan_col, he]⟩
  refine ⟨hP, fun q Q hQ => ?_⟩
  rw [obj_common h hu hb hQ, obj_common h hu hb hP]
  have : ∀ s, klPlan (planU K A u s) (planU K A u s) = 0 := by
    intro s
    unfold klPlan klDivergence
    refine sum_eq_zero fun x _ => ?_
    by_cases hx : planU K A u s x.1 x.2 = 0
    · simp [hx]
    · rw [div_self hx]; simp
  simp [this]

/-! ### oscillation of the scalings -/

/-- entries of the kernel within a factor `exp c` -/
def Spread (K : I → I → ℝ) (c : ℝ) : Prop := ∀ i j i' j', K i j ≤ Real.exp c * K i' j'

theorem spread_nonneg (hK : ∀ i j, 0 < K i j) {c : ℝ} (hc : Spread K c) : 0 ≤ c := by
  obtain ⟨i⟩ := ‹Nonempty I›
  have h1 := hc i i i i
  by_contra hn
  push Not at hn
  have h2 : Real.exp c < 1 := by rw [← Real.exp_zero]; exact Real.exp_lt_exp.2 hn
  nlinarith [hK i i]

/-- bounded oscillation of the logarithms -/
def Osc (u : I → S → ℝ) (d : ℝ) : Prop := ∀ j j' s, Real.log (u j s) - Real.log (u j' s) ≤ d

theorem upd_osc (h : Ok K A w) (hu : ∀ j s, 0 < u j s) (hb : Bal w u) {c : ℝ} (hc : Spread K c) : Osc (upd K A w u) (2 * c) := by
  obtain ⟨T, hT⟩ : ∃ T : I → S → ℝ, T = dotKT K (fun i s => A i s / dotK K u i s) := ⟨_, rfl⟩
  have hTp : ∀ j s, 0 < T j s := fun j s => hT ▸ dotKT_pos h hu j s
  have hTc : ∀ j j' s, Real.log (T j s) - Real.log (T j' s) ≤ c := by
    intro j j' s
    have : T j s ≤ Real.exp c * T j' s := by
      rw [hT]
      unfold dotKT
      rw [mul_sum]
      refine sum_le_sum fun i _ => ?_
      rw [← mul_assoc]
      exact mul_le_mul_of_nonneg_right (hc _ _ _ _) (div_nonneg (h.anon i s) (dotK_pos h.kpos hu i s).le)
    have h2 := Real.log_le_log (hTp j s) this
    rw [Real.log_mul (Real.exp_pos c).ne' (hTp j' s).ne', Real.log_exp] at h2
    linarith
  have hlog : ∀ j s, Real.log (upd K A w u j s) = (∑ r, w r * Real.log (T j r)) - Real.log (T j s) := by
    intro j s
    have e0 : upd K A w u j s = u j s * bar K A w u j / (u j s * T j s) := by rw [hT]; rfl
    have e1 : upd K A w u j s = bar K A w u j / T j s := by
      rw [e0]
      have := (hu j s).ne'
      have := (hTp j s).ne'
      field_simp
    rw [e1, Real.log_div (bar_pos j).ne' (hTp j s).ne', log_bar]
    have e2 : ∀ r, w r * Real.log (ukv K A u j r) = w r * Real.log (u j r) + w r * Real.log (T j r) := by
      intro r
      have : ukv K A u j r = u j r * T j r := by rw [hT]; rfl
      rw [this, Real.log_mul (hu j r).ne' (hTp j r).ne']
      ring
    rw [sum_congr rfl fun r _ => e2 r, sum_add_distrib, hb j, zero_add]
  intro j j' s
  rw [hlog, hlog]
  have h3 : ∑ r, w r * Real.log (T j r) - ∑ r, w r * Real.log (T j' r) ≤ c := by
    rw [← sum_sub_distrib]
    have h4 : ∀ r, w r * Real.log (T j r) - w r * Real.log (T j' r) ≤ w r * c := fun r => by
      rw [← mul_sub]
      exact mul_le_mul_of_nonneg_left (hTc _ _ _) (h.wpos r).le
    refine (sum_le_sum fun r _ => h4 r).trans ?_
    rw [← sum_mul, h.wsum, one_mul]
  have h5 := hTc j' j s
  linarith

theorem iter_osc (h : Ok K A w) (hu : ∀ j s, 0 < u j s) (hb : Bal w u) {c : ℝ} (hc : Spread K c) (ho : Osc u (2 * c)) (n : ℕ) : Osc ((upd K A w)^[n] u) (2 * c) := by
  cases n with
  | zero => exact ho
  | succ n => rw [Function.iterate_succ_apply']; exact upd_osc h (iter_pos h hu n) (iter_bal h hu hb n) hc

/-- weighted sums of small differences against balanced functions of bounded oscillation -/
theorem pairing_le (h : Ok K A w) {d : I → S → ℝ} {D : ℝ} (hd : ∀ s, ∑ j, d j s = D) {g : I → S → ℝ} (hg : ∀ j, ∑ s, w s * g j s = 0) {c : ℝ} (ho : ∀ j j' s, g j s - g j' s ≤ c) :
    ∑ s, w s * ∑ j, d j s * g j s ≤ c * ∑ s, w s * ∑ j, |d j s| := by
  obtain ⟨j0⟩ := ‹Nonempty I›
  have e : ∀ s, w s * ∑ j, d j s * g j s = w s * ∑ j, d j s * (g j s - g j0 s) + D * (w s * g j0 s) := by
    intro s
    simp_rw [mul_sub]
    rw [sum_sub_distrib, ← sum_mul, hd]
    ring
  rw [sum_congr rfl fun s _ => e s, sum_add_distrib, ← mul_sum, hg j0, mul_zero, add_zero, mul_sum]
  refine sum_le_sum fun s _ => ?_
  rw [← mul_assoc, mul_comm c, mul_assoc]
  refine mul_le_mul_of_nonneg_left ?_ (h.wpos s).le
  rw [mul_sum]
  refine sum_le_sum fun j _ => ?_
  have h1 : |g j s - g j0 s| ≤ c := abs_le.2 ⟨by have := ho j0 j s; linarith, ho j j0 s⟩
  calc d j s * (g j s - g j0 s) ≤ |d j s * (g j s - g j0 s)| := le_abs_self _
    _ = |d j s| * |g j s - g j0 s| := abs_mul _ _
    _ ≤ |d j s| * c := mul_le_mul_of_nonneg_left h1 (abs_nonneg _)
    _ = c * |d j s| := mul_comm _ _

/-- difference of the second marginals -/
noncomputable def spreadErr (K : I → I → ℝ) (A : I → S → ℝ) (w : S → ℝ) (u : I → S → ℝ) : ℝ := ∑ s, w s * ∑ j, |ukv K A u j s - bar K A w u j|

theorem diff_sum (h : Ok K A w) (hu : ∀ j s, 0 < u j s) (s : S) : ∑ j, (ukv K A u j s - bar K A w u j) = 1 - ∑ j, bar K A w u j := by
  rw [sum_sub_distrib, ukv_sum h hu]

/-- distance of the plans to the optimal ones in terms of the spread of the marginals -/
theorem kl_le_spread (h : Ok K A w) (hu : ∀ j s, 0 < u j s) (hb : Bal w u) {c : ℝ} (ho : Osc u (2 * c)) {u' : I → S → ℝ} (hu' : ∀ j s, 0 < u' j s) (hb' : Bal w u')
    (ho' : Osc u' (2 * c)) {b : I → ℝ} (he : ∀ j s, ukv K A u' j s = b j) :
    ∑ s, w s * klPlan (planU K A u' s) (planU K A u s) + ∑ s, w s * klPlan (planU K A u s) (planU K A u' s) ≤ 4 * c * spreadErr K A w u := by
  obtain ⟨hP, -⟩ := optimal_of_fixed h hu' hb' he
  have e1 := obj_common h hu hb hP
  have e2 := obj_common h hu' hb' hP
  have z : ∀ v : I → S → ℝ, ∀ s, klPlan (planU K A v s) (planU K A v s) = 0 := by
    intro v s
    unfold klPlan klDivergence
    refine sum_eq_zero fun x _ => ?_
    by_cases hx : planU K A v s x.1 x.2 = 0
    · simp [hx]
    · rw [div_self hx]; simp
  have e3 : ∀ s, obj1 K (planU K A u s) = rowVal K A u s + ∑ j, ukv K A u j s * Real.log (u j s) := by
    intro s
    have := obj_eq h hu s (fun i j => plan_nonneg h hu s i j) (fun i => plan_row h hu i s)
    simp_rw [plan_col, z] at this
    rw [this, add_zero]
  have e4 : ∀ s, obj1 K (planU K A u s) = rowVal K A u' s + ∑ j, ukv K A u j s * Real.log (u' j s) + klPlan (planU K A u s) (planU K A u' s) := by
    intro s
    have := obj_eq h hu' s (fun i j => plan_nonneg h hu s i j) (fun i => plan_row h hu i s)
    simp_rw [plan_col] at this
    exact this
  simp_rw [z, mul_zero, sum_const_zero, add_zero] at e2
  have e5 : ∑ s, w s * klPlan (planU K A u' s) (planU K A u s) + ∑ s, w s * klPlan (planU K A u s) (planU K A u' s)
      = ∑ s, w s * ∑ j, ukv K A u j s * (Real.log (u j s) - Real.log (u' j s)) := by
    have e6 : ∀ s, w s * ∑ j, ukv K A u j s * (Real.log (u j s) - Real.log (u' j s)) = w s * klPlan (planU K A u s) (planU K A u' s) + w s * rowVal K A u' s - w s * rowVal K A u s := by
      intro s
      simp_rw [mul_sub]
      rw [sum_sub_distrib]
      have := e3 s
      rw [e4 s] at this
      linear_combination (-w s) * this
    rw [sum_congr rfl fun s _ => e6 s, sum_sub_distrib, sum_add_distrib]
    linarith
  have hg : ∀ j, ∑ s, w s * (Real.log (u j s) - Real.log (u' j s)) = 0 := fun j => by
    simp_rw [mul_sub]
    rw [sum_sub_distrib, hb j, hb' j, sub_zero]
  have e7 : ∑ s, w s * ∑ j, ukv K A u j s * (Real.log (u j s) - Real.log (u' j s))
      = ∑ s, w s * ∑ j, (ukv K A u j s - bar K A w u j) * (Real.log (u j s) - Real.log (u' j s)) := by
    simp_rw [sub_mul (ukv K A u _ _)]
    simp_rw [sum_sub_distrib, mul_sub (w _)]
    rw [sum_sub_distrib]
    have : ∑ s, w s * ∑ j, bar K A w u j * (Real.log (u j s) - Real.log (u' j s)) = 0 := by
      simp_rw [mul_sum]
      rw [sum_comm]
      refine sum_eq_zero fun j _ => ?_
      have e8 : ∀ s, w s * (bar K A w u j * (Real.log (u j s) - Real.log (u' j s))) = bar K A w u j * (w s * (Real.log (u j s) - Real.log (u' j s))) := fun s => by ring
      rw [sum_congr rfl fun s _ => e8 s, ← mul_sum, hg j, mul_zero]
    rw [this, sub_zero]
  rw [e5, e7]
  refine pairing_le h (diff_sum h hu) hg fun j j' s => ?_
  have h1 := ho j j' s
  have h2 := ho' j' j s
  linarith

/-- distance of the barycenter to the optimal one -/
theorem bar_dist (h : Ok K A w) (hu : ∀ j s, 0 < u j s) (hb : Bal w u) {c : ℝ} (ho : Osc u (2 * c)) {u' : I → S → ℝ} (hu' : ∀ j s, 0 < u' j s) (hb' : Bal w u')
    (ho' : Osc u' (2 * c)) {b : I → ℝ} (he : ∀ j s, ukv K A u' j s = b j) :
    ∑ j, |bar K A w u j - b j| ≤ spreadErr K A w u + 2 * Real.sqrt (4 * c * spreadErr K A w u) := by
  have hk := kl_le_spread h hu hb ho hu' hb' ho' he
  have hn : 0 ≤ ∑ s, w s * klPlan (planU K A u s) (planU K A u' s) :=
    sum_nonneg fun s _ => mul_nonneg (h.wpos s).le (klPlan_nonneg h hu' s (fun i j => plan_nonneg h hu s i j) fun i => plan_row h hu i s)
  have h1 : ∀ s, ∑ j, |ukv K A u j s - b j| ≤ 2 * Real.sqrt (klPlan (planU K A u' s) (planU K A u s)) := by
    intro s
    have m : ∀ v : I → S → ℝ, (∀ j s, 0 < v j s) → ∑ x : I × I, planU K A v s x.1 x.2 = 1 := fun v hv => by
      rw [Fintype.sum_prod_type]
      simp_rw [plan_row h hv, h.mass]
    have h2 := l1_le_kl (p := fun x : I × I => planU K A u' s x.1 x.2) (q := fun x : I × I => planU K A u s x.1 x.2) (fun x => plan_nonneg h hu' s _ _)
      (fun x => plan_nonneg h hu s _ _) (fun x e => row_zero (fun i j => plan_nonneg h hu' s i j) (fun i => plan_row h hu' i s) (plan_zero h hu e) _) (m u' hu').le (m u hu).le
    refine le_trans ?_ h2
    rw [Fintype.sum_prod_type, sum_comm]
    refine sum_le_sum fun j _ => ?_
    rw [← he j s, ← plan_col, ← plan_col, abs_sub_comm, ← sum_sub_distrib]
    exact abs_sum_le_sum_abs _ _
  have h3 : ∑ s, w s * Real.sqrt (klPlan (planU K A u' s) (planU K A u s)) ≤ Real.sqrt (∑ s, w s * klPlan (planU K A u' s) (planU K A u s)) := by
    refine Real.le_sqrt_of_sq_le ?_
    have e : ∀ s, w s * Real.sqrt (klPlan (planU K A u' s) (planU K A u s)) = Real.sqrt (w s) * (Real.sqrt (w s) * Real.sqrt (klPlan (planU K A u' s) (planU K A u s))) := fun s => by
      rw [← mul_assoc, Real.mul_self_sqrt (h.wpos s).le]
    rw [sum_congr rfl fun s _ => e s]
    refine (sum_mul_sq_le_sq_mul_sq _ _ _).trans ?_
    simp_rw [mul_pow]
    rw [sum_congr rfl fun s _ => Real.sq_sqrt (h.wpos s).le, h.wsum, one_mul]
    refine sum_le_sum fun s _ => ?_
    rw [Real.sq_sqrt (h.wpos s).le, Real.sq_sqrt (klPlan_nonneg h hu s (fun i j => plan_nonneg h hu' s i j) fun i => plan_row h hu' i s)]
  have h4 : ∑ j, |bar K A w u j - b j| = ∑ s, w s * ∑ j, |bar K A w u j - b j| := by rw [← sum_mul, h.wsum, one_mul]
  rw [h4]
  have h5 : ∀ s, w s * ∑ j, |bar K A w u j - b j| ≤ w s * ∑ j, |ukv K A u j s - bar K A w u j| + 2 * (w s * Real.sqrt (klPlan (planU K A u' s) (planU K A u s))) := by
    intro s
    have h6 : ∑ j, |bar K A w u j - b j| ≤ ∑ j, |ukv K A u j s - bar K A w u j| + ∑ j, |ukv K A u j s - b j| := by
      rw [← sum_add_distrib]
      refine sum_le_sum fun j _ => ?_
      rw [abs_sub_comm (ukv K A u j s)]
      exact abs_sub_le _ _ _
    have h7 := mul_le_mul_of_nonneg_left (h6.trans (add_le_add_right (h1 s) _)) (h.wpos s).le
    linarith
  refine (sum_le_sum fun s _ => h5 s).trans ?_
  rw [sum_add_distrib, ← mul_sum]
  have h8 : Real.sqrt (∑ s, w s * klPlan (planU K A u' s) (planU K A u s)) ≤ Real.sqrt (4 * c * spreadErr K A w u) := Real.sqrt_le_sqrt (by linarith)
  unfold spreadErr at h8 ⊢
  linarith

/-! ### the deficit of mass controls the spread -/

theorem deficit_nonneg (h : Ok K A w) (hu : ∀ j s, 0 < u j s) : 0 ≤ 1 - ∑ j, bar K A w u j := sub_nonneg.2 (bar_sum_le h hu)

theorem spread_le_deficit (h : Ok K A w) (hu : ∀ j s, 0 < u j s) : spreadErr K A w u ≤ 2 * Real.sqrt (1 - ∑ j, bar K A w u j) := by
  have hk : ∀ s, 0 ≤ klDivergence (bar K A w u) (fun j => ukv K A u j s) := fun s => klDivergence_nonneg (fun j => (bar_pos j).le) fun j => ukv_pos h hu j s
  have h1 : ∀ s, w s * ∑ j, |ukv K A u j s - bar K A w u j| ≤ 2 * (w s * Real.sqrt (klDivergence (bar K A w u) (fun j => ukv K A u j s))) := by
    intro s
    have := l1_le_kl (p := bar K A w u) (q := fun j => ukv K A u j s) (fun j => (bar_pos j).le) (fun j => (ukv_pos h hu j s).le) (fun j e => absurd e (ukv_pos h hu j s).ne')
      (bar_sum_le h hu) (ukv_sum h hu s).le
    simp_rw [abs_sub_comm (ukv K A u _ s)]
    have h2 := mul_le_mul_of_nonneg_left this (h.wpos s).le
    linarith
  refine (sum_le_sum fun s _ => h1 s).trans ?_
  rw [← mul_sum, ← kl_bar h hu]
  refine mul_le_mul_of_nonneg_left (Real.le_sqrt_of_sq_le ?_) (by norm_num)
  have e : ∀ s, w s * Real.sqrt (klDivergence (bar K A w u) (fun j => ukv K A u j s))
      = Real.sqrt (w s) * (Real.sqrt (w s) * Real.sqrt (klDivergence (bar K A w u) (fun j => ukv K A u j s))) := fun s => by
    rw [← mul_assoc, Real.mul_self_sqrt (h.wpos s).le]
  rw [sum_congr rfl fun s _ => e s]
  refine (sum_mul_sq_le_sq_mul_sq _ _ _).trans ?_
  simp_rw [mul_pow]
  rw [sum_congr rfl fun s _ => Real.sq_sqrt (h.wpos s).le, h.wsum, one_mul]
  exact sum_le_sum fun s _ => by rw [Real.sq_sqrt (h.wpos s).le, Real.sq_sqrt (hk s)]

theorem dual_ge (h : Ok K A w) (hu : ∀ j s, 0 < u j s) (hb : Bal w u) {c : ℝ} (hc : Spread K c) (ho : Osc u (2 * c)) (i0 j0 : I) :
    -(Real.log (Fintype.card I) + c + Real.log (K i0 j0) + 2 * c) ≤ dual K A w u := by
  have hcard : (0 : ℝ) < Fintype.card I := by exact_mod_cast Fintype.card_pos
  unfold dual
  rw [neg_le_neg_iff]
  have h1 : ∀ i s, Real.log (dotK K u i s) ≤ Real.log (Fintype.card I) + c + Real.log (K i0 j0) + 2 * c + Real.log (u j0 s) := by
    intro i s
    have h2 : dotK K u i s ≤ Fintype.card I * (Real.exp c * K i0 j0 * (Real.exp (2 * c) * u j0 s)) := by
      have h3 : ∀ j, K i j * u j s ≤ Real.exp c * K i0 j0 * (Real.exp (2 * c) * u j0 s) := by
        intro j
        refine mul_le_mul (hc _ _ _ _) ?_ (hu j s).le (mul_pos (Real.exp_pos c) (h.kpos _ _)).le
        rw [← Real.log_le_log_iff (hu j s) (mul_pos (Real.exp_pos _) (hu j0 s)), Real.log_mul (Real.exp_pos _).ne' (hu j0 s).ne', Real.log_exp]
        have := ho j j0 s
        linarith
      refine (sum_le_sum fun j _ => h3 j).trans (le_of_eq ?_)
      rw [sum_const, card_univ, nsmul_eq_mul]
    have h4 := Real.log_le_log (dotK_pos h.kpos hu i s) h2
    have k0 := (h.kpos i0 j0).ne'
    have u0 := (hu j0 s).ne'
    rw [Real.log_mul hcard.ne' (by positivity), Real.log_mul (by positivity) (by positivity), Real.log_mul (by positivity) k0, Real.log_mul (by positivity) u0, Real.log_exp, Real.log_exp] at h4
    linarith
  have h5 : ∀ s, w s * ∑ i, A i s * Real.log (dotK K u i s) ≤ w s * (Real.log (Fintype.card I) + c + Real.log (K i0 j0) + 2 * c) + w s * Real.log (u j0 s) := by
    intro s
    rw [← mul_add]
    refine mul_le_mul_of_nonneg_left ?_ (h.wpos s).le
    refine (sum_le_sum fun i _ => mul_le_mul_of_nonneg_left (h1 i s) (h.anon i s)).trans (le_of_eq ?_)
    rw [← sum_mul, h.mass, one_mul]
  refine (sum_le_sum fun s _ => h5 s).trans (le_of_eq ?_)
  rw [sum_add_distrib, ← sum_mul, h.wsum, hb j0]
  ring

/-- explicit bound on the sum of all deficits -/
theorem deficit_bound (h : Ok K A w) (hu : ∀ j s, 0 < u j s) (hb : Bal w u) {c : ℝ} (hc : Spread K c) (ho : Osc u (2 * c)) (n : ℕ) :
    ∑ k ∈ range n, (1 - ∑ j, bar K A w ((upd K A w)^[k] u) j) ≤ Real.log (Fintype.card I) + 4 * c := by
  obtain ⟨j0⟩ := ‹Nonempty I›
  have h1 := deficit_sum h hu n
  have h2 := dual_le h (iter_pos h hu n) (iter_bal h hu hb n) j0
  have h3 := dual_ge h hu hb hc ho j0 j0
  have h4 : -∑ s, w s * ∑ i, A i s * Real.log (K i j0) ≤ c - Real.log (K j0 j0) := by
    have h5 : ∀ s, w s * (Real.log (K j0 j0) - c) ≤ w s * ∑ i, A i s * Real.log (K i j0) := by
      intro s
      refine mul_le_mul_of_nonneg_left ?_ (h.wpos s).le
      have : Real.log (K j0 j0) - c = ∑ i, A i s * (Real.log (K j0 j0) - c) := by rw [← sum_mul, h.mass, one_mul]
      rw [this]
      refine sum_le_sum fun i _ => mul_le_mul_of_nonneg_left ?_ (h.anon i s)
      have h6 := Real.log_le_log (h.kpos j0 j0) (hc j0 j0 i j0)
      rw [Real.log_mul (Real.exp_pos _).ne' (h.kpos i j0).ne', Real.log_exp] at h6
      linarith
    have h7 := sum_le_sum fun s (_ : s ∈ univ) => h5 s
    rw [← sum_mul, h.wsum] at h7
    linarith
  linarith

theorem deficit_tendsto (h : Ok K A w) (hu : ∀ j s, 0 < u j s) (hb : Bal w u) {c : ℝ} (hc : Spread K c) (ho : Osc u (2 * c)) :
    Tendsto (fun k => 1 - ∑ j, bar K A w ((upd K A w)^[k] u) j) atTop (𝓝 0) :=
  (summable_of_sum_range_le (fun k => deficit_nonneg h (iter_pos h hu k)) fun n => deficit_bound h hu hb hc ho n).tendsto_atTop_zero

theorem spreadErr_nonneg (h : Ok K A w) : 0 ≤ spreadErr K A w u := sum_nonneg fun s _ => mul_nonneg (h.wpos s).le (sum_nonneg fun _ _ => abs_nonneg _)

theorem spreadErr_tendsto (h : Ok K A w) (hu : ∀ j s, 0 < u j s) (hb : Bal w u) {c : ℝ} (hc : Spread K c) (ho : Osc u (2 * c)) :
    Tendsto (fun k => spreadErr K A w ((upd K A w)^[k] u)) atTop (𝓝 0) := by
  have h1 : Tendsto (fun k => 2 * Real.sqrt (1 - ∑ j, bar K A w ((upd K A w)^[k] u) j)) atTop (𝓝 0) := by
    have := ((Real.continuous_sqrt.tendsto 0).comp (deficit_tendsto h hu hb hc ho)).const_mul 2
    simpa using this
  exact squeeze_zero (fun k => spreadErr_nonneg h) (fun k => spread_le_deficit h (iter_pos h hu k)) h1

theorem ukv_scale (h : Ok K A w) (hu : ∀ j s, 0 < u j s) {l : S → ℝ} (hl : ∀ s, 0 < l s) (j : I) (s : S) : ukv K A (fun j s => u j s * l s) j s = ukv K A u j s := by
  have e : ∀ i, dotK K (fun j s => u j s * l s) i s = dotK K u i s * l s := fun i => by
    unfold dotK
    rw [sum_mul]
    exact sum_congr rfl fun j _ => by ring
  unfold ukv dotKT
  rw [mul_sum, mul_sum]
  refine sum_congr rfl fun i _ => ?_
  simp only [e]
  have := (hl s).ne'
  have := (dotK_pos h.kpos hu i s).ne'
  field_simp

theorem ukv_continuous (h : Ok K A w) (j : I) (s : S) : Continuous fun x : I → S → ℝ => ukv K A (fun j s => Real.exp (x j s)) j s := by
  have c1 : ∀ j s, Continuous fun x : I → S → ℝ => Real.exp (x j s) := fun j s => Real.continuous_exp.comp ((continuous_apply s).comp (continuous_apply j))
  have c2 : ∀ i s, Continuous fun x : I → S → ℝ => dotK K (fun j s => Real.exp (x j s)) i s := fun i s => by
    unfold dotK
    exact continuous_finsetSum _ fun j _ => continuous_const.mul (c1 j s)
  unfold ukv dotKT
  exact (c1 j s).mul (continuous_finsetSum _ fun i _ => continuous_const.mul (continuous_const.div (c2 i s) fun x => (dotK_pos h.kpos (fun _ _ => Real.exp_pos _) i s).ne'))

theorem bar_continuous (h : Ok K A w) (j : I) : Continuous fun x : I → S → ℝ => bar K A w (fun j s => Real.exp (x j s)) j := by
  unfold bar geometricBar
  refine Real.continuous_exp.comp (continuous_finsetSum _ fun s _ => Continuous.mul ?_ continuous_const)
  exact (ukv_continuous h j s).log fun x => (ukv_pos h (fun _ _ => Real.exp_pos _) j s).ne'

/-- there are balanced scalings whose plans have the same second marginal -/
theorem exists_fixed (h : Ok K A w) {c : ℝ} (hc : Spread K c) : ∃ u : I → S → ℝ, (∀ j s, 0 < u j s) ∧ Bal w u ∧ Osc u (2 * c) ∧ ∀ j s, ukv K A u j s = bar K A w u j := by
  have c0 := spread_nonneg h.kpos hc
  obtain ⟨j0⟩ := ‹Nonempty I›
  obtain ⟨v, hv⟩ : ∃ v : ℕ → I → S → ℝ, v = fun k => (upd K A w)^[k] (fun _ _ => 1) := ⟨_, rfl⟩
  have p1 : ∀ (j : I) (s : S), (0 : ℝ) < (fun _ _ => 1 : I → S → ℝ) j s := fun _ _ => one_pos
  have b1 : Bal w (fun _ _ => 1 : I → S → ℝ) := fun j => by simp
  have o1 : Osc (fun _ _ => 1 : I → S → ℝ) (2 * c) := fun j j' s => by simp; linarith
  have hvp : ∀ k j s, 0 < v k j s := fun k => hv ▸ iter_pos h p1 k
  have hvb : ∀ k, Bal w (v k) := fun k => hv ▸ iter_bal h p1 b1 k
  have hvo : ∀ k, Osc (v k) (2 * c) := fun k => hv ▸ iter_osc h p1 b1 hc o1 k
  have hve : Tendsto (fun k => spreadErr K A w (v k)) atTop (𝓝 0) := by rw [hv]; exact spreadErr_tendsto h p1 b1 hc o1
  obtain ⟨x, hx⟩ : ∃ x : ℕ → I → S → ℝ, x = fun k j s => Real.log (v k j s) - Real.log (v k j0 s) := ⟨_, rfl⟩
  have hxm : ∀ k, x k ∈ Set.Icc (fun _ _ => -(2 * c) : I → S → ℝ) (fun _ _ => 2 * c) := fun k =>
    ⟨fun j s => by have := hvo k j0 j s; simp only [hx]; linarith, fun j s => by have := hvo k j j0 s; simp only [hx]; linarith⟩
  obtain ⟨y, -, φ, hφ, hy⟩ := (isCompact_Icc (a := (fun _ _ => -(2 * c) : I → S → ℝ)) (b := fun _ _ => 2 * c)).tendsto_subseq hxm
  have hexp : ∀ k, (fun j s => Real.exp (x k j s)) = fun j s => v k j s * (v k j0 s)⁻¹ := by
    intro k
    funext j s
    simp only [hx]
    rw [Real.exp_sub, Real.exp_log (hvp k j s), Real.exp_log (hvp k j0 s), div_eq_mul_inv]
  have hukv : ∀ k j s, ukv K A (fun j s => Real.exp (x k j s)) j s = ukv K A (v k) j s := by
    intro k j s
    rw [hexp k]
    exact ukv_scale h (hvp k) (l := fun s => (v k j0 s)⁻¹) (fun s => inv_pos.2 (hvp k j0 s)) j s
  have hbar : ∀ k j, bar K A w (fun j s => Real.exp (x k j s)) j = bar K A w (v k) j := by
    intro k j
    unfold bar geometricBar
    simp_rw [hukv]
  refine ⟨fun j s => Real.exp (y j s), fun _ _ => Real.exp_pos _, fun j => ?_, fun j j' s => ?_, fun j s => ?_⟩
  · have h1 : Tendsto (fun k => ∑ s, w s * x (φ k) j s) atTop (𝓝 (∑ s, w s * y j s)) :=
      tendsto_finsetSum _ fun s _ => (tendsto_pi_nhds.1 (tendsto_pi_nhds.1 hy j) s).const_mul _
    have h2 : ∀ k, ∑ s, w s * x (φ k) j s = 0 := fun k => by
      simp only [hx, mul_sub]
      rw [sum_sub_distrib, hvb _ j, hvb _ j0, sub_zero]
    simp_rw [h2] at h1
    simp_rw [Real.log_exp]
    exact (tendsto_nhds_unique tendsto_const_nhds h1).symm
  · simp_rw [Real.log_exp]
    have h1 : Tendsto (fun k => x (φ k) j s - x (φ k) j' s) atTop (𝓝 (y j s - y j' s)) :=
      (tendsto_pi_nhds.1 (tendsto_pi_nhds.1 hy j) s).sub (tendsto_pi_nhds.1 (tendsto_pi_nhds.1 hy j') s)
    refine le_of_tendsto h1 (Eventually.of_forall fun k => ?_)
    simp only [hx]
    have := hvo (φ k) j j' s
    linarith
  · have h1 := ((ukv_continuous h j s).tendsto y).comp hy
    have h2 := ((bar_continuous h j).tendsto y).comp hy
    have h3 : Tendsto (fun k => ukv K A (v (φ k)) j s - bar K A w (v (φ k)) j) atTop (𝓝 0) := by
      have h4 : Tendsto (fun k => (w s)⁻¹ * spreadErr K A w (v (φ k))) atTop (𝓝 0) := by
        have := (hve.comp hφ.tendsto_atTop).const_mul (w s)⁻¹
        simpa using this
      refine squeeze_zero_norm (fun k => ?_) h4
      rw [Real.norm_eq_abs, le_inv_mul_iff₀ (h.wpos s)]
      refine le_trans ?_ (single_le_sum (f := fun s => w s * ∑ j, |ukv K A (v (φ k)) j s - bar K A w (v (φ k)) j|)
        (fun s _ => mul_nonneg (h.wpos s).le (sum_nonneg fun _ _ => abs_nonneg _)) (mem_univ s))
      exact mul_le_mul_of_nonneg_left (single_le_sum (f := fun j => |ukv K A (v (φ k)) j s - bar K A w (v (φ k)) j|) (fun _ _ => abs_nonneg _) (mem_univ j)) (h.wpos s).le
    have h5 := h1.sub h2
    have h6 : ∀ k, ((fun x : I → S → ℝ => ukv K A (fun j s => Real.exp (x j s)) j s) ∘ x ∘ φ) k - ((fun x : I → S → ℝ => bar K A w (fun j s => Real.exp (x j s)) j) ∘ x ∘ φ) k
        = ukv K A (v (φ k)) j s - bar K A w (v (φ k)) j := fun k => by
      simp only [Function.comp]
      rw [hukv, hbar]
    simp_rw [h6] at h5
    have := tendsto_nhds_unique h5 h3
    linarith

/-! ### the stopping test -/

theorem stdErr_le {m : ℝ} (hm : 0 < m) (hw : ∀ s, m ≤ w s) : stdErr (ukv K A u) ≤ spreadErr K A w u / (Real.sqrt (Fintype.card S) * m) := by
  have hn : (0 : ℝ) < Fintype.card S := by exact_mod_cast Fintype.card_pos
  have hs := Real.sqrt_pos.2 hn
  have h1 : ∀ j, Real.sqrt ((∑ s, (ukv K A u j s - (∑ r, ukv K A u j r) / Fintype.card S) ^ 2) / Fintype.card S) ≤ (∑ s, |ukv K A u j s - bar K A w u j|) / Real.sqrt (Fintype.card S) := by
    intro j
    rw [Real.sqrt_div' _ hn.le]
    refine div_le_div_of_nonneg_right (Real.sqrt_le_iff.2 ⟨sum_nonneg fun _ _ => abs_nonneg _, ?_⟩) hs.le
    have h2 : ∑ s, (ukv K A u j s - (∑ r, ukv K A u j r) / Fintype.card S) ^ 2 ≤ ∑ s, (ukv K A u j s - bar K A w u j) ^ 2 := by
      obtain ⟨μ, hμ⟩ : ∃ μ : ℝ, μ = (∑ r, ukv K A u j r) / Fintype.card S := ⟨_, rfl⟩
      have e : ∑ s, (ukv K A u j s - μ) = 0 := by
        rw [sum_sub_distrib, sum_const, card_univ, nsmul_eq_mul, hμ]
        field_simp
        ring
      rw [← hμ]
      have e2 : ∀ s, (ukv K A u j s - bar K A w u j) ^ 2 = (ukv K A u j s - μ) ^ 2 + 2 * (μ - bar K A w u j) * (ukv K A u j s - μ) + (μ - bar K A w u j) ^ 2 := fun s => by ring
      rw [sum_congr rfl fun s _ => e2 s, sum_add_distrib, sum_add_distrib, ← mul_sum, e, mul_zero, add_zero]
      exact le_add_of_nonneg_right (sum_nonneg fun _ _ => sq_nonneg _)
    refine h2.trans ?_
    rw [sum_congr rfl fun s _ => (sq_abs (ukv K A u j s - bar K A w u j)).symm]
    exact sum_sq_le_sq_sum_of_nonneg fun s _ => abs_nonneg _
  unfold stdErr
  refine (sum_le_sum fun j _ => h1 j).trans ?_
  rw [← sum_div, div_le_div_iff₀ hs (mul_pos hs hm)]
  have h3 : (∑ j, ∑ s, |ukv K A u j s - bar K A w u j|) * m ≤ spreadErr K A w u := by
    rw [sum_comm, mul_comm, mul_sum]
    exact sum_le_sum fun s _ => mul_le_mul_of_nonneg_right (hw s) (sum_nonneg fun _ _ => abs_nonneg _)
  nlinarith

theorem spread_le_std (h : Ok K A w) (hu : ∀ j s, 0 < u j s) : spreadErr K A w u ≤ 2 * Real.sqrt (Fintype.card S) * stdErr (ukv K A u) := by
  have hn : (0 : ℝ) < Fintype.card S := by exact_mod_cast Fintype.card_pos
  have hs := Real.sqrt_pos.2 hn
  obtain ⟨σ, hσ⟩ : ∃ σ : I → ℝ, σ = fun j => Real.sqrt (Fintype.card S) * Real.sqrt ((∑ s, (ukv K A u j s - (∑ r, ukv K A u j r) / Fintype.card S) ^ 2) / Fintype.card S) := ⟨_, rfl⟩
  have h1 : ∀ j s, |ukv K A u j s - (∑ r, ukv K A u j r) / Fintype.card S| ≤ σ j := by
    intro j s
    rw [hσ]
    simp only
    rw [← Real.sqrt_mul hn.le, mul_div_cancel₀ _ hn.ne']
    refine Real.abs_le_sqrt ?_
    exact single_le_sum (f := fun s => (ukv K A u j s - (∑ r, ukv K A u j r) / Fintype.card S) ^ 2) (fun _ _ => sq_nonneg _) (mem_univ s)
  have h2 : ∀ j, |bar K A w u j - (∑ r, ukv K A u j r) / Fintype.card S| ≤ σ j := by
    intro j
    obtain ⟨μ, hμ⟩ : ∃ μ : ℝ, μ = (∑ r, ukv K A u j r) / Fintype.card S := ⟨_, rfl⟩
    have h3 : ∀ s, |ukv K A u j s - μ| ≤ σ j := fun s => hμ ▸ h1 j s
    rw [← hμ, abs_le]
    constructor
    · by_contra hc
      push Not at hc
      have h4 : ∀ s, bar K A w u j < ukv K A u j s := fun s => by have := (abs_le.1 (h3 s)).1; linarith
      have h5 : ∑ s, w s * Real.log (bar K A w u j) < ∑ s, w s * Real.log (ukv K A u j s) :=
        sum_lt_sum_of_nonempty univ_nonempty fun s _ => mul_lt_mul_of_pos_left (Real.log_lt_log (bar_pos j) (h4 s)) (h.wpos s)
      rw [← sum_mul, h.wsum, one_mul, log_bar] at h5
      exact lt_irrefl _ h5
    · by_contra hc
      push Not at hc
      have h4 : ∀ s, ukv K A u j s < bar K A w u j := fun s => by have := (abs_le.1 (h3 s)).2; linarith
      have h5 : ∑ s, w s * Real.log (ukv K A u j s) < ∑ s, w s * Real.log (bar K A w u j) :=
        sum_lt_sum_of_nonempty univ_nonempty fun s _ => mul_lt_mul_of_pos_left (Real.log_lt_log (ukv_pos h hu j s) (h4 s)) (h.wpos s)
      rw [← sum_mul, h.wsum, one_mul, log_bar] at h5
      exact lt_irrefl _ h5
  have h6 : ∀ s, w s * ∑ j, |ukv K A u j s - bar K A w u j| ≤ w s * (2 * Real.sqrt (Fintype.card S) * stdErr (ukv K A u)) := by
    intro s
    refine mul_le_mul_of_nonneg_left ?_ (h.wpos s).le
    have h7 : ∀ j, |ukv K A u j s - bar K A w u j| ≤ 2 * σ j := by
      intro j
      have := abs_sub_le (ukv K A u j s) ((∑ r, ukv K A u j r) / Fintype.card S) (bar K A w u j)
      rw [abs_sub_comm ((∑ r, ukv K A u j r) / Fintype.card S) (bar K A w u j)] at this
      have := h1 j s
      have := h2 j
      linarith
    refine (sum_le_sum fun j _ => h7 j).trans (le_of_eq ?_)
    rw [hσ]
    unfold stdErr
    rw [← mul_sum, ← mul_sum, mul_assoc]
  refine (sum_le_sum fun s _ => h6 s).trans (le_of_eq ?_)
  rw [← sum_mul, h.wsum, one_mul]

/-- one of the tests of the first `10 T` iterations succeeds -/
theorem some_check (h : Ok K A w) (hu : ∀ j s, 0 < u j s) (hb : Bal w u) {c : ℝ} (hc : Spread K c) (ho : Osc u (2 * c)) {m : ℝ} (hm : 0 < m) (hw : ∀ s, m ≤ w s) {thr : ℝ} (hthr : 0 < thr)
    (T : ℕ) (hT : 4 * (Real.log (Fintype.card I) + 4 * c) < T * (Fintype.card S * m ^ 2 * thr ^ 2)) :
    ∃ t < T, stdErr (ukv K A ((upd K A w)^[10 * t + 1] u)) < thr := by
  by_contra hn
  push Not at hn
  have hcard : (0 : ℝ) < Fintype.card S := by exact_mod_cast Fintype.card_pos
  have hs := Real.sqrt_pos.2 hcard
  have h1 : ∀ t < T, Fintype.card S * m ^ 2 * thr ^ 2 / 4 ≤ 1 - ∑ j, bar K A w ((upd K A w)^[10 * t + 1] u) j := by
    intro t ht
    have hp := iter_pos h hu (10 * t + 1)
    have h2 := (hn t ht).trans (stdErr_le hm hw)
    rw [le_div_iff₀ (mul_pos hs hm)] at h2
    have h3 := h2.trans (spread_le_deficit h hp)
    have h4 : (thr * (Real.sqrt (Fintype.card S) * m)) ^ 2 ≤ (2 * Real.sqrt (1 - ∑ j, bar K A w ((upd K A w)^[10 * t + 1] u) j)) ^ 2 :=
      pow_le_pow_left₀ (by positivity) h3 2
    rw [mul_pow, mul_pow, mul_pow, Real.sq_sqrt hcard.le, Real.sq_sqrt (deficit_nonneg h hp)] at h4
    linarith
  have h2 : ∑ t ∈ range T, (1 - ∑ j, bar K A w ((upd K A w)^[10 * t + 1] u) j) ≤ ∑ k ∈ range (10 * T + 1), (1 - ∑ j, bar K A w ((upd K A w)^[k] u) j) := by
    rw [← sum_image (s := range T) (g := fun t => 10 * t + 1) (f := fun k => 1 - ∑ j, bar K A w ((upd K A w)^[k] u) j) (by intro a _ b _ hab; simp only at hab; omega)]
    refine sum_le_sum_of_subset_of_nonneg ?_ fun k _ _ => deficit_nonneg h (iter_pos h hu k)
    intro k hk
    simp only [mem_image, mem_range] at hk ⊢
    obtain ⟨t, ht, rfl⟩ := hk
    omega
  have h3 := deficit_bound h hu hb hc ho (10 * T + 1)
  have h4 : (T : ℝ) * (Fintype.card S * m ^ 2 * thr ^ 2 / 4) ≤ ∑ t ∈ range T, (1 - ∑ j, bar K A w ((upd K A w)^[10 * t + 1] u) j) := by
    have := sum_le_sum fun t (ht : t ∈ range T) => h1 t (mem_range.1 ht)
    rw [sum_const, card_range, nsmul_eq_mul] at this
    exact this
  linarith

end POT.EntBary
