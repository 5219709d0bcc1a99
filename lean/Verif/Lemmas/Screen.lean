import Verif.Spec.Screen
import Verif.Model.Screen
import Mathlib.Analysis.SpecialFunctions.Log.Basic
import Mathlib.Analysis.SpecialFunctions.Log.Deriv
import Mathlib.Topology.Order.Compact
import Mathlib.Topology.Algebra.Order.Field
import Mathlib.Data.List.FinRange
import Mathlib.Data.List.GetD
import Mathlib.Data.Multiset.Filter
import Mathlib.Tactic.FieldSimp
import Mathlib.Tactic.FunProp
import Mathlib.Tactic.Positivity
import Mathlib.Tactic.Linarith
import Mathlib.Algebra.BigOperators.Field

/-! # Lemmas: the screened dual -/

set_option linter.unusedSectionVars false

namespace POT.Screen

open Finset POT.Spec

variable {I J : Type*} [Fintype I] [Fintype J] {K : I → J → ℝ} {a : I → ℝ} {b : J → ℝ} {ε κ : ℝ} {x x' : I → ℝ} {y y' : J → ℝ}

theorem dual_swap (K : I → J → ℝ) (a : I → ℝ) (b : J → ℝ) (κ : ℝ) (x : I → ℝ) (y : J → ℝ) : screenDual (fun j i => K i j) b a (1 / κ) y x = screenDual K a b κ x y := by
  unfold screenDual
  rw [sum_comm, one_div_one_div]
  have e : ∑ i, ∑ j, Real.exp (y j) * K i j * Real.exp (x i) = ∑ i, ∑ j, Real.exp (x i) * K i j * Real.exp (y j) := sum_congr rfl fun i _ => sum_congr rfl fun j _ => by ring
  rw [e]; ring

theorem feasible_swap (h : ScreenFeasible ε κ x y) : ScreenFeasible ε (1 / κ) y x := ⟨fun j => by rw [div_div_eq_mul_div, div_one]; exact h.2 j, fun i => by rw [mul_one_div]; exact h.1 i⟩

theorem opt_swap (h : IsScreenOpt K a b ε κ x y) : IsScreenOpt (fun j i => K i j) b a ε (1 / κ) y x := by
  refine ⟨feasible_swap h.1, fun y' x' h' => ?_⟩
  rw [dual_swap, dual_swap]
  have := feasible_swap h'
  rw [one_div_one_div] at this
  exact h.2 x' y' this

/-- the dual minus its linearisation is a sum of remainders of the exponential -/
theorem dual_diff (K : I → J → ℝ) (a : I → ℝ) (b : J → ℝ) (κ : ℝ) (x x' : I → ℝ) (y y' : J → ℝ) :
    screenDual K a b κ x' y' - screenDual K a b κ x y = ∑ i, (∑ j, Real.exp (x i) * K i j * Real.exp (y j) - κ * a i) * (x' i - x i) + ∑ j, (∑ i, Real.exp (x i) * K i j * Real.exp (y j) - 1 / κ * b j) * (y' j - y j) +
      ∑ i, ∑ j, Real.exp (x i) * K i j * Real.exp (y j) * (Real.exp (x' i - x i + (y' j - y j)) - 1 - (x' i - x i + (y' j - y j))) := by
  have e1 : ∀ i j, Real.exp (x' i) * K i j * Real.exp (y' j) = Real.exp (x i) * K i j * Real.exp (y j) * Real.exp (x' i - x i + (y' j - y j)) := fun i j => by
    have h1 : Real.exp (x' i) = Real.exp (x i) * Real.exp (x' i - x i) := by rw [← Real.exp_add]; congr 1; ring
    have h2 : Real.exp (y' j) = Real.exp (y j) * Real.exp (y' j - y j) := by rw [← Real.exp_add]; congr 1; ring
    rw [h1, h2, Real.exp_add]; ring
  unfold screenDual
  simp_rw [e1]
  have s1 : ∑ i, (∑ j, Real.exp (x i) * K i j * Real.exp (y j) - κ * a i) * (x' i - x i) = ∑ i, ∑ j, Real.exp (x i) * K i j * Real.exp (y j) * (x' i - x i) - κ * ∑ i, x' i * a i + κ * ∑ i, x i * a i := by
    rw [mul_sum, mul_sum, ← sum_sub_distrib, ← sum_add_distrib]
    exact sum_congr rfl fun i _ => by rw [sub_mul, sum_mul]; ring
  have s2 : ∑ j, (∑ i, Real.exp (x i) * K i j * Real.exp (y j) - 1 / κ * b j) * (y' j - y j) = ∑ i, ∑ j, Real.exp (x i) * K i j * Real.exp (y j) * (y' j - y j) - 1 / κ * ∑ j, y' j * b j + 1 / κ * ∑ j, y j * b j := by
    rw [sum_comm, mul_sum, mul_sum, ← sum_sub_distrib, ← sum_add_distrib]
    exact sum_congr rfl fun i _ => by rw [sub_mul, sum_mul]; ring
  have s3 : ∑ i, ∑ j, Real.exp (x i) * K i j * Real.exp (y j) * (Real.exp (x' i - x i + (y' j - y j)) - 1 - (x' i - x i + (y' j - y j))) =
      ∑ i, ∑ j, Real.exp (x i) * K i j * Real.exp (y j) * Real.exp (x' i - x i + (y' j - y j)) - ∑ i, ∑ j, Real.exp (x i) * K i j * Real.exp (y j) -
        ∑ i, ∑ j, Real.exp (x i) * K i j * Real.exp (y j) * (x' i - x i) - ∑ i, ∑ j, Real.exp (x i) * K i j * Real.exp (y j) * (y' j - y j) := by
    simp_rw [← sum_sub_distrib]
    exact sum_congr rfl fun i _ => sum_congr rfl fun j _ => by ring
  rw [s1, s2, s3]; ring

theorem rem_nonneg (d : ℝ) : 0 ≤ Real.exp d - 1 - d := by linarith [Real.add_one_le_exp d]

/-- the scalar problem `min c t - k log t` over `t ≥ lo`: necessary conditions -/
theorem scalar_min {c k lo t : ℝ} (hc : 0 < c) (hk : 0 ≤ k) (hlo : 0 < lo) (ht : lo ≤ t) (h : ∀ s, lo ≤ s → c * t - k * Real.log t ≤ c * s - k * Real.log s) : k ≤ c * t ∧ (lo < t → c * t = k) := by
  have t0 : 0 < t := lt_of_lt_of_le hlo ht
  have h1 : k ≤ c * t := by
    by_contra hlt
    push Not at hlt
    have k0 : 0 < k := lt_of_le_of_lt (by positivity) hlt
    have htk : t < k / c := by rw [lt_div_iff₀ hc]; linarith
    have h2 := h (k / c) (ht.trans htk.le)
    have e1 : c * (k / c) = k := by field_simp
    have e2 : Real.log (k / c) = Real.log t - Real.log (c * t / k) := by
      rw [← Real.log_div t0.ne' (by positivity)]
      congr 1
      field_simp
    rw [e1, e2] at h2
    have h3 := Real.log_lt_sub_one_of_pos (x := c * t / k) (by positivity) (by rw [ne_eq, div_eq_one_iff_eq k0.ne']; exact hlt.ne)
    have h4 : k * Real.log (c * t / k) < c * t - k := by
      calc k * Real.log (c * t / k) < k * (c * t / k - 1) := mul_lt_mul_of_pos_left h3 k0
        _ = c * t - k := by field_simp
    linarith
  refine ⟨h1, fun hlt => ?_⟩
  by_contra hne
  have h2 : k < c * t := lt_of_le_of_ne h1 (Ne.symm hne)
  obtain ⟨s, hs⟩ : ∃ s, s = max lo (k / c) := ⟨_, rfl⟩
  have s1 : lo ≤ s := hs ▸ le_max_left _ _
  have s2 : k / c ≤ s := hs ▸ le_max_right _ _
  have s3 : s < t := by rw [hs]; exact max_lt hlt (by rw [div_lt_iff₀ hc]; linarith)
  have s0 : 0 < s := lt_of_lt_of_le hlo s1
  have h3 := h s s1
  have h4 : Real.log (t / s) < t / s - 1 := Real.log_lt_sub_one_of_pos (by positivity) (by rw [ne_eq, div_eq_one_iff_eq s0.ne']; exact s3.ne')
  rw [Real.log_div t0.ne' s0.ne'] at h4
  have h5 : k * (t / s - 1) ≤ c * (t - s) := by
    have : k * (t / s - 1) = k / s * (t - s) := by field_simp
    rw [this]
    refine mul_le_mul_of_nonneg_right ?_ (by linarith)
    rw [div_le_iff₀ hc] at s2
    rw [div_le_iff₀ s0]; linarith
  rcases hk.eq_or_lt with h0 | h0
  · rw [← h0] at h3; nlinarith
  · nlinarith [mul_lt_mul_of_pos_left h4 h0]

/-- first-order conditions at an optimum, rows -/
theorem opt_row [Nonempty J] (hK : ∀ i j, 0 < K i j) (ha : ∀ i, 0 ≤ a i) (hε : 0 < ε) (hκ : 0 < κ) (h : IsScreenOpt K a b ε κ x y) (i : I) :
    κ * a i ≤ ∑ j, Real.exp (x i) * K i j * Real.exp (y j) ∧ (ε / κ < Real.exp (x i) → ∑ j, Real.exp (x i) * K i j * Real.exp (y j) = κ * a i) := by
  classical
  have hs := scalar_min (c := ∑ j, K i j * Real.exp (y j)) (k := κ * a i) (lo := ε / κ) (t := Real.exp (x i)) (sum_pos (fun j _ => mul_pos (hK i j) (Real.exp_pos _)) univ_nonempty) (mul_nonneg hκ.le (ha i)) (div_pos hε hκ) (h.1.1 i) fun s hs => by
    have s0 : 0 < s := lt_of_lt_of_le (div_pos hε hκ) hs
    have h1 := h.2 (Function.update x i (Real.log s)) y ⟨fun k => by
      by_cases hk : k = i
      · subst hk; rw [Function.update_self, Real.exp_log s0]; exact hs
      · rw [Function.update_of_ne hk]; exact h.1.1 k, h.1.2⟩
    have e : ∀ z : I → ℝ, screenDual K a b κ z y = (Real.exp (z i) * ∑ j, K i j * Real.exp (y j) - κ * (z i * a i)) + (∑ k ∈ univ.erase i, (∑ j, Real.exp (z k) * K k j * Real.exp (y j) - κ * (z k * a k)) - 1 / κ * ∑ j, y j * b j) := fun z => by
      unfold screenDual
      rw [mul_sum univ (fun i => z i * a i) κ, ← sum_sub_distrib, ← add_sum_erase univ _ (mem_univ i), mul_sum univ (fun j => K i j * Real.exp (y j))]
      simp_rw [mul_assoc]
      ring
    rw [e x, e (Function.update x i (Real.log s)), Function.update_self, Real.exp_log s0] at h1
    have e2 : ∑ k ∈ univ.erase i, (∑ j, Real.exp (Function.update x i (Real.log s) k) * K k j * Real.exp (y j) - κ * (Function.update x i (Real.log s) k * a k)) = ∑ k ∈ univ.erase i, (∑ j, Real.exp (x k) * K k j * Real.exp (y j) - κ * (x k * a k)) :=
      sum_congr rfl fun k hk => by rw [Function.update_of_ne (ne_of_mem_erase hk)]
    rw [e2] at h1
    rw [Real.log_exp]
    linarith
  have e : ∑ j, Real.exp (x i) * K i j * Real.exp (y j) = (∑ j, K i j * Real.exp (y j)) * Real.exp (x i) := by rw [sum_mul]; exact sum_congr rfl fun j _ => by ring
  rw [e]
  exact hs

theorem opt_col [Nonempty I] (hK : ∀ i j, 0 < K i j) (hb : ∀ j, 0 ≤ b j) (hε : 0 < ε) (hκ : 0 < κ) (h : IsScreenOpt K a b ε κ x y) (j : J) :
    1 / κ * b j ≤ ∑ i, Real.exp (x i) * K i j * Real.exp (y j) ∧ (ε * κ < Real.exp (y j) → ∑ i, Real.exp (x i) * K i j * Real.exp (y j) = 1 / κ * b j) := by
  have := opt_row (fun j i => hK i j) hb hε (one_div_pos.2 hκ) (opt_swap h) j
  rw [div_div_eq_mul_div, div_one] at this
  have e : ∑ i, Real.exp (x i) * K i j * Real.exp (y j) = ∑ i, Real.exp (y j) * K i j * Real.exp (x i) := sum_congr rfl fun i _ => by ring
  rw [e]; exact this

/-- sufficient first-order conditions, for arbitrary constraint sets of the single scalings -/
theorem dual_le_of_first_order (hK : ∀ i j, 0 ≤ K i j) (h1 : ∀ i, 0 ≤ (∑ j, Real.exp (x i) * K i j * Real.exp (y j) - κ * a i) * (x' i - x i))
    (h2 : ∀ j, 0 ≤ (∑ i, Real.exp (x i) * K i j * Real.exp (y j) - 1 / κ * b j) * (y' j - y j)) : screenDual K a b κ x y ≤ screenDual K a b κ x' y' := by
  have h := dual_diff K a b κ x x' y y'
  have s1 := sum_nonneg fun i (_ : i ∈ univ) => h1 i
  have s2 := sum_nonneg fun j (_ : j ∈ univ) => h2 j
  have s3 : 0 ≤ ∑ i, ∑ j, Real.exp (x i) * K i j * Real.exp (y j) * (Real.exp (x' i - x i + (y' j - y j)) - 1 - (x' i - x i + (y' j - y j))) :=
    sum_nonneg fun i _ => sum_nonneg fun j _ => mul_nonneg (mul_nonneg (mul_nonneg (Real.exp_pos _).le (hK i j)) (Real.exp_pos _).le) (rem_nonneg _)
  linarith

/-- two optima have the same plan -/
theorem opt_unique [Nonempty I] [Nonempty J] (hK : ∀ i j, 0 < K i j) (ha : ∀ i, 0 ≤ a i) (hb : ∀ j, 0 ≤ b j) (hε : 0 < ε) (hκ : 0 < κ) (h : IsScreenOpt K a b ε κ x y) (h' : IsScreenOpt K a b ε κ x' y') (i : I) (j : J) :
    x' i + y' j = x i + y j := by
  have e := dual_diff K a b κ x x' y y'
  have s1 : 0 ≤ ∑ i, (∑ j, Real.exp (x i) * K i j * Real.exp (y j) - κ * a i) * (x' i - x i) := sum_nonneg fun i _ => by
    obtain ⟨r1, r2⟩ := opt_row hK ha hε hκ h i
    rcases (h.1.1 i).eq_or_lt with hl | hl
    · refine mul_nonneg (by linarith) (sub_nonneg.2 (Real.exp_le_exp.1 ?_))
      rw [← hl]; exact h'.1.1 i
    · rw [r2 hl, sub_self, zero_mul]
  have s2 : 0 ≤ ∑ j, (∑ i, Real.exp (x i) * K i j * Real.exp (y j) - 1 / κ * b j) * (y' j - y j) := sum_nonneg fun j _ => by
    obtain ⟨r1, r2⟩ := opt_col hK hb hε hκ h j
    rcases (h.1.2 j).eq_or_lt with hl | hl
    · refine mul_nonneg (by linarith) (sub_nonneg.2 (Real.exp_le_exp.1 ?_))
      rw [← hl]; exact h'.1.2 j
    · rw [r2 hl, sub_self, zero_mul]
  have hle := h'.2 x y h.1
  have t : ∀ i j, 0 ≤ Real.exp (x i) * K i j * Real.exp (y j) * (Real.exp (x' i - x i + (y' j - y j)) - 1 - (x' i - x i + (y' j - y j))) := fun i j =>
    mul_nonneg (mul_nonneg (mul_nonneg (Real.exp_pos _).le (hK i j).le) (Real.exp_pos _).le) (rem_nonneg _)
  have s3 : ∑ i, ∑ j, Real.exp (x i) * K i j * Real.exp (y j) * (Real.exp (x' i - x i + (y' j - y j)) - 1 - (x' i - x i + (y' j - y j))) = 0 :=
    le_antisymm (by linarith) (sum_nonneg fun i _ => sum_nonneg fun j _ => t i j)
  have t1 := (sum_eq_zero_iff_of_nonneg fun i _ => sum_nonneg fun j _ => t i j).1 s3 i (mem_univ i)
  have t2 := (sum_eq_zero_iff_of_nonneg fun j _ => t i j).1 t1 j (mem_univ j)
  have pp : 0 < Real.exp (x i) * K i j * Real.exp (y j) := mul_pos (mul_pos (Real.exp_pos _) (hK i j)) (Real.exp_pos _)
  have t3 := (mul_eq_zero.1 t2).resolve_left pp.ne'
  by_contra hne
  have : x' i - x i + (y' j - y j) ≠ 0 := fun h0 => hne (by linarith)
  have := Real.add_one_lt_exp this
  linarith

private theorem log_bound {c k t : ℝ} (hc : 0 < c) (hk : 0 ≤ k) : k * t ≤ c * Real.exp t + k * Real.log ((k + 1) / c) := by
  have h1 := Real.add_one_le_exp (t - Real.log ((k + 1) / c))
  rw [Real.exp_sub, Real.exp_log (by positivity)] at h1
  have h2 : k * (t - Real.log ((k + 1) / c) + 1) ≤ k * (Real.exp t / ((k + 1) / c)) := mul_le_mul_of_nonneg_left h1 hk
  have h3 : k * (Real.exp t / ((k + 1) / c)) ≤ c * Real.exp t := by
    have : k * (Real.exp t / ((k + 1) / c)) = k / (k + 1) * (c * Real.exp t) := by field_simp
    rw [this]
    exact mul_le_of_le_one_left (by positivity) (by rw [div_le_one (by positivity)]; linarith)
  nlinarith

/-- an optimum exists -/
theorem exists_opt [Nonempty I] [Nonempty J] (hK : ∀ i j, 0 < K i j) (ha : ∀ i, 0 ≤ a i) (hb : ∀ j, 0 ≤ b j) (hε : 0 < ε) (hκ : 0 < κ) : ∃ x y, IsScreenOpt K a b ε κ x y := by
  have lo1 : 0 < ε / κ := div_pos hε hκ
  have lo2 : 0 < ε * κ := mul_pos hε hκ
  obtain ⟨c, hc⟩ : ∃ c : I → ℝ, c = fun i => (ε * κ) * (∑ j, K i j) / 2 := ⟨_, rfl⟩
  obtain ⟨d, hd⟩ : ∃ d : J → ℝ, d = fun j => (ε / κ) * (∑ i, K i j) / 2 := ⟨_, rfl⟩
  have c0 : ∀ i, 0 < c i := fun i => by rw [hc]; exact div_pos (mul_pos lo2 (sum_pos (fun j _ => hK i j) univ_nonempty)) two_pos
  have d0 : ∀ j, 0 < d j := fun j => by rw [hd]; exact div_pos (mul_pos lo1 (sum_pos (fun i _ => hK i j) univ_nonempty)) two_pos
  obtain ⟨B, hB⟩ : ∃ B : ℝ, B = ∑ i, κ * a i * Real.log ((κ * a i + 1) / (c i / 2)) + ∑ j, 1 / κ * b j * Real.log ((1 / κ * b j + 1) / (d j / 2)) := ⟨_, rfl⟩
  have low : ∀ (x : I → ℝ) (y : J → ℝ), ScreenFeasible ε κ x y → ∑ i, c i / 2 * Real.exp (x i) + ∑ j, d j / 2 * Real.exp (y j) - B ≤ screenDual K a b κ x y := fun x y h => by
    have q1 : ∑ i, c i * Real.exp (x i) ≤ (∑ i, ∑ j, Real.exp (x i) * K i j * Real.exp (y j)) / 2 := by
      rw [sum_div]
      refine sum_le_sum fun i _ => ?_
      rw [hc]; dsimp only
      rw [mul_sum, sum_div, sum_mul, sum_div]
      refine sum_le_sum fun j _ => ?_
      have := mul_le_mul_of_nonneg_left (h.2 j) (mul_pos (Real.exp_pos (x i)) (hK i j)).le
      linarith
    have q2 : ∑ j, d j * Real.exp (y j) ≤ (∑ i, ∑ j, Real.exp (x i) * K i j * Real.exp (y j)) / 2 := by
      rw [sum_comm, sum_div]
      refine sum_le_sum fun j _ => ?_
      rw [hd]; dsimp only
      rw [mul_sum, sum_div, sum_mul, sum_div]
      refine sum_le_sum fun i _ => ?_
      have := mul_le_mul_of_nonneg_left (h.1 i) (mul_pos (hK i j) (Real.exp_pos (y j))).le
      linarith
    have q3 : ∑ i, κ * a i * x i ≤ ∑ i, (c i / 2 * Real.exp (x i) + κ * a i * Real.log ((κ * a i + 1) / (c i / 2))) := sum_le_sum fun i _ => log_bound (half_pos (c0 i)) (mul_nonneg hκ.le (ha i))
    have q4 : ∑ j, 1 / κ * b j * y j ≤ ∑ j, (d j / 2 * Real.exp (y j) + 1 / κ * b j * Real.log ((1 / κ * b j + 1) / (d j / 2))) := sum_le_sum fun j _ => log_bound (half_pos (d0 j)) (mul_nonneg (one_div_pos.2 hκ).le (hb j))
    rw [sum_add_distrib] at q3 q4
    have e1 : ∑ i, κ * a i * x i = κ * ∑ i, x i * a i := by rw [mul_sum]; exact sum_congr rfl fun i _ => by ring
    have e2 : ∑ j, 1 / κ * b j * y j = 1 / κ * ∑ j, y j * b j := by rw [mul_sum]; exact sum_congr rfl fun i _ => by ring
    have e3 : ∑ i, c i * Real.exp (x i) = ∑ i, c i / 2 * Real.exp (x i) + ∑ i, c i / 2 * Real.exp (x i) := by rw [← sum_add_distrib]; exact sum_congr rfl fun i _ => by ring
    have e4 : ∑ j, d j * Real.exp (y j) = ∑ j, d j / 2 * Real.exp (y j) + ∑ j, d j / 2 * Real.exp (y j) := by rw [← sum_add_distrib]; exact sum_congr rfl fun i _ => by ring
    unfold screenDual
    rw [e1] at q3; rw [e2] at q4; rw [e3] at q1; rw [e4] at q2
    rw [hB]; linarith
  obtain ⟨L, hL⟩ : ∃ L : ℝ, L = screenDual K a b κ (fun _ => Real.log (ε / κ)) (fun _ => Real.log (ε * κ)) := ⟨_, rfl⟩
  have f0 : ScreenFeasible ε κ (fun _ : I => Real.log (ε / κ)) (fun _ : J => Real.log (ε * κ)) := ⟨fun i => (Real.exp_log lo1).ge, fun j => (Real.exp_log lo2).ge⟩
  have bd : ∀ (x : I → ℝ) (y : J → ℝ), ScreenFeasible ε κ x y → screenDual K a b κ x y ≤ L → (∀ i, x i ≤ Real.log ((L + B) / (c i / 2))) ∧ ∀ j, y j ≤ Real.log ((L + B) / (d j / 2)) := fun x y h hle => by
    have h1 := low x y h
    have n1 : ∀ i, 0 ≤ c i / 2 * Real.exp (x i) := fun i => mul_nonneg (half_pos (c0 i)).le (Real.exp_pos _).le
    have n2 : ∀ j, 0 ≤ d j / 2 * Real.exp (y j) := fun j => mul_nonneg (half_pos (d0 j)).le (Real.exp_pos _).le
    refine ⟨fun i => ?_, fun j => ?_⟩
    · have h2 := single_le_sum (fun i _ => n1 i) (mem_univ i)
      have h3 : Real.exp (x i) ≤ (L + B) / (c i / 2) := by
        rw [le_div_iff₀ (half_pos (c0 i))]
        have := sum_nonneg fun j (_ : j ∈ univ) => n2 j
        linarith
      exact (Real.le_log_iff_exp_le (lt_of_lt_of_le (Real.exp_pos _) h3)).2 h3
    · have h2 := single_le_sum (fun i _ => n2 i) (mem_univ j)
      have h3 : Real.exp (y j) ≤ (L + B) / (d j / 2) := by
        rw [le_div_iff₀ (half_pos (d0 j))]
        have := sum_nonneg fun i (_ : i ∈ univ) => n1 i
        linarith
      exact (Real.le_log_iff_exp_le (lt_of_lt_of_le (Real.exp_pos _) h3)).2 h3
  obtain ⟨C, hC⟩ : ∃ C : Set ((I → ℝ) × (J → ℝ)), C = Set.Icc (fun _ => Real.log (ε / κ)) (fun i => Real.log ((L + B) / (c i / 2))) ×ˢ Set.Icc (fun _ => Real.log (ε * κ)) (fun j => Real.log ((L + B) / (d j / 2))) := ⟨_, rfl⟩
  have cc : IsCompact C := by rw [hC]; exact isCompact_Icc.prod isCompact_Icc
  have mem : ∀ (x : I → ℝ) (y : J → ℝ), ScreenFeasible ε κ x y → screenDual K a b κ x y ≤ L → (x, y) ∈ C := fun x y h hle => by
    obtain ⟨h1, h2⟩ := bd x y h hle
    rw [hC]
    exact ⟨⟨fun i => (Real.log_le_iff_le_exp lo1).2 (h.1 i), h1⟩, ⟨fun j => (Real.log_le_iff_le_exp lo2).2 (h.2 j), h2⟩⟩
  have ct : Continuous fun z : (I → ℝ) × (J → ℝ) => screenDual K a b κ z.1 z.2 := by
    unfold screenDual
    fun_prop
  obtain ⟨z, hz, hmin⟩ := cc.exists_isMinOn ⟨_, mem _ _ f0 (le_of_eq hL.symm)⟩ ct.continuousOn
  have hzf : ScreenFeasible ε κ z.1 z.2 := by
    rw [hC] at hz
    exact ⟨fun i => (Real.log_le_iff_le_exp lo1).1 (hz.1.1 i), fun j => (Real.log_le_iff_le_exp lo2).1 (hz.2.1 j)⟩
  rw [isMinOn_iff] at hmin
  refine ⟨z.1, z.2, hzf, fun x' y' h' => ?_⟩
  rcases le_total (screenDual K a b κ x' y') L with hle | hle
  · exact hmin (x', y') (mem x' y' h' hle)
  · have h1 := hmin (fun _ => Real.log (ε / κ), fun _ => Real.log (ε * κ)) (mem _ _ f0 (le_of_eq hL.symm))
    dsimp only at h1
    rw [← hL] at h1
    exact h1.trans hle

/-! ### the restricted arrays -/

section sub

open Classical

variable (K a b ε κ) (S : I → Prop) (T : J → Prop)

theorem ext_sel {X : Type*} {P : X → Prop} (u : {x // P x} → ℝ) (d : ℝ) (x : {x // P x}) : ext P u d x = u x := by
  unfold ext; rw [dif_pos x.2]

theorem ext_not {X : Type*} {P : X → Prop} (u : {x // P x} → ℝ) (d : ℝ) (x : {x // ¬ P x}) : ext P u d x = d := by
  unfold ext; rw [dif_neg x.2]

theorem ext_pos {X : Type*} {P : X → Prop} {u : {x // P x} → ℝ} {d : ℝ} (hu : ∀ x, 0 < u x) (hd : 0 < d) (x : X) : 0 < ext P u d x := by
  unfold ext; split_ifs with h
  · exact hu _
  · exact hd

theorem sum_split {X : Type*} [Fintype X] (P : X → Prop) (f : X → ℝ) : ∑ x, f x = ∑ x : {x // P x}, f x + ∑ x : {x // ¬ P x}, f x := (Fintype.sum_subtype_add_sum_subtype P f).symm

/-- row sums of the full kernel against the extended scalings -/
theorem row_ext (v : {j // T j} → ℝ) (i : {i // S i}) : ∑ j, K i j * ext T v (ε * κ) j = ∑ j : {j // T j}, K i j * v j + vecIJc K ε κ S T i := by
  rw [sum_split T]
  simp only [ext_sel, ext_not]
  unfold vecIJc
  rw [← sum_mul, mul_comm (∑ j : {j // ¬ T j}, K i j)]

theorem col_ext (u : {i // S i} → ℝ) (j : {j // T j}) : ∑ i, K i j * ext S u (ε / κ) i = ∑ i : {i // S i}, K i j * u i + vecIcJ K ε κ S T j := by
  rw [sum_split S]
  simp only [ext_sel, ext_not]
  unfold vecIcJ
  rw [← sum_mul, mul_comm (∑ i : {i // ¬ S i}, K i j)]

/-- the screened objective is the dual at the extended scalings, up to a constant -/
theorem obj_ext (hε : 0 < ε) (hκ : 0 < κ) {u : {i // S i} → ℝ} {v : {j // T j} → ℝ} (hu : ∀ i, 0 < u i) (hv : ∀ j, 0 < v j) :
    screenDual K a b κ (fun i => Real.log (ext S u (ε / κ) i)) (fun j => Real.log (ext T v (ε * κ) j)) = screenedObj K a b ε κ S T u v +
      (∑ i : {i // ¬ S i}, ∑ j : {j // ¬ T j}, (ε / κ) * K i j * (ε * κ) - κ * ∑ i : {i // ¬ S i}, Real.log (ε / κ) * a i - 1 / κ * ∑ j : {j // ¬ T j}, Real.log (ε * κ) * b j) := by
  have p1 := ext_pos hu (div_pos hε hκ)
  have p2 := ext_pos hv (mul_pos hε hκ)
  unfold screenDual
  simp only [Real.exp_log (p1 _), Real.exp_log (p2 _)]
  rw [sum_split S, sum_split S (fun i => Real.log (ext S u (ε / κ) i) * a i), sum_split T (fun j => Real.log (ext T v (ε * κ) j) * b j)]
  have e3 : ∀ i, ∑ j, ext S u (ε / κ) i * K i j * ext T v (ε * κ) j = ∑ j : {j // T j}, ext S u (ε / κ) i * K i j * v j + ∑ j : {j // ¬ T j}, ext S u (ε / κ) i * K i j * (ε * κ) := fun i => by
    rw [sum_split T]
    simp only [ext_sel, ext_not]
  simp only [e3, sum_add_distrib]
  simp only [ext_sel, ext_not]
  unfold screenedObj
  have e1 : ∑ i : {i // S i}, ∑ j : {j // ¬ T j}, u i * K i j * (ε * κ) = ∑ i, u i * vecIJc K ε κ S T i := sum_congr rfl fun i _ => by
    unfold vecIJc
    rw [mul_sum, mul_sum]; exact sum_congr rfl fun j _ => by ring
  have e2 : ∑ i : {i // ¬ S i}, ∑ j : {j // T j}, ε / κ * K i j * v j = ∑ j, vecIcJ K ε κ S T j * v j := by
    rw [sum_comm]
    refine sum_congr rfl fun j _ => ?_
    unfold vecIcJ
    rw [mul_sum, sum_mul]
  rw [e1, e2]
  simp only [mul_comm (a _), mul_comm (b _)]
  ring

end sub

/-! ### sorting and thresholds -/

section thresholds

open Classical

variable {n : ℕ}

theorem sortDesc_length (w : Fin n → ℝ) : (sortDesc w).length = n := by unfold sortDesc; rw [List.length_mergeSort, List.length_ofFn]

theorem sortDesc_perm (w : Fin n → ℝ) : (sortDesc w).Perm (List.ofFn w) := List.mergeSort_perm _ _

theorem sortDesc_mem {w : Fin n → ℝ} {t : ℝ} (h : t ∈ sortDesc w) : ∃ i, w i = t := by
  have := (sortDesc_perm w).mem_iff.1 h
  rwa [List.mem_ofFn] at this

theorem sortDesc_pairwise (w : Fin n → ℝ) : (sortDesc w).Pairwise fun s t => t ≤ s := by
  have := List.pairwise_mergeSort (le := fun s t : ℝ => decide (t ≤ s)) (fun a b c h1 h2 => by simp only [decide_eq_true_eq] at *; linarith) (fun a b => by simp only [Bool.or_eq_true, decide_eq_true_eq]; exact le_total b a) (List.ofFn w)
  exact this.imp fun h => by simpa using h

theorem getD_mem {L : List ℝ} {k : ℕ} (h : k < L.length) : L.getD k 0 ∈ L := by
  rw [List.getD_eq_getElem _ _ h]; exact List.getElem_mem h

theorem sortDesc_anti (w : Fin n → ℝ) {k l : ℕ} (hkl : k ≤ l) (hl : l < n) : (sortDesc w).getD l 0 ≤ (sortDesc w).getD k 0 := by
  have hl' : l < (sortDesc w).length := by rw [sortDesc_length]; exact hl
  have hk' : k < (sortDesc w).length := lt_of_le_of_lt hkl hl'
  rw [List.getD_eq_getElem _ _ hl', List.getD_eq_getElem _ _ hk']
  rcases hkl.eq_or_lt with rfl | h
  · exact le_rfl
  · exact List.pairwise_iff_getElem.1 (sortDesc_pairwise w) k l hk' hl' h

theorem card_filter_sort (w : Fin n → ℝ) (p : ℝ → Prop) : (univ.filter fun i => p (w i)).card = (sortDesc w).countP fun t => decide (p t) := by
  rw [(sortDesc_perm w).countP_eq, List.ofFn_eq_map, List.countP_map]
  rw [Finset.card_def, Finset.filter_val, ← Multiset.countP_eq_card_filter, Fin.univ_def]
  exact Multiset.coe_countP _ _

/-- at least `m` entries are at least the `m`-th largest, exactly `m` if the next one is smaller -/
theorem count_ge (w : Fin n → ℝ) {m : ℕ} (h1 : 1 ≤ m) (h2 : m ≤ n) :
    m ≤ (univ.filter fun i => (sortDesc w).getD (m - 1) 0 ≤ w i).card ∧ ((∀ l, m ≤ l → l < n → (sortDesc w).getD l 0 < (sortDesc w).getD (m - 1) 0) → (univ.filter fun i => (sortDesc w).getD (m - 1) 0 ≤ w i).card = m) := by
  rw [card_filter_sort w (fun t => (sortDesc w).getD (m - 1) 0 ≤ t)]
  obtain ⟨L, hL⟩ : ∃ L, L = sortDesc w := ⟨_, rfl⟩
  have hlen : L.length = n := by rw [hL, sortDesc_length]
  rw [← hL]
  have hs : L.countP (fun t => decide (L.getD (m - 1) 0 ≤ t)) = (L.take m).countP (fun t => decide (L.getD (m - 1) 0 ≤ t)) + (L.drop m).countP (fun t => decide (L.getD (m - 1) 0 ≤ t)) := by
    rw [← List.countP_append, List.take_append_drop]
  have ht : (L.take m).countP (fun t => decide (L.getD (m - 1) 0 ≤ t)) = m := by
    have e : (L.take m).length = m := by rw [List.length_take, hlen]; omega
    conv_rhs => rw [← e]
    rw [List.countP_eq_length]
    intro t ht
    obtain ⟨k, hk, rfl⟩ := List.getElem_of_mem ht
    rw [e] at hk
    rw [List.getElem_take, decide_eq_true_eq]
    have := sortDesc_anti w (k := k) (l := m - 1) (by omega) (by omega)
    rw [← hL] at this
    rwa [List.getD_eq_getElem _ _ (by omega : k < L.length)] at this
  refine ⟨by rw [hs, ht]; omega, fun hlt => ?_⟩
  have hd : (L.drop m).countP (fun t => decide (L.getD (m - 1) 0 ≤ t)) = 0 := by
    rw [List.countP_eq_zero]
    intro t ht
    obtain ⟨k, hk, rfl⟩ := List.getElem_of_mem ht
    rw [List.length_drop, hlen] at hk
    rw [List.getElem_drop, decide_eq_true_eq, not_le]
    have := hlt (m + k) (by omega) (by omega)
    rwa [List.getD_eq_getElem _ _ (by omega : m + k < L.length)] at this
  rw [hs, ht, hd, add_zero]

theorem sel_iff {w S : Fin n → ℝ} (hS : ∀ i, 0 < S i) (e : ℝ) (i : Fin n) : e * S i ≤ w i ↔ e ≤ w i / S i := (le_div_iff₀ (hS i)).symm

/-- the corrected threshold is the uncorrected one (`uniform=False`) -/
theorem epsSq_eq [NeZero n] {w S : Fin n → ℝ} (hS : ∀ i, 0 < S i) {m : ℕ} (h1 : 1 ≤ m) (h2 : m ≤ n) : epsSq false w S m = (sortDesc fun i => w i / S i).getD (m - 1) 0 := by
  have ht : thr false w S m = (sortDesc fun i => w i / S i).getD (m - 1) 0 := by unfold thr; rw [if_neg (by simp)]
  unfold epsSq
  rw [ht]
  split_ifs with h
  · unfold meanTwo
    rw [sortDesc_length]
    split_ifs with hm
    · have hge := sortDesc_anti (fun i => w i / S i) (k := m - 1) (l := m) (by omega) hm
      rcases hge.eq_or_lt with he | hl
      · rw [he]; ring
      · exfalso
        refine h ?_
        simp_rw [sel_iff hS]
        refine (count_ge (fun i => w i / S i) h1 h2).2 fun l hl1 hl2 => lt_of_le_of_lt (sortDesc_anti _ hl1 hl2) hl
    · rfl
  · rfl

theorem sortAsc_mem {w : Fin n → ℝ} {t : ℝ} (h : t ∈ sortAsc w) : ∃ i, w i = t := by
  have := (List.mergeSort_perm (List.ofFn w) fun s t => decide (s ≤ t)).mem_iff.1 h
  rwa [List.mem_ofFn] at this

theorem sortAsc_length (w : Fin n → ℝ) : (sortAsc w).length = n := by unfold sortAsc; rw [List.length_mergeSort, List.length_ofFn]

theorem epsSq_pos [NeZero n] (uniform : Bool) {w S : Fin n → ℝ} (hw : ∀ i, 0 < w i) (hS : ∀ i, 0 < S i) {m : ℕ} (h1 : 1 ≤ m) (h2 : m ≤ n) : 0 < epsSq uniform w S m := by
  have hd : ∀ k, k < n → 0 < (sortDesc fun i => w i / S i).getD k 0 := fun k hk => by
    obtain ⟨i, hi⟩ := sortDesc_mem (getD_mem (L := sortDesc fun i => w i / S i) (k := k) (by rw [sortDesc_length]; exact hk))
    rw [← hi]; exact div_pos (hw i) (hS i)
  have ha : 0 < (sortAsc S).getD (m - 1) 0 := by
    obtain ⟨i, hi⟩ := sortAsc_mem (getD_mem (L := sortAsc S) (k := m - 1) (by rw [sortAsc_length]; omega))
    rw [← hi]; exact hS i
  have ht : 0 < thr uniform w S m := by
    unfold thr
    split_ifs
    · exact div_pos (hw 0) ha
    · exact hd _ (by omega)
  unfold epsSq
  split_ifs
  · unfold meanTwo
    rw [sortDesc_length]
    split_ifs with hm
    · exact half_pos (add_pos (hd _ (by omega)) (hd _ hm))
    · exact hd _ (by omega)
  · exact ht

theorem eps_kappa {eu ev : ℝ} (h1 : 0 < eu) (h2 : 0 < ev) : 0 < epsilon eu ev ∧ 0 < kappa eu ev ∧ epsilon eu ev ^ 2 = eu * kappa eu ev ∧ epsilon eu ev ^ 2 * kappa eu ev = ev := by
  have p1 : 0 < epsilon eu ev := Real.rpow_pos_of_pos (mul_pos h1 h2) _
  have p2 : 0 < kappa eu ev := Real.rpow_pos_of_pos (div_pos h2 h1) _
  have e1 : epsilon eu ev ^ 2 = Real.sqrt (eu * ev) := by
    unfold epsilon
    rw [← Real.rpow_natCast, ← Real.rpow_mul (mul_pos h1 h2).le, Real.sqrt_eq_rpow]
    norm_num
  have e2 : kappa eu ev = Real.sqrt (ev / eu) := by unfold kappa; rw [Real.sqrt_eq_rpow]
  have e3 : Real.sqrt (eu * ev) = eu * Real.sqrt (ev / eu) := by
    rw [show eu * ev = eu ^ 2 * (ev / eu) by field_simp, Real.sqrt_mul (sq_nonneg _), Real.sqrt_sq h1.le]
  refine ⟨p1, p2, by rw [e1, e2, e3], ?_⟩
  rw [e1, e2, e3, mul_assoc, Real.mul_self_sqrt (div_pos h2 h1).le]
  field_simp

end thresholds

end POT.Screen
