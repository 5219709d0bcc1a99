import Verif.Lemmas.Kl
import Mathlib.Analysis.Calculus.Deriv.MeanValue
import Mathlib.Analysis.SpecialFunctions.Log.Deriv
import Mathlib.Tactic.Positivity

/-! # Pinsker's inequality for finite measures of equal mass -/

set_option linter.unusedSectionVars false

namespace POT

open Finset Spec

variable {I J : Type*} [Fintype I] [Fintype J]

/-- `2 (x - 1) / (x + 1) ≤ log x` for `1 ≤ x`, the other way round below 1. -/
private noncomputable def psi (x : ℝ) : ℝ := (x + 1) * Real.log x - 2 * (x - 1)

private theorem psi_deriv {x : ℝ} (hx : 0 < x) : HasDerivAt psi (Real.log x + (x + 1) / x - 2) x := by
  have h1 : HasDerivAt (fun x : ℝ => x + 1) 1 x := (hasDerivAt_id x).add_const 1
  have h2 := h1.mul (Real.hasDerivAt_log hx.ne')
  have h3 : HasDerivAt (fun x : ℝ => 2 * (x - 1)) (2 * 1) x := ((hasDerivAt_id x).sub_const 1).const_mul 2
  refine (h2.sub h3).congr_deriv ?_
  ring

private theorem psi_mono : MonotoneOn psi (Set.Ioi 0) := by
  refine monotoneOn_of_deriv_nonneg (convex_Ioi 0) (fun x hx => (psi_deriv hx).continuousAt.continuousWithinAt) ?_ ?_
  · intro x hx
    rw [interior_Ioi] at hx
    exact (psi_deriv hx).differentiableAt.differentiableWithinAt
  · intro x hx
    rw [interior_Ioi] at hx
    have hx : 0 < x := hx
    rw [(psi_deriv hx).deriv]
    have h := Real.one_sub_inv_le_log_of_pos hx
    have h2 : (x + 1) / x = 1 + x⁻¹ := by field_simp
    linarith

private noncomputable def phi (x : ℝ) : ℝ := (2 * x + 4) * (x * Real.log x - x + 1) - 3 * (x - 1) ^ 2

private theorem phi_deriv {x : ℝ} (hx : 0 < x) : HasDerivAt phi (4 * psi x) x := by
  have h1 : HasDerivAt (fun x : ℝ => 2 * x + 4) (2 * 1) x := ((hasDerivAt_id x).const_mul 2).add_const 4
  have h2 : HasDerivAt (fun x : ℝ => x * Real.log x - x + 1) (1 * Real.log x + x * x⁻¹ - 1) x :=
    (((hasDerivAt_id x).mul (Real.hasDerivAt_log hx.ne')).sub (hasDerivAt_id x)).add_const 1
  have h3 : HasDerivAt (fun x : ℝ => 3 * (x - 1) ^ 2) (3 * ((2 : ℕ) * (x - 1) ^ (2 - 1) * 1)) x :=
    (((hasDerivAt_id x).sub_const 1).pow 2).const_mul 3
  refine ((h1.mul h2).sub h3).congr_deriv ?_
  have : x * x⁻¹ = 1 := mul_inv_cancel₀ hx.ne'
  rw [this]
  simp only [psi]
  push_cast
  ring

/-- `3 (x - 1)^2 ≤ (2 x + 4) (x log x - x + 1)` -/
theorem pinsker_one {x : ℝ} (hx : 0 ≤ x) : 3 * (x - 1) ^ 2 ≤ (2 * x + 4) * (x * Real.log x - x + 1) := by
  have h0 : phi 1 = 0 := by simp [phi]
  have hp1 : psi 1 = 0 := by simp [psi]
  rcases eq_or_lt_of_le hx with hx | hx
  · rw [← hx]; norm_num
  · suffices h : 0 ≤ phi x by unfold phi at h; linarith
    rcases le_total 1 x with h1 | h1
    · have hm : MonotoneOn phi (Set.Ici 1) := by
        refine monotoneOn_of_deriv_nonneg (convex_Ici 1)
          (fun y hy => (phi_deriv (lt_of_lt_of_le one_pos hy)).continuousAt.continuousWithinAt) ?_ ?_
        · intro y hy
          rw [interior_Ici] at hy
          exact (phi_deriv (one_pos.trans hy)).differentiableAt.differentiableWithinAt
        · intro y hy
          rw [interior_Ici] at hy
          have hy : 1 < y := hy
          rw [(phi_deriv (one_pos.trans hy)).deriv]
          have := psi_mono (Set.mem_Ioi.2 one_pos) (Set.mem_Ioi.2 (one_pos.trans hy)) hy.le
          linarith
      have := hm (Set.mem_Ici.2 le_rfl) (Set.mem_Ici.2 h1) h1
      linarith
    · have hm : AntitoneOn phi (Set.Ioc 0 1) := by
        refine antitoneOn_of_deriv_nonpos (convex_Ioc 0 1)
          (fun y hy => (phi_deriv hy.1).continuousAt.continuousWithinAt) ?_ ?_
        · intro y hy
          rw [interior_Ioc] at hy
          exact (phi_deriv hy.1).differentiableAt.differentiableWithinAt
        · intro y hy
          rw [interior_Ioc] at hy
          rw [(phi_deriv hy.1).deriv]
          have := psi_mono (Set.mem_Ioi.2 hy.1) (Set.mem_Ioi.2 one_pos) hy.2.le
          linarith
      have := hm ⟨hx, h1⟩ ⟨one_pos, le_rfl⟩ h1
      linarith

theorem pinsker_entry {p q : ℝ} (hp : 0 ≤ p) (hq : 0 < q) :
    (p - q) ^ 2 ≤ ((2 * p + 4 * q) / 3) * (p * Real.log (p / q) - p + q) := by
  have h := pinsker_one (div_nonneg hp hq.le)
  have hq2 : 0 < q ^ 2 := by positivity
  have h2 := mul_le_mul_of_nonneg_left h hq2.le
  have e1 : q ^ 2 * (3 * (p / q - 1) ^ 2) = 3 * (p - q) ^ 2 := by field_simp
  have e2 : q ^ 2 * ((2 * (p / q) + 4) * (p / q * Real.log (p / q) - p / q + 1))
      = (2 * p + 4 * q) * (p * Real.log (p / q) - p + q) := by field_simp
  rw [e1, e2] at h2
  linarith

theorem pinsker {p q : I → ℝ} {S : ℝ} (hp : ∀ i, 0 ≤ p i) (hq : ∀ i, 0 < q i) (hpS : ∑ i, p i = S) (hqS : ∑ i, q i = S) :
    (∑ i, |p i - q i|) ^ 2 ≤ 2 * S * klDivergence p q := by
  have h := sum_sq_le_sum_mul_sum_of_sq_le_mul univ (r := fun i => |p i - q i|) (f := fun i => (2 * p i + 4 * q i) / 3)
    (g := fun i => p i * Real.log (p i / q i) - p i + q i)
    (fun i _ => by have := hp i; have := hq i; positivity) (fun i _ => kl1_nonneg (hp i) (hq i))
    (fun i _ => by rw [sq_abs]; exact pinsker_entry (hp i) (hq i))
  refine h.trans (le_of_eq ?_)
  have e : ∑ i, (2 * p i + 4 * q i) / 3 = 2 * S := by
    rw [← sum_div, sum_add_distrib, ← mul_sum, ← mul_sum, hpS, hqS]; ring
  rw [e]; rfl

end POT
