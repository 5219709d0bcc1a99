import Verif.Spec.Spherical
import Verif.Spec.Circle
import Verif.Model.Spherical
import Verif.Lemmas.Circle
import Verif.Lemmas.Sliced
import Mathlib.Tactic.FieldSimp
import Mathlib.Tactic.Positivity
import Mathlib.Tactic.Linarith

/-! # Lemmas on the coordinates of the spherical sliced solvers -/

set_option linter.unusedSectionVars false

namespace POT.Spherical

open Finset POT.Spec

variable {n m L : ℕ} {D : Type*} [Fintype D]

theorem plane_eq (U : D → Fin 2 → ℝ) (x : D → ℝ) : plane U x = planeImage U x := rfl

theorem sq_pos {z : Fin 2 → ℝ} (h : z ≠ 0) : 0 < z 0 ^ 2 + z 1 ^ 2 := by
  by_contra hc
  have h0 : z 0 ^ 2 = 0 := by nlinarith [sq_nonneg (z 0), sq_nonneg (z 1)]
  have h1 : z 1 ^ 2 = 0 := by nlinarith [sq_nonneg (z 0), sq_nonneg (z 1)]
  apply h
  funext j
  fin_cases j
  · exact pow_eq_zero_iff (n := 2) (by norm_num) |>.1 h0
  · exact pow_eq_zero_iff (n := 2) (by norm_num) |>.1 h1

theorem two_pi_coord (z : Fin 2 → ℝ) : 2 * Real.pi * coord z = Complex.arg ⟨-z 0, -z 1⟩ + Real.pi := by
  unfold coord
  have := Real.pi_pos
  field_simp

theorem norm_eq (z : Fin 2 → ℝ) : ‖(⟨-z 0, -z 1⟩ : ℂ)‖ = Real.sqrt (z 0 ^ 2 + z 1 ^ 2) := by
  rw [Complex.norm_def, Complex.normSq_mk]
  congr 1
  ring

theorem polar_cos (z : Fin 2 → ℝ) : z 0 = Real.sqrt (z 0 ^ 2 + z 1 ^ 2) * Real.cos (2 * Real.pi * coord z) := by
  rw [two_pi_coord, Real.cos_add_pi, ← norm_eq, mul_neg, Complex.norm_mul_cos_arg]
  simp

theorem polar_sin (z : Fin 2 → ℝ) : z 1 = Real.sqrt (z 0 ^ 2 + z 1 ^ 2) * Real.sin (2 * Real.pi * coord z) := by
  rw [two_pi_coord, Real.sin_add_pi, ← norm_eq, mul_neg, Complex.norm_mul_sin_arg]
  simp

theorem coord_range (z : Fin 2 → ℝ) : 0 < coord z ∧ coord z ≤ 1 := by
  unfold coord
  have h := Real.pi_pos
  have h1 := Complex.neg_pi_lt_arg ⟨-z 0, -z 1⟩
  have h2 := Complex.arg_le_pi ⟨-z 0, -z 1⟩
  constructor
  · exact div_pos (by linarith) (by linarith)
  · rw [div_le_one (by linarith)]; linarith

theorem coord_smul {c : ℝ} (hc : 0 < c) (z : Fin 2 → ℝ) : coord (fun j => c * z j) = coord z := by
  unfold coord
  have e : (⟨-(c * z 0), -(c * z 1)⟩ : ℂ) = (c : ℂ) * ⟨-z 0, -z 1⟩ := by
    apply Complex.ext <;> simp
  rw [e, Complex.arg_real_mul _ hc]

theorem coord_normalise {z : Fin 2 → ℝ} (h : z ≠ 0) : coord (normalise z) = coord z := by
  have hp : 0 < Real.sqrt (∑ j, z j ^ 2) := Real.sqrt_pos.2 (by rw [Fin.sum_univ_two]; exact sq_pos h)
  rw [← coord_smul (inv_pos.2 hp) z]
  congr 1
  funext j
  unfold normalise
  rw [div_eq_inv_mul]

theorem circDist_half (x y : ℝ) : circDist x y ≤ 1 / 2 := by
  unfold circDist
  rcases le_total (Int.fract (x - y)) (1 / 2) with h | h
  · exact (min_le_left _ _).trans h
  · exact (min_le_right _ _).trans (by linarith)

theorem circDist_arc {z w : Fin 2 → ℝ} (hz : z ≠ 0) (hw : w ≠ 0) : circDist (coord z) (coord w) = arcDist z w := by
  have hpi := Real.pi_pos
  obtain ⟨k, hk⟩ := POT.Circle.circDist_att (coord z) (coord w)
  have h0 := POT.Circle.circDist_nonneg (coord z) (coord w)
  have h1 := circDist_half (coord z) (coord w)
  have hc : Real.cos (2 * Real.pi * circDist (coord z) (coord w)) = (z 0 * w 0 + z 1 * w 1) / (Real.sqrt (z 0 ^ 2 + z 1 ^ 2) * Real.sqrt (w 0 ^ 2 + w 1 ^ 2)) := by
    have hzp : 0 < Real.sqrt (z 0 ^ 2 + z 1 ^ 2) := Real.sqrt_pos.2 (sq_pos hz)
    have hwp : 0 < Real.sqrt (w 0 ^ 2 + w 1 ^ 2) := Real.sqrt_pos.2 (sq_pos hw)
    rw [hk, show 2 * Real.pi * |coord z - coord w - k| = |2 * Real.pi * (coord z - coord w - k)| by rw [abs_mul, abs_of_pos (by linarith : 0 < 2 * Real.pi)], Real.cos_abs,
      show 2 * Real.pi * (coord z - coord w - k) = (2 * Real.pi * coord z - 2 * Real.pi * coord w) - k * (2 * Real.pi) by ring, Real.cos_sub_int_mul_two_pi, Real.cos_sub,
      eq_div_iff (mul_pos hzp hwp).ne']
    have a1 := polar_cos z
    have a2 := polar_sin z
    have b1 := polar_cos w
    have b2 := polar_sin w
    obtain ⟨r, hr⟩ : ∃ r, r = Real.sqrt (z 0 ^ 2 + z 1 ^ 2) := ⟨_, rfl⟩
    obtain ⟨s, hs⟩ : ∃ s, s = Real.sqrt (w 0 ^ 2 + w 1 ^ 2) := ⟨_, rfl⟩
    rw [← hr] at a1 a2 ⊢
    rw [← hs] at b1 b2 ⊢
    obtain ⟨cz, hcz⟩ : ∃ t, t = Real.cos (2 * Real.pi * coord z) := ⟨_, rfl⟩
    obtain ⟨sz, hsz⟩ : ∃ t, t = Real.sin (2 * Real.pi * coord z) := ⟨_, rfl⟩
    obtain ⟨cw, hcw⟩ : ∃ t, t = Real.cos (2 * Real.pi * coord w) := ⟨_, rfl⟩
    obtain ⟨sw, hsw⟩ : ∃ t, t = Real.sin (2 * Real.pi * coord w) := ⟨_, rfl⟩
    rw [← hcz] at a1 ⊢
    rw [← hsz] at a2 ⊢
    rw [← hcw] at b1 ⊢
    rw [← hsw] at b2 ⊢
    rw [a1, a2, b1, b2]
    ring
  unfold arcDist
  rw [← hc, Real.arccos_cos (by positivity) (by nlinarith)]
  field_simp

theorem arcDist_nonneg (z w : Fin 2 → ℝ) : 0 ≤ arcDist z w := div_nonneg (Real.arccos_nonneg _) (by have := Real.pi_pos; linarith)

theorem arcDist_half (z w : Fin 2 → ℝ) : arcDist z w ≤ 1 / 2 := by
  unfold arcDist
  have := Real.pi_pos
  rw [div_le_iff₀ (by linarith)]
  linarith [Real.arccos_le_pi ((z 0 * w 0 + z 1 * w 1) / (Real.sqrt (z 0 ^ 2 + z 1 ^ 2) * Real.sqrt (w 0 ^ 2 + w 1 ^ 2)))]

theorem arcDist_comm (z w : Fin 2 → ℝ) : arcDist z w = arcDist w z := by
  unfold arcDist
  rw [mul_comm (z 0), mul_comm (z 1), mul_comm (Real.sqrt _)]

theorem arcDist_self {z : Fin 2 → ℝ} (h : z ≠ 0) : arcDist z z = 0 := by
  rw [← circDist_arc h h]
  simp [circDist]

theorem arcDist_triangle {x y z : Fin 2 → ℝ} (hx : x ≠ 0) (hy : y ≠ 0) (hz : z ≠ 0) : arcDist x z ≤ arcDist x y + arcDist y z := by
  rw [← circDist_arc hx hz, ← circDist_arc hx hy, ← circDist_arc hy hz]
  exact POT.Circle.circDist_triangle _ _ _

theorem coords_dist {U : D → Fin 2 → ℝ} {X : Fin n → D → ℝ} {Y : Fin m → D → ℝ} (i : Fin n) (j : Fin m) (hX : planeImage U (X i) ≠ 0) (hY : planeImage U (Y j) ≠ 0) :
    circDist (coords U X i) (coords U Y j) = arcDist (planeImage U (X i)) (planeImage U (Y j)) := by
  unfold coords
  rw [plane_eq, plane_eq, coord_normalise hX, coord_normalise hY, circDist_arc hX hY]

end POT.Spherical
