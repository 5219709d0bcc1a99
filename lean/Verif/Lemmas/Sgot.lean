import Verif.Model.Sgot
import Mathlib.Analysis.InnerProductSpace.PiL2
import Mathlib.Geometry.Euclidean.Angle.Unoriented.TriangleInequality
import Mathlib.Analysis.MeanInequalitiesPow
import Mathlib.Tactic.Linarith
import Mathlib.Tactic.Positivity
import Mathlib.Tactic.FieldSimp
import Mathlib.Tactic.Ring

/-!
# Lemmas on the spectral-Grassmann distance
-/

set_option linter.unusedSectionVars false

namespace POT.Sgot

open Finset POT.Spec

section line
variable {H : Type*} [NormedAddCommGroup H] [InnerProductSpace ℂ H]

/-- a phase that makes an inner product real and non-negative -/
theorem exists_phase (x y : H) : ∃ c : ℂ, ‖c‖ = 1 ∧ inner ℂ x (c • y) = (‖inner ℂ x y‖ : ℂ) := by
  by_cases h : inner ℂ x y = 0
  · exact ⟨1, by simp, by simp [h]⟩
  · refine ⟨(starRingEnd ℂ) (inner ℂ x y) / ‖inner ℂ x y‖, ?_, ?_⟩
    · have : ‖inner ℂ x y‖ ≠ 0 := norm_ne_zero_iff.2 h
      rw [norm_div, RCLike.norm_conj, Complex.norm_real, norm_norm, div_self this]
    · have h2 : (‖inner ℂ x y‖ : ℂ) ≠ 0 := by exact_mod_cast norm_ne_zero_iff.2 h
      rw [inner_smul_right, div_mul_eq_mul_div, div_eq_iff h2, ← Complex.normSq_eq_conj_mul_self, Complex.normSq_eq_norm_sq]
      push_cast
      ring

/-- cosine between two complex lines -/
noncomputable def hcos (x y : H) : ℝ := ‖inner ℂ x y‖ / (‖x‖ * ‖y‖)

theorem hcos_nonneg (x y : H) : 0 ≤ hcos x y := by unfold hcos; positivity

theorem hcos_le_one (x y : H) : hcos x y ≤ 1 := div_le_one_of_le₀ (norm_inner_le_norm x y) (by positivity)

theorem hcos_comm (x y : H) : hcos x y = hcos y x := by unfold hcos; rw [norm_inner_symm, mul_comm]

theorem hcos_self {x : H} (h : x ≠ 0) : hcos x x = 1 := by
  have : ‖x‖ ≠ 0 := norm_ne_zero_iff.2 h
  unfold hcos
  rw [inner_self_eq_norm_sq_to_K, norm_pow, RCLike.norm_ofReal, abs_norm, ← sq, div_self (pow_ne_zero 2 this)]

/-- the triangle inequality for the angles between complex lines -/
theorem arccos_triangle (x y z : H) : Real.arccos (hcos x z) ≤ Real.arccos (hcos x y) + Real.arccos (hcos y z) := by
  obtain ⟨c, hc, hxy⟩ := exists_phase x y
  obtain ⟨d, hd, hyz⟩ := exists_phase (c • y) z
  letI : InnerProductSpace ℝ H := InnerProductSpace.rclikeToReal ℂ H
  have hin : ∀ u v : H, inner ℝ u v = (inner ℂ u v).re := fun u v => rfl
  have h := InnerProductGeometry.angle_le_angle_add_angle x (c • y) (d • z)
  have hny : ‖c • y‖ = ‖y‖ := by rw [norm_smul, hc, one_mul]
  have hnz : ‖d • z‖ = ‖z‖ := by rw [norm_smul, hd, one_mul]
  have hyz' : ‖inner ℂ (c • y) z‖ = ‖inner ℂ y z‖ := by rw [inner_smul_left, norm_mul, RCLike.norm_conj, hc, one_mul]
  have e1 : InnerProductGeometry.angle x (c • y) = Real.arccos (hcos x y) := by
    rw [InnerProductGeometry.angle, hin, hxy, Complex.ofReal_re, hny, hcos]
  have e2 : InnerProductGeometry.angle (c • y) (d • z) = Real.arccos (hcos y z) := by
    rw [InnerProductGeometry.angle, hin, hyz, Complex.ofReal_re, hny, hnz, hyz', hcos]
  rw [e1, e2] at h
  refine le_trans ?_ h
  rw [InnerProductGeometry.angle, hin, hnz, hcos]
  refine Real.arccos_le_arccos (div_le_div_of_nonneg_right ?_ (by positivity))
  refine (Complex.re_le_norm _).trans ?_
  rw [inner_smul_right, norm_mul, hd, one_mul]
end line

/-- the metrics that are distances, as functions of the angle -/
theorem sin_triangle {a b c : ℝ} (ha : 0 ≤ a) (hb : 0 ≤ b) (hc : 0 ≤ c) (ha' : a ≤ Real.pi / 2) (hb' : b ≤ Real.pi / 2) (hc' : c ≤ Real.pi / 2) (h : a ≤ b + c) :
    Real.sin a ≤ Real.sin b + Real.sin c := by
  have hpi := Real.pi_pos
  have sb : 0 ≤ Real.sin b := Real.sin_nonneg_of_nonneg_of_le_pi hb (by linarith)
  have sc : 0 ≤ Real.sin c := Real.sin_nonneg_of_nonneg_of_le_pi hc (by linarith)
  have cc : 0 ≤ Real.cos c := Real.cos_nonneg_of_neg_pi_div_two_le_of_le (by linarith) hc'
  rcases le_total (b + c) (Real.pi / 2) with h1 | h1
  · have h2 := Real.sin_le_sin_of_le_of_le_pi_div_two (by linarith) h1 h
    rw [Real.sin_add] at h2
    have h3 : Real.sin b * Real.cos c ≤ Real.sin b := mul_le_of_le_one_right sb (Real.cos_le_one c)
    have h4 : Real.cos b * Real.sin c ≤ Real.sin c := mul_le_of_le_one_left sc (Real.cos_le_one b)
    linarith
  · have h2 : Real.cos c ≤ Real.sin b := by
      rw [← Real.sin_pi_div_two_sub]
      exact Real.sin_le_sin_of_le_of_le_pi_div_two (by linarith) hb' (by linarith)
    have h3 : 1 ≤ Real.cos c + Real.sin c := by nlinarith [Real.sin_sq_add_cos_sq c]
    linarith [Real.sin_le_one a]

theorem grassDist_arccos {gm : Grassmann} (hg : gm ≠ .martin) {ε s : ℝ} (h0 : 0 ≤ s) (h1 : s ≤ 1) :
    grassDist ε gm s = match gm with
      | .geodesic => Real.arccos s
      | .chordal => Real.sin (Real.arccos s)
      | .procrustes => 2 * Real.sin (Real.arccos s / 2)
      | .martin => 0 := by
  cases gm with
  | geodesic => rfl
  | chordal => simp only [grassDist]; rw [Real.sin_arccos]
  | procrustes =>
    simp only [grassDist]
    have hs : 0 ≤ Real.sin (Real.arccos s / 2) := Real.sin_nonneg_of_nonneg_of_le_pi (by have := Real.arccos_nonneg s; linarith) (by have := Real.arccos_le_pi s; linarith [Real.pi_pos])
    have h2 : 2 * (1 - s) = (2 * Real.sin (Real.arccos s / 2)) ^ 2 := by
      have h3 := Real.cos_arccos (by linarith : -1 ≤ s) h1
      have h4 := Real.cos_two_mul (Real.arccos s / 2)
      rw [show 2 * (Real.arccos s / 2) = Real.arccos s by ring, h3] at h4
      have h5 := Real.sin_sq_add_cos_sq (Real.arccos s / 2)
      nlinarith
    rw [h2, Real.sqrt_sq (by linarith)]
  | martin => exact absurd rfl hg

theorem grassDist_nonneg (ε : ℝ) (gm : Grassmann) (s : ℝ) : 0 ≤ grassDist ε gm s := by
  cases gm <;> simp only [grassDist]
  · exact Real.arccos_nonneg s
  all_goals exact Real.sqrt_nonneg _

theorem grassDist_triangle {gm : Grassmann} (hg : gm ≠ .martin) {ε s t u : ℝ} (hs : 0 ≤ s) (hs1 : s ≤ 1) (ht : 0 ≤ t) (ht1 : t ≤ 1) (hu : 0 ≤ u) (hu1 : u ≤ 1)
    (h : Real.arccos u ≤ Real.arccos s + Real.arccos t) : grassDist ε gm u ≤ grassDist ε gm s + grassDist ε gm t := by
  rw [grassDist_arccos hg hs hs1, grassDist_arccos hg ht ht1, grassDist_arccos hg hu hu1]
  have b1 := Real.arccos_nonneg s
  have b2 := Real.arccos_nonneg t
  have b3 := Real.arccos_nonneg u
  have c1 := Real.arccos_le_pi_div_two.2 hs
  have c2 := Real.arccos_le_pi_div_two.2 ht
  have c3 := Real.arccos_le_pi_div_two.2 hu
  cases gm with
  | geodesic => exact h
  | chordal => exact sin_triangle b3 b1 b2 c3 c1 c2 h
  | procrustes =>
    have := sin_triangle (a := Real.arccos u / 2) (b := Real.arccos s / 2) (c := Real.arccos t / 2) (by linarith) (by linarith) (by linarith) (by linarith) (by linarith) (by linarith) (by linarith)
    simp only
    linarith
  | martin => exact absurd rfl hg

section vec
variable {L : ℕ}

/-- the tensor product of two vectors -/
noncomputable def tens (r l : Fin L → ℂ) : EuclideanSpace ℂ (Fin L × Fin L) := WithLp.toLp 2 fun x => r x.1 * l x.2

theorem inner_tens (r l r' l' : Fin L → ℂ) : inner ℂ (tens r l) (tens r' l') = (∑ k, (starRingEnd ℂ) (r k) * r' k) * ∑ k, (starRingEnd ℂ) (l k) * l' k := by
  rw [PiLp.inner_apply, Fintype.sum_prod_type, Finset.sum_mul_sum]
  refine sum_congr rfl fun i _ => sum_congr rfl fun j _ => ?_
  simp only [tens, RCLike.inner_apply, map_mul]
  ring

theorem norm_tens (r l : Fin L → ℂ) : ‖tens r l‖ = cnorm r * cnorm l := by
  rw [EuclideanSpace.norm_eq, cnorm, cnorm, ← Real.sqrt_mul (sum_nonneg fun _ _ => by positivity), Fintype.sum_prod_type, Finset.sum_mul_sum]
  congr 1
  refine sum_congr rfl fun i _ => sum_congr rfl fun j _ => ?_
  simp only [tens, norm_mul]
  ring

theorem hcos_tens (r l r' l' : Fin L → ℂ) : hcos (tens r l) (tens r' l') = lineCos r r' * lineCos l l' := by
  rw [hcos, inner_tens, norm_tens, norm_tens, norm_mul, lineCos, lineCos, div_mul_div_comm]
  congr 1
  ring

theorem cnorm_smul (c : ℂ) (x : Fin L → ℂ) : cnorm (fun k => c * x k) = ‖c‖ * cnorm x := by
  rw [cnorm, cnorm, ← Real.sqrt_sq (norm_nonneg c), ← Real.sqrt_mul (by positivity), Finset.mul_sum]
  simp only [norm_mul, mul_pow, Real.sqrt_sq (norm_nonneg c)]

theorem lineCos_smul {c d : ℂ} (hc : c ≠ 0) (hd : d ≠ 0) (x y : Fin L → ℂ) : lineCos (fun k => c * x k) (fun k => d * y k) = lineCos x y := by
  have h1 : ‖c‖ ≠ 0 := norm_ne_zero_iff.2 hc
  have h2 : ‖d‖ ≠ 0 := norm_ne_zero_iff.2 hd
  have e : ∑ k, (starRingEnd ℂ) (c * x k) * (d * y k) = (starRingEnd ℂ) c * d * ∑ k, (starRingEnd ℂ) (x k) * y k := by
    rw [Finset.mul_sum]
    refine sum_congr rfl fun k _ => ?_
    rw [map_mul]; ring
  rw [lineCos, lineCos, e, cnorm_smul, cnorm_smul, norm_mul, norm_mul, RCLike.norm_conj]
  rw [show ‖c‖ * cnorm x * (‖d‖ * cnorm y) = (‖c‖ * ‖d‖) * (cnorm x * cnorm y) by ring]
  exact mul_div_mul_left _ _ (mul_ne_zero h1 h2)
end vec

/-- a concave power of a distance -/
theorem rpow_triangle {x y z t : ℝ} (hx : 0 ≤ x) (hy : 0 ≤ y) (hz : 0 ≤ z) (h : z ≤ x + y) (ht : 0 ≤ t) (ht1 : t ≤ 1) : z ^ t ≤ x ^ t + y ^ t := by
  refine (Real.rpow_le_rpow hz h ht).trans ?_
  have := NNReal.rpow_add_le_add_rpow ⟨x, hx⟩ ⟨y, hy⟩ ht ht1
  exact_mod_cast this

theorem l2_triangle (a b c d : ℝ) (ha : 0 ≤ a) (hb : 0 ≤ b) (hc : 0 ≤ c) (hd : 0 ≤ d) :
    Real.sqrt ((a + b) ^ 2 + (c + d) ^ 2) ≤ Real.sqrt (a ^ 2 + c ^ 2) + Real.sqrt (b ^ 2 + d ^ 2) := by
  have h1 : a * b + c * d ≤ Real.sqrt (a ^ 2 + c ^ 2) * Real.sqrt (b ^ 2 + d ^ 2) := by
    rw [← Real.sqrt_mul (by positivity)]
    refine Real.le_sqrt_of_sq_le ?_
    nlinarith [sq_nonneg (a * d - b * c)]
  refine Real.sqrt_le_iff.2 ⟨by positivity, ?_⟩
  have h2 := Real.sq_sqrt (show 0 ≤ a ^ 2 + c ^ 2 by positivity)
  have h3 := Real.sq_sqrt (show 0 ≤ b ^ 2 + d ^ 2 by positivity)
  nlinarith

/-- weighted root mean square of two concave powers -/
theorem mix_triangle {η q x y z x' y' z' : ℝ} (h0 : 0 ≤ η) (h1 : η ≤ 1) (hq : 0 < q) (hq2 : q ≤ 2) (hx : 0 ≤ x) (hy : 0 ≤ y) (hz : 0 ≤ z) (hx' : 0 ≤ x') (hy' : 0 ≤ y') (hz' : 0 ≤ z')
    (h : z ≤ x + y) (h' : z' ≤ x' + y') :
    Real.sqrt (η * z ^ q + (1 - η) * z' ^ q) ≤ Real.sqrt (η * x ^ q + (1 - η) * x' ^ q) + Real.sqrt (η * y ^ q + (1 - η) * y' ^ q) := by
  have key : ∀ u v : ℝ, 0 ≤ u → 0 ≤ v → η * u ^ q + (1 - η) * v ^ q = (Real.sqrt η * u ^ (q / 2)) ^ 2 + (Real.sqrt (1 - η) * v ^ (q / 2)) ^ 2 := by
    intro u v hu hv
    have e : ∀ w : ℝ, 0 ≤ w → (w ^ (q / 2)) ^ 2 = w ^ q := by
      intro w hw
      rw [← Real.rpow_natCast, ← Real.rpow_mul hw]
      congr 1
      push_cast
      ring
    rw [mul_pow, mul_pow, Real.sq_sqrt h0, Real.sq_sqrt (by linarith), e u hu, e v hv]
  have t1 := rpow_triangle hx hy hz h (t := q / 2) (by linarith) (by linarith)
  have t2 := rpow_triangle hx' hy' hz' h' (t := q / 2) (by linarith) (by linarith)
  rw [key z z' hz hz', key x x' hx hx', key y y' hy hy']
  have p1 : ∀ w : ℝ, 0 ≤ w → 0 ≤ w ^ (q / 2) := fun w hw => Real.rpow_nonneg hw _
  have s1 := Real.sqrt_nonneg η
  have s2 := Real.sqrt_nonneg (1 - η)
  refine le_trans (Real.sqrt_le_sqrt ?_) (l2_triangle (Real.sqrt η * x ^ (q / 2)) (Real.sqrt η * y ^ (q / 2)) (Real.sqrt (1 - η) * x' ^ (q / 2)) (Real.sqrt (1 - η) * y' ^ (q / 2))
    (mul_nonneg s1 (p1 x hx)) (mul_nonneg s1 (p1 y hy)) (mul_nonneg s2 (p1 x' hx')) (mul_nonneg s2 (p1 y' hy')))
  refine add_le_add (pow_le_pow_left₀ (mul_nonneg s1 (p1 z hz)) ?_ 2) (pow_le_pow_left₀ (mul_nonneg s2 (p1 z' hz')) ?_ 2)
  · rw [← mul_add]; exact mul_le_mul_of_nonneg_left t1 s1
  · rw [← mul_add]; exact mul_le_mul_of_nonneg_left t2 s2

end POT.Sgot
