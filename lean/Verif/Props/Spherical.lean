import Verif.Lemmas.Spherical
import Verif.Props.CircleSearch
import Verif.Props.Circle
import Mathlib.LinearAlgebra.Matrix.DotProduct
import Mathlib.Tactic.FinCases
import Mathlib.Tactic.LinearCombination

/-!
# C115: sliced distances on the sphere

Model: `Model/Spherical.lean`.  Vocabulary: `Spec/Spherical.lean`, `Spec/Circle.lean`, `Spec/CircleSemi.lean`.
-/

set_option linter.unusedSectionVars false

namespace POT.Props

open Finset POT.Spec POT.Circle POT.Sliced POT.Spherical

variable {n m q L : ℕ} {D : Type*} [Fintype D]

/-! ### coordinates -/

/-- C115. `get_coordinate_circle` returns the fraction of a turn, up to full turns, of every non-zero point; it lies in `(0, 1]`. -/
theorem C115_coordinate (r t : ℝ) (hr : 0 < r) : (∃ k : ℤ, coord (fun j => r * circlePoint t j) = t + k) ∧ 0 < coord (fun j => r * circlePoint t j) ∧ coord (fun j => r * circlePoint t j) ≤ 1 := by
  refine ⟨?_, coord_range _⟩
  rw [coord_smul hr]
  have e : Real.sqrt (circlePoint t 0 ^ 2 + circlePoint t 1 ^ 2) = 1 := by
    show Real.sqrt (Real.cos (2 * Real.pi * t) ^ 2 + Real.sin (2 * Real.pi * t) ^ 2) = 1
    rw [Real.cos_sq_add_sin_sq, Real.sqrt_one]
  have h1 : Real.cos (2 * Real.pi * t) = _ := polar_cos (circlePoint t)
  have h2 : Real.sin (2 * Real.pi * t) = _ := polar_sin (circlePoint t)
  rw [e, one_mul] at h1 h2
  have h : Real.cos (2 * Real.pi * coord (circlePoint t) - 2 * Real.pi * t) = 1 := by
    rw [Real.cos_sub, h1, h2, ← sq, ← sq, Real.cos_sq_add_sin_sq]
  obtain ⟨k, hk⟩ := (Real.cos_eq_one_iff _).1 h
  refine ⟨k, ?_⟩
  have hpi := Real.pi_pos
  have : 2 * Real.pi * (coord (circlePoint t) - t - k) = 0 := by linarith
  rcases mul_eq_zero.1 this with h0 | h0
  · linarith
  · linarith

example : ∃ k : ℤ, coord (fun j => 3 * circlePoint (4 / 5) j) = 4 / 5 + k := (C115_coordinate 3 (4 / 5) (by norm_num)).1

theorem circlePoint_ne (t : ℝ) : circlePoint t ≠ 0 := by
  intro h
  have h0 : Real.cos (2 * Real.pi * t) = 0 := congrFun h 0
  have h1 : Real.sin (2 * Real.pi * t) = 0 := congrFun h 1
  have := Real.cos_sq_add_sin_sq (2 * Real.pi * t)
  rw [h0, h1] at this
  norm_num at this

theorem circDist_coord_point {z : Fin 2 → ℝ} (hz : z ≠ 0) (t : ℝ) : circDist (coord z) t = arcDist z (circlePoint t) := by
  rw [← circDist_arc hz (circlePoint_ne t)]
  obtain ⟨⟨k, hk⟩, -⟩ := C115_coordinate 1 t one_pos
  simp only [one_mul] at hk
  have hk' : coord (circlePoint t) = t + k := hk
  rw [hk', ← circDist_fract (coord z) (t + k), Int.fract_add_intCast, circDist_fract]

/-- C115. The circular distance of two coordinates is the angle of the two projected samples, as a fraction of a turn: the division by the norm, the sign convention and the origin of the
coordinates have no influence. -/
theorem C115_coordinate_distance (U : D → Fin 2 → ℝ) (X : Fin n → D → ℝ) (Y : Fin m → D → ℝ) (i : Fin n) (j : Fin m) (hX : planeImage U (X i) ≠ 0) (hY : planeImage U (Y j) ≠ 0) :
    circDist (coords U X i) (coords U Y j) = arcDist (planeImage U (X i)) (planeImage U (Y j)) := coords_dist i j hX hY

/-! ### the value of `sliced_wasserstein_sphere` -/

/-- What `argsort` guarantees. -/
def SphereSorts (σ : Sorters n m L) (X : Fin n → D → ℝ) (Y : Fin m → D → ℝ) (θ : Fin L → D → Fin 2 → ℝ) : Prop :=
  ∀ k, (Monotone fun i => Int.fract (coords (θ k) X (σ.permA k i))) ∧ Monotone fun j => Int.fract (coords (θ k) Y (σ.permB k j))

/-- Admissible data: samples accepted by the test, none orthogonal to a plane, weights of two probability vectors. -/
structure SphereData (X : Fin (n + 1) → D → ℝ) (a : Fin (n + 1) → ℝ) (θ : Fin L → D → Fin 2 → ℝ) : Prop where
  sphere : ∀ i, |∑ d, X i d ^ 2 - 1| ≤ 1 / 10 ^ 4
  visible : Visible θ X
  nonneg : ∀ i, 0 ≤ a i
  sum : ∑ i, a i = 1

theorem search_mono {h : ℝ → ℝ} {U u : Fin (n + 1) → ℝ} {V v : Fin (m + 1) → ℝ} {eps Λ : ℝ} : ∀ (fuel : ℕ) (tm tp tc : ℝ) (r : ℝ × Bool) (g : ℕ),
    search h U u V v eps Λ fuel tm tp tc = some r → search h U u V v eps Λ (fuel + g) tm tp tc = some r
  | 0, _, _, _, _, _, h => by simp [search] at h
  | fuel + 1, tm, tp, tc, r, g, hr => by
    rw [show fuel + 1 + g = fuel + g + 1 by omega]
    unfold search at hr ⊢
    split_ifs at hr ⊢ with h1 h2 h3
    · exact hr
    · exact hr
    · exact search_mono fuel _ _ _ r g hr
    · exact search_mono fuel _ _ _ r g hr

theorem binarySearch_mono {h : ℝ → ℝ} {u uw : Fin (n + 1) → ℝ} {v vw : Fin (m + 1) → ℝ} {su : Equiv.Perm (Fin (n + 1))} {sv : Equiv.Perm (Fin (m + 1))} {Lm Lp tm tp eps : ℝ} {fuel : ℕ} {r : ℝ × Bool}
    (g : ℕ) (hr : binarySearch h u uw v vw su sv Lm Lp tm tp eps fuel = some r) : binarySearch h u uw v vw su sv Lm Lp tm tp eps (fuel + g) = some r := by
  unfold binarySearch at hr ⊢
  simp only [Option.map_eq_some_iff] at hr ⊢
  obtain ⟨x, hx, e⟩ := hr
  exact ⟨x, search_mono _ _ _ _ _ g hx, e⟩

theorem ssw_ok {p : ℝ} {X : Fin (n + 1) → D → ℝ} {Y : Fin (m + 1) → D → ℝ} {a : Fin (n + 1) → ℝ} {b : Fin (m + 1) → ℝ} {θ : Fin L → D → Fin 2 → ℝ} {σ : Sorters (n + 1) (m + 1) L} (hp : 1 ≤ p)
    (hX : ∀ i, |∑ d, X i d ^ 2 - 1| ≤ 1 / 10 ^ 4) (hY : ∀ j, |∑ d, Y j d ^ 2 - 1| ≤ 1 / 10 ^ 4) (fuel : ℕ) :
    ssw L p X Y a b θ σ fuel = .ok ((circleCosts p (fun k => coords (θ k) X) (fun k => coords (θ k) Y) a b σ fuel).map fun c => ((∑ k, c k) / L) ^ (1 / p)) := by
  unfold ssw sphereToCircle
  rw [if_pos (show OnSphere X ∧ OnSphere Y from ⟨hX, hY⟩)]
  simp only [if_true]
  rw [if_pos hp]

/-- the cost returned for one plane -/
theorem plane_cost {p : ℝ} (hp : 1 ≤ p) {X : Fin (n + 1) → D → ℝ} {Y : Fin (m + 1) → D → ℝ} {a : Fin (n + 1) → ℝ} {b : Fin (m + 1) → ℝ} {θ : Fin L → D → Fin 2 → ℝ} {σ : Sorters (n + 1) (m + 1) L}
    (hX : SphereData X a θ) (hY : SphereData Y b θ) (hσ : SphereSorts σ X Y θ) (k : Fin L) :
    (∃ fuel r, binarySearch (fun x => |x| ^ p) (coords (θ k) X) a (coords (θ k) Y) b (σ.permA k) (σ.permB k) 10 10 (-1) 1 (1 / 10 ^ 6) fuel = some r) ∧
    ∀ fuel r, binarySearch (fun x => |x| ^ p) (coords (θ k) X) a (coords (θ k) Y) b (σ.permA k) (σ.permB k) 10 10 (-1) 1 (1 / 10 ^ 6) fuel = some r →
      ∀ v, IsOtValue a b (fun i j => arcDist (planeImage (θ k) (X i)) (planeImage (θ k) (Y j)) ^ p) v → v ≤ r.1 ∧ r.1 ≤ v + p * 3 ^ (p - 1) / 10 ^ 7 := by
  obtain ⟨h1, h2⟩ := C67_binary_search_circle hp (coords (θ k) X) a (coords (θ k) Y) b (σ.permA k) (σ.permB k) (hσ k).1 (hσ k).2 hX.nonneg hX.sum hY.nonneg hY.sum
    (Lm := 10) (Lp := 10) (eps := 1 / 10 ^ 6) (by norm_num) (by norm_num)
  refine ⟨h1, fun fuel r hr v hv => ?_⟩
  obtain ⟨w, bb⟩ := r
  obtain ⟨⟨P, hP, hPw⟩, h4, -⟩ := h2 fuel w bb hr
  have e : (fun i j => circDist (coords (θ k) X i) (coords (θ k) Y j) ^ p) = fun i j => arcDist (planeImage (θ k) (X i)) (planeImage (θ k) (Y j)) ^ p := by
    funext i j
    rw [coords_dist i j (hX.visible k i) (hY.visible k j)]
  rw [e] at hPw
  simp only [e] at h4
  refine ⟨(hv.2 ⟨P, hP, rfl⟩).trans hPw, ?_⟩
  obtain ⟨Q, hQ, hQv⟩ := hv.1
  have := h4 Q hQ
  rw [hQv] at this
  refine this.trans_eq ?_
  norm_num
  ring

theorem exists_spherical (p : ℝ) {X : Fin (n + 1) → D → ℝ} {Y : Fin (m + 1) → D → ℝ} {a : Fin (n + 1) → ℝ} {b : Fin (m + 1) → ℝ} {θ : Fin L → D → Fin 2 → ℝ}
    (hX : SphereData X a θ) (hY : SphereData Y b θ) : ∃ S, IsSphericalSliced p X Y a b θ S := by
  have h := fun k => exists_wasserstein p (fun i j => arcDist (planeImage (θ k) (X i)) (planeImage (θ k) (Y j))) hX.nonneg hY.nonneg (hX.sum.trans hY.sum.symm)
  choose w hw using h
  exact ⟨_, w, hw, rfl⟩

theorem spherical_pow {p : ℝ} (hp : 1 ≤ p) {X : Fin (n + 1) → D → ℝ} {Y : Fin (m + 1) → D → ℝ} {a : Fin (n + 1) → ℝ} {b : Fin (m + 1) → ℝ} {θ : Fin L → D → Fin 2 → ℝ} {S : ℝ}
    (h : IsSphericalSliced p X Y a b θ S) : 0 ≤ S ∧ ∃ v : Fin L → ℝ, (∀ k, 0 ≤ v k) ∧
      (∀ k, IsOtValue a b (fun i j => arcDist (planeImage (θ k) (X i)) (planeImage (θ k) (Y j)) ^ p) (v k)) ∧ S = ((∑ k, v k) / L) ^ (1 / p) := by
  obtain ⟨w, hw, rfl⟩ := h
  have hp0 : 0 < p := by linarith
  refine ⟨Real.rpow_nonneg (div_nonneg (sum_nonneg fun k _ => Real.rpow_nonneg ((hw k).nonneg fun i j => arcDist_nonneg _ _) _) (Nat.cast_nonneg _)) _, fun k => w k ^ p,
    fun k => Real.rpow_nonneg ((hw k).nonneg fun i j => arcDist_nonneg _ _) _, fun k => ?_, rfl⟩
  exact (hw k).pow hp0 fun i j => arcDist_nonneg _ _

/-- C115. `sliced_wasserstein_sphere` ends, and what it returns is the spherical sliced Wasserstein distance over the given planes: never below it, and above it by no more than the tolerance of the
search on the circle, measured on the `p`-th powers. -/
theorem C115_ssw_value {p : ℝ} (hp : 1 ≤ p) (hL : 1 ≤ L) (X : Fin (n + 1) → D → ℝ) (Y : Fin (m + 1) → D → ℝ) (a : Fin (n + 1) → ℝ) (b : Fin (m + 1) → ℝ) (θ : Fin L → D → Fin 2 → ℝ)
    (σ : Sorters (n + 1) (m + 1) L) (hX : SphereData X a θ) (hY : SphereData Y b θ) (hσ : SphereSorts σ X Y θ) :
    (∃ fuel s, ssw L p X Y a b θ σ fuel = .ok (some s)) ∧ (∃ S, IsSphericalSliced p X Y a b θ S) ∧
    ∀ fuel s S, ssw L p X Y a b θ σ fuel = .ok (some s) → IsSphericalSliced p X Y a b θ S → S ≤ s ∧ s ^ p ≤ S ^ p + p * 3 ^ (p - 1) / 10 ^ 7 := by
  have hk := plane_cost hp hX hY hσ
  have hp0 : 0 < p := by linarith
  have hL0 : (0 : ℝ) < L := by exact_mod_cast hL
  refine ⟨?_, exists_spherical p hX hY, fun fuel s S hs hS => ?_⟩
  · choose fu r hr using fun k => (hk k).1
    refine ⟨∑ k, fu k, ?_⟩
    rw [ssw_ok hp hX.sphere hY.sphere]
    have : ∀ k, (binarySearch (fun x => |x| ^ p) (coords (θ k) X) a (coords (θ k) Y) b (σ.permA k) (σ.permB k) 10 10 (-1) 1 (1 / 10 ^ 6) (∑ k, fu k)).isSome := by
      intro k
      have hle : fu k ≤ ∑ k, fu k := single_le_sum (f := fu) (fun i _ => Nat.zero_le _) (mem_univ k)
      have := binarySearch_mono (∑ k, fu k - fu k) (hr k)
      rw [Nat.add_sub_cancel' hle] at this
      rw [this]
      rfl
    unfold circleCosts
    rw [dif_pos this]
    exact ⟨_, rfl⟩
  · rw [ssw_ok hp hX.sphere hY.sphere] at hs
    injection hs with hs
    obtain ⟨c, hc, rfl⟩ := Option.map_eq_some_iff.1 hs
    obtain ⟨-, v, hv0, hv, rfl⟩ := spherical_pow hp hS
    have hcv : ∀ k, v k ≤ c k ∧ c k ≤ v k + p * 3 ^ (p - 1) / 10 ^ 7 := by
      intro k
      unfold circleCosts at hc
      split_ifs at hc with hall
      injection hc with hc
      rw [← hc]
      exact (hk k).2 fuel _ (Option.some_get (hall k)).symm (v k) (hv k)
    have hsv : 0 ≤ (∑ k, v k) / (L : ℝ) := div_nonneg (sum_nonneg fun k _ => hv0 k) hL0.le
    have hle : (∑ k, v k) / (L : ℝ) ≤ (∑ k, c k) / L := div_le_div_of_nonneg_right (sum_le_sum fun k _ => (hcv k).1) hL0.le
    refine ⟨Real.rpow_le_rpow hsv hle (by positivity), ?_⟩
    rw [← Real.rpow_mul hsv, ← Real.rpow_mul (hsv.trans hle), one_div_mul_cancel hp0.ne', Real.rpow_one, Real.rpow_one, ← sub_le_iff_le_add', ← sub_div, div_le_iff₀ hL0, ← sum_sub_distrib]
    calc ∑ k, (c k - v k) ≤ ∑ _k : Fin L, p * 3 ^ (p - 1) / 10 ^ 7 := sum_le_sum fun k _ => by linarith [(hcv k).2]
      _ = p * 3 ^ (p - 1) / 10 ^ 7 * L := by rw [sum_const, card_univ, Fintype.card_fin, nsmul_eq_mul, mul_comm]

/-- the bound of `C115_ssw_value` on the distances themselves -/
theorem ssw_close {p : ℝ} (hp : 1 ≤ p) (hL : 1 ≤ L) {X : Fin (n + 1) → D → ℝ} {Y : Fin (m + 1) → D → ℝ} {a : Fin (n + 1) → ℝ} {b : Fin (m + 1) → ℝ} {θ : Fin L → D → Fin 2 → ℝ}
    {σ : Sorters (n + 1) (m + 1) L} (hX : SphereData X a θ) (hY : SphereData Y b θ) (hσ : SphereSorts σ X Y θ) {fuel : ℕ} {s S : ℝ} (hs : ssw L p X Y a b θ σ fuel = .ok (some s))
    (hS : IsSphericalSliced p X Y a b θ S) : 0 ≤ S ∧ S ≤ s ∧ s ≤ S + (p * 3 ^ (p - 1) / 10 ^ 7) ^ (1 / p) := by
  obtain ⟨h1, h2⟩ := (C115_ssw_value hp hL X Y a b θ σ hX hY hσ).2.2 fuel s S hs hS
  have hp0 : 0 < p := by linarith
  have h0 := (spherical_pow hp hS).1
  have he : 0 ≤ p * (3 : ℝ) ^ (p - 1) / 10 ^ 7 := by positivity
  refine ⟨h0, h1, ?_⟩
  have h3 := Real.rpow_le_rpow (Real.rpow_nonneg (h0.trans h1) _) h2 (show 0 ≤ 1 / p by positivity)
  rw [← Real.rpow_mul (h0.trans h1), mul_one_div_cancel hp0.ne', Real.rpow_one] at h3
  refine h3.trans ((Real.rpow_add_le_add_rpow (Real.rpow_nonneg h0 _) he (by positivity) ((div_le_one hp0).2 hp)).trans_eq ?_)
  rw [← Real.rpow_mul h0, mul_one_div_cancel hp0.ne', Real.rpow_one]

theorem spherical_triangle {p : ℝ} (hp : 1 ≤ p) {X : Fin (n + 1) → D → ℝ} {Y : Fin (m + 1) → D → ℝ} {Z : Fin (q + 1) → D → ℝ} {a : Fin (n + 1) → ℝ} {b : Fin (m + 1) → ℝ} {c : Fin (q + 1) → ℝ}
    {θ : Fin L → D → Fin 2 → ℝ} (hX : Visible θ X) (hY : Visible θ Y) (hZ : Visible θ Z) {s s' s'' : ℝ} (h : IsSphericalSliced p X Y a b θ s) (h' : IsSphericalSliced p Y Z b c θ s')
    (h'' : IsSphericalSliced p X Z a c θ s'') : s'' ≤ s + s' := by
  obtain ⟨w, hw, rfl⟩ := h
  obtain ⟨w', hw', rfl⟩ := h'
  obtain ⟨w'', hw'', rfl⟩ := h''
  have n1 : ∀ k, 0 ≤ w k := fun k => (hw k).nonneg fun i j => arcDist_nonneg _ _
  have n2 : ∀ k, 0 ≤ w' k := fun k => (hw' k).nonneg fun i j => arcDist_nonneg _ _
  have n3 : ∀ k, 0 ≤ w'' k := fun k => (hw'' k).nonneg fun i j => arcDist_nonneg _ _
  have t : ∀ k, w'' k ≤ w k + w' k := by
    intro k
    refine wasserstein_triangle hp ?_ ?_ ?_ ?_ (hw k) (hw' k) (hw'' k)
    · exact fun i j => arcDist_nonneg _ _
    · exact fun i j => arcDist_nonneg _ _
    · exact fun i j => arcDist_nonneg _ _
    · exact fun i j l => arcDist_triangle (hX k i) (hY k j) (hZ k l)
  exact mean_add_le hp n1 n2 n3 t

/-- C115. Up to the tolerance of the search, `sliced_wasserstein_sphere` is a distance: it is non-negative, at most half a turn, symmetric, zero between a sample and itself, and satisfies the
triangle inequality. -/
theorem C115_ssw_metric {p : ℝ} (hp : 1 ≤ p) (hL : 1 ≤ L) (X : Fin (n + 1) → D → ℝ) (Y : Fin (m + 1) → D → ℝ) (Z : Fin (q + 1) → D → ℝ) (a : Fin (n + 1) → ℝ) (b : Fin (m + 1) → ℝ)
    (c : Fin (q + 1) → ℝ) (θ : Fin L → D → Fin 2 → ℝ) (hX : SphereData X a θ) (hY : SphereData Y b θ) (hZ : SphereData Z c θ)
    (σxy : Sorters (n + 1) (m + 1) L) (σyx : Sorters (m + 1) (n + 1) L) (σyz : Sorters (m + 1) (q + 1) L) (σxz : Sorters (n + 1) (q + 1) L) (σxx : Sorters (n + 1) (n + 1) L)
    (hxy : SphereSorts σxy X Y θ) (hyx : SphereSorts σyx Y X θ) (hyz : SphereSorts σyz Y Z θ) (hxz : SphereSorts σxz X Z θ) (hxx : SphereSorts σxx X X θ) (f1 f2 f3 f4 f5 : ℕ) (sxy syx syz sxz sxx : ℝ)
    (exy : ssw L p X Y a b θ σxy f1 = .ok (some sxy)) (eyx : ssw L p Y X b a θ σyx f2 = .ok (some syx)) (eyz : ssw L p Y Z b c θ σyz f3 = .ok (some syz))
    (exz : ssw L p X Z a c θ σxz f4 = .ok (some sxz)) (exx : ssw L p X X a a θ σxx f5 = .ok (some sxx))
    (e : ℝ) (he : e = (p * 3 ^ (p - 1) / 10 ^ 7) ^ (1 / p)) :
    0 ≤ sxy ∧ sxy ≤ 1 / 2 + e ∧ |sxy - syx| ≤ e ∧ 0 ≤ sxx ∧ sxx ≤ e ∧ sxz ≤ sxy + syz + e := by
  have hp0 : 0 < p := by linarith
  have hL0 : (0 : ℝ) < L := by exact_mod_cast hL
  obtain ⟨Sxy, hSxy⟩ := exists_spherical p hX hY
  obtain ⟨Syz, hSyz⟩ := exists_spherical p hY hZ
  obtain ⟨Sxz, hSxz⟩ := exists_spherical p hX hZ
  have hSyx : IsSphericalSliced p Y X b a θ Sxy := by
    obtain ⟨w, hw, rfl⟩ := hSxy
    refine ⟨w, fun k => ?_, rfl⟩
    obtain ⟨v, hv, e⟩ := hw k
    refine ⟨v, ?_, e⟩
    have := hv.swap
    simp only [fun i j => arcDist_comm (planeImage (θ k) (X i)) (planeImage (θ k) (Y j))] at this
    exact this
  have hSxx : IsSphericalSliced p X X a a θ 0 := by
    refine ⟨fun _ => 0, fun k => wasserstein_self hp0 hX.nonneg (fun i j => arcDist_nonneg _ _) fun i => arcDist_self (hX.visible k i), ?_⟩
    beta_reduce
    rw [Real.zero_rpow hp0.ne', sum_const_zero, zero_div, Real.zero_rpow (one_div_pos.2 hp0).ne']
  have hhalf : Sxy ≤ 1 / 2 := by
    obtain ⟨-, v, hv0, hv, rfl⟩ := spherical_pow hp hSxy
    have hvk : ∀ k, v k ≤ (1 / 2) ^ p := by
      intro k
      have hP : IsCoupling a b fun i j => a i * b j := ⟨fun i j => mul_nonneg (hX.nonneg i) (hY.nonneg j), fun i => by rw [← mul_sum, hY.sum, mul_one], fun j => by rw [← sum_mul, hX.sum, one_mul]⟩
      refine ((hv k).2 ⟨_, hP, rfl⟩).trans ?_
      have h1 : cost (fun i j => arcDist (planeImage (θ k) (X i)) (planeImage (θ k) (Y j)) ^ p) (fun i j => a i * b j) ≤ cost (fun _ _ => (1 / 2 : ℝ) ^ p) fun i j => a i * b j :=
        cost_mono (fun i j => hP.nonneg i j) fun i j => Real.rpow_le_rpow (arcDist_nonneg _ _) (arcDist_half _ _) hp0.le
      refine h1.trans_eq ?_
      unfold cost
      simp only [← sum_mul, ← mul_sum]
      rw [hY.sum, mul_one, hX.sum, one_mul]
    have : (∑ k, v k) / (L : ℝ) ≤ (1 / 2) ^ p := by
      rw [div_le_iff₀ hL0]
      refine (sum_le_sum fun k _ => hvk k).trans_eq ?_
      rw [sum_const, card_univ, Fintype.card_fin, nsmul_eq_mul, mul_comm]
    refine (Real.rpow_le_rpow (div_nonneg (sum_nonneg fun k _ => hv0 k) hL0.le) this (by positivity)).trans_eq ?_
    rw [← Real.rpow_mul (by norm_num), mul_one_div_cancel hp0.ne', Real.rpow_one]
  have c1 := ssw_close hp hL hX hY hxy exy hSxy
  have c2 := ssw_close hp hL hY hX hyx eyx hSyx
  have c3 := ssw_close hp hL hY hZ hyz eyz hSyz
  have c4 := ssw_close hp hL hX hZ hxz exz hSxz
  have c5 := ssw_close hp hL hX hX hxx exx hSxx
  rw [← he] at c1 c2 c3 c4 c5
  have t := spherical_triangle hp hX.visible hY.visible hZ.visible hSxy hSyz hSxz
  refine ⟨c1.1.trans c1.2.1, by linarith [c1.2.2], ?_, c5.1.trans c5.2.1, by linarith [c5.2.2], by linarith [c4.2.2, c1.2.1, c3.2.1]⟩
  rw [abs_le]
  constructor <;> linarith [c1.2.1, c1.2.2, c2.2.1, c2.2.2]

/-! ### invariance -/

theorem planeImage_rotate [DecidableEq D] {Q : Matrix D D ℝ} (hQ : Q.transpose * Q = 1) (U : D → Fin 2 → ℝ) (x : D → ℝ) :
    planeImage (fun d c => Q.mulVec (fun d => U d c) d) (Q.mulVec x) = planeImage U x := by
  funext c
  show Q.mulVec (fun d => U d c) ⬝ᵥ Q.mulVec x = (fun d => U d c) ⬝ᵥ x
  rw [Matrix.dotProduct_mulVec, Matrix.vecMul_mulVec, hQ, Matrix.vecMul_one]

theorem normSq_rotate [DecidableEq D] {Q : Matrix D D ℝ} (hQ : Q.transpose * Q = 1) (x : D → ℝ) : ∑ d, Q.mulVec x d ^ 2 = ∑ d, x d ^ 2 := by
  have : Q.mulVec x ⬝ᵥ Q.mulVec x = x ⬝ᵥ x := by rw [Matrix.dotProduct_mulVec, Matrix.vecMul_mulVec, hQ, Matrix.vecMul_one]
  simpa only [dotProduct, ← sq] using this

/-- C115. Rotating (or reflecting) the samples together with the planes changes none of the three results. -/
theorem C115_rotation [DecidableEq D] (Q : Matrix D D ℝ) (hQ : Q.transpose * Q = 1) (nProj : ℕ) (p : ℝ) (X : Fin (n + 1) → D → ℝ) (Y : Fin (m + 1) → D → ℝ) (a : Fin (n + 1) → ℝ) (b : Fin (m + 1) → ℝ)
    (θ : Fin L → D → Fin 2 → ℝ) (σ : Sorters (n + 1) (m + 1) L) (fuel : ℕ) :
    ssw nProj p (fun i => Q.mulVec (X i)) (fun j => Q.mulVec (Y j)) a b (fun k d c => Q.mulVec (fun d => θ k d c) d) σ fuel = ssw nProj p X Y a b θ σ fuel ∧
      sswUnif nProj (fun i => Q.mulVec (X i)) a (fun k d c => Q.mulVec (fun d => θ k d c) d) σ.permA = sswUnif nProj X a θ σ.permA ∧
      lssot nProj (fun i => Q.mulVec (X i)) (some fun j => Q.mulVec (Y j)) a b (fun k d c => Q.mulVec (fun d => θ k d c) d) σ = lssot nProj X (some Y) a b θ σ := by
  have hc : ∀ (N : ℕ) (W : Fin N → D → ℝ) (k : Fin L), coords (fun d c => Q.mulVec (fun d => θ k d c) d) (fun i => Q.mulVec (W i)) = coords (θ k) W := by
    intro N W k
    funext i
    unfold coords
    rw [plane_eq, planeImage_rotate hQ, plane_eq]
  have hs : ∀ (N : ℕ) (W : Fin N → D → ℝ), OnSphere (fun i => Q.mulVec (W i)) ↔ OnSphere W := by
    intro N W
    unfold OnSphere
    simp only [normSq_rotate hQ]
  classical
  unfold ssw sswUnif lssot sphereToCircle
  simp only [hc, hs]
  exact ⟨trivial, trivial, trivial⟩

theorem planeImage_scale (U : D → Fin 2 → ℝ) (c : ℝ) (x : D → ℝ) : planeImage U (fun d => c * x d) = fun j => c * planeImage U x j := by
  funext j
  unfold planeImage
  rw [mul_sum]
  exact sum_congr rfl fun d _ => by ring

/-- C115. Only the directions of the samples matter: samples accepted by the test with a norm that is not exactly one give the result of the normalised samples. -/
theorem C115_scale (nProj : ℕ) (p : ℝ) (X : Fin (n + 1) → D → ℝ) (Y : Fin (m + 1) → D → ℝ) (a : Fin (n + 1) → ℝ) (b : Fin (m + 1) → ℝ) (θ : Fin L → D → Fin 2 → ℝ) (σ : Sorters (n + 1) (m + 1) L)
    (fuel : ℕ) (hX : SphereData X a θ) (hY : SphereData Y b θ) (r : Fin (n + 1) → ℝ) (hr : ∀ i, 0 < r i) (hrX : ∀ i, |∑ d, (r i * X i d) ^ 2 - 1| ≤ 1 / 10 ^ 4) :
    ssw nProj p (fun i d => r i * X i d) Y a b θ σ fuel = ssw nProj p X Y a b θ σ fuel ∧ sswUnif nProj (fun i d => r i * X i d) a θ σ.permA = sswUnif nProj X a θ σ.permA ∧
      lssot nProj (fun i d => r i * X i d) (some Y) a b θ σ = lssot nProj X (some Y) a b θ σ := by
  have hc : ∀ k : Fin L, coords (θ k) (fun i d => r i * X i d) = coords (θ k) X := by
    intro k
    funext i
    unfold coords
    have h1 := hX.visible k i
    have h2 : planeImage (θ k) (fun d => r i * X i d) ≠ 0 := by
      rw [planeImage_scale]
      intro h
      apply h1
      funext j
      have := congrFun h j
      simpa [(hr i).ne'] using this
    rw [plane_eq, plane_eq, coord_normalise h1, coord_normalise h2, planeImage_scale, coord_smul (hr i)]
  have hs : OnSphere (fun i d => r i * X i d) ↔ OnSphere X := ⟨fun _ => hX.sphere, fun _ => hrX⟩
  classical
  unfold ssw sswUnif lssot sphereToCircle
  simp only [hc, hs]
  exact ⟨trivial, trivial, trivial⟩

theorem planeImage_basis (R : Fin 2 → Fin 2 → ℝ) (U : D → Fin 2 → ℝ) (x : D → ℝ) (c : Fin 2) :
    planeImage (fun d c => U d 0 * R 0 c + U d 1 * R 1 c) x c = planeImage U x 0 * R 0 c + planeImage U x 1 * R 1 c := by
  unfold planeImage
  rw [sum_mul, sum_mul, ← sum_add_distrib]
  exact sum_congr rfl fun d _ => by ring

theorem arcDist_basis {R : Fin 2 → Fin 2 → ℝ} (h0 : R 0 0 ^ 2 + R 0 1 ^ 2 = 1) (h1 : R 1 0 ^ 2 + R 1 1 ^ 2 = 1) (h01 : R 0 0 * R 1 0 + R 0 1 * R 1 1 = 0) (z w : Fin 2 → ℝ) :
    arcDist (fun c => z 0 * R 0 c + z 1 * R 1 c) (fun c => w 0 * R 0 c + w 1 * R 1 c) = arcDist z w := by
  have key : ∀ z w : Fin 2 → ℝ, (z 0 * R 0 0 + z 1 * R 1 0) * (w 0 * R 0 0 + w 1 * R 1 0) + (z 0 * R 0 1 + z 1 * R 1 1) * (w 0 * R 0 1 + w 1 * R 1 1) = z 0 * w 0 + z 1 * w 1 := by
    intro z w
    linear_combination z 0 * w 0 * h0 + z 1 * w 1 * h1 + (z 0 * w 1 + z 1 * w 0) * h01
  have hz := key z z
  have hw := key w w
  simp only [← sq] at hz hw
  unfold arcDist
  simp only [key, hz, hw]

/-- C115. The result depends on the planes and not on the orthonormal bases that describe them: another basis of each plane changes the returned value by no more than the tolerance of the search. -/
theorem C115_plane_basis {p : ℝ} (hp : 1 ≤ p) (hL : 1 ≤ L) (X : Fin (n + 1) → D → ℝ) (Y : Fin (m + 1) → D → ℝ) (a : Fin (n + 1) → ℝ) (b : Fin (m + 1) → ℝ) (θ : Fin L → D → Fin 2 → ℝ)
    (R : Fin L → Fin 2 → Fin 2 → ℝ) (h0 : ∀ k, R k 0 0 ^ 2 + R k 0 1 ^ 2 = 1) (h1 : ∀ k, R k 1 0 ^ 2 + R k 1 1 ^ 2 = 1) (h01 : ∀ k, R k 0 0 * R k 1 0 + R k 0 1 * R k 1 1 = 0)
    (θ' : Fin L → D → Fin 2 → ℝ) (hθ' : ∀ k d c, θ' k d c = θ k d 0 * R k 0 c + θ k d 1 * R k 1 c) (σ σ' : Sorters (n + 1) (m + 1) L) (hX : SphereData X a θ) (hY : SphereData Y b θ)
    (hX' : SphereData X a θ') (hY' : SphereData Y b θ') (hσ : SphereSorts σ X Y θ) (hσ' : SphereSorts σ' X Y θ') (fuel fuel' : ℕ) (s s' : ℝ) (hs : ssw L p X Y a b θ σ fuel = .ok (some s))
    (hs' : ssw L p X Y a b θ' σ' fuel' = .ok (some s')) : |s - s'| ≤ (p * 3 ^ (p - 1) / 10 ^ 7) ^ (1 / p) := by
  obtain ⟨S, hS⟩ := exists_spherical p hX hY
  have hS' : IsSphericalSliced p X Y a b θ' S := by
    obtain ⟨w, hw, e⟩ := hS
    refine ⟨w, fun k => ?_, e⟩
    have hk : ∀ x : D → ℝ, planeImage (θ' k) x = fun c => planeImage (θ k) x 0 * R k 0 c + planeImage (θ k) x 1 * R k 1 c := by
      intro x
      funext c
      rw [← planeImage_basis, show θ' k = fun d c => θ k d 0 * R k 0 c + θ k d 1 * R k 1 c from funext fun d => funext fun c => hθ' k d c]
    simp only [hk, arcDist_basis (h0 k) (h1 k) (h01 k)]
    exact hw k
  obtain ⟨e, he⟩ : ∃ e, e = (p * (3 : ℝ) ^ (p - 1) / 10 ^ 7) ^ (1 / p) := ⟨_, rfl⟩
  have c1 := ssw_close hp hL hX hY hσ hs hS
  have c2 := ssw_close hp hL hX' hY' hσ' hs' hS'
  rw [← he] at c1 c2 ⊢
  rw [abs_le]
  constructor <;> linarith [c1.2.1, c1.2.2, c2.2.1, c2.2.2]

/-! ### the uniform measure -/

/-- C115. With uniform weights (the default), or weights that the sorting does not permute, `sliced_wasserstein_sphere_unif` returns the spherical sliced distance of order two to the uniform
measure over the given planes.  For other weights it does not (`C115_unif_refuted`). -/
theorem C115_unif_partial (X : Fin (n + 1) → D → ℝ) (a : Fin (n + 1) → ℝ) (θ : Fin L → D → Fin 2 → ℝ) (σ : Fin L → Equiv.Perm (Fin (n + 1))) (hX : SphereData X a θ)
    (hσ : ∀ k, Monotone fun i => Int.fract (coords (θ k) X (σ k i))) (ha : ∀ k i, a (σ k i) = a i) : ∃ s, sswUnif L X a θ σ = .ok s ∧ IsSphericalUnif X a θ s := by
  refine ⟨((∑ k, semidiscrete (coords (θ k) X) a (σ k)) / L) ^ ((1 : ℝ) / 2), ?_, fun k => semidiscrete (coords (θ k) X) a (σ k), fun k => ?_, rfl⟩
  · unfold sswUnif sphereToCircle
    rw [if_pos (show OnSphere X from hX.sphere)]
    simp only [if_true]
  · have h := C56_semidiscrete_partial (coords (θ k) X) a (σ k) (hσ k) hX.nonneg hX.sum (ha k)
    have e : ∀ q : Fin (n + 1) → ℝ → ℝ, semiCost (coords (θ k) X) q = arcSemiCost (fun i => planeImage (θ k) (X i)) q := by
      intro q
      unfold semiCost arcSemiCost
      refine sum_congr rfl fun i _ => ?_
      congr 1
      funext t
      unfold coords
      rw [plane_eq, coord_normalise (hX.visible k i), circDist_coord_point (hX.visible k i)]
    simp only [e] at h
    exact h

/-! ### `linear_sliced_wasserstein_sphere` -/

theorem lssot_ok {X : Fin (n + 1) → D → ℝ} {Y : Fin (m + 1) → D → ℝ} {a : Fin (n + 1) → ℝ} {b : Fin (m + 1) → ℝ} {θ : Fin L → D → Fin 2 → ℝ} {σ : Sorters (n + 1) (m + 1) L}
    (hX : ∀ i, |∑ d, X i d ^ 2 - 1| ≤ 1 / 10 ^ 4) (hY : ∀ j, |∑ d, Y j d ^ 2 - 1| ≤ 1 / 10 ^ 4) :
    lssot L X (some Y) a b θ σ = .ok (((∑ k, (∑ g : Fin 100, circDist (embedding (grid g) (coords (θ k) X) a (σ.permA k)) (embedding (grid g) (coords (θ k) Y) b (σ.permB k)) ^ 2) / 100) / L) ^ ((1 : ℝ) / 2)) := by
  unfold lssot sphereToCircle
  simp only
  rw [if_pos (show OnSphere X ∧ OnSphere Y from ⟨hX, hY⟩)]
  simp only [if_true, linearCircularOt_eq]

theorem mean_circ_triangle {L : ℕ} (f g h : Fin L → Fin 100 → ℝ) :
    ((∑ k, (∑ t, circDist (f k t) (h k t) ^ 2) / 100) / (L : ℝ)) ^ ((1 : ℝ) / 2) ≤
      ((∑ k, (∑ t, circDist (f k t) (g k t) ^ 2) / 100) / (L : ℝ)) ^ ((1 : ℝ) / 2) + ((∑ k, (∑ t, circDist (g k t) (h k t) ^ 2) / 100) / (L : ℝ)) ^ ((1 : ℝ) / 2) := by
  have inner : ∀ F G : Fin L → Fin 100 → ℝ, ∀ k, 0 ≤ (∑ t, circDist (F k t) (G k t) ^ 2) / 100 := fun F G k => div_nonneg (sum_nonneg fun t _ => sq_nonneg _) (by norm_num)
  have key : ∀ F G : Fin L → Fin 100 → ℝ, ∀ k, (((∑ t, circDist (F k t) (G k t) ^ 2) / 100) ^ ((1 : ℝ) / 2)) ^ (2 : ℝ) = (∑ t, circDist (F k t) (G k t) ^ 2) / 100 := fun F G k => by
    rw [← Real.rpow_mul (inner F G k)]; norm_num
  have h100 : ∀ k, ((∑ t, circDist (f k t) (h k t) ^ 2) / 100) ^ ((1 : ℝ) / 2) ≤ ((∑ t, circDist (f k t) (g k t) ^ 2) / 100) ^ ((1 : ℝ) / 2) + ((∑ t, circDist (g k t) (h k t) ^ 2) / 100) ^ ((1 : ℝ) / 2) := by
    intro k
    have := mean_add_le (L := 100) (p := 2) (by norm_num) (w := fun t => circDist (f k t) (g k t)) (w' := fun t => circDist (g k t) (h k t)) (w'' := fun t => circDist (f k t) (h k t))
      (fun t => circDist_nonneg _ _) (fun t => circDist_nonneg _ _) (fun t => circDist_nonneg _ _) fun t => circDist_triangle _ _ _
    simpa only [Real.rpow_ofNat, Nat.cast_ofNat] using this
  have := mean_add_le (L := L) (p := 2) (by norm_num) (fun k => Real.rpow_nonneg (inner f g k) _) (fun k => Real.rpow_nonneg (inner g h k) _) (fun k => Real.rpow_nonneg (inner f h k) _) h100
  simpa only [key] using this

/-- C115. `linear_sliced_wasserstein_sphere` between two samples is exactly a distance up to identification: non-negative, at most half a turn, symmetric, zero between a sample and itself, and it satisfies
the triangle inequality, whatever the weights. -/
theorem C115_lssot_metric (hL : 1 ≤ L) (X : Fin (n + 1) → D → ℝ) (Y : Fin (m + 1) → D → ℝ) (Z : Fin (q + 1) → D → ℝ) (a : Fin (n + 1) → ℝ) (b : Fin (m + 1) → ℝ) (c : Fin (q + 1) → ℝ)
    (θ : Fin L → D → Fin 2 → ℝ) (hX : ∀ i, |∑ d, X i d ^ 2 - 1| ≤ 1 / 10 ^ 4) (hY : ∀ j, |∑ d, Y j d ^ 2 - 1| ≤ 1 / 10 ^ 4) (hZ : ∀ j, |∑ d, Z j d ^ 2 - 1| ≤ 1 / 10 ^ 4)
    (σx : Fin L → Equiv.Perm (Fin (n + 1))) (σy : Fin L → Equiv.Perm (Fin (m + 1))) (σz : Fin L → Equiv.Perm (Fin (q + 1))) :
    ∃ dxy dyz dxz : ℝ, lssot L X (some Y) a b θ ⟨σx, σy⟩ = .ok dxy ∧ lssot L Y (some Z) b c θ ⟨σy, σz⟩ = .ok dyz ∧ lssot L X (some Z) a c θ ⟨σx, σz⟩ = .ok dxz ∧
      0 ≤ dxy ∧ dxy ≤ 1 / 2 ∧ lssot L Y (some X) b a θ ⟨σy, σx⟩ = .ok dxy ∧ lssot L X (some X) a a θ ⟨σx, σx⟩ = .ok 0 ∧ dxz ≤ dxy + dyz := by
  have hL0 : (0 : ℝ) < L := by exact_mod_cast hL
  refine ⟨_, _, _, lssot_ok hX hY, lssot_ok hY hZ, lssot_ok hX hZ, ?_, ?_, ?_, ?_, ?_⟩
  · refine Real.rpow_nonneg (div_nonneg (sum_nonneg fun k _ => ?_) hL0.le) _
    exact div_nonneg (sum_nonneg fun t _ => sq_nonneg _) (by norm_num)
  · refine le_trans (b := ((1 / 2 : ℝ) ^ (2 : ℝ)) ^ ((1 : ℝ) / 2)) ?_ (le_of_eq (by rw [← Real.rpow_mul (by norm_num : (0 : ℝ) ≤ 1 / 2)]; norm_num))
    refine Real.rpow_le_rpow (div_nonneg (sum_nonneg fun k _ => ?_) hL0.le) ?_ (by norm_num)
    · exact div_nonneg (sum_nonneg fun t _ => sq_nonneg _) (by norm_num)
    rw [div_le_iff₀ hL0]
    have : ∀ k : Fin L, (∑ g : Fin 100, circDist (embedding (grid g) (coords (θ k) X) a (σx k)) (embedding (grid g) (coords (θ k) Y) b (σy k)) ^ 2) / 100 ≤ (1 / 2 : ℝ) ^ (2 : ℝ) := by
      intro k
      rw [div_le_iff₀ (by norm_num)]
      refine (sum_le_sum (g := fun _ => (1 / 2 : ℝ) ^ 2) fun g _ => pow_le_pow_left₀ (circDist_nonneg _ _) (circDist_half _ _) 2).trans_eq ?_
      rw [sum_const, card_univ, Fintype.card_fin, nsmul_eq_mul]
      norm_num
    refine (sum_le_sum fun k _ => this k).trans_eq ?_
    rw [sum_const, card_univ, Fintype.card_fin, nsmul_eq_mul, mul_comm]
  · rw [lssot_ok hY hX]
    simp only [circDist_comm]
  · rw [lssot_ok hX hX]
    have : ∀ x : ℝ, circDist x x = 0 := fun x => by simp [circDist]
    simp only [this]
    norm_num
  · exact mean_circ_triangle _ _ _

/-! ### what the documentation promises and the code does not do -/

/-- C115, refuted. `n_projections` is documented as unused when `projections` are given; unless it equals their number, every call on the sphere raises. -/
theorem C115_projections_refuted (nProj : ℕ) (h : nProj ≠ L) (p : ℝ) (X : Fin (n + 1) → D → ℝ) (Y : Fin (m + 1) → D → ℝ) (a : Fin (n + 1) → ℝ) (b : Fin (m + 1) → ℝ) (θ : Fin L → D → Fin 2 → ℝ)
    (σ : Sorters (n + 1) (m + 1) L) (fuel : ℕ) :
    (∀ s, ssw nProj p X Y a b θ σ fuel ≠ .ok s) ∧ (∀ s, sswUnif nProj X a θ σ.permA ≠ .ok s) ∧ ∀ s, lssot nProj X (some Y) a b θ σ ≠ .ok s := by
  unfold ssw sswUnif lssot sphereToCircle
  simp only [if_neg h]
  refine ⟨fun s => ?_, fun s => ?_, fun s => ?_⟩ <;> split_ifs <;> simp

/-- C115, refuted. `X_t=None`, the default of `linear_sliced_wasserstein_sphere`, documented as the distance to the uniform measure, never returns a value. -/
theorem C115_lssot_default_refuted (nProj : ℕ) (X : Fin (n + 1) → D → ℝ) (a : Fin (n + 1) → ℝ) (b : Fin (m + 1) → ℝ) (θ : Fin L → D → Fin 2 → ℝ) (σ : Sorters (n + 1) (m + 1) L) :
    ∀ s, lssot nProj X none a b θ σ ≠ .ok s := by
  unfold lssot
  simp

/-- the plane of the first two coordinates -/
def idPlane : Fin 2 → Fin 2 → ℝ := ![![1, 0], ![0, 1]]

theorem planeImage_id (x : Fin 2 → ℝ) : planeImage idPlane x = x := by
  funext c
  unfold planeImage idPlane
  rw [Fin.sum_univ_two]
  fin_cases c <;> simp

theorem coords_point {N : ℕ} (t : Fin N → ℝ) (i : Fin N) : ∃ k : ℤ, coords idPlane (fun i => circlePoint (t i)) i = t i + k := by
  unfold coords
  rw [plane_eq, planeImage_id, coord_normalise (circlePoint_ne _)]
  have := (C115_coordinate 1 (t i) one_pos).1
  simpa only [one_mul] using this

theorem coords_point_fract {N : ℕ} (t : Fin N → ℝ) (i : Fin N) : Int.fract (coords idPlane (fun i => circlePoint (t i)) i) = Int.fract (t i) := by
  obtain ⟨k, hk⟩ := coords_point t i
  rw [hk, Int.fract_add_intCast]

theorem point_sphere {N : ℕ} (t : Fin N → ℝ) (i : Fin N) : |∑ d, circlePoint (t i) d ^ 2 - 1| ≤ 1 / 10 ^ 4 := by
  have : ∑ d, circlePoint (t i) d ^ 2 = 1 := by
    rw [Fin.sum_univ_two]
    exact Real.cos_sq_add_sin_sq (2 * Real.pi * t i)
  rw [this]
  norm_num

theorem point_data {N : ℕ} (t : Fin (N + 1) → ℝ) (a : Fin (N + 1) → ℝ) (ha : ∀ i, 0 ≤ a i) (hs : ∑ i, a i = 1) : SphereData (L := 1) (fun i => circlePoint (t i)) a (fun _ => idPlane) :=
  ⟨fun i => point_sphere t i, fun _ i => by rw [planeImage_id]; exact circlePoint_ne _, ha, hs⟩

theorem semidiscrete_three (u w : Fin 3 → ℝ) (su : Equiv.Perm (Fin 3)) (h0 : Int.fract (u (su 0)) = 0) (h1 : Int.fract (u (su 1)) = 1 / 4) (h2 : Int.fract (u (su 2)) = 1 / 2) :
    semidiscrete u w su = (w 1 / 16 + w 2 / 4) - (w 1 / 4 + w 2 / 2) ^ 2 + (w 1 / 4 * (1 - w 1 - 2 * w 0) + w 2 / 2 * (1 - w 2 - 2 * (w 0 + w 1))) + 1 / 12 := by
  have e0 : (Iio (0 : Fin 3)) = ∅ := by decide
  have e1 : (Iio (1 : Fin 3)) = {0} := by decide
  have e2 : (Iio (2 : Fin 3)) = {0, 1} := by decide
  unfold semidiscrete
  simp only [Fin.sum_univ_three, h0, h1, h2, e0, e1, e2, sum_empty, sum_singleton]
  rw [sum_pair (by decide)]
  ring

theorem fract_quarter : Int.fract (1 / 4 : ℝ) = 1 / 4 := Int.fract_eq_self.2 ⟨by norm_num, by norm_num⟩

theorem fract_half : Int.fract (1 / 2 : ℝ) = 1 / 2 := Int.fract_eq_self.2 ⟨by norm_num, by norm_num⟩

/-- C115, refuted. With weights, the result of `sliced_wasserstein_sphere_unif` depends on the order in which the samples are given: three points of the circle, at a quarter, at zero and at half a turn,
with weights `1/2, 1/4, 1/4`, and the same measure listed by increasing angle. -/
theorem C115_unif_refuted :
    sswUnif (L := 1) 1 (fun i => circlePoint (![1 / 4, 0, 1 / 2] i)) ![1 / 2, 1 / 4, 1 / 4] (fun _ => idPlane) (fun _ => Equiv.swap 0 1) = .ok ((13 / 768 : ℝ) ^ ((1 : ℝ) / 2)) ∧
      sswUnif (L := 1) 1 (fun i => circlePoint (![0, 1 / 4, 1 / 2] i)) ![1 / 4, 1 / 2, 1 / 4] (fun _ => idPlane) (fun _ => 1) = .ok ((16 / 768 : ℝ) ^ ((1 : ℝ) / 2)) ∧
      (13 / 768 : ℝ) ^ ((1 : ℝ) / 2) < (16 / 768 : ℝ) ^ ((1 : ℝ) / 2) := by
  refine ⟨?_, ?_, Real.rpow_lt_rpow (by norm_num) (by norm_num) (by norm_num)⟩
  · unfold sswUnif sphereToCircle
    rw [if_pos (show OnSphere _ from point_sphere _)]
    simp only [if_true]
    rw [Fin.sum_univ_one, semidiscrete_three]
    · rw [show (![1 / 2, 1 / 4, 1 / 4] : Fin 3 → ℝ) 2 = 1 / 4 from rfl]; norm_num
    · rw [coords_point_fract]; simp
    · rw [coords_point_fract]; simpa using fract_quarter
    · rw [coords_point_fract]; simpa [Equiv.swap_apply_of_ne_of_ne] using fract_half
  · unfold sswUnif sphereToCircle
    rw [if_pos (show OnSphere _ from point_sphere _)]
    simp only [if_true]
    rw [Fin.sum_univ_one, semidiscrete_three]
    · rw [show (![1 / 4, 1 / 2, 1 / 4] : Fin 3 → ℝ) 2 = 1 / 4 from rfl]; norm_num
    · rw [coords_point_fract]; simp
    · rw [coords_point_fract]; simpa using fract_quarter
    · rw [coords_point_fract]; simpa using fract_half

/-- the permutations of the counterexample sort the samples -/
example : (Monotone fun i => Int.fract (coords idPlane (fun i => circlePoint ((![1 / 4, 0, 1 / 2] : Fin 3 → ℝ) i)) (Equiv.swap 0 1 i))) ∧
    Monotone fun i => Int.fract (coords idPlane (fun i => circlePoint ((![0, 1 / 4, 1 / 2] : Fin 3 → ℝ) i)) ((1 : Equiv.Perm (Fin 3)) i)) := by
  have h1 := fract_quarter
  have h2 := fract_half
  have key : ∀ f : Fin 3 → ℝ, f 0 = 0 → f 1 = 1 / 4 → f 2 = 1 / 2 → Monotone f := by
    intro f e0 e1 e2 i j hij
    fin_cases i <;> fin_cases j <;> simp [e0, e1, e2] at hij ⊢ <;> norm_num
  constructor
  · refine key _ ?_ ?_ ?_
    · rw [coords_point_fract]; simp
    · rw [coords_point_fract]; simpa using h1
    · rw [coords_point_fract]; simpa [Equiv.swap_apply_of_ne_of_ne] using h2
  · refine key _ ?_ ?_ ?_
    · rw [coords_point_fract]; simp
    · rw [coords_point_fract]; simpa using h1
    · rw [coords_point_fract]; simpa using h2

/-! ### the hypotheses are met: two points against one on the circle, one plane -/

example : (∃ fuel s, ssw 1 2 (fun i => circlePoint ((![1 / 4, 1 / 2] : Fin 2 → ℝ) i)) (fun i => circlePoint ((![1 / 8] : Fin 1 → ℝ) i)) ![1 / 2, 1 / 2] ![1] (fun _ : Fin 1 => idPlane)
    ⟨fun _ => 1, fun _ => 1⟩ fuel = .ok (some s)) :=
  (C115_ssw_value (L := 1) (n := 1) (m := 0) (by norm_num) (le_refl 1) _ _ _ _ _ _
    (point_data (N := 1) _ _ (fun i => by fin_cases i <;> norm_num) (by norm_num [Fin.sum_univ_succ]))
    (point_data (N := 0) _ _ (fun i => by fin_cases i; norm_num) (by norm_num)) (fun k => ⟨by
      intro i j hij
      beta_reduce
      rw [coords_point_fract, coords_point_fract]
      have h1 := fract_quarter
      have h2 := fract_half
      fin_cases i <;> fin_cases j <;> simp at hij ⊢
      rw [one_div] at h1 h2
      rw [h1, h2]; norm_num, fun i j _ => by fin_cases i; fin_cases j; exact le_refl _⟩)).1

end POT.Props
