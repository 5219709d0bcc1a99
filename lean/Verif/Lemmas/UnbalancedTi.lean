import Verif.Model.UnbalancedTi
import Verif.Lemmas.Unbalanced

/-! # Lemmas for the translation invariant solver -/

set_option linter.unusedSectionVars false

namespace POT.Unbalanced

open Finset Spec Sinkhorn Filter Topology

theorem exp_mul_rpow {μ x p : ℝ} (hx : 0 < x) : (Real.exp μ * x) ^ p = Real.exp (μ * p) * x ^ p := by
  rw [Real.mul_rpow (Real.exp_pos _).le hx.le, Real.exp_mul]

theorem sum_rpow_scale {L : Type*} [Fintype L] {a w : L → ℝ} (hw : ∀ l, 0 < w l) (μ p : ℝ) :
    ∑ l, a l * (Real.exp μ * w l) ^ p = Real.exp (μ * p) * ∑ l, a l * w l ^ p := by
  rw [mul_sum]
  exact sum_congr rfl fun l _ => by rw [exp_mul_rpow (hw l)]; ring

theorem sum_rpow_pos {L : Type*} [Fintype L] [Nonempty L] {a w : L → ℝ} (ha : ∀ l, 0 < a l) (hw : ∀ l, 0 < w l) (p : ℝ) : 0 < ∑ l, a l * w l ^ p :=
  sum_pos (fun l _ => mul_pos (ha l) (Real.rpow_pos_of_pos (hw l) _)) univ_nonempty

variable {I J : Type*} [Fintype I] [Fintype J] [Nonempty I] [Nonempty J]

theorem kv_scale (K : I → J → ℝ) (v : J → ℝ) (μ : ℝ) (i : I) : kv K (fun j => Real.exp μ * v j) i = Real.exp μ * kv K v i := by
  unfold kv
  rw [mul_sum]
  exact sum_congr rfl fun j _ => by ring

theorem tiV_pos {C : TiCoef} {a : I → ℝ} {b : J → ℝ} {K : I → J → ℝ} (ha : ∀ i, 0 < a i) (hb : ∀ j, 0 < b j) (hK : ∀ i j, 0 < K i j) {u : I → ℝ} (hu : ∀ i, 0 < u i) (j : J) :
    0 < tiV C a b K u j := by
  have h1 : ∀ j, 0 < (b j / ktu K u j) ^ C.f₂ * (∑ i, a i * u i ^ (-C.r₁)) ^ C.k₁ := fun j =>
    mul_pos (Real.rpow_pos_of_pos (div_pos (hb j) (ktu_pos hK hu j)) _) (Real.rpow_pos_of_pos (sum_rpow_pos ha hu _) _)
  exact mul_pos (h1 j) (Real.rpow_pos_of_pos (sum_rpow_pos hb h1 _) _)

theorem tiU_form {C : TiCoef} {a : I → ℝ} {b : J → ℝ} {K : I → J → ℝ} (ha : ∀ i, 0 < a i) (hb : ∀ j, 0 < b j) (hK : ∀ i j, 0 < K i j) {v : J → ℝ} (hv : ∀ j, 0 < v j) :
    ∃ m, ∀ i, tiU C a b K v i = Real.exp m * (a i / kv K v i) ^ C.f₁ := by
  have h0 := sum_rpow_pos hb hv C.r₂
  have h1 : ∀ i, 0 < (a i / kv K v i) ^ C.f₁ * (∑ j, b j * v j ^ C.r₂) ^ C.k₂ := fun i =>
    mul_pos (Real.rpow_pos_of_pos (div_pos (ha i) (kv_pos hK hv i)) _) (Real.rpow_pos_of_pos h0 _)
  have h2 := sum_rpow_pos ha h1 (-C.r₁)
  refine ⟨Real.log ((∑ j, b j * v j ^ C.r₂) ^ C.k₂ * (∑ i', a i' * ((a i' / kv K v i') ^ C.f₁ * (∑ j, b j * v j ^ C.r₂) ^ C.k₂) ^ (-C.r₁)) ^ (-C.ξ₁)), fun i => ?_⟩
  rw [Real.exp_log (mul_pos (Real.rpow_pos_of_pos h0 _) (Real.rpow_pos_of_pos h2 _))]
  unfold tiU
  dsimp only
  ring

theorem tiU_pos {C : TiCoef} {a : I → ℝ} {b : J → ℝ} {K : I → J → ℝ} (ha : ∀ i, 0 < a i) (hb : ∀ j, 0 < b j) (hK : ∀ i j, 0 < K i j) {v : J → ℝ} (hv : ∀ j, 0 < v j) (i : I) :
    0 < tiU C a b K v i := by
  obtain ⟨m, h⟩ := tiU_form (C := C) ha hb hK hv
  rw [h]
  exact mul_pos (Real.exp_pos _) (Real.rpow_pos_of_pos (div_pos (ha i) (kv_pos hK hv i)) _)

theorem tiV_form {C : TiCoef} {a : I → ℝ} {b : J → ℝ} {K : I → J → ℝ} (ha : ∀ i, 0 < a i) (hb : ∀ j, 0 < b j) (hK : ∀ i j, 0 < K i j) {u : I → ℝ} (hu : ∀ i, 0 < u i) :
    ∃ m, ∀ j, tiV C a b K u j = Real.exp m * (b j / ktu K u j) ^ C.f₂ := by
  have h0 := sum_rpow_pos ha hu (-C.r₁)
  have h1 : ∀ j, 0 < (b j / ktu K u j) ^ C.f₂ * (∑ i, a i * u i ^ (-C.r₁)) ^ C.k₁ := fun j =>
    mul_pos (Real.rpow_pos_of_pos (div_pos (hb j) (ktu_pos hK hu j)) _) (Real.rpow_pos_of_pos h0 _)
  have h2 := sum_rpow_pos hb h1 (-C.r₂)
  refine ⟨Real.log ((∑ i, a i * u i ^ (-C.r₁)) ^ C.k₁ * (∑ j', b j' * ((b j' / ktu K u j') ^ C.f₂ * (∑ i, a i * u i ^ (-C.r₁)) ^ C.k₁) ^ (-C.r₂)) ^ (-C.ξ₂)), fun j => ?_⟩
  rw [Real.exp_log (mul_pos (Real.rpow_pos_of_pos h0 _) (Real.rpow_pos_of_pos h2 _))]
  unfold tiV
  dsimp only
  ring

/-- The `v`-update answers a translation of `u` by the inverse translation. -/
theorem tiV_scale {C : TiCoef} {a : I → ℝ} {b : J → ℝ} {K : I → J → ℝ} (ha : ∀ i, 0 < a i) (hb : ∀ j, 0 < b j) (hK : ∀ i j, 0 < K i j) {u : I → ℝ} (hu : ∀ i, 0 < u i)
    (hC : (C.f₂ + C.r₁ * C.k₁) * (1 + C.r₂ * C.ξ₂) = 1) (μ : ℝ) (j : J) : tiV C a b K (fun i => Real.exp μ * u i) j = Real.exp (-μ) * tiV C a b K u j := by
  have h0 := sum_rpow_pos ha hu (-C.r₁)
  have h1 : ∀ j, 0 < (b j / ktu K u j) ^ C.f₂ * (∑ i, a i * u i ^ (-C.r₁)) ^ C.k₁ := fun j =>
    mul_pos (Real.rpow_pos_of_pos (div_pos (hb j) (ktu_pos hK hu j)) _) (Real.rpow_pos_of_pos h0 _)
  have hv : ∀ j, (b j / ktu K (fun i => Real.exp μ * u i) j) ^ C.f₂ * (∑ i, a i * (Real.exp μ * u i) ^ (-C.r₁)) ^ C.k₁
      = Real.exp (-μ * (C.f₂ + C.r₁ * C.k₁)) * ((b j / ktu K u j) ^ C.f₂ * (∑ i, a i * u i ^ (-C.r₁)) ^ C.k₁) := fun j => by
    rw [sum_rpow_scale hu, exp_mul_rpow h0, ktu_eq, kv_scale, ← ktu_eq,
      show b j / (Real.exp μ * ktu K u j) = Real.exp (-μ) * (b j / ktu K u j) by rw [Real.exp_neg]; field_simp,
      exp_mul_rpow (div_pos (hb j) (ktu_pos hK hu j)), show -μ * (C.f₂ + C.r₁ * C.k₁) = -μ * C.f₂ + μ * -C.r₁ * C.k₁ by ring, Real.exp_add]
    ring
  unfold tiV
  dsimp only
  simp only [hv]
  rw [sum_rpow_scale h1, exp_mul_rpow (sum_rpow_pos hb h1 _)]
  have : Real.exp (-μ) = Real.exp (-μ * (C.f₂ + C.r₁ * C.k₁)) * Real.exp (-μ * (C.f₂ + C.r₁ * C.k₁) * -C.r₂ * -C.ξ₂) := by
    rw [← Real.exp_add]
    congr 1
    linear_combination μ * hC
  rw [this]
  ring

theorem tiT_scale {C : TiCoef} {a : I → ℝ} {b : J → ℝ} (ha : ∀ i, 0 < a i) (hb : ∀ j, 0 < b j) {u : I → ℝ} {v : J → ℝ} (hu : ∀ i, 0 < u i) (hv : ∀ j, 0 < v j)
    (hC : (C.r₁ + C.r₂) * C.e = 1) (μ : ℝ) : tiT C a b (fun i => Real.exp μ * u i) (fun j => Real.exp (-μ) * v j) = Real.exp (-μ) * tiT C a b u v := by
  have h0 := sum_rpow_pos ha hu (-C.r₁)
  have h1 := sum_rpow_pos hb hv (-C.r₂)
  unfold tiT
  rw [sum_rpow_scale hu, sum_rpow_scale hv, show Real.exp (μ * -C.r₁) * (∑ l, a l * u l ^ (-C.r₁)) / (Real.exp (-μ * -C.r₂) * ∑ l, b l * v l ^ (-C.r₂))
    = Real.exp (-μ * (C.r₁ + C.r₂)) * ((∑ l, a l * u l ^ (-C.r₁)) / ∑ l, b l * v l ^ (-C.r₂)) by
      rw [show -μ * (C.r₁ + C.r₂) = μ * -C.r₁ - -μ * -C.r₂ by ring, Real.exp_sub]
      field_simp, exp_mul_rpow (div_pos h0 h1)]
  congr 2
  linear_combination -μ * hC

/-- The pair that an iteration returns, as a function of the new `u_`. -/
noncomputable def tiOut (C : TiCoef) (a : I → ℝ) (b : J → ℝ) (K : I → J → ℝ) (u : I → ℝ) : UV I J :=
  ⟨fun i => u i * tiT C a b u (tiV C a b K u), fun j => tiV C a b K u j / tiT C a b u (tiV C a b K u)⟩

theorem tiT_pos {C : TiCoef} {a : I → ℝ} {b : J → ℝ} (ha : ∀ i, 0 < a i) (hb : ∀ j, 0 < b j) {u : I → ℝ} {v : J → ℝ} (hu : ∀ i, 0 < u i) (hv : ∀ j, 0 < v j) :
    0 < tiT C a b u v := Real.rpow_pos_of_pos (div_pos (sum_rpow_pos ha hu _) (sum_rpow_pos hb hv _)) _

theorem tiOut_scale {C : TiCoef} {a : I → ℝ} {b : J → ℝ} {K : I → J → ℝ} (ha : ∀ i, 0 < a i) (hb : ∀ j, 0 < b j) (hK : ∀ i j, 0 < K i j) {u : I → ℝ} (hu : ∀ i, 0 < u i)
    (hC : (C.f₂ + C.r₁ * C.k₁) * (1 + C.r₂ * C.ξ₂) = 1) (hC' : (C.r₁ + C.r₂) * C.e = 1) (μ : ℝ) : tiOut C a b K (fun i => Real.exp μ * u i) = tiOut C a b K u := by
  have hv : tiV C a b K (fun i => Real.exp μ * u i) = fun j => Real.exp (-μ) * tiV C a b K u j := funext fun j => tiV_scale ha hb hK hu hC μ j
  have ht := tiT_scale (C := C) ha hb hu (tiV_pos (C := C) ha hb hK hu) hC' μ
  have hp := tiT_pos (C := C) ha hb hu (tiV_pos (C := C) ha hb hK hu)
  unfold tiOut
  rw [hv, ht]
  refine UV.ext (funext fun i => ?_) (funext fun j => ?_)
  · dsimp only
    rw [Real.exp_neg]
    field_simp
  · dsimp only
    field_simp

theorem tiOut_tendsto {C : TiCoef} {a : I → ℝ} {b : J → ℝ} {K : I → J → ℝ} (ha : ∀ i, 0 < a i) (hb : ∀ j, 0 < b j) (hK : ∀ i j, 0 < K i j) {x : ℕ → I → ℝ} {u : I → ℝ}
    (hu : ∀ i, 0 < u i) (h : ∀ i, Tendsto (fun n => x n i) atTop (𝓝 (u i))) :
    (∀ i, Tendsto (fun n => (tiOut C a b K (x n)).u i) atTop (𝓝 ((tiOut C a b K u).u i))) ∧
    ∀ j, Tendsto (fun n => (tiOut C a b K (x n)).v j) atTop (𝓝 ((tiOut C a b K u).v j)) := by
  have h0 := sum_rpow_pos ha hu (-C.r₁)
  have h1 : ∀ j, 0 < (b j / ktu K u j) ^ C.f₂ * (∑ i, a i * u i ^ (-C.r₁)) ^ C.k₁ := fun j =>
    mul_pos (Real.rpow_pos_of_pos (div_pos (hb j) (ktu_pos hK hu j)) _) (Real.rpow_pos_of_pos h0 _)
  have tX : Tendsto (fun n => ∑ i, a i * x n i ^ (-C.r₁)) atTop (𝓝 (∑ i, a i * u i ^ (-C.r₁))) :=
    tendsto_finsetSum _ fun i _ => tendsto_const_nhds.mul ((h i).rpow_const (Or.inl (hu i).ne'))
  have tK : ∀ j, Tendsto (fun n => ktu K (x n) j) atTop (𝓝 (ktu K u j)) := fun j => tendsto_finsetSum _ fun i _ => tendsto_const_nhds.mul (h i)
  have tH : ∀ j, Tendsto (fun n => (b j / ktu K (x n) j) ^ C.f₂ * (∑ i, a i * x n i ^ (-C.r₁)) ^ C.k₁) atTop (𝓝 ((b j / ktu K u j) ^ C.f₂ * (∑ i, a i * u i ^ (-C.r₁)) ^ C.k₁)) :=
    fun j => ((tendsto_const_nhds.div (tK j) (ktu_pos hK hu j).ne').rpow_const (Or.inl (div_pos (hb j) (ktu_pos hK hu j)).ne')).mul (tX.rpow_const (Or.inl h0.ne'))
  have tV : ∀ j, Tendsto (fun n => tiV C a b K (x n) j) atTop (𝓝 (tiV C a b K u j)) := fun j =>
    (tH j).mul ((tendsto_finsetSum _ fun j' _ => tendsto_const_nhds.mul ((tH j').rpow_const (Or.inl (h1 j').ne'))).rpow_const (Or.inl (sum_rpow_pos hb h1 _).ne'))
  have pV := tiV_pos (C := C) ha hb hK hu
  have tT : Tendsto (fun n => tiT C a b (x n) (tiV C a b K (x n))) atTop (𝓝 (tiT C a b u (tiV C a b K u))) :=
    (tX.div (tendsto_finsetSum _ fun j _ => tendsto_const_nhds.mul ((tV j).rpow_const (Or.inl (pV j).ne'))) (sum_rpow_pos hb pV _).ne').rpow_const
      (Or.inl (div_pos h0 (sum_rpow_pos hb pV _)).ne')
  exact ⟨fun i => (h i).mul tT, fun j => (tV j).div tT (tiT_pos ha hb hu pV).ne'⟩

/-- At a fixed point of the ordinary iteration, `∑ a u^(-reg/ρ₁)` is the mass of the plan. -/
theorem sum_fixed {A U S : I → ℝ} {f r : ℝ} (hA : ∀ i, 0 < A i) (hS : ∀ i, 0 < S i) (hfr : f * (1 + r) = 1) (hU : ∀ i, U i = (A i / S i) ^ f) :
    ∑ i, A i * U i ^ (-r) = ∑ i, U i * S i := by
  refine sum_congr rfl fun i _ => ?_
  have hq := div_pos (hA i) (hS i)
  have hUp : 0 < U i := by rw [hU]; exact Real.rpow_pos_of_pos hq _
  have h1 : U i ^ (1 + r) = A i / S i := by rw [hU, ← Real.rpow_mul hq.le, hfr, Real.rpow_one]
  have h2 : U i ^ (-r) = U i / U i ^ (1 + r) := by
    rw [show -r = 1 - (1 + r) by ring, Real.rpow_sub hUp, Real.rpow_one]
  have := (hA i).ne'
  have := (hS i).ne'
  rw [h2, h1]
  field_simp

theorem tiOut_fixed {C : TiCoef} {a : I → ℝ} {b : J → ℝ} {K : I → J → ℝ} (ha : ∀ i, 0 < a i) (hb : ∀ j, 0 < b j) (hK : ∀ i j, 0 < K i j) (h1 : C.f₁ * (1 + C.r₁) = 1) (h2 : C.f₂ * (1 + C.r₂) = 1)
    {t : UV I J} (hu : ∀ i, 0 < t.u i) (hv : ∀ j, 0 < t.v j) (ht : unbStep a b K C.f₁ C.f₂ t = t) (i : I) (j : J) :
    (tiOut C a b K t.u).u i * (tiOut C a b K t.u).v j = (mass (plan K t)) ^ (C.k₁ * (1 + C.r₂ * C.ξ₂) - C.ξ₂) * (t.u i * t.v j) := by
  have eu : ∀ i, t.u i = (a i / kv K t.v i) ^ C.f₁ := fun i => by
    conv_lhs => rw [← ht]
    rfl
  have ev : ∀ j, t.v j = (b j / ktu K t.u j) ^ C.f₂ := fun j => by
    have e : (unbStep a b K C.f₁ C.f₂ t).u = t.u := by rw [ht]
    conv_lhs => rw [← ht]
    rw [← e]
    rfl
  have m1 : ∑ i, a i * t.u i ^ (-C.r₁) = mass (plan K t) := by
    rw [sum_fixed ha (kv_pos hK hv) h1 eu]
    unfold mass plan kv
    simp only [mul_sum]
    exact sum_congr rfl fun i _ => sum_congr rfl fun j _ => by ring
  have m2 : ∑ j, b j * t.v j ^ (-C.r₂) = mass (plan K t) := by
    rw [sum_fixed hb (ktu_pos hK hu) h2 ev]
    unfold mass plan ktu
    simp only [mul_sum]
    rw [sum_comm]
    exact sum_congr rfl fun i _ => sum_congr rfl fun j _ => by ring
  have hm : 0 < mass (plan K t) := by rw [← m1]; exact sum_rpow_pos ha hu _
  obtain ⟨m, hmd⟩ : ∃ m, m = mass (plan K t) := ⟨_, rfl⟩
  rw [← hmd] at m1 m2 hm ⊢
  have hV : tiV C a b K t.u j = m ^ (C.k₁ * (1 + C.r₂ * C.ξ₂) - C.ξ₂) * t.v j := by
    unfold tiV
    dsimp only
    simp only [← ev, m1]
    have : ∀ j', t.v j' * m ^ C.k₁ = Real.exp (Real.log m * C.k₁) * t.v j' := fun j' => by
      rw [Real.rpow_def_of_pos hm]
      ring
    simp only [this]
    rw [sum_rpow_scale hv, m2, exp_mul_rpow hm, Real.rpow_def_of_pos hm, Real.rpow_def_of_pos hm, show Real.log m * (C.k₁ * (1 + C.r₂ * C.ξ₂) - C.ξ₂)
      = Real.log m * C.k₁ + (Real.log m * C.k₁ * -C.r₂ * -C.ξ₂ + Real.log m * -C.ξ₂) by ring, Real.exp_add, Real.exp_add]
    ring
  have hp := tiT_pos (C := C) ha hb hu (tiV_pos (C := C) ha hb hK hu)
  unfold tiOut
  dsimp only
  rw [hV]
  field_simp

theorem near_step {A S S' X Y : I → ℝ} {f μ D m : ℝ} (hf : 0 ≤ f) (hA : ∀ i, 0 < A i) (hS : ∀ i, 0 < S i) (hS' : ∀ i, 0 < S' i) (hX : ∀ i, X i = Real.exp m * (A i / S i) ^ f)
    (hY : ∀ i, Y i = (A i / S' i) ^ f) (h : ∀ i, |Real.log (S i) - Real.log (S' i) - μ| ≤ D) (i : I) :
    |Real.log (X i) - Real.log (Y i) - (m - f * μ)| ≤ f * D := by
  rw [hX, hY, Real.log_mul (Real.exp_pos _).ne' (Real.rpow_pos_of_pos (div_pos (hA i) (hS i)) _).ne', Real.log_exp, log_scal (hA i) (hS i), log_scal (hA i) (hS' i),
    show m + f * (Real.log (A i) - Real.log (S i)) - f * (Real.log (A i) - Real.log (S' i)) - (m - f * μ) = -(f * (Real.log (S i) - Real.log (S' i) - μ)) by ring, abs_neg, abs_mul, abs_of_nonneg hf]
  exact mul_le_mul_of_nonneg_left (h i) hf

theorem kv_near {K : I → J → ℝ} (hK : ∀ i j, 0 < K i j) {v w : J → ℝ} (hv : ∀ j, 0 < v j) (hw : ∀ j, 0 < w j) {μ D : ℝ} (h : ∀ j, |Real.log (v j) - Real.log (w j) - μ| ≤ D) (i : I) :
    |Real.log (kv K v i) - Real.log (kv K w i) - μ| ≤ D := by
  have h1 := kv_lip hK hv (w := fun j => Real.exp μ * w j) (fun j => mul_pos (Real.exp_pos _) (hw j)) (D := D) (fun j => by
    rw [Real.log_mul (Real.exp_pos _).ne' (hw j).ne', Real.log_exp, ← sub_sub, sub_right_comm]
    exact h j) i
  rw [kv_scale, Real.log_mul (Real.exp_pos _).ne' (kv_pos hK hw i).ne', Real.log_exp, ← sub_sub, sub_right_comm] at h1
  exact h1

theorem tiIter_pos {C : TiCoef} {a : I → ℝ} {b : J → ℝ} {K : I → J → ℝ} (ha : ∀ i, 0 < a i) (hb : ∀ j, 0 < b j) (hK : ∀ i j, 0 < K i j) {s : Ti I J} (hv : ∀ j, 0 < s.raw.v j) (n : ℕ) :
    ∀ j, 0 < ((tiStep C a b K)^[n] s).raw.v j := by
  induction n with
  | zero => exact hv
  | succ n ih =>
    rw [Function.iterate_succ_apply']
    exact tiV_pos ha hb hK (tiU_pos ha hb hK ih)

/-- The shapes of the raw scalings converge. -/
theorem ti_shape {C : TiCoef} {a : I → ℝ} {b : J → ℝ} {K : I → J → ℝ} (ha : ∀ i, 0 < a i) (hb : ∀ j, 0 < b j) (hK : ∀ i j, 0 < K i j) (h1 : 0 ≤ C.f₁) (h2 : 0 ≤ C.f₂)
    {t : UV I J} (hu : ∀ i, 0 < t.u i) (hv : ∀ j, 0 < t.v j) (ht : unbStep a b K C.f₁ C.f₂ t = t) {s : Ti I J} (hs : ∀ j, 0 < s.raw.v j) {D : ℝ}
    (hD : ∀ j, |Real.log (s.raw.v j) - Real.log (t.v j)| ≤ D) (n : ℕ) :
    (∃ μ, ∀ j, |Real.log (((tiStep C a b K)^[n] s).raw.v j) - Real.log (t.v j) - μ| ≤ (C.f₁ * C.f₂) ^ n * D) ∧
    ∃ μ, ∀ i, |Real.log (((tiStep C a b K)^[n + 1] s).raw.u i) - Real.log (t.u i) - μ| ≤ C.f₁ * ((C.f₁ * C.f₂) ^ n * D) := by
  have eu : ∀ i, t.u i = (a i / kv K t.v i) ^ C.f₁ := fun i => by
    conv_lhs => rw [← ht]
    rfl
  have ev : ∀ j, t.v j = (b j / ktu K t.u j) ^ C.f₂ := fun j => by
    have e : (unbStep a b K C.f₁ C.f₂ t).u = t.u := by rw [ht]
    conv_lhs => rw [← ht]
    rw [← e]
    rfl
  have up : ∀ (s : Ti I J) (μ E : ℝ), (∀ j, 0 < s.raw.v j) → (∀ j, |Real.log (s.raw.v j) - Real.log (t.v j) - μ| ≤ E) →
      ∃ μ', ∀ i, |Real.log ((tiStep C a b K s).raw.u i) - Real.log (t.u i) - μ'| ≤ C.f₁ * E := fun s μ E hs h => by
    obtain ⟨m, hm⟩ := tiU_form (C := C) ha hb hK hs
    exact ⟨_, near_step h1 ha (kv_pos hK hs) (kv_pos hK hv) hm eu (kv_near hK hs hv h)⟩
  have vp : ∀ (s : Ti I J) (μ E : ℝ), (∀ j, 0 < s.raw.v j) → (∀ i, |Real.log ((tiStep C a b K s).raw.u i) - Real.log (t.u i) - μ| ≤ E) →
      ∃ μ', ∀ j, |Real.log ((tiStep C a b K s).raw.v j) - Real.log (t.v j) - μ'| ≤ C.f₂ * E := fun s μ E hs h => by
    have pu := tiU_pos (C := C) ha hb hK hs
    obtain ⟨m, hm⟩ := tiV_form (C := C) ha hb hK pu
    exact ⟨_, near_step h2 hb (ktu_pos hK pu) (ktu_pos hK hu) hm ev (kv_near (K := fun j i => K i j) (fun j i => hK i j) pu hu h)⟩
  have main : ∀ n, ∃ μ, ∀ j, |Real.log (((tiStep C a b K)^[n] s).raw.v j) - Real.log (t.v j) - μ| ≤ (C.f₁ * C.f₂) ^ n * D := fun n => by
    induction n with
    | zero => exact ⟨0, fun j => by simpa using hD j⟩
    | succ n ih =>
      obtain ⟨μ, h⟩ := ih
      have hp := tiIter_pos (C := C) ha hb hK hs n
      obtain ⟨μ1, g1⟩ := up _ μ _ hp h
      obtain ⟨μ2, g2⟩ := vp _ μ1 _ hp g1
      refine ⟨μ2, fun j => ?_⟩
      rw [Function.iterate_succ_apply']
      refine (g2 j).trans_eq ?_
      rw [pow_succ']
      ring
  refine ⟨main n, ?_⟩
  obtain ⟨μ, h⟩ := main n
  obtain ⟨μ1, g1⟩ := up _ μ _ (tiIter_pos (C := C) ha hb hK hs n) h
  rw [Function.iterate_succ_apply']
  exact ⟨μ1, g1⟩

theorem ti_out_eq (C : TiCoef) (a : I → ℝ) (b : J → ℝ) (K : I → J → ℝ) (s : Ti I J) : (tiStep C a b K s).out = tiOut C a b K (tiStep C a b K s).raw.u := rfl

/-- The translated scalings converge to `tiOut` of the scalings of the optimum. -/
theorem ti_tendsto {C : TiCoef} {a : I → ℝ} {b : J → ℝ} {K : I → J → ℝ} (ha : ∀ i, 0 < a i) (hb : ∀ j, 0 < b j) (hK : ∀ i j, 0 < K i j) (h1 : 0 ≤ C.f₁) (h2 : 0 ≤ C.f₂)
    (h12 : C.f₁ * C.f₂ < 1) (hC : (C.f₂ + C.r₁ * C.k₁) * (1 + C.r₂ * C.ξ₂) = 1) (hC' : (C.r₁ + C.r₂) * C.e = 1)
    {t : UV I J} (hu : ∀ i, 0 < t.u i) (hv : ∀ j, 0 < t.v j) (ht : unbStep a b K C.f₁ C.f₂ t = t) {s : Ti I J} (hs : ∀ j, 0 < s.raw.v j) :
    (∀ i, Tendsto (fun n => ((tiStep C a b K)^[n] s).out.u i) atTop (𝓝 ((tiOut C a b K t.u).u i))) ∧
    ∀ j, Tendsto (fun n => ((tiStep C a b K)^[n] s).out.v j) atTop (𝓝 ((tiOut C a b K t.u).v j)) := by
  obtain ⟨D, hD⟩ : ∃ D, ∀ j, |Real.log (s.raw.v j) - Real.log (t.v j)| ≤ D :=
    ⟨∑ j, |Real.log (s.raw.v j) - Real.log (t.v j)|, fun j => single_le_sum (f := fun j => |Real.log (s.raw.v j) - Real.log (t.v j)|) (fun _ _ => abs_nonneg _) (mem_univ j)⟩
  choose μ hμ using fun n => (ti_shape ha hb hK h1 h2 hu hv ht hs hD n).2
  have pu : ∀ n i, 0 < ((tiStep C a b K)^[n + 1] s).raw.u i := fun n i => by
    rw [Function.iterate_succ_apply']
    exact tiU_pos ha hb hK (tiIter_pos ha hb hK hs n) i
  have lim : ∀ i, Tendsto (fun n => Real.exp (-μ n) * ((tiStep C a b K)^[n + 1] s).raw.u i) atTop (𝓝 (t.u i)) := fun i => by
    refine tendsto_of_log (fun n => mul_pos (Real.exp_pos _) (pu n i)) (hu i) (r := fun n => C.f₁ * ((C.f₁ * C.f₂) ^ n * D)) ?_ fun n => ?_
    · have := ((tendsto_pow_atTop_nhds_zero_of_lt_one (mul_nonneg h1 h2) h12).mul_const D).const_mul C.f₁
      simpa using this
    · rw [Real.log_mul (Real.exp_pos _).ne' (pu n i).ne', Real.log_exp, show -μ n + Real.log (((tiStep C a b K)^[n + 1] s).raw.u i) - Real.log (t.u i)
        = Real.log (((tiStep C a b K)^[n + 1] s).raw.u i) - Real.log (t.u i) - μ n by ring]
      exact hμ n i
  obtain ⟨g1, g2⟩ := tiOut_tendsto (C := C) ha hb hK hu lim
  have key : ∀ n, tiOut C a b K (fun i => Real.exp (-μ n) * ((tiStep C a b K)^[n + 1] s).raw.u i) = ((tiStep C a b K)^[n + 1] s).out := fun n => by
    rw [tiOut_scale ha hb hK (pu n) hC hC', Function.iterate_succ_apply', ti_out_eq]
  simp only [key] at g1 g2
  exact ⟨fun i => (tendsto_add_atTop_iff_nat 1).1 (g1 i), fun j => (tendsto_add_atTop_iff_nat 1).1 (g2 j)⟩

/-- If an iteration leaves the shape of `v_` unchanged, all later iterations return the same pair. -/
theorem ti_const {C : TiCoef} {a : I → ℝ} {b : J → ℝ} {K : I → J → ℝ} (ha : ∀ i, 0 < a i) (hb : ∀ j, 0 < b j) (hK : ∀ i j, 0 < K i j)
    (hC : (C.f₂ + C.r₁ * C.k₁) * (1 + C.r₂ * C.ξ₂) = 1) (hC' : (C.r₁ + C.r₂) * C.e = 1) {s : Ti I J} (hs : ∀ j, 0 < s.raw.v j)
    {μ : ℝ} (h : ∀ j, (tiStep C a b K s).raw.v j = Real.exp μ * s.raw.v j) (n : ℕ) :
    ((tiStep C a b K)^[n + 1] s).out = (tiStep C a b K s).out := by
  have aux : ∀ s s' : Ti I J, (∀ j, 0 < s.raw.v j) → (∀ j, 0 < s'.raw.v j) → ∀ μ, (∀ j, s'.raw.v j = Real.exp μ * s.raw.v j) →
      (tiStep C a b K s').out = (tiStep C a b K s).out ∧ ∃ μ', ∀ j, (tiStep C a b K s').raw.v j = Real.exp μ' * (tiStep C a b K s).raw.v j := by
    intro s s' hs hs' μ h
    obtain ⟨m, hm⟩ := tiU_form (C := C) ha hb hK hs
    obtain ⟨m', hm'⟩ := tiU_form (C := C) ha hb hK hs'
    have hv : s'.raw.v = fun j => Real.exp μ * s.raw.v j := funext h
    have hU : tiU C a b K s'.raw.v = fun i => Real.exp (m' - m - μ * C.f₁) * tiU C a b K s.raw.v i := by
      funext i
      rw [hm', hm, hv, kv_scale, show a i / (Real.exp μ * kv K s.raw.v i) = Real.exp (-μ) * (a i / kv K s.raw.v i) by rw [Real.exp_neg]; field_simp,
        exp_mul_rpow (div_pos (ha i) (kv_pos hK hs i)), ← mul_assoc, ← mul_assoc, ← Real.exp_add, ← Real.exp_add]
      congr 2
      ring
    have pu := tiU_pos (C := C) ha hb hK hs
    constructor
    · rw [ti_out_eq, ti_out_eq]
      change tiOut C a b K (tiU C a b K s'.raw.v) = tiOut C a b K (tiU C a b K s.raw.v)
      rw [hU]
      exact tiOut_scale ha hb hK pu hC hC' _
    · refine ⟨-(m' - m - μ * C.f₁), fun j => ?_⟩
      change tiV C a b K (tiU C a b K s'.raw.v) j = _ * tiV C a b K (tiU C a b K s.raw.v) j
      rw [hU]
      exact tiV_scale ha hb hK pu hC _ j
  have main : ∀ n, ((tiStep C a b K)^[n + 1] s).out = (tiStep C a b K s).out ∧ ∃ μ, ∀ j, ((tiStep C a b K)^[n + 1] s).raw.v j = Real.exp μ * ((tiStep C a b K)^[n] s).raw.v j := by
    intro n
    induction n with
    | zero => exact ⟨rfl, μ, h⟩
    | succ n ih =>
      obtain ⟨i1, μ1, i2⟩ := ih
      have := aux ((tiStep C a b K)^[n] s) ((tiStep C a b K)^[n + 1] s) (tiIter_pos ha hb hK hs n) (tiIter_pos ha hb hK hs (n + 1)) μ1 i2
      rw [Function.iterate_succ_apply' (n := n + 1)]
      constructor
      · rw [this.1, ← Function.iterate_succ_apply' (tiStep C a b K) n s, i1]
      · obtain ⟨μ', h'⟩ := this.2
        refine ⟨μ', fun j => ?_⟩
        rw [h' j, ← Function.iterate_succ_apply' (tiStep C a b K) n s]
  exact (main n).1

end POT.Unbalanced
