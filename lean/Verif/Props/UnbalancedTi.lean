import Verif.Lemmas.UnbalancedTi
import Verif.Props.Unbalanced

/-!
# C64: the translation invariant unbalanced solver
-/

set_option linter.unusedSectionVars false

namespace POT.Props

open Finset Spec Sinkhorn Unbalanced Filter Topology

variable {I J : Type*} [Fintype I] [Fintype J] [Nonempty I] [Nonempty J]

theorem not_tiBad {C : TiCoef} {a : I → ℝ} {b : J → ℝ} {K : I → J → ℝ} (ha : ∀ i, 0 < a i) (hb : ∀ j, 0 < b j) (hK : ∀ i j, 0 < K i j) {s : Ti I J} (hv : ∀ j, 0 < s.raw.v j) : ¬ tiBad C a b K s := by
  rintro (⟨i, h⟩ | ⟨j, h⟩)
  · exact absurd h (kv_pos hK hv i).ne'
  · exact absurd h (ktu_pos hK (tiU_pos ha hb hK hv) j).ne'

/-- The common part: the call returns, to any accuracy, the optimal plan multiplied by a power of its mass. -/
theorem ti_call {a : I → ℝ} {b : J → ℝ} {M : I → J → ℝ} {reg : ℝ} {ρ₁ ρ₂ : Option ℝ} (entropy : Bool) {c : Option (I → J → ℝ)} (warm : Option ((I → ℝ) × (J → ℝ)))
    (hreg : 0 < reg) (h1 : ∀ r, ρ₁ = some r → 0 ≤ r) (h2 : ∀ r, ρ₂ = some r → 0 ≤ r) (hfin : ρ₁ ≠ none ∨ ρ₂ ≠ none)
    (ha : ∀ i, 0 < a i) (hb : ∀ j, 0 < b j) (hc : ∀ C, c = some C → ∀ i j, 0 < C i j)
    (e1 : fi reg ρ₁ * (1 + regRatio reg ρ₁) = 1) (e2 : fi reg ρ₂ * (1 + regRatio reg ρ₂) = 1)
    (e3 : (fi reg ρ₂ + regRatio reg ρ₁ * kRho reg ρ₁ ρ₂) * (1 + regRatio reg ρ₂ * xiRho reg ρ₂ ρ₁) = 1) (e4 : (regRatio reg ρ₁ + regRatio reg ρ₂) * (fi12 ρ₁ ρ₂ / reg) = 1) :
    (∀ n thr, (tiUnb a b M reg ρ₁ ρ₂ entropy c warm n thr).exit ≠ .numerical) ∧
    ∃ P : I → J → ℝ, IsUnbOptimal a b M reg (if entropy then fun _ _ => 1 else c.getD fun i j => a i * b j) ρ₁ ρ₂ P ∧
      ∀ ε > 0, ∃ thr₀ > 0, ∀ thr, 0 < thr → thr ≤ thr₀ → ∃ N, ∀ n ≥ N,
        (tiUnb a b M reg ρ₁ ρ₂ entropy c warm n thr).exit = .converged ∧
        ∀ i j, |tiUnbPlan a b M reg ρ₁ ρ₂ entropy c warm n thr i j
          - mass P ^ (kRho reg ρ₁ ρ₂ * (1 + regRatio reg ρ₂ * xiRho reg ρ₂ ρ₁) - xiRho reg ρ₂ ρ₁) * P i j| < ε := by
  obtain ⟨G, hGd⟩ : ∃ G, G = reference a b entropy c := ⟨_, rfl⟩
  have hG : ∀ i j, 0 < G i j := by rw [hGd]; exact reference_pos ha hb entropy hc
  obtain ⟨K, hKd⟩ : ∃ K, K = unbKernel M reg G := ⟨_, rfl⟩
  have hK : ∀ i j, 0 < K i j := by rw [hKd]; exact unbKernel_pos M reg hG
  obtain ⟨hu0, hv0⟩ := unbInit_pos (I := I) (J := J) warm
  obtain ⟨t, t1, t2, t3, -⟩ := unb_tendsto ha hb hK (fi_nonneg hreg h1) (fi_nonneg hreg h2) (fi_mul_lt_one hreg h1 h2 hfin)
  have hopt := C49_fixed_point_optimal a b M reg G ρ₁ ρ₂ hreg h1 h2 ha hb hG t t2 (by rw [← hKd]; exact t3)
  rw [← hKd] at hopt
  obtain ⟨s0, hs0⟩ : ∃ s0 : Ti I J, s0 = ⟨unbInit warm, unbInit warm⟩ := ⟨_, rfl⟩
  have hv1 : ∀ j, 0 < s0.raw.v j := by rw [hs0]; exact hv0
  have hp := tiIter_pos (C := tiCoef reg ρ₁ ρ₂) ha hb hK hv1
  have hbad := fun n => not_tiBad (C := tiCoef reg ρ₁ ρ₂) ha hb hK (hp n)
  obtain ⟨l1, l2⟩ := ti_tendsto (C := tiCoef reg ρ₁ ρ₂) ha hb hK (fi_nonneg hreg h1) (fi_nonneg hreg h2) (fi_mul_lt_one hreg h1 h2 hfin) e3 e4 t1 t2 t3 hv1
  have hfx := tiOut_fixed (C := tiCoef reg ρ₁ ρ₂) ha hb hK e1 e2 t1 t2 t3
  have hrun : ∀ n thr, tiUnb a b M reg ρ₁ ρ₂ entropy c warm n thr = loop (tiStep (tiCoef reg ρ₁ ρ₂) a b K) (tiBad (tiCoef reg ρ₁ ρ₂) a b K) (fun _ s t => unbErr s.out t.out < thr) n 0 s0 := fun n thr => by
    unfold tiUnb
    rw [hKd, hGd, hs0]
  constructor
  · intro n thr h
    rw [hrun] at h
    obtain ⟨k, -, -, -, -, -, -, x3⟩ := loop_spec (step := tiStep (tiCoef reg ρ₁ ρ₂) a b K) (bad := tiBad (tiCoef reg ρ₁ ρ₂) a b K) (stop := fun _ s t => unbErr s.out t.out < thr) n 0 s0
    exact hbad k (x3 h).2
  change ∃ P : I → J → ℝ, IsUnbOptimal a b M reg (reference a b entropy c) ρ₁ ρ₂ P ∧ _
  rw [← hGd]
  refine ⟨plan K t, hopt, fun ε hε => ?_⟩
  have hconv : ∀ i j, Tendsto (fun n => plan K ((tiStep (tiCoef reg ρ₁ ρ₂) a b K)^[n] s0).out i j) atTop
      (𝓝 (mass (plan K t) ^ (kRho reg ρ₁ ρ₂ * (1 + regRatio reg ρ₂ * xiRho reg ρ₂ ρ₁) - xiRho reg ρ₂ ρ₁) * plan K t i j)) := fun i j => by
    have h := ((l1 i).mul (tendsto_const_nhds (x := K i j))).mul (l2 j)
    have e : (tiOut (tiCoef reg ρ₁ ρ₂) a b K t.u).u i * K i j * (tiOut (tiCoef reg ρ₁ ρ₂) a b K t.u).v j
        = mass (plan K t) ^ (kRho reg ρ₁ ρ₂ * (1 + regRatio reg ρ₂ * xiRho reg ρ₂ ρ₁) - xiRho reg ρ₂ ρ₁) * plan K t i j := by
      rw [mul_right_comm, hfx i j]
      unfold plan
      dsimp only [tiCoef]
      ring
    rw [e] at h
    exact h
  have key := loop_accuracy (step := tiStep (tiCoef reg ρ₁ ρ₂) a b K) (bad := tiBad (tiCoef reg ρ₁ ρ₂) a b K) (s := s0) (err := fun s t => unbErr s.out t.out)
    (Good := fun s => ∀ i j, |plan K s.out i j - mass (plan K t) ^ (kRho reg ρ₁ ρ₂ * (1 + regRatio reg ρ₂ * xiRho reg ρ₂ ρ₁) - xiRho reg ρ₂ ρ₁) * plan K t i j| < ε) hbad ?_
    (fun s t => mul_nonneg (by norm_num) (add_nonneg (relErr_nonneg _ _) (relErr_nonneg _ _))) ?_ ?_
  · obtain ⟨thr₀, k1, k2⟩ := key
    refine ⟨thr₀, k1, fun thr hthr hle => ?_⟩
    obtain ⟨N, hN⟩ := k2 thr hthr hle
    refine ⟨N, fun n hn => ?_⟩
    unfold tiUnbPlan
    rw [hrun, ← hGd, ← hKd]
    exact hN n hn
  · rw [Filter.eventually_all]
    intro i
    rw [Filter.eventually_all]
    intro j
    exact (Metric.tendsto_nhds.1 (hconv i j)) ε hε
  · intro n h0 i j
    unfold unbErr at h0
    have r1 := relErr_nonneg ((tiStep (tiCoef reg ρ₁ ρ₂) a b K)^[n] s0).out.u ((tiStep (tiCoef reg ρ₁ ρ₂) a b K)^[n + 1] s0).out.u
    have r2 := relErr_nonneg ((tiStep (tiCoef reg ρ₁ ρ₂) a b K)^[n] s0).out.v ((tiStep (tiCoef reg ρ₁ ρ₂) a b K)^[n + 1] s0).out.v
    have hv := eq_of_relErr (show relErr ((tiStep (tiCoef reg ρ₁ ρ₂) a b K)^[n] s0).out.v ((tiStep (tiCoef reg ρ₁ ρ₂) a b K)^[n + 1] s0).out.v ≤ 0 by linarith)
    have hprop : ∀ n, ∃ x > 0, ∀ j, ((tiStep (tiCoef reg ρ₁ ρ₂) a b K)^[n] s0).raw.v j = x * ((tiStep (tiCoef reg ρ₁ ρ₂) a b K)^[n] s0).out.v j := fun n => by
      cases n with
      | zero => exact ⟨1, one_pos, fun j => by rw [one_mul, hs0]; rfl⟩
      | succ n =>
        rw [Function.iterate_succ_apply']
        have pu := tiU_pos (C := tiCoef reg ρ₁ ρ₂) ha hb hK (hp n)
        have := tiT_pos (C := tiCoef reg ρ₁ ρ₂) ha hb pu (tiV_pos (C := tiCoef reg ρ₁ ρ₂) ha hb hK pu)
        refine ⟨_, this, fun j => ?_⟩
        exact (mul_div_cancel₀ _ this.ne').symm
    obtain ⟨x, hx, gx⟩ := hprop n
    obtain ⟨y, hy, gy⟩ := hprop (n + 1)
    have hsc : ∀ j, (tiStep (tiCoef reg ρ₁ ρ₂) a b K ((tiStep (tiCoef reg ρ₁ ρ₂) a b K)^[n] s0)).raw.v j
        = Real.exp (Real.log (y / x)) * ((tiStep (tiCoef reg ρ₁ ρ₂) a b K)^[n] s0).raw.v j := fun j => by
      rw [← Function.iterate_succ_apply' (tiStep (tiCoef reg ρ₁ ρ₂) a b K) n s0, gx, gy, hv, Real.exp_log (div_pos hy hx)]
      field_simp
    have hall := ti_const (C := tiCoef reg ρ₁ ρ₂) ha hb hK e3 e4 (hp n) hsc
    have hcst : Tendsto (fun k => plan K ((tiStep (tiCoef reg ρ₁ ρ₂) a b K)^[k + (n + 1)] s0).out i j) atTop
        (𝓝 (plan K ((tiStep (tiCoef reg ρ₁ ρ₂) a b K)^[n + 1] s0).out i j)) := by
      refine tendsto_const_nhds.congr fun k => ?_
      rw [show k + (n + 1) = (k + 1) + n by ring, Function.iterate_add_apply _ (k + 1) n, hall k, Function.iterate_succ_apply']
    have := tendsto_nhds_unique hcst ((tendsto_add_atTop_iff_nat (n + 1)).2 (hconv i j))
    rw [this]
    simpa using hε
  · have r1 := relErr_tendsto l1
    have r2 := relErr_tendsto l2
    have := (r1.add r2).const_mul (1 / 2 : ℝ)
    simpa [unbErr] using this

/-- **C64, equal parameters, or the second one infinite.** For positive weights, `reg_m1 = reg_m2 = r > 0`, or `reg_m1 = r > 0` and `reg_m2 = inf`: for every accuracy a small enough threshold and enough
iterations make `sinkhorn_unbalanced_translation_invariant` end by its test with a plan within that accuracy of the unique solution. -/
theorem C64_call (a : I → ℝ) (b : J → ℝ) (M : I → J → ℝ) (reg r : ℝ) (ρ₂ : Option ℝ) (entropy : Bool) (c : Option (I → J → ℝ)) (warm : Option ((I → ℝ) × (J → ℝ)))
    (hreg : 0 < reg) (hr : 0 < r) (hρ : ρ₂ = some r ∨ ρ₂ = none) (ha : ∀ i, 0 < a i) (hb : ∀ j, 0 < b j) (hc : ∀ C, c = some C → ∀ i j, 0 < C i j) :
    (∀ n thr, (tiUnb a b M reg (some r) ρ₂ entropy c warm n thr).exit ≠ .numerical) ∧
    ∃ P : I → J → ℝ, IsUnbOptimal a b M reg (if entropy then fun _ _ => 1 else c.getD fun i j => a i * b j) (some r) ρ₂ P ∧
      ∀ ε > 0, ∃ thr₀ > 0, ∀ thr, 0 < thr → thr ≤ thr₀ → ∃ N, ∀ n ≥ N,
        (tiUnb a b M reg (some r) ρ₂ entropy c warm n thr).exit = .converged ∧
        ∀ i j, |tiUnbPlan a b M reg (some r) ρ₂ entropy c warm n thr i j - P i j| < ε := by
  have hr1 : ∀ x, some r = some x → 0 ≤ x := fun x h => by cases h; exact hr.le
  have hr2 : ∀ x, ρ₂ = some x → 0 ≤ x := fun x h => by
    rcases hρ with rfl | rfl
    · cases h; exact hr.le
    · cases h
  have key := ti_call (M := M) (ρ₂ := ρ₂) entropy warm hreg hr1 hr2 (Or.inl (by simp)) ha hb hc (by simp only [fi, regRatio]; field_simp)
    (by rcases hρ with rfl | rfl <;> simp only [fi, regRatio] <;> field_simp <;> ring)
    (by rcases hρ with rfl | rfl <;> simp only [fi, regRatio, kRho, xiRho] <;> field_simp <;> ring)
    (by rcases hρ with rfl | rfl <;> simp only [regRatio, fi12] <;> field_simp <;> norm_num)
  have hz : kRho reg (some r) ρ₂ * (1 + regRatio reg ρ₂ * xiRho reg ρ₂ (some r)) - xiRho reg ρ₂ (some r) = 0 := by
    rcases hρ with rfl | rfl <;> simp only [regRatio, kRho, xiRho] <;> field_simp <;> ring
  simp only [hz, Real.rpow_zero, one_mul] at key
  exact key

/-- **C64, first parameter infinite.** If the row sums are prescribed (`reg_m1 = inf`) and `reg_m2 = r > 0` is finite, the returned plans converge to the solution **divided by the mass of `a`**
(a factor `sum(a) ** fi_2` is missing in `v_hat`). -/
theorem C64_row_infinite (a : I → ℝ) (b : J → ℝ) (M : I → J → ℝ) (reg r : ℝ) (entropy : Bool) (c : Option (I → J → ℝ)) (warm : Option ((I → ℝ) × (J → ℝ)))
    (hreg : 0 < reg) (hr : 0 < r) (ha : ∀ i, 0 < a i) (hb : ∀ j, 0 < b j) (hc : ∀ C, c = some C → ∀ i j, 0 < C i j) :
    ∃ P : I → J → ℝ, IsUnbOptimal a b M reg (if entropy then fun _ _ => 1 else c.getD fun i j => a i * b j) none (some r) P ∧
      ∀ ε > 0, ∃ thr₀ > 0, ∀ thr, 0 < thr → thr ≤ thr₀ → ∃ N, ∀ n ≥ N,
        (tiUnb a b M reg none (some r) entropy c warm n thr).exit = .converged ∧
        ∀ i j, |tiUnbPlan a b M reg none (some r) entropy c warm n thr i j - P i j / ∑ i, a i| < ε := by
  have hr2 : ∀ x, some r = some x → 0 ≤ x := fun x h => by cases h; exact hr.le
  obtain ⟨-, P, hP, h⟩ := ti_call (M := M) (ρ₁ := none) (ρ₂ := some r) entropy warm hreg (by simp) hr2 (Or.inr (by simp)) ha hb hc (by simp [fi, regRatio])
    (by simp only [fi, regRatio]; field_simp) (by simp only [fi, regRatio, kRho, xiRho]; field_simp; ring) (by simp only [regRatio, fi12]; field_simp; simp)
  have hz : kRho reg none (some r) * (1 + regRatio reg (some r) * xiRho reg (some r) none) - xiRho reg (some r) none = -1 := by
    simp only [regRatio, kRho, xiRho]
    field_simp
    ring
  have hm : mass P = ∑ i, a i := sum_congr rfl fun i _ => hP.1.row rfl i
  refine ⟨P, hP, ?_⟩
  simp only [hz, Real.rpow_neg_one, hm] at h
  simp only [div_eq_inv_mul]
  exact h

/-- **C64, both parameters infinite.** With equal masses an iteration is that of `sinkhorn_knopp_unbalanced`, so the plans converge to the entropic transport plan. -/
theorem C64_balanced (a : I → ℝ) (b : J → ℝ) (M : I → J → ℝ) (reg : ℝ) (c : I → J → ℝ) (hreg : 0 < reg) (hbal : ∑ i, a i = ∑ j, b j)
    (ha : ∀ i, 0 < a i) (hb : ∀ j, 0 < b j) (hc : ∀ i j, 0 < c i j) (s : UV I J) (hu : ∀ i, 0 < s.u i) (hv : ∀ j, 0 < s.v j) :
    ∃ P : I → J → ℝ, IsUnbOptimal a b M reg c none none P ∧
      ∀ i j, Tendsto (fun n => plan (unbKernel M reg c) ((tiStep (tiCoef reg none none) a b (unbKernel M reg c))^[n] ⟨s, s⟩).out i j) atTop (𝓝 (P i j)) := by
  have hS : 0 < ∑ j, b j := sum_pos (fun j _ => hb j) univ_nonempty
  have step : ∀ s : UV I J, tiStep (tiCoef reg none none) a b (unbKernel M reg c) ⟨s, s⟩ = ⟨unbStep a b (unbKernel M reg c) 1 1 s, unbStep a b (unbKernel M reg c) 1 1 s⟩ := fun s => by
    unfold tiStep tiT tiV tiU unbStep tiCoef fi kRho xiRho regRatio
    simp [hbal, div_self hS.ne']
  have it : ∀ n, (tiStep (tiCoef reg none none) a b (unbKernel M reg c))^[n] ⟨s, s⟩ = ⟨(unbStep a b (unbKernel M reg c) 1 1)^[n] s, (unbStep a b (unbKernel M reg c) 1 1)^[n] s⟩ := fun n => by
    induction n with
    | zero => rfl
    | succ n ih => rw [Function.iterate_succ_apply', Function.iterate_succ_apply', ih, step]
  simp only [it]
  exact C49_converges a b M reg c none none hreg (by simp) (by simp) (fun _ _ => hbal) ha hb hc s hu hv

/-- **C64, defect.** For `reg_m1 ≠ reg_m2` the exponents `k_rho1`, `k_rho2` are exchanged and the limit is not the solution. One point on either side, cost 0, reference one, `a = e`, `b = 1`, `reg = 1`,
`reg_m = (1, 2)`: the solution has mass `e^(1/4)`, and no number of iterations and no threshold gives a mass above `e^(8/39)`. -/
theorem C64_unequal_refuted :
    IsUnbOptimal (fun _ : Fin 1 => Real.exp 1) (fun _ : Fin 1 => 1) (fun _ _ => 0) 1 (fun _ _ => 1) (some 1) (some 2) (fun _ _ => Real.exp (1 / 4)) ∧
    ∀ n thr, tiUnbPlan (fun _ : Fin 1 => Real.exp 1) (fun _ : Fin 1 => 1) (fun _ _ => 0) 1 (some 1) (some 2) true none none n thr 0 0 ≤ Real.exp (8 / 39) := by
  have k : unbKernel (fun _ _ => 0) 1 (fun _ _ => 1) = (fun _ _ => 1 : Fin 1 → Fin 1 → ℝ) := by
    unfold unbKernel
    simp
  have hr : reference (fun _ : Fin 1 => Real.exp 1) (fun _ : Fin 1 => 1) true none = fun _ _ => 1 := rfl
  constructor
  · have := C49_fixed_point_optimal (fun _ : Fin 1 => Real.exp 1) (fun _ : Fin 1 => 1) (fun _ _ => 0) 1 (fun _ _ => 1) (some 1) (some 2) one_pos (fun r h => by cases h; norm_num)
      (fun r h => by cases h; norm_num) (fun _ => Real.exp_pos _) (fun _ => by norm_num) (fun _ _ => one_pos)
      ⟨fun _ => Real.exp (3 / 4), fun _ => Real.exp (-(1 / 2))⟩ (fun _ => Real.exp_pos _) (by
        rw [k]
        unfold unbStep kv Unbalanced.ktu fi
        simp only [univ_unique, sum_singleton, one_mul]
        have e1 : (Real.exp 1 / Real.exp (-(1 / 2))) ^ (1 / (1 + 1) : ℝ) = Real.exp (3 / 4) := by
          rw [← Real.exp_sub, ← Real.exp_mul]
          norm_num
        have e2 : (1 / Real.exp (3 / 4)) ^ (2 / (2 + 1) : ℝ) = Real.exp (-(1 / 2)) := by
          rw [one_div, ← Real.exp_neg, ← Real.exp_mul]
          norm_num
        rw [e1, e2])
    rw [k] at this
    convert this using 1
    funext i j
    unfold plan
    dsimp only
    rw [mul_one, ← Real.exp_add]
    norm_num
  · intro n thr
    have coef : tiCoef 1 (some 1) (some 2) = ⟨1 / 2, 2 / 3, 1 / 6, 4 / 9, 1 / 2, 1 / 4, 1, 1 / 2, 2 / 3⟩ := by
      unfold tiCoef fi kRho xiRho regRatio fi12
      norm_num
    have step : ∀ (x y : ℝ) (s : Ti (Fin 1) (Fin 1)), s.raw.v = (fun _ => Real.exp y) →
        (tiStep (tiCoef 1 (some 1) (some 2)) (fun _ : Fin 1 => Real.exp 1) (fun _ : Fin 1 => 1) (fun _ _ => 1) s).raw
          = ⟨fun _ => Real.exp (1 / 4 - 5 / 12 * y), fun _ => Real.exp (3 / 16 - 15 / 16 * (1 / 4 - 5 / 12 * y))⟩ := by
      intro x y s hs
      have eU : tiU (tiCoef 1 (some 1) (some 2)) (fun _ : Fin 1 => Real.exp 1) (fun _ : Fin 1 => 1) (fun _ _ => 1) s.raw.v = fun _ => Real.exp (1 / 4 - 5 / 12 * y) := by
        unfold tiU kv
        rw [hs, coef]
        simp only [univ_unique, sum_singleton, one_mul]
        funext i
        simp only [← Real.exp_mul, ← Real.exp_sub, ← Real.exp_add]
        congr 1
        ring
      have eV : tiV (tiCoef 1 (some 1) (some 2)) (fun _ : Fin 1 => Real.exp 1) (fun _ : Fin 1 => 1) (fun _ _ => 1) (fun _ => Real.exp (1 / 4 - 5 / 12 * y))
          = fun _ => Real.exp (3 / 16 - 15 / 16 * (1 / 4 - 5 / 12 * y)) := by
        unfold tiV Unbalanced.ktu
        rw [coef]
        simp only [univ_unique, sum_singleton, one_mul, one_div]
        funext i
        simp only [← Real.exp_neg, ← Real.exp_mul, ← Real.exp_add]
        congr 1
        ring
      unfold tiStep
      dsimp only
      rw [eU, eV]
    have out : ∀ s : Ti (Fin 1) (Fin 1), (∀ j, 0 < s.raw.v j) → plan (fun _ _ => 1) (tiStep (tiCoef 1 (some 1) (some 2)) (fun _ : Fin 1 => Real.exp 1) (fun _ : Fin 1 => 1) (fun _ _ => 1) s).out 0 0
        = plan (fun _ _ => 1) (tiStep (tiCoef 1 (some 1) (some 2)) (fun _ : Fin 1 => Real.exp 1) (fun _ : Fin 1 => 1) (fun _ _ => 1) s).raw 0 0 := fun s hs => by
      have pa : ∀ i : Fin 1, 0 < (fun _ : Fin 1 => Real.exp 1) i := fun _ => Real.exp_pos _
      have pb : ∀ i : Fin 1, (0 : ℝ) < (fun _ : Fin 1 => 1) i := fun _ => one_pos
      have pu := tiU_pos (C := tiCoef 1 (some 1) (some 2)) (K := fun _ _ => 1) pa pb (fun _ _ => one_pos) hs
      have := tiT_pos (C := tiCoef 1 (some 1) (some 2)) pa pb pu (tiV_pos (C := tiCoef 1 (some 1) (some 2)) (K := fun _ _ => 1) pa pb (fun _ _ => one_pos) pu)
      unfold plan tiStep
      dsimp only
      field_simp
    have inv : ∀ n, ∃ y, 0 ≤ 5 / 12 * y + 11 / 39 - 1 / 4 ∧ ((tiStep (tiCoef 1 (some 1) (some 2)) (fun _ : Fin 1 => Real.exp 1) (fun _ : Fin 1 => 1) (fun _ _ => 1))^[n] ⟨unbInit none, unbInit none⟩).raw.v = fun _ => Real.exp y := by
      intro n
      induction n with
      | zero => exact ⟨0, by norm_num, by funext j; simp [unbInit]⟩
      | succ n ih =>
        obtain ⟨y, h1, h2⟩ := ih
        refine ⟨3 / 16 - 15 / 16 * (1 / 4 - 5 / 12 * y), ?_, ?_⟩
        · linarith
        · rw [Function.iterate_succ_apply', step 0 y _ h2]
    unfold tiUnbPlan tiUnb
    rw [hr, k]
    dsimp only
    obtain ⟨l, -, e, -⟩ := loop_spec (step := tiStep (tiCoef 1 (some 1) (some 2)) (fun _ : Fin 1 => Real.exp 1) (fun _ : Fin 1 => 1) (fun _ _ => 1))
      (bad := tiBad (tiCoef 1 (some 1) (some 2)) (fun _ : Fin 1 => Real.exp 1) (fun _ : Fin 1 => 1) (fun _ _ => 1)) (stop := fun _ s t => unbErr s.out t.out < thr) n 0 ⟨unbInit none, unbInit none⟩
    rw [e]
    cases l with
    | zero =>
      unfold plan unbInit
      simp
      norm_num
    | succ l =>
      obtain ⟨y, h1, h2⟩ := inv l
      rw [Function.iterate_succ_apply', out _ (by rw [h2]; exact fun _ => Real.exp_pos _), step 0 y _ h2]
      unfold plan
      dsimp only
      rw [mul_one, ← Real.exp_add]
      exact Real.exp_le_exp.2 (by linarith)

/-- The hypotheses of `C64_call` on a concrete problem. -/
example : ∃ P : Fin 2 → Fin 3 → ℝ, IsUnbOptimal (fun _ => 1) (fun _ => 2) (fun (i : Fin 2) (j : Fin 3) => ((i : ℕ) : ℝ) + (j : ℕ)) (1 / 2) (fun _ _ => 1) (some 3) none P := by
  obtain ⟨-, P, h, -⟩ := C64_call (I := Fin 2) (J := Fin 3) (fun _ => 1) (fun _ => 2) (fun (i : Fin 2) (j : Fin 3) => ((i : ℕ) : ℝ) + (j : ℕ)) (1 / 2) 3 none true none none (by norm_num) (by norm_num) (Or.inr rfl)
    (fun _ => one_pos) (fun _ => two_pos) (by simp)
  exact ⟨P, h⟩

end POT.Props
