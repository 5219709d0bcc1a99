import Verif.Spec.Unbalanced
import Verif.Model.Unbalanced
import Verif.Lemmas.Unbalanced
import Verif.Lemmas.SinkhornConv
import Mathlib.Analysis.Complex.ExponentialBounds

/-!
# C49: unbalanced Sinkhorn

Unless stated otherwise the weights `a`, `b` and the reference measure `c` are positive, `reg > 0`, and each of the marginal parameters is non-negative or infinite (`none`).
-/

set_option linter.unusedSectionVars false

namespace POT.Props

open Finset Spec Sinkhorn Unbalanced Filter Topology

variable {I J : Type*} [Fintype I] [Fintype J] [Nonempty I] [Nonempty J]

/-- **C49, fixed points.** Scalings that are reproduced by one iteration define the unique minimiser of the unbalanced objective (infinite parameters being constraints) over all
non-negative plans. -/
theorem C49_fixed_point_optimal (a : I → ℝ) (b : J → ℝ) (M : I → J → ℝ) (reg : ℝ) (c : I → J → ℝ) (ρ₁ ρ₂ : Option ℝ) (hreg : 0 < reg)
    (h1 : ∀ r, ρ₁ = some r → 0 ≤ r) (h2 : ∀ r, ρ₂ = some r → 0 ≤ r) (ha : ∀ i, 0 < a i) (hb : ∀ j, 0 < b j) (hc : ∀ i j, 0 < c i j)
    (s : UV I J) (hv : ∀ j, 0 < s.v j) (hs : unbStep a b (unbKernel M reg c) (fi reg ρ₁) (fi reg ρ₂) s = s) :
    IsUnbOptimal a b M reg c ρ₁ ρ₂ (plan (unbKernel M reg c) s) := by
  have hp := unbStep_pos ha hb (unbKernel_pos M reg hc) (fi reg ρ₁) (fi reg ρ₂) hv
  rw [hs] at hp
  refine fixed_optimal hreg h1 h2 ha hb hc hp.1 hp.2 (fun i => ?_) (fun j => ?_)
  · conv_lhs => rw [← hs]
    rfl
  · have e : (unbStep a b (unbKernel M reg c) (fi reg ρ₁) (fi reg ρ₂) s).u = s.u := by rw [hs]
    conv_lhs => rw [← hs]
    rw [← e]
    rfl

/-- **C49, geometric convergence.** If at least one marginal parameter is finite, the problem has a unique solution `P`, and from every starting point the logarithms of the entries of the
`n`-th plan differ from those of `P` by at most `2 (fi₁ fi₂)ⁿ D`, where `fi = reg_m / (reg_m + reg)` and `D` is the initial error of `log v`. -/
theorem C49_geometric (a : I → ℝ) (b : J → ℝ) (M : I → J → ℝ) (reg : ℝ) (c : I → J → ℝ) (ρ₁ ρ₂ : Option ℝ) (hreg : 0 < reg)
    (h1 : ∀ r, ρ₁ = some r → 0 ≤ r) (h2 : ∀ r, ρ₂ = some r → 0 ≤ r) (hfin : ρ₁ ≠ none ∨ ρ₂ ≠ none)
    (ha : ∀ i, 0 < a i) (hb : ∀ j, 0 < b j) (hc : ∀ i j, 0 < c i j) :
    fi reg ρ₁ * fi reg ρ₂ < 1 ∧
    ∃ P : I → J → ℝ, IsUnbOptimal a b M reg c ρ₁ ρ₂ P ∧ (∀ i j, 0 < P i j) ∧
      ∀ s : UV I J, (∀ j, 0 < s.v j) → ∃ D, ∀ n i j,
        |Real.log (plan (unbKernel M reg c) ((unbStep a b (unbKernel M reg c) (fi reg ρ₁) (fi reg ρ₂))^[n + 1] s) i j) - Real.log (P i j)|
          ≤ 2 * (fi reg ρ₁ * fi reg ρ₂) ^ n * D := by
  have f1 := fi_nonneg hreg h1
  have f2 := fi_nonneg hreg h2
  have f12 := fi_mul_lt_one hreg h1 h2 hfin
  have hK := unbKernel_pos M reg hc
  refine ⟨f12, ?_⟩
  obtain ⟨t, t1, t2, t3, t4⟩ := unb_converges ha hb hK f1 f2 f12
  have hpos : ∀ {s : UV I J}, (∀ i, 0 < s.u i) → (∀ j, 0 < s.v j) → ∀ i j, 0 < plan (unbKernel M reg c) s i j := fun hu hv i j => mul_pos (mul_pos (hu i) (hK i j)) (hv j)
  refine ⟨plan (unbKernel M reg c) t, C49_fixed_point_optimal a b M reg c ρ₁ ρ₂ hreg h1 h2 ha hb hc t t2 t3, hpos t1 t2, fun s hs => ?_⟩
  obtain ⟨D, hD⟩ : ∃ D, ∀ j, |Real.log (s.v j) - Real.log (t.v j)| ≤ D :=
    ⟨∑ j, |Real.log (s.v j) - Real.log (t.v j)|, fun j => single_le_sum (f := fun j => |Real.log (s.v j) - Real.log (t.v j)|) (fun _ _ => abs_nonneg _) (mem_univ j)⟩
  refine ⟨D, fun n i j => ?_⟩
  have hD0 : 0 ≤ D := (abs_nonneg _).trans (hD j)
  have hp : ∀ n, (∀ i, 0 < ((unbStep a b (unbKernel M reg c) (fi reg ρ₁) (fi reg ρ₂))^[n + 1] s).u i) ∧
      ∀ j, 0 < ((unbStep a b (unbKernel M reg c) (fi reg ρ₁) (fi reg ρ₂))^[n + 1] s).v j := fun n => by
    induction n with
    | zero => exact unbStep_pos ha hb hK _ _ hs
    | succ n ih => rw [Function.iterate_succ_apply']; exact unbStep_pos ha hb hK _ _ ih.2
  have e1 := (t4 s hs D hD n).1 i
  have e2 := (t4 s hs D hD (n + 1)).2 j
  have lg : ∀ s : UV I J, (∀ i, 0 < s.u i) → (∀ j, 0 < s.v j) →
      Real.log (plan (unbKernel M reg c) s i j) = Real.log (s.u i) + Real.log (unbKernel M reg c i j) + Real.log (s.v j) := fun s hu hv => by
    unfold plan
    rw [Real.log_mul (mul_pos (hu i) (hK i j)).ne' (hv j).ne', Real.log_mul (hu i).ne' (hK i j).ne']
  rw [lg _ (hp n).1 (hp n).2, lg _ t1 t2]
  have hk0 : 0 ≤ (fi reg ρ₁ * fi reg ρ₂) ^ n * D := mul_nonneg (pow_nonneg (mul_nonneg f1 f2) _) hD0
  have e3 : fi reg ρ₁ * (fi reg ρ₁ * fi reg ρ₂) ^ n * D ≤ (fi reg ρ₁ * fi reg ρ₂) ^ n * D := by
    rw [mul_assoc]
    exact mul_le_of_le_one_left hk0 (fi_le_one hreg h1)
  have e4 : (fi reg ρ₁ * fi reg ρ₂) ^ (n + 1) * D ≤ (fi reg ρ₁ * fi reg ρ₂) ^ n * D := by
    rw [pow_succ', mul_assoc]
    exact mul_le_of_le_one_left hk0 f12.le
  rw [abs_le] at e1 e2 ⊢
  constructor <;> linarith

theorem swap_step {a : I → ℝ} {b : J → ℝ} {K : I → J → ℝ} (ha : ∀ i, 0 < a i) (hb : ∀ j, 0 < b j) (s : UV I J) :
    unbStep a b K 1 1 s = ⟨(knoppStep b a (fun j i => K i j) ⟨s.v, s.u⟩).v, (knoppStep b a (fun j i => K i j) ⟨s.v, s.u⟩).u⟩ := by
  unfold unbStep knoppStep Sinkhorn.ktu kpv kv Unbalanced.ktu
  simp only [Real.rpow_one]
  congr 1
  funext j
  rw [if_neg (hb j).ne']
  simp only [mul_assoc, ← mul_sum]
  rw [one_div, mul_inv, one_div, inv_inv, div_eq_mul_inv]

/-- **C49, convergence.** For all non-negative or infinite marginal parameters (both infinite: equal masses) the plans of the iteration converge, from every positive starting point, to the
unique solution of the unbalanced problem. -/
theorem C49_converges (a : I → ℝ) (b : J → ℝ) (M : I → J → ℝ) (reg : ℝ) (c : I → J → ℝ) (ρ₁ ρ₂ : Option ℝ) (hreg : 0 < reg)
    (h1 : ∀ r, ρ₁ = some r → 0 ≤ r) (h2 : ∀ r, ρ₂ = some r → 0 ≤ r) (hbal : ρ₁ = none → ρ₂ = none → ∑ i, a i = ∑ j, b j)
    (ha : ∀ i, 0 < a i) (hb : ∀ j, 0 < b j) (hc : ∀ i j, 0 < c i j) (s : UV I J) (hu : ∀ i, 0 < s.u i) (hv : ∀ j, 0 < s.v j) :
    ∃ P : I → J → ℝ, IsUnbOptimal a b M reg c ρ₁ ρ₂ P ∧
      ∀ i j, Tendsto (fun n => plan (unbKernel M reg c) ((unbStep a b (unbKernel M reg c) (fi reg ρ₁) (fi reg ρ₂))^[n] s) i j) atTop (𝓝 (P i j)) := by
  have hK := unbKernel_pos M reg hc
  by_cases hfin : ρ₁ ≠ none ∨ ρ₂ ≠ none
  · obtain ⟨t, t1, t2, t3, t4⟩ := unb_tendsto ha hb hK (fi_nonneg hreg h1) (fi_nonneg hreg h2) (fi_mul_lt_one hreg h1 h2 hfin)
    refine ⟨_, C49_fixed_point_optimal a b M reg c ρ₁ ρ₂ hreg h1 h2 ha hb hc t t2 t3, fun i j => ?_⟩
    obtain ⟨l1, l2⟩ := t4 s hu hv
    exact ((l1 i).mul tendsto_const_nhds).mul (l2 j)
  · push Not at hfin
    obtain ⟨rfl, rfl⟩ := hfin
    have hS := hbal rfl rfl
    obtain ⟨P, p1, p2, ⟨x, y, p3⟩, p4⟩ := exists_limit (a := b) (b := a) (K := fun j i => unbKernel M reg c i j) (fun j i => hK i j) hb ha hS.symm
      (s := ⟨s.v, s.u⟩) ⟨hv, hu⟩
    have hit : ∀ n, (unbStep a b (unbKernel M reg c) 1 1)^[n] s = ⟨((knoppStep b a fun j i => unbKernel M reg c i j)^[n] ⟨s.v, s.u⟩).v,
        ((knoppStep b a fun j i => unbKernel M reg c i j)^[n] ⟨s.v, s.u⟩).u⟩ := fun n => by
      induction n with
      | zero => rfl
      | succ n ih => rw [Function.iterate_succ_apply', Function.iterate_succ_apply', ih, swap_step ha hb]
    refine ⟨fun i j => P j i, ?_, fun i j => ?_⟩
    · refine unb_optimal (x := y) (y := x) hreg h1 h2 ha hb hc (fun i j => p2 j i) (fun i j => ?_) p1.col p1.row
      rw [Real.log_div (p2 j i).ne' (hc i j).ne', p3]
      unfold unbKernel
      rw [Real.log_mul (Real.exp_pos _).ne' (hc i j).ne', Real.log_exp]
      ring
    · refine (p4 j i).congr fun n => ?_
      simp only [fi]
      rw [hit n]
      unfold plan
      ring

theorem not_unbBad {a : I → ℝ} {K : I → J → ℝ} (ha : ∀ i, 0 < a i) (hK : ∀ i j, 0 < K i j) (f : ℝ) {s : UV I J} (hv : ∀ j, 0 < s.v j) : ¬ unbBad a K f s := by
  rintro (⟨i, h⟩ | ⟨j, h⟩)
  · exact absurd h (kv_pos hK hv i).ne'
  · exact absurd h (ktu_pos hK (fun i => Real.rpow_pos_of_pos (div_pos (ha i) (kv_pos hK hv i)) _) j).ne'

theorem unbInit_pos (warm : Option ((I → ℝ) × (J → ℝ))) : (∀ i, 0 < (unbInit warm : UV I J).u i) ∧ ∀ j, 0 < (unbInit warm : UV I J).v j := by
  cases warm with
  | none => exact ⟨fun _ => one_pos, fun _ => one_pos⟩
  | some w => exact ⟨fun _ => Real.exp_pos _, fun _ => Real.exp_pos _⟩

theorem reference_pos {a : I → ℝ} {b : J → ℝ} (ha : ∀ i, 0 < a i) (hb : ∀ j, 0 < b j) (entropy : Bool) {c : Option (I → J → ℝ)}
    (hc : ∀ C, c = some C → ∀ i j, 0 < C i j) : ∀ i j, 0 < reference a b entropy c i j := by
  intro i j
  unfold reference
  cases entropy
  · cases c with
    | none => exact mul_pos (ha i) (hb j)
    | some C => exact hc C rfl i j
  · exact one_pos

/-- **C49, the call.** For positive weights (and positive `c` if given), every `reg_type`, warm start and marginal parameters of which at least one is finite: for every accuracy there is a threshold below which
`sinkhorn_knopp_unbalanced`, given enough iterations, ends by its stopping test and returns a plan that is within this accuracy of the unique solution of the problem with the
reference measure `c` (by default `a bᵀ`; all ones for `reg_type="entropy"`). No iteration limit leads to the numerical error branch. -/
theorem C49_call (a : I → ℝ) (b : J → ℝ) (M : I → J → ℝ) (reg : ℝ) (ρ₁ ρ₂ : Option ℝ) (entropy : Bool) (c : Option (I → J → ℝ)) (warm : Option ((I → ℝ) × (J → ℝ)))
    (hreg : 0 < reg) (h1 : ∀ r, ρ₁ = some r → 0 ≤ r) (h2 : ∀ r, ρ₂ = some r → 0 ≤ r) (hfin : ρ₁ ≠ none ∨ ρ₂ ≠ none)
    (ha : ∀ i, 0 < a i) (hb : ∀ j, 0 < b j) (hc : ∀ C, c = some C → ∀ i j, 0 < C i j) :
    (∀ n thr, (sinkhornUnb a b M reg ρ₁ ρ₂ entropy c warm n thr).exit ≠ .numerical) ∧
    ∃ P : I → J → ℝ, IsUnbOptimal a b M reg (if entropy then fun _ _ => 1 else c.getD fun i j => a i * b j) ρ₁ ρ₂ P ∧
      ∀ ε > 0, ∃ thr₀ > 0, ∀ thr, 0 < thr → thr ≤ thr₀ → ∃ N, ∀ n ≥ N,
        (sinkhornUnb a b M reg ρ₁ ρ₂ entropy c warm n thr).exit = .converged ∧
        ∀ i j, |sinkhornUnbPlan a b M reg ρ₁ ρ₂ entropy c warm n thr i j - P i j| < ε := by
  have hC := reference_pos ha hb entropy hc
  have hK := unbKernel_pos M reg hC
  obtain ⟨hu0, hv0⟩ := unbInit_pos (I := I) (J := J) warm
  obtain ⟨t, t1, t2, t3, t4⟩ := unb_tendsto ha hb hK (fi_nonneg hreg h1) (fi_nonneg hreg h2) (fi_mul_lt_one hreg h1 h2 hfin)
  obtain ⟨l1, l2⟩ := t4 _ hu0 hv0
  have hp := unbIter_pos ha hb hK (fi reg ρ₁) (fi reg ρ₂) hu0 hv0
  have hopt := C49_fixed_point_optimal a b M reg _ ρ₁ ρ₂ hreg h1 h2 ha hb hC t t2 t3
  have hbad := fun n => not_unbBad ha hK (fi reg ρ₁) (hp n).2
  constructor
  · intro n thr h
    obtain ⟨k, -, -, -, -, -, -, x3⟩ := loop_spec (step := unbStep a b (unbKernel M reg (reference a b entropy c)) (fi reg ρ₁) (fi reg ρ₂))
      (bad := unbBad a (unbKernel M reg (reference a b entropy c)) (fi reg ρ₁)) (stop := fun _ s t => unbErr s t < thr) n 0 (unbInit warm)
    exact hbad k (x3 h).2
  refine ⟨_, hopt, fun ε hε => ?_⟩
  have hconv : ∀ i j, Tendsto (fun n => plan (unbKernel M reg (reference a b entropy c))
      ((unbStep a b (unbKernel M reg (reference a b entropy c)) (fi reg ρ₁) (fi reg ρ₂))^[n] (unbInit warm)) i j) atTop
      (𝓝 (plan (unbKernel M reg (reference a b entropy c)) t i j)) := fun i j => ((l1 i).mul tendsto_const_nhds).mul (l2 j)
  refine loop_accuracy (Good := fun s => ∀ i j, |plan (unbKernel M reg (reference a b entropy c)) s i j - plan (unbKernel M reg (reference a b entropy c)) t i j| < ε) hbad ?_
    (fun s t => mul_nonneg (by norm_num) (add_nonneg (relErr_nonneg _ _) (relErr_nonneg _ _))) ?_ ?_
  · rw [Filter.eventually_all]
    intro i
    rw [Filter.eventually_all]
    intro j
    exact (Metric.tendsto_nhds.1 (hconv i j)) ε hε
  · intro n h0 i j
    have e1 : ((unbStep a b (unbKernel M reg (reference a b entropy c)) (fi reg ρ₁) (fi reg ρ₂))^[n + 1] (unbInit warm)) =
        ((unbStep a b (unbKernel M reg (reference a b entropy c)) (fi reg ρ₁) (fi reg ρ₂))^[n] (unbInit warm)) := by
      unfold unbErr at h0
      have r1 := relErr_nonneg ((unbStep a b (unbKernel M reg (reference a b entropy c)) (fi reg ρ₁) (fi reg ρ₂))^[n] (unbInit warm)).u
        ((unbStep a b (unbKernel M reg (reference a b entropy c)) (fi reg ρ₁) (fi reg ρ₂))^[n + 1] (unbInit warm)).u
      have r2 := relErr_nonneg ((unbStep a b (unbKernel M reg (reference a b entropy c)) (fi reg ρ₁) (fi reg ρ₂))^[n] (unbInit warm)).v
        ((unbStep a b (unbKernel M reg (reference a b entropy c)) (fi reg ρ₁) (fi reg ρ₂))^[n + 1] (unbInit warm)).v
      exact UV.ext (eq_of_relErr (by linarith)) (eq_of_relErr (by linarith))
    have e2 := e1
    rw [Function.iterate_succ_apply'] at e2
    have o2 := C49_fixed_point_optimal a b M reg _ ρ₁ ρ₂ hreg h1 h2 ha hb hC _ (hp n).2 e2
    have e3 := (hopt.2 _ o2.1).2 (o2.2 _ hopt.1).1
    rw [e1, e3]
    simpa using hε
  · have r1 := relErr_tendsto l1
    have r2 := relErr_tendsto l2
    have := (r1.add r2).const_mul (1 / 2 : ℝ)
    simpa [unbErr] using this

/-- **C49, resuming.** Started from the logarithms `logu`, `logv` that an earlier call without stopping test has left after `k` iterations, `n` further iterations (again without stopping
test) return exactly the plan of `k + n` iterations. -/
theorem C49_resume (a : I → ℝ) (b : J → ℝ) (M : I → J → ℝ) (reg : ℝ) (ρ₁ ρ₂ : Option ℝ) (entropy : Bool) (c : Option (I → J → ℝ)) (warm : Option ((I → ℝ) × (J → ℝ)))
    (ha : ∀ i, 0 < a i) (hb : ∀ j, 0 < b j) (hc : ∀ C, c = some C → ∀ i j, 0 < C i j) (k n : ℕ) :
    sinkhornUnbPlan a b M reg ρ₁ ρ₂ entropy c
        (some (fun i => Real.log ((sinkhornUnb a b M reg ρ₁ ρ₂ entropy c warm k 0).s.u i), fun j => Real.log ((sinkhornUnb a b M reg ρ₁ ρ₂ entropy c warm k 0).s.v j))) n 0
      = sinkhornUnbPlan a b M reg ρ₁ ρ₂ entropy c warm (k + n) 0 := by
  have hK := unbKernel_pos M reg (reference_pos ha hb entropy hc)
  have run : ∀ (w : Option ((I → ℝ) × (J → ℝ))) (m : ℕ), (sinkhornUnb a b M reg ρ₁ ρ₂ entropy c w m 0).s
      = (unbStep a b (unbKernel M reg (reference a b entropy c)) (fi reg ρ₁) (fi reg ρ₂))^[m] (unbInit w) := fun w m => by
    obtain ⟨hu0, hv0⟩ := unbInit_pos (I := I) (J := J) w
    have hp := unbIter_pos ha hb hK (fi reg ρ₁) (fi reg ρ₂) hu0 hv0
    obtain ⟨l, h1, h2, -, -, x1, x2, x3⟩ := loop_spec (step := unbStep a b (unbKernel M reg (reference a b entropy c)) (fi reg ρ₁) (fi reg ρ₂))
      (bad := unbBad a (unbKernel M reg (reference a b entropy c)) (fi reg ρ₁)) (stop := fun _ s t => unbErr s t < 0) m 0 (unbInit w)
    cases hx : (loop (unbStep a b (unbKernel M reg (reference a b entropy c)) (fi reg ρ₁) (fi reg ρ₂))
      (unbBad a (unbKernel M reg (reference a b entropy c)) (fi reg ρ₁)) (fun _ s t => unbErr s t < 0) m 0 (unbInit w)).exit with
    | exhausted =>
      rw [x1 hx] at h2
      exact h2
    | converged =>
      obtain ⟨l', -, -, h⟩ := x2 hx
      exact absurd h (not_lt.2 (mul_nonneg (by norm_num) (add_nonneg (relErr_nonneg _ _) (relErr_nonneg _ _))))
    | numerical => exact absurd (x3 hx).2 (not_unbBad ha hK _ (hp l).2)
  obtain ⟨hu0, hv0⟩ := unbInit_pos (I := I) (J := J) warm
  have hp := unbIter_pos ha hb hK (fi reg ρ₁) (fi reg ρ₂) hu0 hv0 k
  have e : unbInit (some (fun i => Real.log ((sinkhornUnb a b M reg ρ₁ ρ₂ entropy c warm k 0).s.u i), fun j => Real.log ((sinkhornUnb a b M reg ρ₁ ρ₂ entropy c warm k 0).s.v j)))
      = (unbStep a b (unbKernel M reg (reference a b entropy c)) (fi reg ρ₁) (fi reg ρ₂))^[k] (unbInit warm) := by
    rw [run]
    exact UV.ext (funext fun i => Real.exp_log (hp.1 i)) (funext fun j => Real.exp_log (hp.2 j))
  unfold sinkhornUnbPlan
  rw [run, e, run, add_comm k n, Function.iterate_add_apply]

/-! ## The reported total cost -/

theorem sum_log_scale {P C : I → J → ℝ} : klDivNoMass 0 (fun x : I × J => P x.1 x.2) (fun x => C x.1 x.2) = ∑ i, ∑ j, P i j * Real.log (P i j / C i j) := by
  unfold klDivNoMass
  rw [Fintype.sum_prod_type]
  simp

/-- **C49, defect.** The entry `total_cost` (and `sinkhorn_unbalanced2(..., returnCost="total")`) leaves out the mass terms of the divergences. At the exact solution with finite
parameters it is therefore always `0` (up to the `1e-16` inside the logarithm), while the minimal value of the objective is
`reg (∑ c - m) + ρ₁ (∑ a - m) + ρ₂ (∑ b - m)` with `m` the mass of the plan. -/
theorem C49_total_cost_refuted (a : I → ℝ) (b : J → ℝ) (M : I → J → ℝ) (reg : ℝ) (c : I → J → ℝ) (r₁ r₂ : ℝ) (hreg : 0 < reg)
    (h1 : 0 ≤ r₁) (h2 : 0 ≤ r₂) (ha : ∀ i, 0 < a i) (hb : ∀ j, 0 < b j) (hc : ∀ i j, 0 < c i j) (P : I → J → ℝ) (hP : IsUnbOptimal a b M reg c (some r₁) (some r₂) P) :
    totalCost 0 a b M reg c (some r₁) (some r₂) P = 0 ∧
    unbObjective a b M reg c (some r₁) (some r₂) P
      = reg * (∑ i, ∑ j, c i j - mass P) + r₁ * (∑ i, a i - mass P) + r₂ * (∑ j, b j - mass P) := by
  have hK := unbKernel_pos M reg hc
  have hr1 : ∀ r, some r₁ = some r → 0 ≤ r := fun r h => by cases h; exact h1
  have hr2 : ∀ r, some r₂ = some r → 0 ≤ r := fun r h => by cases h; exact h2
  obtain ⟨t, t1, t2, t3, t4⟩ := unb_converges ha hb hK (fi_nonneg hreg hr1) (fi_nonneg hreg hr2) (fi_mul_lt_one hreg hr1 hr2 (Or.inl (by simp)))
  have hopt := C49_fixed_point_optimal a b M reg c (some r₁) (some r₂) hreg hr1 hr2 ha hb hc t t2 t3
  have hPt : P = plan (unbKernel M reg c) t := (hopt.2 P hP.1).2 (hP.2 _ hopt.1).1
  have hpos : ∀ i j, 0 < P i j := fun i j => by rw [hPt]; exact mul_pos (mul_pos (t1 i) (hK i j)) (t2 j)
  have hu : ∀ i, t.u i = (a i / kv (unbKernel M reg c) t.v i) ^ fi reg (some r₁) := fun i => by
    conv_lhs => rw [← t3]
    rfl
  have hv : ∀ j, t.v j = (b j / Unbalanced.ktu (unbKernel M reg c) t.u j) ^ fi reg (some r₂) := fun j => by
    have e : (unbStep a b (unbKernel M reg c) (fi reg (some r₁)) (fi reg (some r₂)) t).u = t.u := by rw [t3]
    conv_lhs => rw [← t3]
    rw [← e]
    rfl
  have hrow : ∀ i, ∑ j, P i j = t.u i * kv (unbKernel M reg c) t.v i := fun i => by
    rw [hPt]
    unfold plan kv
    rw [mul_sum]
    exact sum_congr rfl fun j _ => by ring
  have hcol : ∀ j, ∑ i, P i j = t.v j * Unbalanced.ktu (unbKernel M reg c) t.u j := fun j => by
    rw [hPt]
    unfold plan Unbalanced.ktu
    rw [mul_sum]
    exact sum_congr rfl fun i _ => by ring
  have s1 : ∀ i, reg * Real.log (t.u i) = -(r₁ * Real.log ((∑ j, P i j) / a i)) := fun i => by
    rw [hrow]
    exact scaling_row hreg hr1 (ha i) (kv_pos hK t2 i) (hu i)
  have s2 : ∀ j, reg * Real.log (t.v j) = -(r₂ * Real.log ((∑ i, P i j) / b j)) := fun j => by
    rw [hcol]
    exact scaling_row hreg hr2 (hb j) (ktu_pos hK t1 j) (hv j)
  have lg : ∀ i j, Real.log (P i j / c i j) = Real.log (t.u i) + Real.log (t.v j) - M i j / reg := fun i j => by
    have : P i j / c i j = t.u i * Real.exp (-M i j / reg) * t.v j := by
      rw [hPt]
      unfold plan unbKernel
      field_simp [(hc i j).ne']
    rw [this, Real.log_mul (mul_pos (t1 i) (Real.exp_pos _)).ne' (t2 j).ne', Real.log_mul (t1 i).ne' (Real.exp_pos _).ne', Real.log_exp]
    ring
  have z : totalCost 0 a b M reg c (some r₁) (some r₂) P = 0 := by
    unfold totalCost
    rw [sum_log_scale]
    unfold klDivNoMass
    simp only [add_zero]
    have w1 : r₁ * ∑ i, (∑ j, P i j) * Real.log ((∑ j, P i j) / a i) = - ∑ i, ∑ j, P i j * (reg * Real.log (t.u i)) := by
      rw [mul_sum, ← sum_neg_distrib]
      refine sum_congr rfl fun i _ => ?_
      rw [← sum_mul, s1]
      ring
    have w2 : r₂ * ∑ j, (∑ i, P i j) * Real.log ((∑ i, P i j) / b j) = - ∑ i, ∑ j, P i j * (reg * Real.log (t.v j)) := by
      rw [mul_sum, sum_comm (f := fun i j => P i j * (reg * Real.log (t.v j))), ← sum_neg_distrib]
      refine sum_congr rfl fun j _ => ?_
      rw [← sum_mul, s2]
      ring
    rw [w1, w2, mul_sum, ← sum_add_distrib, ← sub_eq_add_neg, ← sub_eq_add_neg, ← sum_sub_distrib, ← sum_sub_distrib]
    refine sum_eq_zero fun i _ => ?_
    rw [mul_sum, ← sum_add_distrib, ← sum_sub_distrib, ← sum_sub_distrib]
    refine sum_eq_zero fun j _ => ?_
    rw [lg]
    field_simp
    ring
  refine ⟨z, ?_⟩
  have e : unbObjective a b M reg c (some r₁) (some r₂) P = totalCost 0 a b M reg c (some r₁) (some r₂) P
      + (reg * (∑ i, ∑ j, c i j - mass P) + r₁ * (∑ i, a i - mass P) + r₂ * (∑ j, b j - mass P)) := by
    unfold unbObjective totalCost marginalTerm klDivergence mass cost
    rw [klPlan_eq, sum_log_scale]
    unfold klDivNoMass
    simp only [add_zero, sum_add_distrib, sum_sub_distrib]
    rw [sum_comm (f := fun j i => P i j)]
    ring
  rw [e, z, zero_add]

/-- The minimal objective is positive for instance if all costs are positive: what is reported (`0`) is then wrong. -/
theorem C49_total_cost_positive (a : I → ℝ) (b : J → ℝ) (M : I → J → ℝ) (reg : ℝ) (c : I → J → ℝ) (r₁ r₂ : ℝ) (hreg : 0 < reg)
    (h1 : 0 ≤ r₁) (h2 : 0 ≤ r₂) (ha : ∀ i, 0 < a i) (hb : ∀ j, 0 < b j) (hc : ∀ i j, 0 < c i j) (hM : ∀ i j, 0 < M i j) (P : I → J → ℝ)
    (hP : IsUnbOptimal a b M reg c (some r₁) (some r₂) P) : 0 < unbObjective a b M reg c (some r₁) (some r₂) P := by
  have n1 : 0 ≤ cost M P := sum_nonneg fun i _ => sum_nonneg fun j _ => mul_nonneg (hP.1.nonneg i j) (hM i j).le
  have n2 : 0 ≤ klPlan P c := klPlan_nonneg hP.1.nonneg hc
  have n3 := mul_nonneg h1 (klDivergence_nonneg (p := fun i => ∑ j, P i j) (fun i => sum_nonneg fun j _ => hP.1.nonneg i j) ha)
  have n4 := mul_nonneg h2 (klDivergence_nonneg (p := fun j => ∑ i, P i j) (fun j => sum_nonneg fun i _ => hP.1.nonneg i j) hb)
  by_contra hle
  push Not at hle
  unfold unbObjective marginalTerm at hle
  dsimp only at hle
  have h5 := mul_nonneg hreg.le n2
  have h6 : klPlan P c ≤ 0 := by
    by_contra h
    push Not at h
    have := mul_pos hreg h
    linarith
  have h7 := klPlan_eq_zero hP.1.nonneg hc h6
  have h8 : 0 < cost M P := by
    rw [h7]
    exact sum_pos (fun i _ => sum_pos (fun j _ => mul_pos (hc i j) (hM i j)) univ_nonempty) univ_nonempty
  linarith

/-! ## Zero weights -/

/-- **C49, defect.** With the default reference measure `a bᵀ` a single zero weight in `a` or in `b` sends the first iteration into the numerical error branch: whatever the cost, the marginal
parameters and the number of iterations, the returned plan is `exp(-M/reg) a bᵀ`. -/
theorem C49_zero_weight (a : I → ℝ) (b : J → ℝ) (M : I → J → ℝ) (reg : ℝ) (ρ₁ ρ₂ : Option ℝ) (n : ℕ) (hn : 0 < n) (thr : ℝ) (hz : (∃ i, a i = 0) ∨ ∃ j, b j = 0) :
    (sinkhornUnb a b M reg ρ₁ ρ₂ false none none n thr).exit = .numerical ∧
    ∀ i j, sinkhornUnbPlan a b M reg ρ₁ ρ₂ false none none n thr i j = Real.exp (-M i j / reg) * (a i * b j) := by
  obtain ⟨n, rfl⟩ : ∃ k, n = k + 1 := ⟨n - 1, by omega⟩
  have hbad : unbBad a (unbKernel M reg (reference a b false none)) (fi reg ρ₁) (unbInit none) := by
    rcases hz with ⟨i, hi⟩ | ⟨j, hj⟩
    · refine Or.inl ⟨i, sum_eq_zero fun j _ => ?_⟩
      simp [unbKernel, reference, hi]
    · refine Or.inr ⟨j, sum_eq_zero fun i _ => ?_⟩
      simp [unbKernel, reference, hj]
  have e : sinkhornUnb a b M reg ρ₁ ρ₂ false none none (n + 1) thr = ⟨unbInit none, 0, .numerical⟩ := by
    unfold sinkhornUnb loop
    simp only [if_pos hbad]
  constructor
  · rw [e]
  · intro i j
    unfold sinkhornUnbPlan
    rw [e]
    simp [plan, unbInit, unbKernel, reference]

/-- The plan returned in that case is not a solution, even among the plans that respect the zeros: `a = (4, 0)`, `b = (1, 0)`, zero cost, all parameters 1. -/
theorem C49_zero_weight_refuted : ∃ (a b : Fin 2 → ℝ) (M Q : Fin 2 → Fin 2 → ℝ), (∀ i, 0 ≤ a i) ∧ (∀ j, 0 ≤ b j) ∧ (∀ i j, 0 ≤ Q i j) ∧ (∀ i j, a i * b j = 0 → Q i j = 0) ∧
    ∀ n thr, 0 < n → unbObjective a b M 1 (fun i j => a i * b j) (some 1) (some 1) Q
      < unbObjective a b M 1 (fun i j => a i * b j) (some 1) (some 1) (sinkhornUnbPlan a b M 1 (some 1) (some 1) false none none n thr) := by
  refine ⟨![4, 0], ![1, 0], fun _ _ => 0, fun i j => if i = 0 ∧ j = 0 then 2 else 0, ?_, ?_, ?_, ?_, ?_⟩
  · intro i; fin_cases i <;> norm_num
  · intro i; fin_cases i <;> norm_num
  · intro i j; dsimp only; split_ifs <;> norm_num
  · intro i j h; fin_cases i <;> fin_cases j <;> simp at h ⊢
  · intro n thr hn
    have h := (C49_zero_weight ![4, 0] ![1, 0] (fun _ _ => 0) 1 (some 1) (some 1) n hn thr (Or.inl ⟨1, rfl⟩)).2
    have e : sinkhornUnbPlan ![4, 0] ![1, 0] (fun _ _ => (0 : ℝ)) 1 (some 1) (some 1) false none none n thr = fun i j => (![4, 0] : Fin 2 → ℝ) i * (![1, 0] : Fin 2 → ℝ) j := by
      funext i j
      rw [h]
      simp
    rw [e]
    unfold unbObjective cost marginalTerm klDivergence
    rw [klPlan_eq, klPlan_eq]
    simp only [Fin.sum_univ_two]
    have l2 := Real.log_two_gt_d9
    have l4 : Real.log 4 = 2 * Real.log 2 := by
      rw [show (4 : ℝ) = 2 ^ 2 by norm_num, Real.log_pow]
      norm_num
    norm_num
    rw [l4]
    have lh' : Real.log (1 / 2) = - Real.log 2 := by rw [one_div, Real.log_inv]
    rw [lh']
    linarith

/-! ## Several histograms -/

variable {H : Type*} [Fintype H] [Nonempty H]

theorem unbStepH_col (a : I → ℝ) (b : J → H → ℝ) (K : I → J → ℝ) (f₁ f₂ : ℝ) (s : UVH I J H) (h : H) :
    (⟨fun i => (unbStepH a b K f₁ f₂ s).u i h, fun j => (unbStepH a b K f₁ f₂ s).v j h⟩ : UV I J)
      = unbStep a (fun j => b j h) K f₁ f₂ ⟨fun i => s.u i h, fun j => s.v j h⟩ := rfl

theorem unbIterH_col (a : I → ℝ) (b : J → H → ℝ) (K : I → J → ℝ) (f₁ f₂ : ℝ) (s : UVH I J H) (h : H) (n : ℕ) :
    (⟨fun i => ((unbStepH a b K f₁ f₂)^[n] s).u i h, fun j => ((unbStepH a b K f₁ f₂)^[n] s).v j h⟩ : UV I J)
      = (unbStep a (fun j => b j h) K f₁ f₂)^[n] ⟨fun i => s.u i h, fun j => s.v j h⟩ := by
  induction n with
  | zero => rfl
  | succ n ih => rw [Function.iterate_succ_apply', Function.iterate_succ_apply', unbStepH_col, ih]

/-- **C49, several histograms.** With `b` a matrix, each returned number converges (threshold to zero, enough iterations) to the transport cost `⟨P_h, M⟩` of the unique solution `P_h` of the
problem between `a` and the `h`-th column with reference measure **one** – also for the default `reg_type="kl"`, where one histogram would be solved with the reference `a bᵀ`. -/
theorem C49_hists (a : I → ℝ) (b : J → H → ℝ) (M : I → J → ℝ) (reg : ℝ) (ρ₁ ρ₂ : Option ℝ)
    (hreg : 0 < reg) (h1 : ∀ r, ρ₁ = some r → 0 ≤ r) (h2 : ∀ r, ρ₂ = some r → 0 ≤ r) (hfin : ρ₁ ≠ none ∨ ρ₂ ≠ none)
    (ha : ∀ i, 0 < a i) (hb : ∀ j h, 0 < b j h) :
    ∃ P : H → I → J → ℝ, (∀ h, IsUnbOptimal a (fun j => b j h) M reg (fun _ _ => 1) ρ₁ ρ₂ (P h)) ∧
      ∀ ε > 0, ∃ thr₀ > 0, ∀ thr, 0 < thr → thr ≤ thr₀ → ∃ N, ∀ n ≥ N,
        (sinkhornUnbH a b M reg ρ₁ ρ₂ n thr).exit = .converged ∧
        ∀ h, |unbLoss M reg (sinkhornUnbH a b M reg ρ₁ ρ₂ n thr).s h - cost M (P h)| < ε := by
  obtain ⟨K, hKd⟩ : ∃ K : I → J → ℝ, K = fun i j => Real.exp (-M i j / reg) := ⟨_, rfl⟩
  have hK : ∀ i j, 0 < K i j := fun i j => by rw [hKd]; exact Real.exp_pos _
  have hK1 : unbKernel M reg (fun _ _ => 1) = K := by
    rw [hKd]
    funext i j
    exact mul_one _
  choose t t1 t2 t3 t4 using fun h => unb_tendsto (a := a) (b := fun j => b j h) ha (fun j => hb j h) hK (fi_nonneg hreg h1) (fi_nonneg hreg h2) (fi_mul_lt_one hreg h1 h2 hfin)
  have hopt : ∀ h, IsUnbOptimal a (fun j => b j h) M reg (fun _ _ => 1) ρ₁ ρ₂ (plan K (t h)) := fun h => by
    have := C49_fixed_point_optimal a (fun j => b j h) M reg (fun _ _ => 1) ρ₁ ρ₂ hreg h1 h2 ha (fun j => hb j h) (fun _ _ => one_pos) (t h) (t2 h) (by rw [hK1]; exact t3 h)
    rwa [hK1] at this
  obtain ⟨s0, hs0⟩ : ∃ s0 : UVH I J H, s0 = { u := fun _ _ => 1, v := fun _ _ => 1 } := ⟨_, rfl⟩
  have col := fun h n => unbIterH_col a b K (fi reg ρ₁) (fi reg ρ₂) s0 h n
  have lim := fun h => t4 h ⟨fun i => s0.u i h, fun j => s0.v j h⟩ (fun i => by rw [hs0]; exact one_pos) (fun j => by rw [hs0]; exact one_pos)
  have cu : ∀ h n i, ((unbStepH a b K (fi reg ρ₁) (fi reg ρ₂))^[n] s0).u i h = ((unbStep a (fun j => b j h) K (fi reg ρ₁) (fi reg ρ₂))^[n] ⟨fun i => s0.u i h, fun j => s0.v j h⟩).u i :=
    fun h n i => by rw [← col]
  have cv : ∀ h n j, ((unbStepH a b K (fi reg ρ₁) (fi reg ρ₂))^[n] s0).v j h = ((unbStep a (fun j => b j h) K (fi reg ρ₁) (fi reg ρ₂))^[n] ⟨fun i => s0.u i h, fun j => s0.v j h⟩).v j :=
    fun h n j => by rw [← col]
  have lu : ∀ i h, Tendsto (fun n => ((unbStepH a b K (fi reg ρ₁) (fi reg ρ₂))^[n] s0).u i h) atTop (𝓝 ((t h).u i)) := fun i h => by
    simp only [cu]
    exact (lim h).1 i
  have lv : ∀ j h, Tendsto (fun n => ((unbStepH a b K (fi reg ρ₁) (fi reg ρ₂))^[n] s0).v j h) atTop (𝓝 ((t h).v j)) := fun j h => by
    simp only [cv]
    exact (lim h).2 j
  have hpos : ∀ h n j, 0 < ((unbStepH a b K (fi reg ρ₁) (fi reg ρ₂))^[n] s0).v j h := fun h n j => by
    rw [cv]
    exact (unbIter_pos ha (fun j => hb j h) hK _ _ (s := ⟨fun i => s0.u i h, fun j => s0.v j h⟩) (fun i => by rw [hs0]; exact one_pos) (fun j => by rw [hs0]; exact one_pos) n).2 j
  have hbad : ∀ n, ¬ unbBadH a K (fi reg ρ₁) ((unbStepH a b K (fi reg ρ₁) (fi reg ρ₂))^[n] s0) := fun n => by
    rintro (⟨i, h, e⟩ | ⟨j, h, e⟩)
    · exact absurd e (kv_pos hK (hpos h n) i).ne'
    · exact absurd e (ktu_pos hK (u := fun i => (a i / ∑ j, K i j * ((unbStepH a b K (fi reg ρ₁) (fi reg ρ₂))^[n] s0).v j h) ^ fi reg ρ₁)
        (fun i => Real.rpow_pos_of_pos (div_pos (ha i) (kv_pos hK (hpos h n) i)) _) j).ne'
  have hloss : ∀ s h, unbLoss (H := H) M reg s h = ∑ i, ∑ j, s.u i h * K i j * s.v j h * M i j := fun s h => by
    rw [hKd]
    rfl
  refine ⟨fun h => plan K (t h), hopt, fun ε hε => ?_⟩
  have key := loop_accuracy (step := unbStepH a b K (fi reg ρ₁) (fi reg ρ₂)) (bad := unbBadH a K (fi reg ρ₁)) (err := unbErrH) (s := s0)
    (Good := fun s => ∀ h, |unbLoss M reg s h - cost M (plan K (t h))| < ε) hbad ?_ ?_ ?_ ?_
  · unfold sinkhornUnbH
    rw [hs0] at key
    dsimp only
    rw [← hKd]
    exact key
  · rw [Filter.eventually_all]
    intro h
    have hl : Tendsto (fun n => unbLoss M reg ((unbStepH a b K (fi reg ρ₁) (fi reg ρ₂))^[n] s0) h) atTop (𝓝 (cost M (plan K (t h)))) := by
      simp only [hloss]
      exact tendsto_finsetSum _ fun i _ => tendsto_finsetSum _ fun j _ => (((lu i h).mul tendsto_const_nhds).mul (lv j h)).mul tendsto_const_nhds
    exact (Metric.tendsto_nhds.1 hl) ε hε
  · exact fun s t => mul_nonneg (by norm_num) (add_nonneg (relErr_nonneg _ _) (relErr_nonneg _ _))
  · intro n h0 h
    unfold unbErrH at h0
    have r1 := relErr_nonneg (fun x : I × H => ((unbStepH a b K (fi reg ρ₁) (fi reg ρ₂))^[n] s0).u x.1 x.2)
      (fun x => ((unbStepH a b K (fi reg ρ₁) (fi reg ρ₂))^[n + 1] s0).u x.1 x.2)
    have r2 := relErr_nonneg (fun x : J × H => ((unbStepH a b K (fi reg ρ₁) (fi reg ρ₂))^[n] s0).v x.1 x.2)
      (fun x => ((unbStepH a b K (fi reg ρ₁) (fi reg ρ₂))^[n + 1] s0).v x.1 x.2)
    have e1 := eq_of_relErr (show relErr (fun x : I × H => ((unbStepH a b K (fi reg ρ₁) (fi reg ρ₂))^[n] s0).u x.1 x.2)
      (fun x => ((unbStepH a b K (fi reg ρ₁) (fi reg ρ₂))^[n + 1] s0).u x.1 x.2) ≤ 0 by linarith)
    have e2 := eq_of_relErr (show relErr (fun x : J × H => ((unbStepH a b K (fi reg ρ₁) (fi reg ρ₂))^[n] s0).v x.1 x.2)
      (fun x => ((unbStepH a b K (fi reg ρ₁) (fi reg ρ₂))^[n + 1] s0).v x.1 x.2) ≤ 0 by linarith)
    have e3 : (unbStep a (fun j => b j h) K (fi reg ρ₁) (fi reg ρ₂))^[n + 1] ⟨fun i => s0.u i h, fun j => s0.v j h⟩
        = (unbStep a (fun j => b j h) K (fi reg ρ₁) (fi reg ρ₂))^[n] ⟨fun i => s0.u i h, fun j => s0.v j h⟩ := by
      rw [← col, ← col]
      exact UV.ext (funext fun i => congrFun e1 (i, h)) (funext fun j => congrFun e2 (j, h))
    have e4 := e3
    rw [Function.iterate_succ_apply'] at e4
    have o := C49_fixed_point_optimal a (fun j => b j h) M reg (fun _ _ => 1) ρ₁ ρ₂ hreg h1 h2 ha (fun j => hb j h) (fun _ _ => one_pos)
      ((unbStep a (fun j => b j h) K (fi reg ρ₁) (fi reg ρ₂))^[n] ⟨fun i => s0.u i h, fun j => s0.v j h⟩) (fun j => by rw [← cv]; exact hpos h n j) (by rw [hK1]; exact e4)
    rw [hK1] at o
    have e5 := ((hopt h).2 _ o.1).2 (o.2 _ (hopt h).1).1
    rw [hloss, ← e5]
    simp only [cu, cv, e3]
    unfold cost plan
    simpa using hε
  · have r1 := relErr_tendsto (x := fun n => fun x : I × H => ((unbStepH a b K (fi reg ρ₁) (fi reg ρ₂))^[n] s0).u x.1 x.2) (fun x => lu x.1 x.2)
    have r2 := relErr_tendsto (x := fun n => fun x : J × H => ((unbStepH a b K (fi reg ρ₁) (fi reg ρ₂))^[n] s0).v x.1 x.2) (fun x => lv x.1 x.2)
    have := (r1.add r2).const_mul (1 / 2 : ℝ)
    simpa [unbErrH] using this

/-- Non-vacuity of C49: two points on either side, cost `[[0,1],[1,0]]`, weights 1/2, all parameters 1 (the example of the documentation). -/
example : ∃ P : Fin 2 → Fin 2 → ℝ, IsUnbOptimal (fun _ => 1 / 2) (fun _ => 1 / 2) (fun i j => if i = j then 0 else 1) 1 (fun _ _ => 1 / 4) (some 1) (some 1) P ∧
    ∀ i j, 0 < P i j := by
  obtain ⟨-, P, h1, h2, -⟩ := C49_geometric (I := Fin 2) (J := Fin 2) (fun _ => 1 / 2) (fun _ => 1 / 2) (fun i j => if i = j then 0 else 1) 1 (fun _ _ => 1 / 4)
    (some 1) (some 1) one_pos (fun r h => by cases h; norm_num) (fun r h => by cases h; norm_num) (Or.inl (by simp)) (fun _ => by norm_num) (fun _ => by norm_num)
    (fun _ _ => by norm_num)
  exact ⟨P, h1, h2⟩

end POT.Props
