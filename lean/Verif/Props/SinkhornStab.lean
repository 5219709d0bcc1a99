import Verif.Props.Sinkhorn
import Mathlib.Analysis.Complex.ExponentialBounds
import Mathlib.Analysis.SpecialFunctions.Exp

/-!
# Stabilised Sinkhorn and epsilon scaling (C29, C31)
-/

set_option linter.unusedSectionVars false

namespace POT.Props

open Finset Spec Filter Topology Sinkhorn

variable {I J : Type*} [Fintype I] [Fintype J] [Nonempty I] [Nonempty J]

section Stab

variable {a : I → ℝ} {b : J → ℝ} {M : I → J → ℝ} {reg tau thr : ℝ}

/-- Scalings with the absorbed potentials multiplied back in. -/
noncomputable def total (reg : ℝ) (s : Stab I J) : UV I J :=
  ⟨fun i => Real.exp (s.alpha i / reg) * s.u i, fun j => Real.exp (s.beta j / reg) * s.v j⟩

/-- Positive scalings. -/
def StabPos (s : Stab I J) : Prop := (∀ i, 0 < s.u i) ∧ ∀ j, 0 < s.v j

theorem getK_eq (i : I) (j : J) (alpha : I → ℝ) (beta : J → ℝ) :
    getK M reg alpha beta i j = Real.exp (alpha i / reg) * kernel M reg i j * Real.exp (beta j / reg) := by
  unfold getK kernel
  rw [← Real.exp_add, ← Real.exp_add, div_neg]
  congr 1
  ring

theorem getGamma_eq {s : Stab I J} (hs : StabPos s) : getGamma M reg s = plan (kernel M reg) (total reg s) := by
  funext i j
  unfold getGamma plan total
  rw [Real.exp_add, Real.exp_add, Real.exp_log (hs.1 i), Real.exp_log (hs.2 j)]
  have := getK_eq (M := M) (reg := reg) i j s.alpha s.beta
  unfold getK at this
  rw [this]
  ring

theorem update_pos (ha : ∀ i, 0 < a i) (hb : ∀ j, 0 < b j) {s : Stab I J} (hs : ∀ i, 0 < s.u i) : StabPos (stabUpdate a b M reg s) := by
  have hv : ∀ j, 0 < (stabUpdate a b M reg s).v j := fun j =>
    div_pos (hb j) (sum_pos (fun i _ => mul_pos (Real.exp_pos _) (hs i)) univ_nonempty)
  exact ⟨fun i => div_pos (ha i) (sum_pos (fun j _ => mul_pos (Real.exp_pos _) (hv j)) univ_nonempty), hv⟩

/-- One update of the stabilised algorithm is one update of the plain one, on the total scalings. -/
theorem total_update (s : Stab I J) :
    total reg (stabUpdate a b M reg s) = knoppStep a b (kernel M reg) (total reg s) := by
  have hv : ∀ j, (total reg (stabUpdate a b M reg s)).v j = (knoppStep a b (kernel M reg) (total reg s)).v j := by
    intro j
    rw [knoppStep_v]
    change Real.exp (s.beta j / reg) * (b j / ∑ i, getK M reg s.alpha s.beta i j * s.u i) = _
    have : ∑ i, getK M reg s.alpha s.beta i j * s.u i
        = Real.exp (s.beta j / reg) * ∑ i, kernel M reg i j * (total reg s).u i := by
      rw [mul_sum]
      refine sum_congr rfl fun i _ => ?_
      rw [getK_eq]
      unfold total
      ring
    rw [this]
    have := (Real.exp_pos (s.beta j / reg)).ne'
    rw [mul_div_assoc', mul_div_mul_left _ _ this]
  apply UV.ext
  · funext i
    rw [knoppStep_u]
    change Real.exp (s.alpha i / reg) * (a i / ∑ j, getK M reg s.alpha s.beta i j * (stabUpdate a b M reg s).v j) = _
    have : ∑ j, getK M reg s.alpha s.beta i j * (stabUpdate a b M reg s).v j
        = Real.exp (s.alpha i / reg) * ∑ j, kernel M reg i j * (knoppStep a b (kernel M reg) (total reg s)).v j := by
      rw [mul_sum]
      refine sum_congr rfl fun j _ => ?_
      rw [getK_eq, ← hv j]
      change _ = _ * (_ * (Real.exp (s.beta j / reg) * _))
      ring
    rw [this]
    have := (Real.exp_pos (s.alpha i / reg)).ne'
    rw [mul_div_assoc', mul_div_mul_left _ _ this]
  · exact funext hv

theorem total_absorb (hreg : reg ≠ 0) {s : Stab I J} (hs : StabPos s) :
    (∀ i, (total reg (absorb reg s)).u i = (total reg s).u i / Fintype.card I) ∧
    ∀ j, (total reg (absorb reg s)).v j = (total reg s).v j / Fintype.card J := by
  constructor
  · intro i
    change Real.exp ((s.alpha i + reg * Real.log (s.u i)) / reg) * (1 / (Fintype.card I : ℝ)) = Real.exp (s.alpha i / reg) * s.u i / _
    rw [add_div, mul_div_cancel_left₀ _ hreg, Real.exp_add, Real.exp_log (hs.1 i)]
    ring
  · intro j
    change Real.exp ((s.beta j + reg * Real.log (s.v j)) / reg) * (1 / (Fintype.card J : ℝ)) = Real.exp (s.beta j / reg) * s.v j / _
    rw [add_div, mul_div_cancel_left₀ _ hreg, Real.exp_add, Real.exp_log (hs.2 j)]
    ring

theorem absorb_pos (s : Stab I J) : StabPos (absorb reg s) :=
  ⟨fun i => by simp only [absorb]; positivity, fun j => by simp only [absorb]; positivity⟩

theorem stabStep_cases (s : Stab I J) :
    (mustAbsorb tau (stabUpdate a b M reg s) ∧ stabStep a b M reg tau s = absorb reg (stabUpdate a b M reg s)) ∨
    stabStep a b M reg tau s = stabUpdate a b M reg s := by
  unfold stabStep
  dsimp only
  split_ifs with h
  · exact Or.inl ⟨h, rfl⟩
  · exact Or.inr rfl

theorem stabStep_pos (ha : ∀ i, 0 < a i) (hb : ∀ j, 0 < b j) {s : Stab I J} (hs : ∀ i, 0 < s.u i) :
    StabPos (stabStep a b M reg tau s) := by
  unfold stabStep
  dsimp only
  split_ifs
  · exact absorb_pos _
  · exact update_pos ha hb hs

/-- Scaling all `u` by a constant changes the next plain iterate only by constants. -/
theorem knopp_scale {c : ℝ} (hc : 0 < c) {K : I → J → ℝ} {s t : UV I J} (h : ∀ i, s.u i = c * t.u i) :
    (∀ i, (knoppStep a b K s).u i = c * (knoppStep a b K t).u i) ∧
    ∀ j, (knoppStep a b K s).v j = (knoppStep a b K t).v j / c := by
  have hv : ∀ j, (knoppStep a b K s).v j = (knoppStep a b K t).v j / c := by
    intro j
    rw [knoppStep_v, knoppStep_v]
    have : ∑ i, K i j * s.u i = c * ∑ i, K i j * t.u i := by
      rw [mul_sum]
      exact sum_congr rfl fun i _ => by rw [h]; ring
    rw [this, div_div, mul_comm c]
  refine ⟨fun i => ?_, hv⟩
  rw [knoppStep_u, knoppStep_u]
  have : ∑ j, K i j * (knoppStep a b K s).v j = (∑ j, K i j * (knoppStep a b K t).v j) / c := by
    rw [sum_div]
    exact sum_congr rfl fun j _ => by rw [hv j]; ring
  rw [this, div_div_eq_mul_div, mul_comm (a i), mul_div_assoc]

/-- Relation with the plain run: the total scalings agree with those of plain Sinkhorn up to a constant. -/
theorem stab_rel (hreg : reg ≠ 0) (ha : ∀ i, 0 < a i) (hb : ∀ j, 0 < b j) {s : Stab I J} (hs : ∀ i, 0 < s.u i) {t : UV I J} {c₀ : ℝ}
    (hc₀ : 0 < c₀) (h : ∀ i, (total reg s).u i = c₀ * t.u i) (k : ℕ) :
    (∀ i, 0 < ((stabStep a b M reg tau)^[k] s).u i) ∧
    ∃ c > 0, ∀ i, (total reg ((stabStep a b M reg tau)^[k] s)).u i = c * ((knoppStep a b (kernel M reg))^[k] t).u i := by
  induction k with
  | zero => exact ⟨hs, c₀, hc₀, h⟩
  | succ k ih =>
    obtain ⟨hp, c, hc, hk⟩ := ih
    rw [Function.iterate_succ_apply', Function.iterate_succ_apply']
    refine ⟨(stabStep_pos ha hb hp).1, ?_⟩
    have h1 := (knopp_scale (a := a) (b := b) (K := kernel M reg) hc hk).1
    rcases stabStep_cases (a := a) (b := b) (M := M) (reg := reg) (tau := tau) ((stabStep a b M reg tau)^[k] s) with ⟨-, e⟩ | e
    · refine ⟨c / Fintype.card I, by positivity, fun i => ?_⟩
      rw [e, (total_absorb hreg (update_pos ha hb hp)).1 i, total_update, h1]
      ring
    · refine ⟨c, hc, fun i => ?_⟩
      rw [e, total_update, h1]

/-- The plan after each scaling update, before a possible absorption, is the plan of plain Sinkhorn. -/
theorem stab_plan (hreg : reg ≠ 0) (ha : ∀ i, 0 < a i) (hb : ∀ j, 0 < b j) {s : Stab I J} (hs : ∀ i, 0 < s.u i) {t : UV I J} {c₀ : ℝ}
    (hc₀ : 0 < c₀) (h : ∀ i, (total reg s).u i = c₀ * t.u i) (k : ℕ) :
    getGamma M reg (stabUpdate a b M reg ((stabStep a b M reg tau)^[k] s))
      = plan (kernel M reg) ((knoppStep a b (kernel M reg))^[k + 1] t) := by
  obtain ⟨hp, c, hc, hk⟩ := stab_rel (M := M) (tau := tau) hreg ha hb hs hc₀ h k
  rw [getGamma_eq (update_pos ha hb hp), total_update, Function.iterate_succ_apply']
  obtain ⟨h1, h2⟩ := knopp_scale (a := a) (b := b) (K := kernel M reg) hc hk
  funext i j
  unfold plan
  rw [h1, h2]
  field_simp

theorem absorb_gamma (hreg : reg ≠ 0) {s : Stab I J} (hs : StabPos s) (i : I) (j : J) :
    getGamma M reg (absorb reg s) i j = getGamma M reg s i j / (Fintype.card I * Fintype.card J) := by
  rw [getGamma_eq (absorb_pos s), getGamma_eq hs]
  obtain ⟨h1, h2⟩ := total_absorb hreg hs
  unfold plan
  rw [h1, h2]
  ring

/-- What the loop returns. -/
theorem stabLoop_spec (period n ii : ℕ) (err : ℝ) (s : Stab I J) : ∃ k ≤ n,
    (stabLoop a b M reg tau thr period n ii err s).s = (stabStep a b M reg tau)^[k] s ∧
    ((stabLoop a b M reg tau thr period n ii err s).exit = .exhausted → k = n) ∧
    (stabLoop a b M reg tau thr period n ii err s).exit ≠ .numerical ∧
    ((stabLoop a b M reg tau thr period n ii err s).exit = .converged → 
      ∃ l, k = l + 1 ∧ (stabLoop a b M reg tau thr period n ii err s).niter = ii + l ∧
        (thr < err → (ii + l) % period = 0 ∧ stabErr b M reg (stabLoop a b M reg tau thr period n ii err s).s ≤ thr)) := by
  induction n generalizing ii err s with
  | zero => exact ⟨0, le_rfl, rfl, fun _ => rfl, by simp [stabLoop], by simp [stabLoop]⟩
  | succ n ih =>
    unfold stabLoop
    dsimp only
    split_ifs with h1 h2 h3
    · refine ⟨1, by simp, rfl, by simp, by simp, fun _ => ⟨0, rfl, rfl, fun _ => ⟨h1, h2⟩⟩⟩
    · obtain ⟨k, hk, e, x1, x2, x3⟩ := ih (ii + 1) (stabErr b M reg (stabStep a b M reg tau s)) (stabStep a b M reg tau s)
      refine ⟨k + 1, by omega, e, fun h => by rw [x1 h], x2, fun h => ?_⟩
      obtain ⟨l, e1, e2, e3⟩ := x3 h
      refine ⟨l + 1, by omega, by rw [e2]; omega, fun _ => ?_⟩
      have := e3 (not_le.1 h2)
      rw [show ii + (l + 1) = ii + 1 + l by omega]
      exact this
    · refine ⟨1, by simp, rfl, by simp, by simp, fun _ => ⟨0, rfl, rfl, fun h => absurd h3 (not_le.2 h)⟩⟩
    · obtain ⟨k, hk, e, x1, x2, x3⟩ := ih (ii + 1) err (stabStep a b M reg tau s)
      refine ⟨k + 1, by omega, e, fun h => by rw [x1 h], x2, fun h => ?_⟩
      obtain ⟨l, e1, e2, e3⟩ := x3 h
      refine ⟨l + 1, by omega, by rw [e2]; omega, fun h4 => ?_⟩
      have := e3 h4
      rw [show ii + (l + 1) = ii + 1 + l by omega]
      exact this

end Stab

/-- The plain Sinkhorn iterate that corresponds to a warm start of the stabilised solver with potentials `alpha`, `beta`. -/
noncomputable def plainStart (reg : ℝ) (warm : Option ((I → ℝ) × (J → ℝ))) : UV I J :=
  ⟨fun i => Real.exp ((warm.getD (fun _ => 0, fun _ => 0)).1 i / reg), fun j => Real.exp ((warm.getD (fun _ => 0, fun _ => 0)).2 j / reg)⟩

theorem stabInit_rel (reg : ℝ) (warm : Option ((I → ℝ) × (J → ℝ))) (i : I) :
    (total reg (stabInit warm : Stab I J)).u i = 1 / (Fintype.card I : ℝ) * (plainStart reg warm : UV I J).u i := by
  change Real.exp _ * (1 / (Fintype.card I : ℝ)) = _ * Real.exp _
  rw [mul_comm]
  rfl

/-- **C29, every update.** Whenever and however often the scalings are absorbed (whatever `tau`), the plan after each scaling update of `sinkhorn_stabilized`
is the plan of plain Sinkhorn after the same number of updates. -/
theorem C29_absorption_neutral (a : I → ℝ) (b : J → ℝ) (M : I → J → ℝ) (reg : ℝ) (hreg : reg ≠ 0) (tau : ℝ)
    (warm : Option ((I → ℝ) × (J → ℝ))) (ha : ∀ i, 0 < a i) (hb : ∀ j, 0 < b j) (k : ℕ) :
    getGamma M reg (stabUpdate a b M reg ((stabStep a b M reg tau)^[k] (stabInit warm)))
      = plan (kernel M reg) ((knoppStep a b (kernel M reg))^[k + 1] (plainStart reg warm)) :=
  stab_plan hreg ha hb (fun i => by simp only [stabInit]; positivity) (by positivity) (stabInit_rel reg warm) k

/-- **C29, returned plan (partial).** The plan returned by `sinkhorn_stabilized` is the plan of plain Sinkhorn after some number `k ≥ 1` of iterations, or — only
if the very last update triggered an absorption — that plan divided by `n m`. The full claim (always the plain plan) is false, see
`C29_returned_plan_refuted`. -/
theorem C29_returned_plan_partial (a : I → ℝ) (b : J → ℝ) (M : I → J → ℝ) (reg : ℝ) (hreg : reg ≠ 0) (tau thr : ℝ) (n period : ℕ)
    (hn : 0 < n) (warm : Option ((I → ℝ) × (J → ℝ))) (ha : ∀ i, 0 < a i) (hb : ∀ j, 0 < b j) :
    let r := sinkhornStabilized a b M reg tau thr n period warm
    ∃ k, 1 ≤ k ∧ k ≤ n ∧ (r.exit = .exhausted → k = n) ∧ (r.exit = .converged → r.niter + 1 = k) ∧
      (getGamma M reg r.s = plan (kernel M reg) ((knoppStep a b (kernel M reg))^[k] (plainStart reg warm)) ∨
       (mustAbsorb tau (stabUpdate a b M reg ((stabStep a b M reg tau)^[k - 1] (stabInit warm))) ∧
        ∀ i j, getGamma M reg r.s i j
          = plan (kernel M reg) ((knoppStep a b (kernel M reg))^[k] (plainStart reg warm)) i j / (Fintype.card I * Fintype.card J))) := by
  intro r
  obtain ⟨k, hk, e, x1, x2, x3⟩ := stabLoop_spec (a := a) (b := b) (M := M) (reg := reg) (tau := tau) (thr := thr) period n 0 1 (stabInit warm)
  have e' : r.s = _ := e
  have hk0 : ∃ l, k = l + 1 := by
    rcases h : r.exit with _ | _ | _
    · obtain ⟨l, hl, -⟩ := x3 h
      exact ⟨l, hl⟩
    · exact ⟨n - 1, by rw [x1 h]; omega⟩
    · exact absurd h x2
  obtain ⟨l, rfl⟩ := hk0
  refine ⟨l + 1, by omega, hk, x1, fun h => ?_, ?_⟩
  · obtain ⟨l', h1, h2, -⟩ := x3 h
    have : r.niter = 0 + l' := h2
    omega
  · have hpl := C29_absorption_neutral a b M reg hreg tau warm ha hb l
    obtain ⟨hp, -⟩ := stab_rel (M := M) (tau := tau) hreg ha hb (s := (stabInit warm : Stab I J)) (fun i => by simp only [stabInit]; positivity)
      (by positivity) (stabInit_rel reg warm) l
    rw [e', Function.iterate_succ_apply' (stabStep a b M reg tau), ← hpl]
    rw [show l + 1 - 1 = l by omega]
    rcases stabStep_cases (a := a) (b := b) (M := M) (reg := reg) (tau := tau) ((stabStep a b M reg tau)^[l] (stabInit warm)) with ⟨h, e⟩ | e
    · rw [e]
      exact Or.inr ⟨h, fun i j => absorb_gamma hreg (update_pos ha hb hp) i j⟩
    · rw [e]
      exact Or.inl rfl

/-- **C29, converged runs.** When `sinkhorn_stabilized` ends by its test, with a threshold below 1 and small enough that a plan of the wrong mass cannot pass it, the
returned plan *is* the plain Sinkhorn plan after `niter + 1` iterations: its row sums are exactly `a` and the norm of its column error is at
most the threshold. -/
theorem C29_converged (a : I → ℝ) (b : J → ℝ) (M : I → J → ℝ) (reg : ℝ) (hreg : reg ≠ 0) (tau thr : ℝ) (n period : ℕ)
    (hn : 0 < n) (warm : Option ((I → ℝ) × (J → ℝ))) (ha : ∀ i, 0 < a i) (hb : ∀ j, 0 < b j) (hS : ∑ i, a i = ∑ j, b j) (hthr : thr < 1)
    (hsmall : Real.sqrt (Fintype.card J) * thr < (∑ i, a i) * (1 - 1 / (Fintype.card I * Fintype.card J)))
    (h : (sinkhornStabilized a b M reg tau thr n period warm).exit = .converged) :
    let r := sinkhornStabilized a b M reg tau thr n period warm
    getGamma M reg r.s = plan (kernel M reg) ((knoppStep a b (kernel M reg))^[r.niter + 1] (plainStart reg warm)) ∧
      (∀ i, ∑ j, getGamma M reg r.s i j = a i) ∧ norm2 (fun j => ∑ i, getGamma M reg r.s i j - b j) ≤ thr := by
  intro r
  obtain ⟨k, hk1, hkn, -, hc, hor⟩ := C29_returned_plan_partial a b M reg hreg tau thr n period hn warm ha hb
  have hk : r.niter + 1 = k := hc h
  obtain ⟨_, -, -, -, -, x3⟩ := stabLoop_spec (a := a) (b := b) (M := M) (reg := reg) (tau := tau) (thr := thr) period n 0 1 (stabInit warm)
  obtain ⟨l, -, -, h5⟩ := x3 h
  have herr : norm2 (fun j => ∑ i, getGamma M reg r.s i j - b j) ≤ thr := (h5 hthr).2
  have hrow : ∀ i, ∑ j, plan (kernel M reg) ((knoppStep a b (kernel M reg))^[k] (plainStart reg warm)) i j = a i := by
    intro i
    obtain ⟨m, rfl⟩ : ∃ m, k = m + 1 := ⟨k - 1, by omega⟩
    exact iter_rows (kernel_pos M reg) ha hb (s := plainStart reg warm) ⟨fun i => Real.exp_pos _, fun j => Real.exp_pos _⟩ m i
  rcases hor with hor | ⟨-, hor⟩
  · have hor : getGamma M reg r.s = _ := hor
    rw [hk, ← hor]
    refine ⟨rfl, ?_, herr⟩
    rw [hor]
    exact hrow
  · exfalso
    have hor : ∀ i j, getGamma M reg r.s i j = _ := hor
    have h1 := l1_le_norm2 fun j => ∑ i, getGamma M reg r.s i j - b j
    have h2 : |∑ j, (∑ i, getGamma M reg r.s i j - b j)| ≤ ∑ j, |∑ i, getGamma M reg r.s i j - b j| := abs_sum_le_sum_abs _ _
    have h3 : ∑ j, (∑ i, getGamma M reg r.s i j - b j) = -((∑ i, a i) * (1 - 1 / (Fintype.card I * Fintype.card J))) := by
      rw [sum_sub_distrib, sum_comm]
      simp only [hor]
      have : ∀ i, ∑ j, plan (kernel M reg) ((knoppStep a b (kernel M reg))^[k] (plainStart reg warm)) i j / (Fintype.card I * Fintype.card J : ℝ)
          = a i / (Fintype.card I * Fintype.card J) := fun i => by rw [← sum_div, hrow]
      rw [sum_congr rfl fun i _ => this i, ← sum_div, ← hS]
      ring
    rw [h3, abs_neg] at h2
    have h4 := mul_le_mul_of_nonneg_left herr (Real.sqrt_nonneg (Fintype.card J))
    have h6 := le_abs_self ((∑ i, a i) * (1 - 1 / (Fintype.card I * Fintype.card J) : ℝ))
    linarith

/-- **C29 refuted for the returned plan.** One source point, two target points, cost 10, `reg = 1`, the default `tau = 1000`, iteration limit 1: the only update makes
`v = exp(10)/2 > tau`, the absorption resets the scalings, and the returned plan is `1/4, 1/4` instead of the Sinkhorn plan `1/2, 1/2`. -/
theorem C29_returned_plan_refuted :
    let r := sinkhornStabilized (fun _ : Fin 1 => (1 : ℝ)) (fun _ : Fin 2 => (1 / 2 : ℝ)) (fun _ _ => 10) 1 1000 0 1 10 none
    ∀ i j, getGamma (fun _ _ => 10) 1 r.s i j = 1 / 4 ∧
      plan (kernel (fun _ _ => 10) 1) (knoppStep (fun _ : Fin 1 => (1 : ℝ)) (fun _ : Fin 2 => (1 / 2 : ℝ))
        (kernel (fun _ _ => 10) 1) (plainStart 1 none)) i j = 1 / 2 := by
  intro r i j
  have ha : ∀ i : Fin 1, (0 : ℝ) < 1 := fun _ => one_pos
  have hb : ∀ j : Fin 2, (0 : ℝ) < 1 / 2 := fun _ => by norm_num
  have hplain : ∀ i j, plan (kernel (fun _ _ => 10) 1) (knoppStep (fun _ : Fin 1 => (1 : ℝ)) (fun _ : Fin 2 => (1 / 2 : ℝ))
        (kernel (fun _ _ => 10) 1) (plainStart 1 none)) i j = 1 / 2 := by
    intro i j
    have he := (Real.exp_pos (10 / -1)).ne'
    unfold plan
    rw [knoppStep_u]
    simp only [knoppStep_v, kernel, plainStart, Fin.sum_univ_two, univ_unique, sum_singleton, Option.getD_none]
    rw [zero_div, Real.exp_zero]
    field_simp
    norm_num
  refine ⟨?_, hplain i j⟩
  have hexp : (2000 : ℝ) < Real.exp 10 := by
    have h1 := Real.exp_one_gt_d9
    have h2 : Real.exp 10 = Real.exp 1 ^ 10 := by rw [← Real.exp_nat_mul]; norm_num
    rw [h2]
    calc (2000 : ℝ) < 2.7 ^ 10 := by norm_num
      _ ≤ Real.exp 1 ^ 10 := pow_le_pow_left₀ (by norm_num) (by linarith) 10
  have hmust : mustAbsorb 1000 (stabUpdate (fun _ : Fin 1 => (1 : ℝ)) (fun _ : Fin 2 => (1 / 2 : ℝ)) (fun _ _ => 10) 1 (stabInit none)) := by
    right
    refine ⟨0, ?_⟩
    have e : (stabUpdate (fun _ : Fin 1 => (1 : ℝ)) (fun _ : Fin 2 => (1 / 2 : ℝ)) (fun _ _ => 10) 1 (stabInit none)).v 0
        = Real.exp 10 / 2 := by
      simp only [stabUpdate, getK, stabInit, Option.getD_none, univ_unique, sum_singleton, Fintype.card_unique]
      norm_num
      rw [Real.exp_neg]
      field_simp
    rw [e, abs_of_pos (by positivity)]
    linarith
  have e : r.s = stabStep (fun _ : Fin 1 => (1 : ℝ)) (fun _ : Fin 2 => (1 / 2 : ℝ)) (fun _ _ => 10) 1 1000 (stabInit none) := by
    simp only [r, sinkhornStabilized, stabLoop]
    split_ifs <;> rfl
  rw [e]
  unfold stabStep
  dsimp only
  rw [if_pos hmust, absorb_gamma one_ne_zero (update_pos ha hb fun i => by simp [stabInit])]
  have := C29_absorption_neutral (fun _ : Fin 1 => (1 : ℝ)) (fun _ : Fin 2 => (1 / 2 : ℝ)) (fun _ _ => 10) 1 one_ne_zero 1000 none ha hb 0
  rw [Function.iterate_zero, id] at this
  rw [this, zero_add, Function.iterate_one, hplain]
  norm_num

/-! ## C31 -/

/-- **C31.** For `reg < epsilon0` the schedule of `sinkhorn_epsilon_scaling` starts at `epsilon0`, decreases strictly, stays above `reg`, never exceeds
`epsilon0`, and tends to `reg`; the excess over `reg` in iteration `n` is exactly `(epsilon0 - reg) exp(-n)`. -/
theorem C31_schedule (epsilon0 reg : ℝ) (h : reg < epsilon0) :
    getReg epsilon0 reg 0 = epsilon0 ∧ StrictAnti (getReg epsilon0 reg) ∧ (∀ n, reg < getReg epsilon0 reg n ∧ getReg epsilon0 reg n ≤ epsilon0) ∧
    (∀ n, getReg epsilon0 reg n - reg = (epsilon0 - reg) * Real.exp (-n)) ∧ Tendsto (getReg epsilon0 reg) atTop (𝓝 reg) := by
  have hd : 0 < epsilon0 - reg := sub_pos.2 h
  have h0 : getReg epsilon0 reg 0 = epsilon0 := by simp [getReg]
  have hanti : StrictAnti (getReg epsilon0 reg) := by
    intro m n hmn
    unfold getReg
    have : Real.exp (-(n : ℝ)) < Real.exp (-(m : ℝ)) := Real.exp_lt_exp.2 (neg_lt_neg (by exact_mod_cast hmn))
    nlinarith
  refine ⟨h0, hanti, fun n => ⟨?_, ?_⟩, fun n => ?_, ?_⟩
  · unfold getReg
    have := mul_pos hd (Real.exp_pos (-(n : ℝ)))
    linarith
  · calc getReg epsilon0 reg n ≤ getReg epsilon0 reg 0 := hanti.antitone (Nat.zero_le n)
      _ = epsilon0 := h0
  · unfold getReg; ring
  · have h1 : Tendsto (fun n : ℕ => Real.exp (-(n : ℝ))) atTop (𝓝 0) :=
      (Real.tendsto_exp_neg_atTop_nhds_zero).comp tendsto_natCast_atTop_atTop
    have h2 := (h1.const_mul (epsilon0 - reg)).add_const reg
    rw [mul_zero, zero_add] at h2
    exact h2

theorem epsLoop_spec {a : I → ℝ} {b : J → ℝ} {M : I → J → ℝ} {reg epsilon0 tau thr : ℝ} {inner period : ℕ} (n ii : ℕ) (err : ℝ)
    (s : ((I → ℝ) × (J → ℝ)) × (I → J → ℝ)) (hn : 0 < n) :
    let r := epsLoop a b M reg epsilon0 tau thr inner period n ii err s
    ∃ w, r.s = epsStep a b M reg epsilon0 tau thr inner r.niter w ∧ (r.exit = .exhausted → r.niter + 1 = ii + n) ∧
      r.exit ≠ .numerical ∧ (r.exit = .converged → 35 < r.niter) := by
  induction n generalizing ii err s with
  | zero => omega
  | succ n ih =>
    intro r
    obtain ⟨err', herr⟩ : ∃ e, (if ii % period = 0 then norm2 (fun j => ∑ i, (epsStep a b M reg epsilon0 tau thr inner ii s.1).2 i j - b j) ^ 2
      + norm2 (fun i => ∑ j, (epsStep a b M reg epsilon0 tau thr inner ii s.1).2 i j - a i) ^ 2 else err) = e := ⟨_, rfl⟩
    by_cases hst : err' ≤ thr ∧ 35 < ii
    · have : r = ⟨epsStep a b M reg epsilon0 tau thr inner ii s.1, ii, .converged⟩ := by
        simp only [r, epsLoop, herr, if_pos hst]
      rw [this]
      exact ⟨s.1, rfl, by simp, by simp, fun _ => hst.2⟩
    · have e : r = epsLoop a b M reg epsilon0 tau thr inner period n (ii + 1) err' (epsStep a b M reg epsilon0 tau thr inner ii s.1) := by
        simp only [r, epsLoop, herr, if_neg hst]
      cases n with
      | zero =>
        rw [e]
        exact ⟨s.1, rfl, by simp [epsLoop], by simp [epsLoop], by simp [epsLoop]⟩
      | succ n =>
        obtain ⟨w, h1, h2, h3, h4⟩ := ih (ii + 1) err' (epsStep a b M reg epsilon0 tau thr inner ii s.1) (by omega)
        rw [e]
        exact ⟨w, h1, fun h => by rw [h2 h]; omega, h3, h4⟩

/-- **C31, the returned plan.** The plan returned by `sinkhorn_epsilon_scaling` is the result of a stabilised run at a regularisation that exceeds the
requested one by a positive amount of at most `(epsilon0 - reg) exp(-34)` (so it is never exactly the requested one). -/
theorem C31_final_regularisation (a : I → ℝ) (b : J → ℝ) (M : I → J → ℝ) (reg epsilon0 tau thr : ℝ) (numItermax inner period : ℕ)
    (warm : Option ((I → ℝ) × (J → ℝ))) (h : reg < epsilon0) :
    let r := sinkhornEpsilonScaling a b M reg epsilon0 tau thr numItermax inner period warm
    ∃ regf w, reg < regf ∧ regf - reg ≤ (epsilon0 - reg) * Real.exp (-34) ∧
      r.s.2 = getGamma M regf (sinkhornStabilized a b M regf tau thr inner 20 (some w)).s := by
  intro r
  obtain ⟨w, h1, h2, h3, h4⟩ := epsLoop_spec (a := a) (b := b) (M := M) (reg := reg) (epsilon0 := epsilon0) (tau := tau) (thr := thr)
    (inner := inner) (period := period) (max 35 numItermax) 0 1 (warm.getD (fun _ => 0, fun _ => 0), fun _ _ => 0) (by omega)
  have hn : 34 ≤ r.niter := by
    rcases hx : r.exit with _ | _ | _
    · have := h4 hx
      change 34 ≤ (epsLoop a b M reg epsilon0 tau thr inner period (max 35 numItermax) 0 1 _).niter
      omega
    · have := h2 hx
      change 34 ≤ (epsLoop a b M reg epsilon0 tau thr inner period (max 35 numItermax) 0 1 _).niter
      omega
    · exact absurd hx h3
  have hs := C31_schedule epsilon0 reg h
  refine ⟨getReg epsilon0 reg r.niter, w, (hs.2.2.1 _).1, ?_, ?_⟩
  · rw [hs.2.2.2.1]
    refine mul_le_mul_of_nonneg_left (Real.exp_le_exp.2 (neg_le_neg ?_)) (sub_pos.2 h).le
    exact_mod_cast hn
  · have e : r.s = _ := h1
    rw [e]
    rfl

/-- Non-vacuity of C31. -/
example : getReg 10000 (1 / 10) 3 < getReg 10000 (1 / 10) 2 := (C31_schedule 10000 (1 / 10) (by norm_num)).2.1 (by norm_num)

/-- Non-vacuity of `C29_converged`: a run that ends by its test (constant cost, two points each, threshold 0). -/
example : (sinkhornStabilized (fun _ : Fin 2 => (1 / 2 : ℝ)) (fun _ : Fin 2 => (1 / 2 : ℝ)) (fun _ _ => 0) 1 1000 0 5 10 none).exit = .converged ∧
    Real.sqrt (Fintype.card (Fin 2)) * 0 < (∑ _i : Fin 2, (1 / 2 : ℝ)) * (1 - 1 / (Fintype.card (Fin 2) * Fintype.card (Fin 2))) := by
  have hu : stabUpdate (fun _ : Fin 2 => (1 / 2 : ℝ)) (fun _ : Fin 2 => (1 / 2 : ℝ)) (fun _ _ => 0) 1 (stabInit none)
      = ⟨fun _ => 0, fun _ => 0, fun _ => 1 / 2, fun _ => 1 / 2⟩ := by
    simp only [stabUpdate, getK, stabInit, Option.getD_none, Fin.sum_univ_two]
    norm_num
  have hs : stabStep (fun _ : Fin 2 => (1 / 2 : ℝ)) (fun _ : Fin 2 => (1 / 2 : ℝ)) (fun _ _ => 0) 1 1000 (stabInit none)
      = ⟨fun _ => 0, fun _ => 0, fun _ => 1 / 2, fun _ => 1 / 2⟩ := by
    unfold stabStep
    dsimp only
    rw [if_neg]
    · exact hu
    · rw [hu]
      rintro (⟨i, h⟩ | ⟨j, h⟩) <;> norm_num at h
  have he : stabErr (fun _ : Fin 2 => (1 / 2 : ℝ)) (fun _ _ => 0) 1
      (⟨fun _ => 0, fun _ => 0, fun _ => 1 / 2, fun _ => 1 / 2⟩ : Stab (Fin 2) (Fin 2)) = 0 := by
    unfold stabErr norm2
    rw [getGamma_eq ⟨fun i => by norm_num, fun j => by norm_num⟩]
    simp only [plan, total, kernel, Fin.sum_univ_two]
    norm_num
  refine ⟨?_, by rw [Fin.sum_univ_two]; norm_num⟩
  unfold sinkhornStabilized stabLoop
  simp only [hs, Nat.zero_mod, if_true, he, le_refl]

end POT.Props
