import Verif.Lemmas.EntBaryConv
import Verif.Lemmas.SinkhornOpt
import Mathlib.Data.Fin.VecNotation
import Mathlib.Tactic.NormNum
import Mathlib.Tactic.FinCases

/-! # C83: entropic barycenters (`ot.bregman.barycenter`) -/

set_option linter.unusedSectionVars false

namespace POT.Props

open Finset Spec Sinkhorn EntBary Filter Topology

variable {I S : Type*} [Fintype I] [Fintype S] [Nonempty I] [Nonempty S]

/-- the columns of `A` are histograms -/
def IsHists (A : I → S → ℝ) : Prop := (∀ i s, 0 ≤ A i s) ∧ ∀ s, ∑ i, A i s = 1

/-- positive barycentric weights -/
def IsWeights (w : S → ℝ) : Prop := (∀ s, 0 < w s) ∧ ∑ s, w s = 1

theorem uniform_weights : IsWeights (uniform : S → ℝ) := by
  have : (0 : ℝ) < Fintype.card S := by exact_mod_cast Fintype.card_pos
  refine ⟨fun s => by unfold uniform; positivity, ?_⟩
  unfold uniform
  rw [sum_const, card_univ, nsmul_eq_mul]
  field_simp

theorem ok_kernel {M : I → I → ℝ} {reg : ℝ} {A : I → S → ℝ} {w : S → ℝ} (hA : IsHists A) (hw : IsWeights w) : Ok (kernel M reg) A w :=
  ⟨fun _ _ => Real.exp_pos _, hA.1, hA.2, hw.1, hw.2⟩

theorem kernel_spread {M : I → I → ℝ} {reg m₀ m₁ : ℝ} (hreg : 0 < reg) (h0 : ∀ i j, m₀ ≤ M i j) (h1 : ∀ i j, M i j ≤ m₁) : Spread (kernel M reg) ((m₁ - m₀) / reg) := by
  intro i j i' j'
  unfold kernel
  rw [← Real.exp_add, Real.exp_le_exp, div_neg, div_neg, ← sub_eq_add_neg, ← sub_div, neg_eq_zero_sub, ← zero_div reg, ← sub_div]
  refine div_le_div_of_nonneg_right ?_ hreg.le
  have := h0 i j
  have := h1 i' j'
  linarith

theorem exists_bounds (M : I → I → ℝ) : ∃ m₀ m₁, (∀ i j, m₀ ≤ M i j) ∧ ∀ i j, M i j ≤ m₁ := by
  refine ⟨-∑ x : I × I, |M x.1 x.2|, ∑ x : I × I, |M x.1 x.2|, fun i j => ?_, fun i j => ?_⟩
  · have := single_le_sum (f := fun x : I × I => |M x.1 x.2|) (fun _ _ => abs_nonneg _) (mem_univ (i, j))
    have h2 := neg_abs_le (M i j)
    simp only at this
    linarith
  · exact (le_abs_self _).trans (single_le_sum (f := fun x : I × I => |M x.1 x.2|) (fun _ _ => abs_nonneg _) (mem_univ (i, j)))

theorem objective_eq {M : I → I → ℝ} {reg : ℝ} (hreg : 0 < reg) {w : S → ℝ} (Q : S → I → I → ℝ) :
    entBaryObjective w M reg Q = reg * ∑ s, w s * obj1 (kernel M reg) (Q s) := by
  unfold entBaryObjective
  rw [mul_sum]
  refine sum_congr rfl fun s _ => ?_
  unfold entropicObjective obj1 cost
  have e : ∀ i j, Q s i j * Real.log (Q s i j / kernel M reg i j) = Q s i j * Real.log (Q s i j) + Q s i j * M i j / reg := by
    intro i j
    by_cases hq : Q s i j = 0
    · simp [hq]
    · rw [Real.log_div hq (show kernel M reg i j ≠ 0 from (Real.exp_pos _).ne'), log_kernel]; ring
  simp_rw [e, sum_add_distrib, ← sum_div]
  field_simp
  ring

/-- existence and uniqueness, and the form of the solution -/
theorem bary_of_fixed {M : I → I → ℝ} {reg : ℝ} (hreg : 0 < reg) {A : I → S → ℝ} (hA : IsHists A) {w : S → ℝ} (hw : IsWeights w) {u : I → S → ℝ} (hu : ∀ j s, 0 < u j s) (hb : Bal w u)
    {b : I → ℝ} (he : ∀ j s, ukv (kernel M reg) A u j s = b j) :
    IsEntropicBarycenter (fun s i => A i s) w M reg b (fun s => planU (kernel M reg) A u s) := by
  have h := ok_kernel (M := M) (reg := reg) hA hw
  obtain ⟨h1, h2⟩ := optimal_of_fixed h hu hb he
  refine ⟨h1, fun q Q hQ => ?_⟩
  have h3 := h2 q Q hQ
  have hn : ∀ s, 0 ≤ w s * klPlan (Q s) (planU (kernel M reg) A u s) := fun s => mul_nonneg (hw.1 s).le (EntBary.klPlan_nonneg h hu s (hQ s).nonneg (hQ s).row)
  rw [objective_eq hreg, objective_eq hreg]
  refine ⟨mul_le_mul_of_nonneg_left ?_ hreg.le, fun hle => ?_⟩
  · rw [h3]
    exact le_add_of_nonneg_right (sum_nonneg fun s _ => hn s)
  · have h4 := le_of_mul_le_mul_left hle hreg
    rw [h3] at h4
    have h5 : ∑ s, w s * klPlan (Q s) (planU (kernel M reg) A u s) = 0 := le_antisymm (by linarith) (sum_nonneg fun s _ => hn s)
    have h6 : Q = fun s => planU (kernel M reg) A u s := by
      funext s i j
      have h7 := (sum_eq_zero_iff_of_nonneg fun s _ => hn s).1 h5 s (mem_univ s)
      have h8 := (mul_eq_zero.1 h7).resolve_left (hw.1 s).ne'
      have h9 := kl_eq_zero' (p := fun x : I × I => Q s x.1 x.2) (q := fun x : I × I => planU (kernel M reg) A u s x.1 x.2) (fun x => (hQ s).nonneg _ _) (fun x => plan_nonneg h hu s _ _)
        (fun x e => row_zero (hQ s).nonneg (hQ s).row (plan_zero h hu e) _) h8.le
      exact congrFun h9 (i, j)
    refine ⟨?_, h6⟩
    obtain ⟨s⟩ := ‹Nonempty S›
    funext j
    rw [← (hQ s).col j, h6, (h1 s).col j]

theorem bary_unique {a : S → I → ℝ} {w : S → ℝ} {M : I → I → ℝ} {reg : ℝ} {q q' : I → ℝ} {P P' : S → I → I → ℝ} (h : IsEntropicBarycenter a w M reg q P)
    (h' : IsEntropicBarycenter a w M reg q' P') : q' = q ∧ P' = P :=
  (h.2 q' P' h'.1).2 (h'.2 q P h.1).1

/-! ### runs of the loop -/

theorem step_u (K : I → I → ℝ) (A : I → S → ℝ) (w : S → ℝ) (x : State I S) (k : ℕ) : ((step K A w)^[k] x).u = (upd K A w)^[k] x.u := by
  induction k generalizing x with
  | zero => rfl
  | succ k ih => rw [Function.iterate_succ_apply, Function.iterate_succ_apply, ih]; rfl

theorem step_ukv (K : I → I → ℝ) (A : I → S → ℝ) (w : S → ℝ) (x : State I S) (k : ℕ) : ((step K A w)^[k + 1] x).UKv = ukv K A ((upd K A w)^[k] x.u) := by
  rw [Function.iterate_succ_apply', ← step_u]; rfl

/-- the loop from a given start -/
noncomputable def runFrom (K : I → I → ℝ) (A : I → S → ℝ) (w : S → ℝ) (thr : ℝ) (n : ℕ) (x : State I S) : Run (State I S) :=
  loop (step K A w) (fun _ => False) (fun ii _ x => ii % 10 = 1 ∧ stdErr x.UKv < thr) n 0 x

theorem stdErr_nonneg (X : I → S → ℝ) : 0 ≤ stdErr X := sum_nonneg fun _ _ => Real.sqrt_nonneg _

theorem runFrom_zero (K : I → I → ℝ) (A : I → S → ℝ) (w : S → ℝ) (n : ℕ) (x : State I S) : (runFrom K A w 0 n x).s = (step K A w)^[n] x := by
  obtain ⟨k, -, h1, -, -, h3, h4, h5⟩ := loop_spec (step := step K A w) (bad := fun _ => False) (stop := fun ii _ x => ii % 10 = 1 ∧ stdErr x.UKv < 0) n 0 x
  unfold runFrom
  rw [h1]
  cases hE : (loop (step K A w) (fun _ => False) (fun ii _ x => ii % 10 = 1 ∧ stdErr x.UKv < 0) n 0 x).exit with
  | exhausted => rw [h3 hE]
  | converged =>
    obtain ⟨l, -, -, h6⟩ := h4 hE
    exact absurd h6.2 (not_lt.2 (stdErr_nonneg _))
  | numerical => exact absurd (h5 hE).2 id

theorem runFrom_converges {M : I → I → ℝ} {reg : ℝ} (hreg : 0 < reg) {A : I → S → ℝ} (hA : IsHists A) {w : S → ℝ} (hw : IsWeights w) {x : State I S} (hu : ∀ j s, 0 < x.u j s) (hb : Bal w x.u) :
    ∃ q P, IsEntropicBarycenter (fun s i => A i s) w M reg q P ∧ ∀ j, Tendsto (fun n => geometricBar w (runFrom (kernel M reg) A w 0 n x).s.UKv j) atTop (𝓝 (q j)) := by
  have h := ok_kernel (M := M) (reg := reg) hA hw
  obtain ⟨m₀, m₁, h0, h1⟩ := exists_bounds M
  have hc := kernel_spread hreg h0 h1
  obtain ⟨u', hu', hb', ho', he⟩ := exists_fixed h hc
  refine ⟨_, _, bary_of_fixed hreg hA hw hu' hb' he, fun j => ?_⟩
  rw [← tendsto_add_atTop_iff_nat 2]
  have e : ∀ n, geometricBar w (runFrom (kernel M reg) A w 0 (n + 2) x).s.UKv j = bar (kernel M reg) A w ((upd (kernel M reg) A w)^[n] (upd (kernel M reg) A w x.u)) j := by
    intro n
    rw [runFrom_zero, step_ukv, Function.iterate_succ_apply]; rfl
  simp_rw [e]
  have p1 := upd_pos h hu
  have b1 : Bal w (upd (kernel M reg) A w x.u) := fun j => by rw [upd_inv h hu, hb j]
  have o1 := upd_osc h hu hb hc
  have hs := spreadErr_tendsto h p1 b1 hc o1
  have hs2 : Tendsto (fun n => spreadErr (kernel M reg) A w ((upd (kernel M reg) A w)^[n] (upd (kernel M reg) A w x.u))
      + 2 * Real.sqrt (4 * ((m₁ - m₀) / reg) * spreadErr (kernel M reg) A w ((upd (kernel M reg) A w)^[n] (upd (kernel M reg) A w x.u)))) atTop (𝓝 0) := by
    have h2 := (hs.const_mul (4 * ((m₁ - m₀) / reg)))
    rw [mul_zero] at h2
    have h3 := ((Real.continuous_sqrt.tendsto 0).comp h2).const_mul 2
    have h4 := hs.add h3
    simpa using h4
  rw [tendsto_iff_norm_sub_tendsto_zero]
  refine squeeze_zero (fun _ => norm_nonneg _) (fun n => ?_) hs2
  refine le_trans ?_ (bar_dist h (iter_pos h p1 n) (iter_bal h p1 b1 n) (iter_osc h p1 b1 hc o1 n) hu' hb' ho' he)
  rw [Real.norm_eq_abs]
  exact single_le_sum (f := fun j => |bar (kernel M reg) A w ((upd (kernel M reg) A w)^[n] (upd (kernel M reg) A w x.u)) j - bar (kernel M reg) A w u' j|) (fun _ _ => abs_nonneg _) (mem_univ j)

theorem runFrom_stops {M : I → I → ℝ} {reg m₀ m₁ : ℝ} (hreg : 0 < reg) (h0 : ∀ i j, m₀ ≤ M i j) (h1 : ∀ i j, M i j ≤ m₁) {A : I → S → ℝ} (hA : IsHists A) {w : S → ℝ} (hw : IsWeights w) {m : ℝ}
    (hm : 0 < m) (hmw : ∀ s, m ≤ w s) {x : State I S} (hu : ∀ j s, 0 < x.u j s) (hb : Bal w x.u) (ho : Osc x.u (2 * ((m₁ - m₀) / reg))) {thr : ℝ} (hthr : 0 < thr) (T : ℕ)
    (hT : 4 * (Real.log (Fintype.card I) + 4 * ((m₁ - m₀) / reg)) < T * (Fintype.card S * m ^ 2 * thr ^ 2)) {n : ℕ} (hn : 10 * T ≤ n) :
    (runFrom (kernel M reg) A w thr n x).exit = .converged := by
  have h := ok_kernel (M := M) (reg := reg) hA hw
  obtain ⟨t, ht, he⟩ := EntBary.some_check h hu hb (kernel_spread hreg h0 h1) ho hm hmw hthr T hT
  refine loop_stops n 0 x (fun _ => id) (10 * t + 1) (by omega) ⟨by omega, ?_⟩
  rw [step_ukv]
  exact he

theorem runFrom_accuracy {M : I → I → ℝ} {reg m₀ m₁ : ℝ} (hreg : 0 < reg) (h0 : ∀ i j, m₀ ≤ M i j) (h1 : ∀ i j, M i j ≤ m₁) {A : I → S → ℝ} (hA : IsHists A) {w : S → ℝ} (hw : IsWeights w)
    {x : State I S} (hu : ∀ j s, 0 < x.u j s) (hb : Bal w x.u) (ho : Osc x.u (2 * ((m₁ - m₀) / reg))) {thr : ℝ} {n : ℕ} (hx : (runFrom (kernel M reg) A w thr n x).exit = .converged)
    {q : I → ℝ} {P : S → I → I → ℝ} (hq : IsEntropicBarycenter (fun s i => A i s) w M reg q P) :
    ∑ j, |geometricBar w (runFrom (kernel M reg) A w thr n x).s.UKv j - q j|
      ≤ 2 * Real.sqrt (Fintype.card S) * thr + 2 * Real.sqrt (4 * ((m₁ - m₀) / reg) * (2 * Real.sqrt (Fintype.card S) * thr)) := by
  have h := ok_kernel (M := M) (reg := reg) hA hw
  have hc := kernel_spread hreg h0 h1
  obtain ⟨u', hu', hb', ho', he⟩ := exists_fixed h hc
  rw [(bary_unique (bary_of_fixed hreg hA hw hu' hb' he) hq).1]
  obtain ⟨k, -, e1, -, -, -, e4, -⟩ := loop_spec (step := step (kernel M reg) A w) (bad := fun _ => False) (stop := fun ii _ x => ii % 10 = 1 ∧ stdErr x.UKv < thr) n 0 x
  obtain ⟨l, rfl, -, -, e5⟩ := e4 hx
  have e6 : (runFrom (kernel M reg) A w thr n x).s.UKv = ukv (kernel M reg) A ((upd (kernel M reg) A w)^[l] x.u) := by
    rw [← step_ukv, ← e1]; rfl
  rw [step_ukv] at e5
  rw [e6]
  have hp := iter_pos h hu l
  have h2 := bar_dist h hp (iter_bal h hu hb l) (iter_osc h hu hb hc ho l) hu' hb' ho' he
  have h3 : spreadErr (kernel M reg) A w ((upd (kernel M reg) A w)^[l] x.u) ≤ 2 * Real.sqrt (Fintype.card S) * thr :=
    (spread_le_std h hp).trans (mul_le_mul_of_nonneg_left e5.le (by positivity))
  have hc0 := spread_nonneg h.kpos hc
  refine h2.trans (add_le_add h3 (mul_le_mul_of_nonneg_left (Real.sqrt_le_sqrt (mul_le_mul_of_nonneg_left h3 (by linarith))) (by norm_num)))

/-! ### `barycenter_sinkhorn` -/

theorem ukv0_pos {M : I → I → ℝ} {reg : ℝ} {A : I → S → ℝ} (hA : IsHists A) (i : I) (s : S) : 0 < dotK (kernel M reg) (fun j s => A j s / ∑ i, kernel M reg i j) i s := by
  have hK : ∀ i j, 0 < kernel M reg i j := fun _ _ => Real.exp_pos _
  have hS : ∀ j, 0 < ∑ i, kernel M reg i j := fun j => sum_pos (fun i _ => hK i j) univ_nonempty
  obtain ⟨j, -, hj⟩ : ∃ j ∈ univ, 0 < A j s := by
    by_contra hc
    push Not at hc
    have := sum_nonpos hc
    rw [hA.2] at this
    linarith
  exact sum_pos' (fun j _ => mul_nonneg (hK i j).le (div_nonneg (hA.1 j s) (hS j).le)) ⟨j, mem_univ j, mul_pos (hK i j) (div_pos hj (hS j))⟩

theorem initU_pos {M : I → I → ℝ} {reg : ℝ} {A : I → S → ℝ} (hA : IsHists A) (i : I) (s : S) : 0 < initU (kernel M reg) A i s :=
  div_pos (Real.exp_pos _) (ukv0_pos hA i s)

theorem log_initU {M : I → I → ℝ} {reg : ℝ} {A : I → S → ℝ} (hA : IsHists A) (i : I) (s : S) :
    Real.log (initU (kernel M reg) A i s) = (∑ r, Real.log (dotK (kernel M reg) (fun j s => A j s / ∑ i, kernel M reg i j) i r)) / Fintype.card S
      - Real.log (dotK (kernel M reg) (fun j s => A j s / ∑ i, kernel M reg i j) i s) := by
  unfold initU geometricMean
  rw [Real.log_div (Real.exp_pos _).ne' (ukv0_pos hA i s).ne', Real.log_exp]

theorem initU_bal {M : I → I → ℝ} {reg : ℝ} {A : I → S → ℝ} (hA : IsHists A) : Bal uniform (initU (kernel M reg) A) := by
  intro j
  have hn : (Fintype.card S : ℝ) ≠ 0 := by exact_mod_cast Fintype.card_ne_zero
  unfold uniform
  simp_rw [log_initU hA]
  rw [← mul_sum, sum_sub_distrib, sum_const, card_univ, nsmul_eq_mul]
  field_simp
  ring

theorem initU_osc {M : I → I → ℝ} {reg m₀ m₁ : ℝ} (hreg : 0 < reg) (h0 : ∀ i j, m₀ ≤ M i j) (h1 : ∀ i j, M i j ≤ m₁) {A : I → S → ℝ} (hA : IsHists A) :
    Osc (initU (kernel M reg) A) (2 * ((m₁ - m₀) / reg)) := by
  have hn : (0 : ℝ) < Fintype.card S := by exact_mod_cast Fintype.card_pos
  have hc := kernel_spread hreg h0 h1
  have hK : ∀ i j, 0 < kernel M reg i j := fun _ _ => Real.exp_pos _
  have hS : ∀ j, 0 < ∑ i, kernel M reg i j := fun j => sum_pos (fun i _ => hK i j) univ_nonempty
  obtain ⟨U, hU⟩ : ∃ U : I → S → ℝ, U = dotK (kernel M reg) (fun j s => A j s / ∑ i, kernel M reg i j) := ⟨_, rfl⟩
  have hUp : ∀ i s, 0 < U i s := fun i s => hU ▸ ukv0_pos hA i s
  have h2 : ∀ i i' s, Real.log (U i s) - Real.log (U i' s) ≤ (m₁ - m₀) / reg := by
    intro i i' s
    have h3 : U i s ≤ Real.exp ((m₁ - m₀) / reg) * U i' s := by
      rw [hU]
      unfold dotK
      rw [mul_sum]
      refine sum_le_sum fun j _ => ?_
      rw [← mul_assoc]
      exact mul_le_mul_of_nonneg_right (hc _ _ _ _) (div_nonneg (hA.1 j s) (hS j).le)
    have h4 := Real.log_le_log (hUp i s) h3
    rw [Real.log_mul (Real.exp_pos _).ne' (hUp i' s).ne', Real.log_exp] at h4
    linarith
  intro i i' s
  rw [log_initU hA, log_initU hA, ← hU]
  have h5 : (∑ r, Real.log (U i r)) / Fintype.card S - (∑ r, Real.log (U i' r)) / Fintype.card S ≤ (m₁ - m₀) / reg := by
    rw [← sub_div, ← sum_sub_distrib, div_le_iff₀ hn]
    refine (sum_le_sum fun r _ => h2 i i' r).trans (le_of_eq ?_)
    rw [sum_const, card_univ, nsmul_eq_mul, mul_comm]
  have h6 := h2 i' i s
  linarith

/-- `barycenter(method="sinkhorn")` without `weights`: the results for increasing `numItermax` converge to the entropic barycenter. -/
theorem C83_sinkhorn_converges {M : I → I → ℝ} {reg : ℝ} (hreg : 0 < reg) {A : I → S → ℝ} (hA : IsHists A) :
    ∃ q P, IsEntropicBarycenter (fun s i => A i s) uniform M reg q P ∧ ∀ j, Tendsto (fun n => barycenterSinkhorn M reg A uniform 0 n j) atTop (𝓝 (q j)) :=
  runFrom_converges hreg hA uniform_weights (x := { u := initU (kernel M reg) A, UKv := _ }) (initU_pos hA) (initU_bal hA)

/-- The tolerance is reached after an explicit number of iterations. -/
theorem C83_sinkhorn_stops {M : I → I → ℝ} {reg m₀ m₁ : ℝ} (hreg : 0 < reg) (h0 : ∀ i j, m₀ ≤ M i j) (h1 : ∀ i j, M i j ≤ m₁) {A : I → S → ℝ} (hA : IsHists A) {thr : ℝ} (hthr : 0 < thr) (T : ℕ)
    (hT : 4 * Fintype.card S * (Real.log (Fintype.card I) + 4 * ((m₁ - m₀) / reg)) < T * thr ^ 2) {n : ℕ} (hn : 10 * T ≤ n) :
    (EntBary.run M reg A uniform thr n).exit = .converged := by
  have hS : (0 : ℝ) < Fintype.card S := by exact_mod_cast Fintype.card_pos
  refine runFrom_stops hreg h0 h1 hA uniform_weights (x := { u := initU (kernel M reg) A, UKv := _ }) (m := 1 / Fintype.card S) (by positivity) (fun s => le_refl _) (initU_pos hA) (initU_bal hA)
    (initU_osc hreg h0 h1 hA) hthr T ?_ hn
  have e : (T : ℝ) * (Fintype.card S * (1 / Fintype.card S) ^ 2 * thr ^ 2) = T * thr ^ 2 / Fintype.card S := by field_simp
  rw [e, lt_div_iff₀ hS]
  linarith

/-- When the loop ends on the tolerance, the result is close to the barycenter. -/
theorem C83_sinkhorn_accuracy {M : I → I → ℝ} {reg m₀ m₁ : ℝ} (hreg : 0 < reg) (h0 : ∀ i j, m₀ ≤ M i j) (h1 : ∀ i j, M i j ≤ m₁) {A : I → S → ℝ} (hA : IsHists A) {thr : ℝ} {n : ℕ}
    (hx : (EntBary.run M reg A uniform thr n).exit = .converged) {q : I → ℝ} {P : S → I → I → ℝ} (hq : IsEntropicBarycenter (fun s i => A i s) uniform M reg q P) :
    ∑ j, |barycenterSinkhorn M reg A uniform thr n j - q j|
      ≤ 2 * Real.sqrt (Fintype.card S) * thr + 2 * Real.sqrt (4 * ((m₁ - m₀) / reg) * (2 * Real.sqrt (Fintype.card S) * thr)) :=
  runFrom_accuracy hreg h0 h1 hA uniform_weights (x := { u := initU (kernel M reg) A, UKv := _ }) (initU_pos hA) (initU_bal hA) (initU_osc hreg h0 h1 hA) hx hq

/-! ### `_barycenter_sinkhorn_log` -/

/-- relation between the two loops before an iteration -/
def LogRel (w : S → ℝ) (x : State I S) (y : LogState I S) : Prop := (∀ j s, x.u j s = Real.exp (y.G j s)) ∧ ∀ j, ∑ s, w s * y.G j s = 0

/-- … and after it -/
def LogRel' (w : S → ℝ) (x : State I S) (y : LogState I S) : Prop := LogRel w x y ∧ (∀ j s, x.UKv j s = Real.exp (y.GKU j s)) ∧ ∀ j, geometricBar w x.UKv j = Real.exp (y.bar j)

theorem log_step {M : I → I → ℝ} {reg ε : ℝ} {A : I → S → ℝ} (hA : ∀ i s, 0 < A i s + ε) {w : S → ℝ} (hw : ∑ s, w s = 1) {x : State I S} {y : LogState I S} (h : LogRel w x y) :
    LogRel' w (step (kernel M reg) (fun i s => A i s + ε) w x) (logStep ε M reg A w y) := by
  obtain ⟨hu, hb⟩ := h
  have hk : ∀ i j (z : ℝ), Real.exp (-M i j / reg + z) = kernel M reg i j * Real.exp z := fun i j z => by
    rw [Real.exp_add]; unfold kernel; rw [neg_div, div_neg]
  have hd : ∀ i s, dotK (kernel M reg) x.u i s = ∑ j, Real.exp (-M i j / reg + y.G j s) := fun i s => by
    unfold dotK
    exact sum_congr rfl fun j _ => by rw [hk, hu]
  have hdp : ∀ i s, 0 < dotK (kernel M reg) x.u i s := fun i s => by rw [hd]; exact sum_pos (fun j _ => Real.exp_pos _) univ_nonempty
  have hf : ∀ i s, Real.exp (logF ε M reg A y.G i s) = (A i s + ε) / dotK (kernel M reg) x.u i s := by
    intro i s
    unfold logF logsumexp
    rw [Real.exp_sub, Real.exp_log (hA i s), ← hd, Real.exp_log (hdp i s)]
  have hT : ∀ j s, Real.exp ((logStep ε M reg A w y).KU j s) = dotKT (kernel M reg) (fun i s => (A i s + ε) / dotK (kernel M reg) x.u i s) j s := by
    intro j s
    have e1 : (logStep ε M reg A w y).KU j s = Real.log (∑ i, Real.exp (-M i j / reg + logF ε M reg A y.G i s)) := rfl
    rw [e1, Real.exp_log (sum_pos (fun i _ => Real.exp_pos _) univ_nonempty)]
    unfold dotKT
    exact sum_congr rfl fun i _ => by rw [hk, hf]
  have hU : ∀ j s, (step (kernel M reg) (fun i s => A i s + ε) w x).UKv j s = Real.exp ((logStep ε M reg A w y).GKU j s) := by
    intro j s
    have e1 : (step (kernel M reg) (fun i s => A i s + ε) w x).UKv j s = x.u j s * dotKT (kernel M reg) (fun i s => (A i s + ε) / dotK (kernel M reg) x.u i s) j s := rfl
    have e2 : (logStep ε M reg A w y).GKU j s = y.G j s + (logStep ε M reg A w y).KU j s := rfl
    rw [e1, e2, Real.exp_add, hu, hT]
  have hbar : ∀ j, geometricBar w (step (kernel M reg) (fun i s => A i s + ε) w x).UKv j = Real.exp ((logStep ε M reg A w y).bar j) := by
    intro j
    unfold geometricBar
    congr 1
    have e2 : ∀ s, (logStep ε M reg A w y).GKU j s = y.G j s + (logStep ε M reg A w y).KU j s := fun s => rfl
    have e3 : (logStep ε M reg A w y).bar j = ∑ s, w s * (logStep ε M reg A w y).KU j s := rfl
    simp_rw [hU, Real.log_exp, e2, e3, add_mul]
    rw [sum_add_distrib, sum_congr rfl fun s _ => mul_comm (y.G j s) (w s), hb j, zero_add]
    exact sum_congr rfl fun s _ => mul_comm _ _
  refine ⟨⟨fun j s => ?_, fun j => ?_⟩, hU, hbar⟩
  · have e1 : (step (kernel M reg) (fun i s => A i s + ε) w x).u j s
      = x.u j s * geometricBar w (step (kernel M reg) (fun i s => A i s + ε) w x).UKv j / (step (kernel M reg) (fun i s => A i s + ε) w x).UKv j s := rfl
    have e2 : (logStep ε M reg A w y).G j s = (logStep ε M reg A w y).bar j - (logStep ε M reg A w y).KU j s := rfl
    have e3 : (logStep ε M reg A w y).GKU j s = y.G j s + (logStep ε M reg A w y).KU j s := rfl
    rw [e1, e2, hbar, hU, hu, e3, ← Real.exp_add, ← Real.exp_sub]
    congr 1
    ring
  · have e2 : ∀ s, (logStep ε M reg A w y).G j s = (logStep ε M reg A w y).bar j - (logStep ε M reg A w y).KU j s := fun s => rfl
    have e3 : (logStep ε M reg A w y).bar j = ∑ s, w s * (logStep ε M reg A w y).KU j s := rfl
    simp_rw [e2, mul_sub]
    rw [sum_sub_distrib, ← sum_mul, hw, one_mul, e3, sub_self]

/-- The log-domain solver performs the iterations of the other one started at `u = 1`. -/
theorem logRun_eq {M : I → I → ℝ} {reg ε : ℝ} {A : I → S → ℝ} (hA : ∀ i s, 0 < A i s + ε) {w : S → ℝ} (hw : ∑ s, w s = 1) (thr : ℝ) (n : ℕ) :
    (logRun ε M reg A w thr n).exit = (runFrom (kernel M reg) (fun i s => A i s + ε) w thr n { u := fun _ _ => 1, UKv := fun _ _ => 1 }).exit ∧
    (0 < n → ∀ j, barycenterLog ε M reg A w thr n j = geometricBar w (runFrom (kernel M reg) (fun i s => A i s + ε) w thr n { u := fun _ _ => 1, UKv := fun _ _ => 1 }).s.UKv j) := by
  have h := loop_sim (step := step (kernel M reg) (fun i s => A i s + ε) w) (step' := logStep ε M reg A w) (bad := fun _ => False) (bad' := fun _ => False)
    (stop := fun ii _ x => ii % 10 = 1 ∧ stdErr x.UKv < thr) (stop' := fun ii _ x => ii % 10 = 1 ∧ stdErr (fun j k => Real.exp (x.GKU j k)) < thr) (R := LogRel w) (R' := LogRel' w)
    (fun x y h => log_step hA hw h) (fun x y h => h.1) (fun x y _ => Iff.rfl)
    (fun ii x y h => by
      have e : (step (kernel M reg) (fun i s => A i s + ε) w x).UKv = fun j k => Real.exp ((logStep ε M reg A w y).GKU j k) := by
        funext j k
        exact (log_step hA hw h).2.1 j k
      rw [e])
    n 0 { u := fun _ _ => 1, UKv := fun _ _ => 1 } { G := fun _ _ => 0, KU := fun _ _ => 0, bar := fun _ => 0, GKU := fun _ _ => 0 } ⟨fun j s => by simp, fun j => by simp⟩
  refine ⟨h.1.symm, fun hn j => ?_⟩
  exact ((h.2.2.2 hn id).2.2 j).symm

theorem one_bal (w : S → ℝ) : Bal w (fun _ _ => 1 : I → S → ℝ) := fun j => by simp

theorem one_osc {c : ℝ} (hc : 0 ≤ c) : Osc (fun _ _ => 1 : I → S → ℝ) (2 * c) := fun j j' s => by simp; linarith

/-- `barycenter(method="sinkhorn_log")` with any positive weights: the results converge to the entropic barycenter of the (guarded) histograms. -/
theorem C83_log_converges {M : I → I → ℝ} {reg ε : ℝ} (hreg : 0 < reg) {A : I → S → ℝ} (hpos : ∀ i s, 0 < A i s + ε) (hA : IsHists fun i s => A i s + ε) {w : S → ℝ} (hw : IsWeights w) :
    ∃ q P, IsEntropicBarycenter (fun s i => A i s + ε) w M reg q P ∧ ∀ j, Tendsto (fun n => barycenterLog ε M reg A w 0 n j) atTop (𝓝 (q j)) := by
  obtain ⟨q, P, h1, h2⟩ := runFrom_converges (M := M) hreg hA hw (x := { u := fun _ _ => 1, UKv := fun _ _ => 1 }) (fun _ _ => one_pos) (one_bal w)
  refine ⟨q, P, h1, fun j => (h2 j).congr' ?_⟩
  filter_upwards [eventually_gt_atTop 0] with n hn
  exact ((logRun_eq hpos hw.2 0 n).2 hn j).symm

theorem C83_log_stops {M : I → I → ℝ} {reg ε m₀ m₁ : ℝ} (hreg : 0 < reg) (h0 : ∀ i j, m₀ ≤ M i j) (h1 : ∀ i j, M i j ≤ m₁) {A : I → S → ℝ} (hpos : ∀ i s, 0 < A i s + ε)
    (hA : IsHists fun i s => A i s + ε) {w : S → ℝ} (hw : IsWeights w) {m : ℝ} (hm : 0 < m) (hmw : ∀ s, m ≤ w s) {thr : ℝ} (hthr : 0 < thr) (T : ℕ)
    (hT : 4 * (Real.log (Fintype.card I) + 4 * ((m₁ - m₀) / reg)) < T * (Fintype.card S * m ^ 2 * thr ^ 2)) {n : ℕ} (hn : 10 * T ≤ n) :
    (logRun ε M reg A w thr n).exit = .converged := by
  rw [(logRun_eq hpos hw.2 thr n).1]
  have h := ok_kernel (M := M) (reg := reg) hA hw
  exact runFrom_stops hreg h0 h1 hA hw hm hmw (fun _ _ => one_pos) (one_bal w) (one_osc (spread_nonneg h.kpos (kernel_spread hreg h0 h1))) hthr T hT hn

theorem C83_log_accuracy {M : I → I → ℝ} {reg ε m₀ m₁ : ℝ} (hreg : 0 < reg) (h0 : ∀ i j, m₀ ≤ M i j) (h1 : ∀ i j, M i j ≤ m₁) {A : I → S → ℝ} (hpos : ∀ i s, 0 < A i s + ε)
    (hA : IsHists fun i s => A i s + ε) {w : S → ℝ} (hw : IsWeights w) {thr : ℝ} {n : ℕ} (hx : (logRun ε M reg A w thr n).exit = .converged) {q : I → ℝ} {P : S → I → I → ℝ}
    (hq : IsEntropicBarycenter (fun s i => A i s + ε) w M reg q P) :
    ∑ j, |barycenterLog ε M reg A w thr n j - q j| ≤ 2 * Real.sqrt (Fintype.card S) * thr + 2 * Real.sqrt (4 * ((m₁ - m₀) / reg) * (2 * Real.sqrt (Fintype.card S) * thr)) := by
  have hn : 0 < n := by
    rcases Nat.eq_zero_or_pos n with rfl | hn
    · exact absurd hx (by unfold logRun loop; simp)
    · exact hn
  have h := ok_kernel (M := M) (reg := reg) hA hw
  rw [(logRun_eq hpos hw.2 thr n).1] at hx
  simp_rw [(logRun_eq hpos hw.2 thr n).2 hn]
  exact runFrom_accuracy hreg h0 h1 hA hw (fun _ _ => one_pos) (one_bal w) (one_osc (spread_nonneg h.kpos (kernel_spread hreg h0 h1))) hx hq

end POT.Props
