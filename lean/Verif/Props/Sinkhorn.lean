import Verif.Lemmas.SinkhornOpt
import Mathlib.Algebra.BigOperators.Fin
import Mathlib.Tactic.NormNum
import Mathlib.Tactic.FinCases

/-!
# Sinkhorn–Knopp (C25, C26, C27)

`sinkhornKnopp a b M reg numItermax stopThr warm` models `ot.bregman.sinkhorn_knopp` for one target histogram; the matrix it returns is
`plan (kernel M reg) run.s`.
-/

set_option linter.unusedSectionVars false

namespace POT.Props

open Finset Spec Filter Topology Sinkhorn

variable {I J : Type*} [Fintype I] [Fintype J] [Nonempty I] [Nonempty J]

/-! ## C25 -/

/-- **C25.** For all non-negative weights (not all zero, and without zeros in both histograms), all costs, all warm starts and all iteration limits: no
iteration meets a division by zero, the returned scalings are non-negative and positive on the support, and after at least one iteration the plan
is non-negative with row sums exactly `a`, hence of total mass exactly `∑ a`. -/
theorem C25_sinkhorn_knopp (a : I → ℝ) (b : J → ℝ) (M : I → J → ℝ) (reg : ℝ) (n : ℕ) (thr : ℝ) (warm : Option ((I → ℝ) × (J → ℝ)))
    (ha : ∀ i, 0 ≤ a i) (ha' : ∃ i, 0 < a i) (hb : ∀ j, 0 ≤ b j) (hb' : ∃ j, 0 < b j) (hz : (∀ i, 0 < a i) ∨ ∀ j, 0 < b j) :
    let r := sinkhornKnopp a b M reg n thr warm
    let P := plan (kernel M reg) r.s
    r.exit ≠ .numerical ∧ (0 < n → (∀ i, ∑ j, P i j = a i) ∧ (∑ i, ∑ j, P i j = ∑ i, a i) ∧ (∀ i j, 0 ≤ P i j) ∧
      ∀ i j, 0 < a i → 0 < b j → 0 < r.s.u i ∧ 0 < r.s.v j ∧ 0 < P i j) := by
  intro r P
  have hK := kernel_pos M reg
  have hA : Weights a := ⟨ha, ha'⟩
  have hB : Weights b := ⟨hb, hb'⟩
  have hg0 : Good (knoppInit warm : UV I J) := good_of_pos (knoppInit_pos warm).1
  have hg := knoppIter_good (a := a) (b := b) hK hA hB hg0
  obtain ⟨k, hk, e, -, -, x1, x2, x3⟩ := loop_spec (step := knoppStep a b (kernel M reg)) (bad := knoppBad a b (kernel M reg))
    (stop := fun ii _ s => ii % 10 = 0 ∧ colErr b (kernel M reg) s < thr) n 0 (knoppInit warm)
  have hnum : r.exit ≠ .numerical := fun h => not_knoppBad hK hB hz (hg k) (x3 h).2
  refine ⟨hnum, fun hn => ?_⟩
  have hk0 : ∃ l, k = l + 1 := by
    rcases h : r.exit with _ | _ | _
    · obtain ⟨l, hl, -⟩ := x2 h
      exact ⟨l, hl⟩
    · exact ⟨n - 1, by rw [x1 h]; omega⟩
    · exact absurd h hnum
  obtain ⟨l, rfl⟩ := hk0
  have e' : r.s = knoppStep a b (kernel M reg) ((knoppStep a b (kernel M reg))^[l] (knoppInit warm)) := by
    exact e.trans (Function.iterate_succ_apply' _ _ _)
  have hrow : ∀ i, ∑ j, P i j = a i := by
    intro i
    change ∑ j, plan (kernel M reg) r.s i j = a i
    rw [e']
    exact knoppStep_rows hK hB (hg l) i
  refine ⟨hrow, sum_congr rfl fun i _ => hrow i, fun i j => ?_, fun i j hi hj => ?_⟩
  · change 0 ≤ plan (kernel M reg) r.s i j
    rw [e']
    exact mul_nonneg (mul_nonneg ((knoppStep_good hK hA hB (hg l)).u_nonneg i) (hK i j).le) (knoppStep_v_nonneg hK hB (hg l) j)
  · have h1 : 0 < r.s.u i := by rw [e']; exact knoppStep_u_pos hK hB (hg l) hi
    have h2 : 0 < r.s.v j := by rw [e']; exact knoppStep_v_pos hK (hg l) hj
    exact ⟨h1, h2, mul_pos (mul_pos h1 (hK i j)) h2⟩

/-- **C25, every iterate.** The same for the state after any number of iterations, from any positive starting scalings and for any positive kernel. -/
theorem C25_every_iterate (a : I → ℝ) (b : J → ℝ) (K : I → J → ℝ) (hK : ∀ i j, 0 < K i j) (ha : ∀ i, 0 < a i) (hb : ∀ j, 0 < b j)
    (s : UV I J) (hs : ∀ i, 0 < s.u i) (k : ℕ) :
    let t := (knoppStep a b K)^[k + 1] s
    (∀ i, 0 < t.u i) ∧ (∀ j, 0 < t.v j) ∧ ∀ i, ∑ j, t.u i * K i j * t.v j = a i := by
  have hA := weights_of_pos ha
  have hB := weights_of_pos hb
  have hg := knoppIter_good (a := a) (b := b) hK hA hB (good_of_pos hs) k
  simp only [Function.iterate_succ_apply']
  exact ⟨fun i => knoppStep_u_pos hK hB hg (ha i), fun j => knoppStep_v_pos hK hg (hb j), knoppStep_rows hK hB hg⟩

/-- With a zero weight in `a` *and* a zero weight in `b` the first iteration already meets `inf * 0`: the function returns the starting scalings, that is
(without warm start) the kernel divided by `n m`, whatever the weights are. -/
theorem C25_zero_weights_on_both_sides (a : I → ℝ) (b : J → ℝ) (M : I → J → ℝ) (reg : ℝ) (n : ℕ) (hn : 0 < n) (thr : ℝ)
    (i₀ : I) (j₀ : J) (hi : a i₀ = 0) (hj : b j₀ = 0) :
    let r := sinkhornKnopp a b M reg n thr none
    r.exit = .numerical ∧ ∀ i j, plan (kernel M reg) r.s i j = Real.exp (-(M i j / reg)) / (Fintype.card I * Fintype.card J) := by
  obtain ⟨n, rfl⟩ : ∃ k, n = k + 1 := ⟨n - 1, by omega⟩
  have hbad : knoppBad a b (kernel M reg) (knoppInit none) := Or.inr (Or.inr ⟨i₀, j₀, hi, hj⟩)
  have e : sinkhornKnopp a b M reg (n + 1) thr none = ⟨knoppInit none, 0, .numerical⟩ := by
    unfold sinkhornKnopp loop
    simp only [if_pos hbad]
  simp only [e, true_and]
  intro i j
  unfold plan knoppInit kernel
  rw [div_neg]
  have h1 : (Fintype.card I : ℝ) ≠ 0 := by positivity
  have h2 : (Fintype.card J : ℝ) ≠ 0 := by positivity
  field_simp

/-- Non-vacuity of C25: two points each, a zero weight in `a`. -/
example : let r := sinkhornKnopp ![0, 1] ![1 / 2, 1 / 2] (fun i j : Fin 2 => if i = j then 0 else 1) 1 7 0 none
    ∀ i, ∑ j, plan (kernel (fun i j : Fin 2 => if i = j then 0 else 1) 1) r.s i j = ![0, 1] i :=
  ((C25_sinkhorn_knopp ![0, 1] ![1 / 2, 1 / 2] _ 1 7 0 none (by intro i; fin_cases i <;> simp) ⟨1, by simp⟩
    (by intro j; fin_cases j <;> simp) ⟨0, by simp⟩ (Or.inr (by intro j; fin_cases j <;> simp))).2 (by norm_num)).1

/-! ## C26 -/

/-- **C26.** If the plan `diag(u) exp(-M/reg) diag(v)` with positive scalings has marginals `a` and `b`, it is the unique minimiser of
`⟨P, M⟩ + reg ∑ P log P` over all couplings. -/
theorem C26_unique_entropic_optimum (a : I → ℝ) (b : J → ℝ) (M : I → J → ℝ) (reg : ℝ) (hreg : 0 < reg) (s : UV I J)
    (hu : ∀ i, 0 < s.u i) (hv : ∀ j, 0 < s.v j) (hrow : ∀ i, ∑ j, plan (kernel M reg) s i j = a i)
    (hcol : ∀ j, ∑ i, plan (kernel M reg) s i j = b j) : IsEntropicOptimal a b M reg (plan (kernel M reg) s) :=
  optimal_of_form hreg ⟨fun i j => (plan_pos (kernel_pos M reg) ⟨hu, hv⟩ i j).le, hrow, hcol⟩
    (plan_pos (kernel_pos M reg) ⟨hu, hv⟩) (fun i j => log_plan ⟨hu, hv⟩ i j)

/-- **C26, dual.** The potentials `reg log u`, `reg log v` maximise the entropic dual over all pairs of potentials, and the dual value equals the primal one
(up to the constant `reg ∑ a`). -/
theorem C26_dual_optimum (a : I → ℝ) (b : J → ℝ) (M : I → J → ℝ) (reg : ℝ) (hreg : 0 < reg) (s : UV I J)
    (hu : ∀ i, 0 < s.u i) (hv : ∀ j, 0 < s.v j) (hrow : ∀ i, ∑ j, plan (kernel M reg) s i j = a i)
    (hcol : ∀ j, ∑ i, plan (kernel M reg) s i j = b j) :
    (∀ f g, entropicDual a b M reg f g ≤ entropicDual a b M reg (fun i => reg * Real.log (s.u i)) (fun j => reg * Real.log (s.v j))) ∧
    entropicDual a b M reg (fun i => reg * Real.log (s.u i)) (fun j => reg * Real.log (s.v j))
      = entropicObjective M reg (plan (kernel M reg) s) - reg * ∑ i, a i := by
  have hP : IsCoupling a b (plan (kernel M reg) s) := ⟨fun i j => (plan_pos (kernel_pos M reg) ⟨hu, hv⟩ i j).le, hrow, hcol⟩
  have e := entropic_dual_eq (f := fun i => reg * Real.log (s.u i)) (g := fun j => reg * Real.log (s.v j)) hreg hP (M := M) ?_
  · rw [e]
    exact ⟨fun f g => entropic_weak_duality hreg hP f g, rfl⟩
  · intro i j
    rw [← Real.exp_log (plan_pos (kernel_pos M reg) (s := s) ⟨hu, hv⟩ i j), log_plan ⟨hu, hv⟩]
    congr 1
    field_simp

/-- **C26, KL regularisation.** The minimiser of the entropic objective is also the unique minimiser of `⟨P, M⟩ + reg KL(P | a bᵀ)`, the objective documented
for `reg_type="KL"`. -/
theorem C26_kl_regularisation (a : I → ℝ) (b : J → ℝ) (M : I → J → ℝ) (reg : ℝ) (ha : ∀ i, 0 < a i) (hb : ∀ j, 0 < b j)
    (P : I → J → ℝ) (hP : IsEntropicOptimal a b M reg P) (Q : I → J → ℝ) (hQ : IsCoupling a b Q) :
    cost M P + reg * klPlan P (fun i j => a i * b j) ≤ cost M Q + reg * klPlan Q (fun i j => a i * b j) ∧
    (cost M Q + reg * klPlan Q (fun i j => a i * b j) ≤ cost M P + reg * klPlan P (fun i j => a i * b j) → Q = P) := by
  have key : ∀ R, IsCoupling a b R → cost M R + reg * klPlan R (fun i j => a i * b j)
      = entropicObjective M reg R + reg * (- ∑ i, Real.log (a i) * a i - ∑ j, Real.log (b j) * b j - ∑ i, a i
        + ∑ i, ∑ j, a i * b j) := by
    intro R hR
    unfold entropicObjective
    rw [klPlan_eq]
    have e : ∀ i j, R i j * Real.log (R i j / (a i * b j)) - R i j + a i * b j
        = R i j * Real.log (R i j) - Real.log (a i) * R i j - Real.log (b j) * R i j - R i j + a i * b j := by
      intro i j
      rcases eq_or_ne (R i j) 0 with h | h
      · rw [h]; simp
      · rw [Real.log_div h (mul_pos (ha i) (hb j)).ne', Real.log_mul (ha i).ne' (hb j).ne']
        ring
    simp only [e, sum_add_distrib, sum_sub_distrib]
    have e1 : ∑ i, ∑ j, Real.log (a i) * R i j = ∑ i, Real.log (a i) * a i :=
      sum_congr rfl fun i _ => by rw [← mul_sum, hR.row]
    have e2 : ∑ i, ∑ j, Real.log (b j) * R i j = ∑ j, Real.log (b j) * b j := by
      rw [sum_comm]
      exact sum_congr rfl fun j _ => by rw [← mul_sum, hR.col]
    have e3 : ∑ i, ∑ j, R i j = ∑ i, a i := sum_congr rfl fun i _ => hR.row i
    rw [e1, e2, e3]
    ring
  rw [key P hP.1, key Q hQ]
  have h := hP.2 Q hQ
  exact ⟨by linarith [h.1], fun h2 => h.2 (by linarith)⟩

/-- **C26 for every iterate.** Whatever the number of iterations, the returned plan is the unique entropic optimum for the weights that it actually has: `a`
for the rows and its own column sums. -/
theorem C26_returned_plan_own_marginals (a : I → ℝ) (b : J → ℝ) (M : I → J → ℝ) (reg : ℝ) (hreg : 0 < reg) (n : ℕ) (hn : 0 < n)
    (thr : ℝ) (warm : Option ((I → ℝ) × (J → ℝ))) (ha : ∀ i, 0 < a i) (hb : ∀ j, 0 < b j) :
    let P := plan (kernel M reg) (sinkhornKnopp a b M reg n thr warm).s
    IsEntropicOptimal a (fun j => ∑ i, P i j) M reg P := by
  have hA := weights_of_pos ha
  have hB := weights_of_pos hb
  have h := (C25_sinkhorn_knopp a b M reg n thr warm hA.nonneg hA.pos hB.nonneg hB.pos (Or.inl ha)).2 hn
  exact C26_unique_entropic_optimum a _ M reg hreg _ (fun i => (h.2.2.2 i (Classical.arbitrary J) (ha i) (hb _)).1)
    (fun j => (h.2.2.2 (Classical.arbitrary I) j (ha _) (hb j)).2.1) h.1 fun j => rfl

/-- Non-vacuity of C26: on two points with cost `[[0,1],[1,0]]` and uniform weights explicit scalings have the right marginals. -/
example : IsEntropicOptimal (fun _ : Fin 2 => (1 / 2 : ℝ)) (fun _ : Fin 2 => (1 / 2 : ℝ)) (fun i j => if i = j then 0 else 1) 1
    (plan (kernel (fun i j => if i = j then 0 else 1) 1) ⟨fun _ => 1, fun _ => 1 / (2 * (1 + Real.exp (-1)))⟩) := by
  have h : (1 + Real.exp (-1)) ≠ 0 := by positivity
  refine C26_unique_entropic_optimum _ _ _ 1 one_pos _ (fun _ => one_pos) (fun _ => by positivity) ?_ ?_ <;>
    · intro i
      fin_cases i <;> simp [plan, kernel, Fin.sum_univ_two] <;> field_simp <;> ring

/-! ## C27 -/

/-- **C27, monotonicity.** From any positive starting scalings, every iteration decreases the divergence of the plan from every coupling of the requested
weights, by at least the divergence between the requested and the current column sums. -/
theorem C27_monotone (a : I → ℝ) (b : J → ℝ) (K : I → J → ℝ) (hK : ∀ i j, 0 < K i j) (ha : ∀ i, 0 < a i) (hb : ∀ j, 0 < b j)
    (s : UV I J) (hu : ∀ i, 0 < s.u i) (hv : ∀ j, 0 < s.v j) (Q : I → J → ℝ) (hQ : IsCoupling a b Q) (k : ℕ) :
    let P := fun k => plan K ((knoppStep a b K)^[k] s)
    klPlan Q (P (k + 1)) ≤ klPlan Q (P k) - klDivergence b (fun j => ∑ i, P k i j) ∧
    0 ≤ klDivergence b (fun j => ∑ i, P k i j) ∧ klPlan Q (P (k + 1)) ≤ klPlan Q (P k) := by
  have hk := knoppIter_pos hK ha hb ⟨hu, hv⟩ k
  have h1 := kl_step hK ha hb hk hQ
  have h2 := kl_col_nonneg hK hb hk
  simp only [Function.iterate_succ_apply']
  exact ⟨h1, h2, by change _ ≤ klPlan Q (plan K ((knoppStep a b K)^[k] s)); linarith⟩

/-- **C27, the stopping test is met.** For every cost, `reg > 0`, positive weights of equal mass, warm start and positive threshold there is an
iteration limit from which on `sinkhorn_knopp` ends by its tolerance test. -/
theorem C27_terminates (a : I → ℝ) (b : J → ℝ) (M : I → J → ℝ) (reg : ℝ) (thr : ℝ) (hthr : 0 < thr)
    (warm : Option ((I → ℝ) × (J → ℝ))) (ha : ∀ i, 0 < a i) (hb : ∀ j, 0 < b j) (hS : ∑ i, a i = ∑ j, b j) :
    ∃ N, ∀ n ≥ N, (sinkhornKnopp a b M reg n thr warm).exit = .converged := by
  have hK := kernel_pos M reg
  have hs : Pos (knoppInit warm : UV I J) := knoppInit_pos warm
  obtain ⟨D, hD⟩ : ∃ D, klPlan (fun i j => a i * b j / ∑ i, a i)
    (plan (kernel M reg) (knoppStep a b (kernel M reg) (knoppInit warm))) = D := ⟨_, rfl⟩
  obtain ⟨T, hT⟩ := exists_nat_gt (4 * (∑ i, a i) * D / thr ^ 2)
  rw [div_lt_iff₀ (by positivity)] at hT
  refine ⟨10 * T, fun n hn => ?_⟩
  obtain ⟨t, ht, he⟩ := some_check hK ha hb hS hs (prod_coupling ha hb hS) hD.le hthr T hT
  refine loop_stops n 0 _ (fun l => ?_) (10 * t) (by omega) ⟨by omega, he⟩
  exact not_knoppBad hK (weights_of_pos hb) (Or.inl ha) (good_of_pos (knoppIter_pos hK ha hb hs l).1)

/-- **C27, explicit iteration bound.** Without warm start `10 T` iterations suffice as soon as `8 S² (max M - min M) < T reg thr²`, `S` the total mass. -/
theorem C27_iteration_bound (a : I → ℝ) (b : J → ℝ) (M : I → J → ℝ) (reg : ℝ) (hreg : 0 < reg) (thr : ℝ) (hthr : 0 < thr)
    (ha : ∀ i, 0 < a i) (hb : ∀ j, 0 < b j) (hS : ∑ i, a i = ∑ j, b j) (m₀ m₁ : ℝ) (h0 : ∀ i j, m₀ ≤ M i j) (h1 : ∀ i j, M i j ≤ m₁)
    (T : ℕ) (hT : 8 * (∑ i, a i) ^ 2 * (m₁ - m₀) < T * reg * thr ^ 2) (n : ℕ) (hn : 10 * T ≤ n) :
    (sinkhornKnopp a b M reg n thr none).exit = .converged := by
  have hK := kernel_pos M reg
  have hs : Pos (knoppInit none : UV I J) := knoppInit_pos none
  have hlo : ∀ i j, Real.exp (-(m₁ / reg)) ≤ kernel M reg i j := by
    intro i j
    unfold kernel
    rw [Real.exp_le_exp, div_neg, neg_le_neg_iff]
    exact div_le_div_of_nonneg_right (h1 i j) hreg.le
  have hhi : ∀ i j, kernel M reg i j ≤ Real.exp (-(m₀ / reg)) := by
    intro i j
    unfold kernel
    rw [Real.exp_le_exp, div_neg, neg_le_neg_iff]
    exact div_le_div_of_nonneg_right (h0 i j) hreg.le
  have hD := kl_first (s := (knoppInit none : UV I J)) (c := 1 / (Fintype.card I : ℝ)) hK ha hb hS (Real.exp_pos _) hlo hhi
    (by positivity) (fun i => rfl)
  rw [← Real.exp_sub, Real.log_exp] at hD
  have e : -(m₀ / reg) - -(m₁ / reg) = (m₁ - m₀) / reg := by ring
  rw [e] at hD
  obtain ⟨t, ht, he⟩ := some_check hK ha hb hS hs (prod_coupling ha hb hS) hD hthr T (by
    have e2 : 4 * (∑ i, a i) * ((∑ i, a i) * (2 * ((m₁ - m₀) / reg))) = 8 * (∑ i, a i) ^ 2 * (m₁ - m₀) / reg := by ring
    rw [e2, div_lt_iff₀ hreg]
    linarith)
  refine loop_stops n 0 _ (fun l => ?_) (10 * t) (by omega) ⟨by omega, he⟩
  exact not_knoppBad hK (weights_of_pos hb) (Or.inl ha) (good_of_pos (knoppIter_pos hK ha hb hs l).1)

/-- **C27, what convergence means.** When the function ends by its test, the Euclidean norm of the column-marginal error of the returned plan is below the
threshold. -/
theorem C27_converged_error (a : I → ℝ) (b : J → ℝ) (M : I → J → ℝ) (reg : ℝ) (thr : ℝ) (n : ℕ)
    (warm : Option ((I → ℝ) × (J → ℝ))) (h : (sinkhornKnopp a b M reg n thr warm).exit = .converged) :
    norm2 (fun j => ∑ i, plan (kernel M reg) (sinkhornKnopp a b M reg n thr warm).s i j - b j) < thr := by
  obtain ⟨k, hk, e, -, -, x1, x2, x3⟩ := loop_spec (step := knoppStep a b (kernel M reg)) (bad := knoppBad a b (kernel M reg))
    (stop := fun ii _ s => ii % 10 = 0 ∧ colErr b (kernel M reg) s < thr) n 0 (knoppInit warm)
  obtain ⟨l, rfl, -, -, h4⟩ := x2 h
  change (sinkhornKnopp a b M reg n thr warm).s = _ at e
  rw [e]
  exact h4

/-- **C27, convergence.** The problem has an entropic optimum `P`, and the plans returned with growing iteration limits (threshold `0`, any warm
start) converge to it entrywise. -/
theorem C27_converges (a : I → ℝ) (b : J → ℝ) (M : I → J → ℝ) (reg : ℝ) (hreg : 0 < reg)
    (warm : Option ((I → ℝ) × (J → ℝ))) (ha : ∀ i, 0 < a i) (hb : ∀ j, 0 < b j) (hS : ∑ i, a i = ∑ j, b j) :
    ∃ P, IsEntropicOptimal a b M reg P ∧
      ∀ i j, Tendsto (fun n => plan (kernel M reg) (sinkhornKnopp a b M reg n 0 warm).s i j) atTop (𝓝 (P i j)) := by
  have hK := kernel_pos M reg
  have hs : Pos (knoppInit warm : UV I J) := knoppInit_pos warm
  obtain ⟨P, hP, hpos, ⟨x, y, hform⟩, hlim⟩ := exists_limit hK ha hb hS hs
  refine ⟨P, optimal_of_form hreg hP hpos (x := x) (y := y) fun i j => by rw [hform, log_kernel]; ring, fun i j => ?_⟩
  refine (hlim i j).congr fun n => ?_
  obtain ⟨k, hk, e, -, -, x1, x2, x3⟩ := loop_spec (step := knoppStep a b (kernel M reg)) (bad := knoppBad a b (kernel M reg))
    (stop := fun ii _ s => ii % 10 = 0 ∧ colErr b (kernel M reg) s < 0) n 0 (knoppInit warm)
  have hx : k = n := by
    rcases h : (loop (knoppStep a b (kernel M reg)) (knoppBad a b (kernel M reg))
      (fun ii _ s => ii % 10 = 0 ∧ colErr b (kernel M reg) s < 0) n 0 (knoppInit warm)).exit with _ | _ | _
    · obtain ⟨l, -, -, -, h4⟩ := x2 h
      exact absurd h4 (not_lt.2 (Real.sqrt_nonneg _))
    · exact x1 h
    · exact absurd (x3 h).2 (not_knoppBad hK (weights_of_pos hb) (Or.inl ha) (good_of_pos (knoppIter_pos hK ha hb hs k).1))
  subst hx
  change _ = plan (kernel M reg) (loop _ _ _ k 0 (knoppInit warm)).s i j
  rw [e]

/-- **C27, accuracy of a converged run.** The squared Frobenius distance of the returned plan from the optimum is at most
`8 S √m thr (max M - min M) / reg`. -/
theorem C27_accuracy (a : I → ℝ) (b : J → ℝ) (M : I → J → ℝ) (reg : ℝ) (hreg : 0 < reg) (thr : ℝ) (n : ℕ)
    (warm : Option ((I → ℝ) × (J → ℝ))) (ha : ∀ i, 0 < a i) (hb : ∀ j, 0 < b j) (hS : ∑ i, a i = ∑ j, b j)
    (m₀ m₁ : ℝ) (h0 : ∀ i j, m₀ ≤ M i j) (h1 : ∀ i j, M i j ≤ m₁)
    (h : (sinkhornKnopp a b M reg n thr warm).exit = .converged) (P : I → J → ℝ) (hP : IsEntropicOptimal a b M reg P) :
    ∑ i, ∑ j, (plan (kernel M reg) (sinkhornKnopp a b M reg n thr warm).s i j - P i j) ^ 2
      ≤ 8 * (∑ i, a i) * Real.sqrt (Fintype.card J) * thr * (m₁ - m₀) / reg := by
  have hK := kernel_pos M reg
  have hs : Pos (knoppInit warm : UV I J) := knoppInit_pos warm
  have herr := C27_converged_error a b M reg thr n warm h
  obtain ⟨k, hk, e, -, -, x1, x2, x3⟩ := loop_spec (step := knoppStep a b (kernel M reg)) (bad := knoppBad a b (kernel M reg))
    (stop := fun ii _ s => ii % 10 = 0 ∧ colErr b (kernel M reg) s < thr) n 0 (knoppInit warm)
  change (sinkhornKnopp a b M reg n thr warm).s = _ at e
  obtain ⟨l, rfl, -, -, h4⟩ := x2 h
  -- the optimum has the scaling form
  obtain ⟨P', hP', hpos', ⟨x, y, hform'⟩, -⟩ := exists_limit hK ha hb hS hs
  have hform : ∀ i j, Real.log (P' i j) = x i + y j - M i j / reg := fun i j => by rw [hform', log_kernel]; ring
  have hopt := optimal_of_form hreg hP' hpos' hform
  obtain rfl : P = P' := (hopt.2 P hP.1).2 (hP.2 P' hP').1
  have hsl := knoppIter_pos hK ha hb hs l
  have hacc := accuracy hreg h0 h1 ha hb hsl hP' hpos' hform
  have hlast := knoppIter_pos hK ha hb hs (l + 1)
  rw [← Function.iterate_succ_apply' (knoppStep a b (kernel M reg))] at hacc
  have h5 := klPlan_nonneg (fun i j => (plan_pos hK hlast i j).le) hpos'
  have hS0 : 0 ≤ ∑ i, a i := sum_nonneg fun i _ => (ha i).le
  have h6 := sq_dist_le_kl (p := fun x : I × J => P x.1 x.2)
        (q := fun x : I × J => plan (kernel M reg) ((knoppStep a b (kernel M reg))^[l + 1] (knoppInit warm)) x.1 x.2) (S := ∑ i, a i)
        (fun x => (hpos' _ _).le) (fun x => plan_pos hK hlast _ _)
        (fun x => (hP'.le_left x.1 x.2).trans (single_le_sum (fun i _ => (ha i).le) (mem_univ x.1)))
        (fun x => iter_le hK ha hb hs l _ _) hS0
  rw [Fintype.sum_prod_type] at h6
  rw [e]
  refine h6.trans ?_
  have hm : 0 ≤ m₁ - m₀ := by
    have := h0 (Classical.arbitrary I) (Classical.arbitrary J)
    have := h1 (Classical.arbitrary I) (Classical.arbitrary J)
    linarith
  have h7 : klPlan P (plan (kernel M reg) ((knoppStep a b (kernel M reg))^[l + 1] (knoppInit warm)))
      ≤ Real.sqrt (Fintype.card J) * thr * (2 * (m₁ - m₀) / reg) := by
    refine le_trans (by
      have := hacc
      simp only [Nat.succ_eq_add_one] at this
      linarith) (mul_le_mul_of_nonneg_right (mul_le_mul_of_nonneg_left h4.le (Real.sqrt_nonneg _))
        (div_nonneg (by linarith) hreg.le))
  calc _ ≤ 4 * (∑ i, a i) * (Real.sqrt (Fintype.card J) * thr * (2 * (m₁ - m₀) / reg)) :=
        mul_le_mul_of_nonneg_left h7 (by positivity)
    _ = _ := by ring

/-- Non-vacuity of C27: on two points each with the 0/1 cost, `reg = 1` and `thr = 1/2`, 330 iterations are enough to end by the test. -/
example : (sinkhornKnopp (fun _ : Fin 2 => (1 / 2 : ℝ)) ![1 / 4, 3 / 4] (fun i j : Fin 2 => if i = j then 0 else 1) 1 330 (1 / 2)
    none).exit = .converged :=
  C27_iteration_bound _ _ _ 1 one_pos (1 / 2) (by norm_num) (fun _ => by norm_num) (by intro j; fin_cases j <;> norm_num)
    (by rw [Fin.sum_univ_two, Fin.sum_univ_two]; norm_num) 0 1 (by intro i j; split_ifs <;> norm_num)
    (by intro i j; split_ifs <;> norm_num) 33 (by rw [Fin.sum_univ_two]; norm_num) 330 (by norm_num)

end POT.Props
