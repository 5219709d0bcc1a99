import Verif.Lemmas.BatchGromov

/-!
# Batched Gromov-Wasserstein (C106, C107)
-/

set_option linter.unusedSectionVars false

namespace POT.Props

open Finset Spec Filter Topology Sinkhorn BatchSolve BatchGromov

section Loss

variable {B I J D : Type*} [Fintype B] [Fintype I] [Fintype J] [Fintype D]

/-- **C106.** The losses of `tensor_batch`: squared distance of the features, and the relative entropy of the second feature with respect to the first (given by its values or its logarithms). -/
theorem C106_decompositions (eps : ℝ) (x y : D → ℝ) : sqDec.loss x y = featSq x y ∧ (klDec eps false).loss x y = featKl eps x y ∧ (klDec eps true).loss x y = featLogits eps x y := by
  refine ⟨?_, ?_, ?_⟩
  · unfold VDecomp.loss featSq sqDec
    simp only [← sum_add_distrib, ← sum_sub_distrib]
    exact sum_congr rfl fun d _ => by ring
  · unfold VDecomp.loss featKl klDec
    simp only [Bool.false_eq_true, if_false, zero_add, ← sum_sub_distrib]
    exact sum_congr rfl fun d _ => by ring
  · unfold VDecomp.loss featLogits klDec
    simp only [if_true, zero_add, ← sum_sub_distrib]
    exact sum_congr rfl fun d _ => by ring

/-- **C106.** `loss_quadratic_batch` is the quadruple sum, for every plan when the constants are recomputed, and for every plan with the marginals `a`, `b` otherwise; the flag `symmetric` has no influence on it,
so neither has the missing default of `loss_quadratic_samples_batch`. -/
theorem C106_loss (dec : VDecomp D) (a : B → I → ℝ) (b : B → J → ℝ) (C1 : B → I → I → D → ℝ) (C2 : B → J → J → D → ℝ) (T : B → I → J → ℝ) (t : B) :
    (∀ symmetric, lossQuadratic (computeTensor dec a b C1 C2 symmetric) T true symmetric t = featEnergy dec.loss (C1 t) (C2 t) (T t)) ∧
    ((∀ i, ∑ j, T t i j = a t i) → (∀ j, ∑ i, T t i j = b t j) →
      ∀ symmetric, lossQuadratic (computeTensor dec a b C1 C2 symmetric) T false symmetric t = featEnergy dec.loss (C1 t) (C2 t) (T t)) ∧
    ∀ symmetric, lossQuadraticSamples dec a b C1 C2 T symmetric true t = featEnergy dec.loss (C1 t) (C2 t) (T t) := by
  have h : ∀ symmetric, lossQuadratic (computeTensor dec a b C1 C2 symmetric) T true symmetric t = featEnergy dec.loss (C1 t) (C2 t) (T t) := by
    intro symmetric
    rw [← coef_energy symmetric, ← inner_coef]
    unfold lossQuadratic Spec.inner
    simp only [tensorProduct_eq]
  refine ⟨h, fun hr hc symmetric => ?_, fun symmetric => h _⟩
  rw [← h symmetric]
  obtain ⟨p, q, h1, hp, hq⟩ := tensorProduct_false dec a b C1 C2 symmetric T t
  rw [hp hr, hq hc] at h1
  unfold lossQuadratic
  simp only [h1, Pi.zero_apply, add_zero]

/-- **C106.** The linearised cost is the exact derivative of the fused cost along all directions that keep the marginals, for every plan, when the costs are symmetric or the flag is false. -/
theorem C106_gradient (symmetric : Bool) (dec : VDecomp D) (a : B → I → ℝ) (b : B → J → ℝ) {C1 : B → I → I → D → ℝ} {C2 : B → J → J → D → ℝ}
    (h : symmetric = true → (∀ t i k, C1 t i k = C1 t k i) ∧ ∀ t j l, C2 t j l = C2 t l j) (M : B → I → J → ℝ) (alpha : ℝ) (T : B → I → J → ℝ) (t : B) {Δ : I → J → ℝ} (hr : ZeroRows Δ) (hc : ZeroCols Δ) (s : ℝ) :
    featFused dec.loss (C1 t) (C2 t) (M t) alpha (fun i j => T t i j + s * Δ i j) = featFused dec.loss (C1 t) (C2 t) (M t) alpha (T t)
      + s * Spec.inner (linearised (computeTensor dec a b C1 C2 symmetric) symmetric M alpha T t) Δ + s ^ 2 * (alpha * featEnergy dec.loss (C1 t) (C2 t) Δ) :=
  inner_linearised symmetric dec a b h M alpha T t Δ (Or.inl ⟨hr, hc⟩) s

/-- **C106.** The automatic flag is safe for exactly symmetric costs and for costs that fail the test. -/
theorem C106_flag {rtol atol : ℝ} {C1 : B → I → I → D → ℝ} {C2 : B → J → J → D → ℝ}
    (h : ((∀ t i k, C1 t i k = C1 t k i) ∧ ∀ t j l, C2 t j l = C2 t l j) ∨ ¬(AllcloseT rtol atol C1 ∧ AllcloseT rtol atol C2)) :
    symFlag rtol atol none C1 C2 = true → (∀ t i k, C1 t i k = C1 t k i) ∧ ∀ t j l, C2 t j l = C2 t l j := by
  intro hs
  rcases h with h | h
  · exact h
  · classical
    unfold symFlag at hs
    rw [Option.getD_none] at hs
    exact absurd (of_decide_eq_true hs) h

/-- **C106.** The default start is a coupling of the weights (of equal positive mass). -/
theorem C106_init {a : B → I → ℝ} {b : B → J → ℝ} {t : B} (ha : ∀ i, 0 ≤ a t i) (hb : ∀ j, 0 ≤ b t j) (hS : ∑ i, a t i = ∑ j, b t j) (h0 : 0 < ∑ i, a t i) : IsCoupling (a t) (b t) (initPlan a b t) := by
  have e : Real.sqrt ((∑ i, a t i) * ∑ j, b t j) = ∑ i, a t i := by rw [← hS, Real.sqrt_mul_self h0.le]
  unfold initPlan
  rw [e]
  refine ⟨fun i j => div_nonneg (mul_nonneg (ha i) (hb j)) h0.le, fun i => ?_, fun j => ?_⟩
  · rw [← sum_div, ← mul_sum, ← hS, mul_div_assoc, div_self h0.ne', mul_one]
  · rw [← sum_div, ← sum_mul, mul_comm, mul_div_assoc, div_self h0.ne', mul_one]

end Loss

section Step

variable {B I J D : Type*} [Fintype B] [Fintype I] [Fintype J] [Fintype D] [Nonempty I] [Nonempty J]
variable {a : B → I → ℝ} {b : B → J → ℝ} {M : B → I → J → ℝ} {alpha reg : ℝ} {L : Tensor B I J D} {symmetric : Bool}

theorem gStep_T (proj : (B → I → J → ℝ) → Batch B I J) (s : GSt B I J) (t : B) (i : I) (j : J) : (gStep L symmetric M alpha reg proj s).T t i j = Real.exp ((gStep L symmetric M alpha reg proj s).logT t i j) := rfl

theorem gStep_pos (proj : (B → I → J → ℝ) → Batch B I J) (s : GSt B I J) (t : B) (i : I) (j : J) : 0 < (gStep L symmetric M alpha reg proj s).T t i j := Real.exp_pos _

theorem gStep_log (proj : (B → I → J → ℝ) → Batch B I J) (s : GSt B I J) (t : B) (i : I) (j : J) : (gStep L symmetric M alpha reg proj s).logT t i j = Real.log ((gStep L symmetric M alpha reg proj s).T t i j) := by
  rw [gStep_T, Real.log_exp]

theorem gStep_form (proj : (B → I → J → ℝ) → Batch B I J) (s : GSt B I J) (t : B) : ∃ (x : I → ℝ) (y : J → ℝ), ∀ i j,
    Real.log ((gStep L symmetric M alpha reg proj s).T t i j) = -linearised L symmetric M alpha s.T t i j / reg + s.logT t i j + x i + y j := by
  refine ⟨(gStep L symmetric M alpha reg proj s).pot.f t, (gStep L symmetric M alpha reg proj s).pot.g t, fun i j => ?_⟩
  rw [← gStep_log]
  rfl

/-- the inner solver -/
theorem proj_facts (ha : ∀ t i, 0 < a t i) (hb : ∀ t j, 0 < b t j) {n : ℕ} (hn : 0 < n) (tol : ℝ) (K : B → I → J → ℝ) (t : B) :
    (∀ j, ∑ i, batchLogPlan K (bregmanLogBatch K a b n tol).s t i j = b t j) ∧
    ((bregmanLogBatch K a b n tol).exit = .converged → norm2 (fun i => ∑ j, batchLogPlan K (bregmanLogBatch K a b n tol).s t i j - a t i) < tol) := by
  obtain ⟨res, e1, -, e3, -, -, e6⟩ := C104_solves (M := fun t i j => -K t i j) (reg := 1) (a := a) (b := b) 0 ha hb (solver := .logSinkhorn) (by decide) (regType := .entropy) (by decide) false hn tol
  have hKK : (fun t i j => -(-K t i j) / 1) = K := by
    funext t i j
    simp
  have e2 : res.plan = batchLogPlan (fun t i j => -(-K t i j) / 1) (bregmanLogBatch (fun t i j => -(-K t i j) / 1) a b n tol).s ∧ res.exit = (bregmanLogBatch (fun t i j => -(-K t i j) / 1) a b n tol).exit := by
    unfold solveBatch at e1
    dsimp only at e1
    rw [if_neg hn.ne'] at e1
    simp only [Option.getD_some, BatchSolve.inner, Option.bind_some, BatchSolve.value, Option.map_some, Bool.false_eq_true, if_false, Option.some.injEq] at e1
    rw [← e1]
    exact ⟨rfl, rfl⟩
  rw [hKK] at e2
  rw [e2.1] at e3 e6
  rw [e2.2] at e6
  exact ⟨e3 t, fun hc => e6 hc rfl t⟩

theorem gStep_cols (ha : ∀ t i, 0 < a t i) (hb : ∀ t j, 0 < b t j) {n : ℕ} (hn : 0 < n) (tol : ℝ) (s : GSt B I J) (t : B) (j : J) :
    ∑ i, (gStep L symmetric M alpha reg (fun K => (bregmanLogBatch K a b n tol).s) s).T t i j = b t j :=
  (proj_facts ha hb hn tol (fun t i j => -linearised L symmetric M alpha s.T t i j / reg + s.logT t i j) t).1 j

/-- minimiser of the linearised cost plus the relative entropy -/
theorem prox_optimal {p : I → ℝ} {q : J → ℝ} {G T T' : I → J → ℝ} (hreg : 0 < reg) (hT : ∀ i j, 0 < T i j) (hT' : ∀ i j, 0 < T' i j) (hr : ∀ i, ∑ j, T' i j = p i) (hc : ∀ j, ∑ i, T' i j = q j)
    {x : I → ℝ} {y : J → ℝ} (hf : ∀ i j, Real.log (T' i j) = -G i j / reg + Real.log (T i j) + x i + y j) {S : I → J → ℝ} (hS : IsCoupling p q S) :
    cost G T' + reg * klPlan T' T ≤ cost G S + reg * klPlan S T ∧ (cost G S + reg * klPlan S T ≤ cost G T' + reg * klPlan T' T → S = T') := by
  have hc' : IsCoupling p q T' := ⟨fun i j => (hT' i j).le, hr, hc⟩
  have ho := optimal_of_form (M := fun i j => G i j - reg * Real.log (T i j)) hreg hc' hT' (x := x) (y := y) fun i j => by
    rw [hf]
    field_simp
    ring
  have e : ∀ S : I → J → ℝ, IsCoupling p q S → cost G S + reg * klPlan S T = entropicObjective (fun i j => G i j - reg * Real.log (T i j)) reg S + reg * (∑ i, ∑ j, T i j - ∑ i, p i) := by
    intro S hS
    have e0 : ∑ i, p i = ∑ i, ∑ j, S i j := sum_congr rfl fun i _ => (hS.row i).symm
    rw [klPlan_eq, e0]
    unfold entropicObjective cost
    simp only [mul_sum, ← sum_add_distrib, ← sum_sub_distrib]
    refine sum_congr rfl fun i _ => sum_congr rfl fun j _ => ?_
    rcases (hS.nonneg i j).eq_or_lt with h0 | h0
    · rw [← h0]
      simp
    · rw [Real.log_div h0.ne' (hT i j).ne']
      ring
  have := ho.2 S hS
  rw [e S hS, e T' hc']
  exact ⟨by linarith [this.1], fun h => this.2 (by linarith)⟩

/-- **C106.** Every outer iteration, with the inner solver as it is: the plan is positive with exact column sums; it is the unique minimiser of the linearised cost plus `reg` times the relative entropy to the
previous plan, among the plans with its marginals; if the inner solver stopped by its test, the row sums are within its tolerance. -/
theorem C106_step (hreg : 0 < reg) (ha : ∀ t i, 0 < a t i) (hb : ∀ t j, 0 < b t j) {n : ℕ} (hn : 0 < n) (tol : ℝ) {s : GSt B I J} (hpos : ∀ t i j, 0 < s.T t i j)
    (hlog : ∀ t i j, s.logT t i j = Real.log (s.T t i j)) {K : B → I → J → ℝ} (hK : K = fun t i j => -linearised L symmetric M alpha s.T t i j / reg + s.logT t i j) {T' : B → I → J → ℝ}
    (hT' : T' = (gStep L symmetric M alpha reg (fun K => (bregmanLogBatch K a b n tol).s) s).T) (t : B) :
    (∀ i j, 0 < T' t i j) ∧ (∀ j, ∑ i, T' t i j = b t j) ∧
    (∀ S, IsCoupling (fun i => ∑ j, T' t i j) (b t) S →
      cost (linearised L symmetric M alpha s.T t) (T' t) + reg * klPlan (T' t) (s.T t) ≤ cost (linearised L symmetric M alpha s.T t) S + reg * klPlan S (s.T t) ∧
      (cost (linearised L symmetric M alpha s.T t) S + reg * klPlan S (s.T t) ≤ cost (linearised L symmetric M alpha s.T t) (T' t) + reg * klPlan (T' t) (s.T t) → S = T' t)) ∧
    ((bregmanLogBatch K a b n tol).exit = .converged → norm2 (fun i => ∑ j, T' t i j - a t i) < tol) := by
  have hp : ∀ i j, 0 < T' t i j := fun i j => by rw [hT']; exact gStep_pos _ s t i j
  obtain ⟨e3, e6⟩ := proj_facts ha hb hn tol K t
  have e5 : batchLogPlan K (bregmanLogBatch K a b n tol).s = T' := by
    rw [hT', hK]
    rfl
  rw [e5] at e3 e6
  obtain ⟨x, y, hf⟩ := gStep_form (L := L) (symmetric := symmetric) (M := M) (alpha := alpha) (reg := reg) (fun K => (bregmanLogBatch K a b n tol).s) s t
  refine ⟨hp, e3, fun S hS => ?_, e6⟩
  exact prox_optimal hreg (hpos t) hp (fun _ => rfl) e3 (x := x) (y := y) (fun i j => by rw [hT', hf, hlog]) hS

/-- **C106.** With threshold `0` and growing inner iteration limits, an outer iteration tends to the exact proximal step. -/
theorem C106_inner_limit [Nonempty B] (hreg : 0 < reg) (ha : ∀ t i, 0 < a t i) (hb : ∀ t j, 0 < b t j) (hS : ∀ t, ∑ i, a t i = ∑ j, b t j) (s : GSt B I J) :
    ∃ P : B → I → J → ℝ, (∀ t, IsEntropicOptimal (a t) (b t) (fun i j => linearised L symmetric M alpha s.T t i j - reg * s.logT t i j) reg (P t)) ∧
      ∀ t i j, Tendsto (fun n => (gStep L symmetric M alpha reg (fun K => (bregmanLogBatch K a b n 0).s) s).T t i j) atTop (𝓝 (P t i j)) := by
  obtain ⟨P, h1, h2⟩ := C104_converges (M := fun t i j => linearised L symmetric M alpha s.T t i j - reg * s.logT t i j) (reg := reg) (a := a) (b := b) 0 hreg ha hb hS (solver := .logSinkhorn) (by decide)
    (regType := .entropy) (by decide)
  refine ⟨P, h1, fun t i j => ?_⟩
  rw [← tendsto_add_atTop_iff_nat 1]
  refine ((tendsto_add_atTop_iff_nat 1).2 (h2 t i j)).congr fun n => ?_
  have hK : (fun t i j => -(linearised L symmetric M alpha s.T t i j - reg * s.logT t i j) / reg) = fun t i j => -linearised L symmetric M alpha s.T t i j / reg + s.logT t i j := by
    funext t i j
    field_simp
    ring
  unfold solveBatch
  dsimp only
  rw [if_neg n.succ_ne_zero]
  simp only [Option.getD_some, BatchSolve.inner, Option.bind_some, BatchSolve.value, Option.map_some, Bool.false_eq_true, if_false, Option.elim_some]
  rw [hK]
  rfl

end Step

section Result

variable {B I J D : Type*} [Fintype B] [Fintype I] [Fintype J] [Fintype D] [Nonempty I] [Nonempty J]

theorem gLoop_last (L : Tensor B I J D) (symmetric : Bool) (M : B → I → J → ℝ) (alpha reg : ℝ) (proj : (B → I → J → ℝ) → Batch B I J) (eps : ℝ) (T0 : B → I → J → ℝ) {n : ℕ} (hn : 0 < n) (tol : ℝ) :
    ∃ k, (gLoop L symmetric M alpha reg proj eps T0 n tol).s = (gStep L symmetric M alpha reg proj)^[k + 1] (gInit eps T0) ∧
      ((gLoop L symmetric M alpha reg proj eps T0 n tol).exit = .converged → gStop tol ((gStep L symmetric M alpha reg proj)^[k] (gInit eps T0)) ((gStep L symmetric M alpha reg proj)^[k + 1] (gInit eps T0))) := by
  obtain ⟨k, hk, e, -, -, x1, x2, x3⟩ := loop_spec (step := gStep L symmetric M alpha reg proj) (bad := fun _ => False) (stop := fun _ s s' => gStop tol s s') n 0 (gInit eps T0)
  rcases h : (gLoop L symmetric M alpha reg proj eps T0 n tol).exit with _ | _ | _
  · obtain ⟨m, rfl, -, h4⟩ := x2 h
    exact ⟨m, e, fun _ => h4⟩
  · have := x1 h
    exact ⟨k - 1, by rw [show k - 1 + 1 = k by omega]; exact e, by simp⟩
  · exact absurd (x3 h).2 id

/-- **C106.** The result of `solve_gromov_batch`: positive plans with exact column sums; the value is the fused Gromov-Wasserstein cost of the plan (whatever its row sums and whatever the flag), split into the
linear and the quadratic part; `M`, `alpha` absent is the Gromov-Wasserstein problem; missing weights are uniform. -/
theorem C106_result (eps rtol atol : ℝ) (dec : VDecomp D) (C1 : B → I → I → D → ℝ) (C2 : B → J → J → D → ℝ) (reg : ℝ) {a : Option (B → I → ℝ)} {b : Option (B → J → ℝ)}
    (ha : ∀ w, a = some w → ∀ t i, 0 < w t i) (hb : ∀ w, b = some w → ∀ t j, 0 < w t j) (symmetric : Option Bool) {M : Option (B → I → J → ℝ)} {alpha : Option ℝ} {M' : B → I → J → ℝ} {α : ℝ}
    (hM : (M = none ∧ alpha = none ∧ M' = 0 ∧ α = 1) ∨ (M = some M' ∧ alpha = some α ∧ 0 ≤ α ∧ α ≤ 1)) (Tinit : Option (B → I → J → ℝ)) {maxIter : ℕ} (hm : 0 < maxIter) (tol : ℝ) {maxIterInner : ℕ}
    (hi : 0 < maxIterInner) (tolInner : ℝ) :
    ∃ res, solveGromovBatch eps rtol atol dec C1 C2 reg a b symmetric M alpha Tinit maxIter tol maxIterInner tolInner = some res ∧ (∀ t i j, 0 < res.plan t i j) ∧
      (∀ t j, ∑ i, res.plan t i j = b.elim (1 / (Fintype.card J : ℝ)) fun w => w t j) ∧
      (∀ t, res.value t = featFused dec.loss (C1 t) (C2 t) (M' t) α (res.plan t)) ∧ (∀ t, res.valueLinear t = (1 - α) * cost (M' t) (res.plan t)) ∧
      (∀ t, res.valueQuad t = α * featEnergy dec.loss (C1 t) (C2 t) (res.plan t)) ∧ ∀ t, res.value t = res.valueLinear t + res.valueQuad t := by
  have hlin : linearPart M alpha = some (M', α) := by
    rcases hM with ⟨rfl, rfl, rfl, rfl⟩ | ⟨rfl, rfl, h0, h1⟩
    · rfl
    · unfold linearPart
      simp only
      rw [if_neg (by push Not; exact ⟨h0, h1⟩)]
  obtain ⟨a', ha'⟩ : ∃ a', a' = a.getD fun _ _ => 1 / (Fintype.card I : ℝ) := ⟨_, rfl⟩
  obtain ⟨b', hb'⟩ : ∃ b', b' = b.getD fun _ _ => 1 / (Fintype.card J : ℝ) := ⟨_, rfl⟩
  have hap : ∀ t i, 0 < a' t i := by
    intro t i
    rw [ha']
    cases a with
    | none => exact div_pos one_pos (Nat.cast_pos.2 Fintype.card_pos)
    | some w => exact ha w rfl t i
  have hbp : ∀ t j, 0 < b' t j := by
    intro t j
    rw [hb']
    cases b with
    | none => exact div_pos one_pos (Nat.cast_pos.2 Fintype.card_pos)
    | some w => exact hb w rfl t j
  have hbe : ∀ t j, b' t j = b.elim (1 / (Fintype.card J : ℝ)) fun w => w t j := by
    intro t j
    rw [hb']
    cases b <;> rfl
  have hl : ∀ (T : B → I → J → ℝ) t, lossLinear M' T t = cost (M' t) (T t) := fun T t => by
    unfold lossLinear cost
    exact sum_congr rfl fun i _ => sum_congr rfl fun j _ => mul_comm _ _
  obtain ⟨k, hk, -⟩ := gLoop_last (computeTensor dec a' b' C1 C2 (symFlag rtol atol symmetric C1 C2)) (symFlag rtol atol symmetric C1 C2) M' α reg (fun K => (bregmanLogBatch K a' b' maxIterInner tolInner).s) eps
    (Tinit.getD (initPlan a' b')) hm tol
  rw [Function.iterate_succ_apply'] at hk
  obtain ⟨s, hs⟩ : ∃ s, s = (gStep (computeTensor dec a' b' C1 C2 (symFlag rtol atol symmetric C1 C2)) (symFlag rtol atol symmetric C1 C2) M' α reg
    (fun K => (bregmanLogBatch K a' b' maxIterInner tolInner).s))^[k] (gInit eps (Tinit.getD (initPlan a' b'))) := ⟨_, rfl⟩
  rw [← hs] at hk
  obtain ⟨res, hres, r1, r2, r3, r4⟩ : ∃ res, solveGromovBatch eps rtol atol dec C1 C2 reg a b symmetric M alpha Tinit maxIter tol maxIterInner tolInner = some res ∧
      res.plan = (gStep (computeTensor dec a' b' C1 C2 (symFlag rtol atol symmetric C1 C2)) (symFlag rtol atol symmetric C1 C2) M' α reg (fun K => (bregmanLogBatch K a' b' maxIterInner tolInner).s) s).T ∧
      (∀ t, res.value t = (1 - α) * lossLinear M' res.plan t + α * lossQuadratic (computeTensor dec a' b' C1 C2 (symFlag rtol atol symmetric C1 C2)) res.plan true (symFlag rtol atol symmetric C1 C2) t) ∧
      (∀ t, res.valueLinear t = lossLinear M' res.plan t * (1 - α)) ∧
      ∀ t, res.valueQuad t = lossQuadratic (computeTensor dec a' b' C1 C2 (symFlag rtol atol symmetric C1 C2)) res.plan true (symFlag rtol atol symmetric C1 C2) t * α := by
    unfold solveGromovBatch
    dsimp only
    rw [hlin, Option.bind_some, ← ha', ← hb']
    simp only
    rw [if_neg (by omega)]
    exact ⟨_, rfl, by rw [← hk], fun _ => rfl, fun _ => rfl, fun _ => rfl⟩
  refine ⟨res, hres, fun t i j => ?_, fun t j => ?_, fun t => ?_, fun t => ?_, fun t => ?_, fun t => ?_⟩
  · rw [r1]
    exact gStep_pos _ s t i j
  · rw [r1, ← hbe]
    exact gStep_cols hap hbp hi tolInner s t j
  · rw [r2, hl, (C106_loss dec a' b' C1 C2 _ t).1]
    rfl
  · rw [r3, hl]
    ring
  · rw [r4, (C106_loss dec a' b' C1 C2 _ t).1]
    ring
  · rw [r2, r3, r4]
    ring

end Result

section Descent

variable {B I J D : Type*} [Fintype B] [Fintype I] [Fintype J] [Fintype D] [Nonempty I] [Nonempty J]
variable {a : B → I → ℝ} {b : B → J → ℝ} {M : B → I → J → ℝ} {alpha reg : ℝ} {symmetric : Bool} {dec : VDecomp D} {C1 : B → I → I → D → ℝ} {C2 : B → J → J → D → ℝ} {proj : (B → I → J → ℝ) → Batch B I J}

/-- an inner solver that reaches both marginals exactly -/
def ExactProj (a : B → I → ℝ) (b : B → J → ℝ) (proj : (B → I → J → ℝ) → Batch B I J) : Prop := ∀ K t, IsCoupling (a t) (b t) (batchLogPlan K (proj K) t)

theorem gStep_exact {L : Tensor B I J D} (hproj : ExactProj a b proj) (s : GSt B I J) (t : B) : IsCoupling (a t) (b t) ((gStep L symmetric M alpha reg proj s).T t) :=
  hproj (fun t i j => -linearised L symmetric M alpha s.T t i j / reg + s.logT t i j) t

/-- Exact projections exist, for all positive weights of equal mass. -/
theorem C107_exact_exists (ha : ∀ t i, 0 < a t i) (hb : ∀ t j, 0 < b t j) (hS : ∀ t, ∑ i, a t i = ∑ j, b t j) : ∃ proj, ExactProj a b proj := by
  have key : ∀ (K : B → I → J → ℝ) t, ∃ (x : I → ℝ) (y : J → ℝ), IsCoupling (a t) (b t) fun i j => Real.exp (K t i j + x i + y j) := by
    intro K t
    obtain ⟨P, hP, hpos, ⟨x, y, hform⟩, -⟩ := exists_limit (K := fun i j => Real.exp (K t i j)) (fun i j => Real.exp_pos _) (ha t) (hb t) (hS t) (s := ⟨fun _ => 1, fun _ => 1⟩) ⟨fun _ => one_pos, fun _ => one_pos⟩
    refine ⟨x, y, ?_⟩
    have e : (fun i j => Real.exp (K t i j + x i + y j)) = P := by
      funext i j
      rw [← Real.exp_log (hpos i j), hform, Real.log_exp]
      congr 1
      ring
    rw [e]
    exact hP
  choose x y h using key
  exact ⟨fun K => ⟨x K, y K⟩, fun K t => h K t⟩

/-- curvature of the energy along directions that keep the marginals, in the 1-norm -/
def FeatCurvatureLe {I J V : Type*} [Fintype I] [Fintype J] (L : V → V → ℝ) (C1 : I → I → V) (C2 : J → J → V) (κ : ℝ) : Prop :=
  ∀ Δ : I → J → ℝ, ZeroRows Δ → ZeroCols Δ → featEnergy L C1 C2 Δ ≤ κ * (∑ i, ∑ j, |Δ i j|) ^ 2

/-- **C107.** Half the range of the loss bounds the curvature. -/
theorem C107_curvature {I J V : Type*} [Fintype I] [Fintype J] {L : V → V → ℝ} {C1 : I → I → V} {C2 : J → J → V} {m d : ℝ} (h : ∀ i k j l, m ≤ L (C1 i k) (C2 j l) ∧ L (C1 i k) (C2 j l) ≤ m + d) :
    FeatCurvatureLe L C1 C2 (d / 2) := by
  intro Δ hr hc
  rw [featEnergy_bil]
  unfold bil
  have h0 : ∑ x : I × J, Δ x.1 x.2 = 0 := by
    rw [Fintype.sum_prod_type]
    exact sum_eq_zero fun i _ => hr i
  have e : ∑ x : I × J, ∑ y : I × J, L (C1 x.1 y.1) (C2 x.2 y.2) * Δ x.1 x.2 * Δ y.1 y.2 = ∑ x : I × J, ∑ y : I × J, (L (C1 x.1 y.1) (C2 x.2 y.2) - (m + d / 2)) * (Δ x.1 x.2 * Δ y.1 y.2) := by
    have : ∑ x : I × J, ∑ y : I × J, (m + d / 2) * (Δ x.1 x.2 * Δ y.1 y.2) = 0 := by
      simp only [← mul_sum, h0, mul_zero, sum_const_zero]
    rw [← sub_zero (∑ x : I × J, ∑ y : I × J, L (C1 x.1 y.1) (C2 x.2 y.2) * Δ x.1 x.2 * Δ y.1 y.2), ← this, ← sum_sub_distrib]
    refine sum_congr rfl fun x _ => ?_
    rw [← sum_sub_distrib]
    exact sum_congr rfl fun y _ => by ring
  rw [e]
  calc _ ≤ ∑ x : I × J, ∑ y : I × J, d / 2 * (|Δ x.1 x.2| * |Δ y.1 y.2|) := sum_le_sum fun x _ => sum_le_sum fun y _ => by
        refine (le_abs_self _).trans ?_
        rw [abs_mul, abs_mul]
        refine mul_le_mul_of_nonneg_right ?_ (by positivity)
        have := h x.1 y.1 x.2 y.2
        rw [abs_le]
        constructor <;> linarith
    _ = _ := by
        simp only [← mul_sum]
        rw [← sum_mul, Fintype.sum_prod_type]
        ring

/-- **C107.** The costs of the couplings of a Gromov-Wasserstein problem lie between the bounds of the loss times the squared mass. -/
theorem C107_bounds {I J V : Type*} [Fintype I] [Fintype J] {L : V → V → ℝ} {C1 : I → I → V} {C2 : J → J → V} {m₀ m₁ S : ℝ} (h : ∀ i k j l, m₀ ≤ L (C1 i k) (C2 j l) ∧ L (C1 i k) (C2 j l) ≤ m₁) {T : I → J → ℝ}
    (hT : ∀ i j, 0 ≤ T i j) (hS : ∑ i, ∑ j, T i j = S) : m₀ * S ^ 2 ≤ featEnergy L C1 C2 T ∧ featEnergy L C1 C2 T ≤ m₁ * S ^ 2 := by
  have e : ∀ m : ℝ, m * S ^ 2 = ∑ x : I × J, ∑ y : I × J, m * T x.1 x.2 * T y.1 y.2 := by
    intro m
    have hS' : ∑ x : I × J, T x.1 x.2 = S := by rw [Fintype.sum_prod_type, hS]
    simp only [← mul_sum, hS', ← sum_mul]
    ring
  rw [e, e, featEnergy_bil]
  unfold bil
  refine ⟨sum_le_sum fun x _ => sum_le_sum fun y _ => ?_, sum_le_sum fun x _ => sum_le_sum fun y _ => ?_⟩
  · rw [mul_assoc, mul_assoc]
    exact mul_le_mul_of_nonneg_right (h _ _ _ _).1 (mul_nonneg (hT _ _) (hT _ _))
  · rw [mul_assoc, mul_assoc]
    exact mul_le_mul_of_nonneg_right (h _ _ _ _).2 (mul_nonneg (hT _ _) (hT _ _))

theorem feat_dec (hsym : symmetric = true → (∀ t i k, C1 t i k = C1 t k i) ∧ ∀ t j l, C2 t j l = C2 t l j) (hreg : 0 < reg) (halpha : 0 ≤ alpha) {κ S : ℝ} {t : B} (hκ : FeatCurvatureLe dec.loss (C1 t) (C2 t) κ)
    (hS0 : 0 < S) {s : GSt B I J} (hpos : ∀ i j, 0 < s.T t i j) (hlog : ∀ i j, s.logT t i j = Real.log (s.T t i j)) (hS : ∑ i, ∑ j, s.T t i j = S) {s' : GSt B I J}
    (hs' : s' = gStep (computeTensor dec a b C1 C2 symmetric) symmetric M alpha reg proj s) (hr : ∀ i, ∑ j, s'.T t i j = ∑ j, s.T t i j) (hc : ∀ j, ∑ i, s'.T t i j = ∑ i, s.T t i j) :
    featFused dec.loss (C1 t) (C2 t) (M t) alpha (s'.T t) ≤ featFused dec.loss (C1 t) (C2 t) (M t) alpha (s.T t) - (reg / S - alpha * κ) * l1dist (s'.T t) (s.T t) ^ 2 := by
  have hp' : ∀ i j, 0 < s'.T t i j := fun i j => by rw [hs']; exact gStep_pos _ s t i j
  obtain ⟨x, y, hf⟩ := gStep_form (L := computeTensor dec a b C1 C2 symmetric) (symmetric := symmetric) (M := M) (alpha := alpha) (reg := reg) proj s t
  rw [← hs'] at hf
  rw [prox_identity symmetric dec a b hsym M alpha hreg t hpos hp' hr hc (x := x) (y := y) (fun i j => by rw [hf, hlog])]
  have h1 := GwEntropic.pinsker_plan (fun i j => (hpos i j).le) hp' hS (by rw [← hS]; exact sum_congr rfl fun i _ => hr i)
  have h1' := GwEntropic.pinsker_plan (fun i j => (hp' i j).le) hpos (by rw [← hS]; exact sum_congr rfl fun i _ => hr i) hS
  have h2 := mul_le_mul_of_nonneg_left (hκ (fun i j => s'.T t i j - s.T t i j) (fun i => by rw [sum_sub_distrib, hr, sub_self]) (fun j => by rw [sum_sub_distrib, hc, sub_self])) halpha
  rw [GwEntropic.l1dist_comm] at h1
  have h4 : reg / S * l1dist (s'.T t) (s.T t) ^ 2 ≤ reg * (klPlan (s.T t) (s'.T t) + klPlan (s'.T t) (s.T t)) := by
    rw [div_mul_eq_mul_div, div_le_iff₀ hS0]
    nlinarith
  have e5 : κ * (∑ i, ∑ j, |s'.T t i j - s.T t i j|) ^ 2 = κ * l1dist (s'.T t) (s.T t) ^ 2 := rfl
  rw [e5] at h2
  linarith [mul_assoc alpha κ (l1dist (s'.T t) (s.T t) ^ 2)]

/-- **C107.** An outer iteration that keeps the marginals of a problem does not increase its fused cost when `reg` is at least `alpha` times the curvature times the mass. -/
theorem C107_descent (hsym : symmetric = true → (∀ t i k, C1 t i k = C1 t k i) ∧ ∀ t j l, C2 t j l = C2 t l j) (hreg : 0 < reg) (halpha : 0 ≤ alpha) {κ S : ℝ} {t : B}
    (hκ : FeatCurvatureLe dec.loss (C1 t) (C2 t) κ) (hS0 : 0 < S) (hκS : S * (alpha * κ) ≤ reg) {s : GSt B I J} (hpos : ∀ i j, 0 < s.T t i j) (hlog : ∀ i j, s.logT t i j = Real.log (s.T t i j))
    (hS : ∑ i, ∑ j, s.T t i j = S) {s' : GSt B I J} (hs' : s' = gStep (computeTensor dec a b C1 C2 symmetric) symmetric M alpha reg proj s) (hr : ∀ i, ∑ j, s'.T t i j = ∑ j, s.T t i j)
    (hc : ∀ j, ∑ i, s'.T t i j = ∑ i, s.T t i j) :
    featFused dec.loss (C1 t) (C2 t) (M t) alpha (s'.T t) ≤ featFused dec.loss (C1 t) (C2 t) (M t) alpha (s.T t) := by
  refine (feat_dec hsym hreg halpha hκ hS0 hpos hlog hS hs' hr hc).trans (sub_le_self _ (mul_nonneg ?_ (sq_nonneg _)))
  rw [sub_nonneg, le_div_iff₀ hS0]
  linarith

/-- **C107.** With exact projections the fused cost of every problem decreases along the outer iterations (from the first one on), under the same condition. -/
theorem C107_monotone (hsym : symmetric = true → (∀ t i k, C1 t i k = C1 t k i) ∧ ∀ t j l, C2 t j l = C2 t l j) (hreg : 0 < reg) (halpha : 0 ≤ alpha) (hproj : ExactProj a b proj) (ha : ∀ t i, 0 < a t i) {t : B} {κ : ℝ}
    (hκ : FeatCurvatureLe dec.loss (C1 t) (C2 t) κ) (hκS : (∑ i, a t i) * (alpha * κ) ≤ reg) (s : GSt B I J) :
    Antitone fun k => featFused dec.loss (C1 t) (C2 t) (M t) alpha (((gStep (computeTensor dec a b C1 C2 symmetric) symmetric M alpha reg proj)^[k + 1] s).T t) := by
  refine antitone_nat_of_succ_le fun k => ?_
  obtain ⟨u, hu⟩ : ∃ u, u = (gStep (computeTensor dec a b C1 C2 symmetric) symmetric M alpha reg proj)^[k] s := ⟨_, rfl⟩
  simp only [Function.iterate_succ_apply' _ (k + 1), Function.iterate_succ_apply' _ k, ← hu]
  have c1 : IsCoupling (a t) (b t) ((gStep (computeTensor dec a b C1 C2 symmetric) symmetric M alpha reg proj u).T t) := gStep_exact hproj u t
  have c2 : IsCoupling (a t) (b t) ((gStep (computeTensor dec a b C1 C2 symmetric) symmetric M alpha reg proj (gStep (computeTensor dec a b C1 C2 symmetric) symmetric M alpha reg proj u)).T t) := gStep_exact hproj _ t
  refine C107_descent (proj := proj) hsym hreg halpha hκ (S := ∑ i, a t i) (sum_pos (fun i _ => ha t i) univ_nonempty) hκS (fun i j => gStep_pos _ u t i j) (fun i j => gStep_log _ u t i j)
    (sum_congr rfl fun i _ => c1.row i) rfl (fun i => ?_) fun j => ?_
  · rw [c1.row, c2.row]
  · rw [c1.col, c2.col]

/-- **C107.** With exact projections the outer loop stops by its own test after an explicit number of iterations, when `reg` exceeds `alpha` times the curvature times the mass by a fixed factor for every problem;
`lo`, `hi` bound the fused costs of the couplings. -/
theorem C107_stops (hsym : symmetric = true → (∀ t i k, C1 t i k = C1 t k i) ∧ ∀ t j l, C2 t j l = C2 t l j) (hreg : 0 < reg) (halpha : 0 ≤ alpha) (hproj : ExactProj a b proj) (ha : ∀ t i, 0 < a t i)
    {κ lo hi : B → ℝ} (hκ : ∀ t, FeatCurvatureLe dec.loss (C1 t) (C2 t) (κ t)) {c : ℝ} (hc : 0 < c) (hκS : ∀ t, c ≤ reg / (∑ i, a t i) - alpha * κ t)
    (hlo : ∀ t T, IsCoupling (a t) (b t) T → lo t ≤ featFused dec.loss (C1 t) (C2 t) (M t) alpha T) (hhi : ∀ t T, IsCoupling (a t) (b t) T → featFused dec.loss (C1 t) (C2 t) (M t) alpha T ≤ hi t) (eps : ℝ)
    (T0 : B → I → J → ℝ) {tol : ℝ} (htol : 0 < tol) {N n : ℕ} (hN : ∑ t, (hi t - lo t) < N * (c * (tol * (Fintype.card I * Fintype.card J)) ^ 2)) (hn : N + 1 ≤ n) :
    (gLoop (computeTensor dec a b C1 C2 symmetric) symmetric M alpha reg proj eps T0 n tol).exit = .converged := by
  obtain ⟨step, hstep⟩ : ∃ step, step = gStep (computeTensor dec a b C1 C2 symmetric) symmetric M alpha reg proj := ⟨_, rfl⟩
  obtain ⟨F, hF⟩ : ∃ F : B → (I → J → ℝ) → ℝ, F = fun t => featFused dec.loss (C1 t) (C2 t) (M t) alpha := ⟨_, rfl⟩
  have hcard : (0 : ℝ) < Fintype.card I * Fintype.card J := by
    have h1 : (0 : ℝ) < Fintype.card I := Nat.cast_pos.2 Fintype.card_pos
    have h2 : (0 : ℝ) < Fintype.card J := Nat.cast_pos.2 Fintype.card_pos
    positivity
  have hcoup : ∀ u t, IsCoupling (a t) (b t) ((step u).T t) := fun u t => by rw [hstep]; exact gStep_exact hproj u t
  have hdec : ∀ u t, F t ((step (step u)).T t) ≤ F t ((step u).T t) - c * l1dist ((step (step u)).T t) ((step u).T t) ^ 2 := by
    intro u t
    have h := feat_dec (proj := proj) (a := a) (b := b) (M := M) hsym hreg halpha (hκ t) (S := ∑ i, a t i) (sum_pos (fun i _ => ha t i) univ_nonempty) (s := step u) (s' := step (step u))
      (fun i j => by rw [hstep]; exact gStep_pos _ u t i j) (fun i j => by rw [hstep]; exact gStep_log _ u t i j) (sum_congr rfl fun i _ => (hcoup u t).row i) (by rw [hstep])
      (fun i => by rw [(hcoup u t).row, (hcoup _ t).row]) (fun j => by rw [(hcoup u t).col, (hcoup _ t).col])
    rw [hF]
    exact h.trans (sub_le_sub_left (mul_le_mul_of_nonneg_right (hκS t) (sq_nonneg _)) _)
  by_contra hx
  have hno : ∀ k, k < n → ¬ gStop tol (step^[k] (gInit eps T0)) (step^[k + 1] (gInit eps T0)) := by
    intro k hk hs
    refine hx ?_
    rw [hstep] at hs
    exact loop_stops n 0 _ (fun _ => id) k hk hs
  have hbig : ∀ k, k + 1 < n → ∑ t, F t ((step^[k + 2] (gInit eps T0)).T t) ≤ ∑ t, F t ((step^[k + 1] (gInit eps T0)).T t) - c * (tol * (Fintype.card I * Fintype.card J)) ^ 2 := by
    intro k hk
    have h1 := hno (k + 1) hk
    unfold gStop at h1
    push Not at h1
    obtain ⟨t₀, ht⟩ := h1
    rw [le_div_iff₀ hcard] at ht
    have e : ∀ m, step^[m + 1] (gInit eps T0) = step (step^[m] (gInit eps T0)) := fun m => Function.iterate_succ_apply' _ _ _
    have h2 : ∀ t, F t ((step^[k + 2] (gInit eps T0)).T t) ≤ F t ((step^[k + 1] (gInit eps T0)).T t) - c * l1dist ((step^[k + 2] (gInit eps T0)).T t) ((step^[k + 1] (gInit eps T0)).T t) ^ 2 := by
      intro t
      rw [e (k + 1), e k]
      exact hdec _ t
    have h3 : ∑ t, F t ((step^[k + 2] (gInit eps T0)).T t) ≤ ∑ t, F t ((step^[k + 1] (gInit eps T0)).T t) - ∑ t, c * l1dist ((step^[k + 2] (gInit eps T0)).T t) ((step^[k + 1] (gInit eps T0)).T t) ^ 2 := by
      rw [← sum_sub_distrib]
      exact sum_le_sum fun t _ => h2 t
    have h4 : c * l1dist ((step^[k + 2] (gInit eps T0)).T t₀) ((step^[k + 1] (gInit eps T0)).T t₀) ^ 2 ≤ ∑ t, c * l1dist ((step^[k + 2] (gInit eps T0)).T t) ((step^[k + 1] (gInit eps T0)).T t) ^ 2 :=
      single_le_sum (f := fun t => c * l1dist ((step^[k + 2] (gInit eps T0)).T t) ((step^[k + 1] (gInit eps T0)).T t) ^ 2) (fun t _ => mul_nonneg hc.le (sq_nonneg _)) (mem_univ t₀)
    have h5 : (tol * (Fintype.card I * Fintype.card J)) ^ 2 ≤ l1dist ((step^[k + 2] (gInit eps T0)).T t₀) ((step^[k + 1] (gInit eps T0)).T t₀) ^ 2 := by
      refine pow_le_pow_left₀ (mul_nonneg htol.le hcard.le) ?_ 2
      rw [GwEntropic.l1dist_comm]
      exact ht
    have h6 := mul_le_mul_of_nonneg_left h5 hc.le
    linarith
  have hsum : ∀ m, m + 1 ≤ n → ∑ t, F t ((step^[m + 1] (gInit eps T0)).T t) ≤ ∑ t, F t ((step^[1] (gInit eps T0)).T t) - m * (c * (tol * (Fintype.card I * Fintype.card J)) ^ 2) := by
    intro m
    induction m with
    | zero => intro _; simp
    | succ m ih =>
      intro hm
      have h1 := ih (by omega)
      have h2 := hbig m (by omega)
      push_cast
      linarith
  have h1 := hsum N hn
  have h2 : ∑ t, lo t ≤ ∑ t, F t ((step^[N + 1] (gInit eps T0)).T t) := sum_le_sum fun t _ => by
    rw [hF, Function.iterate_succ_apply']
    exact hlo t _ (hcoup _ t)
  have h3 : ∑ t, F t ((step^[1] (gInit eps T0)).T t) ≤ ∑ t, hi t := sum_le_sum fun t _ => by
    rw [hF]
    exact hhi t _ (hcoup _ t)
  rw [sum_sub_distrib] at hN
  linarith

/-- **C107.** A plan the outer iteration leaves unchanged is a first-order point of the (unregularised) fused cost among the plans with its marginals, whatever the inner solver; if the plan changes by at most a
factor `exp δ`, the derivative of the cost towards any plan with the same marginals is at least `-2 reg δ` times the mass. -/
theorem C107_critical (hsym : symmetric = true → (∀ t i k, C1 t i k = C1 t k i) ∧ ∀ t j l, C2 t j l = C2 t l j) (hreg : 0 < reg) {t : B} {s : GSt B I J} (hlog : ∀ i j, s.logT t i j = Real.log (s.T t i j))
    (hT : ∀ i j, 0 ≤ s.T t i j) {s' : GSt B I J} (hs' : s' = gStep (computeTensor dec a b C1 C2 symmetric) symmetric M alpha reg proj s) :
    ((∀ i j, s'.T t i j = s.T t i j) → IsFeatCritical dec.loss (C1 t) (C2 t) (M t) alpha (s.T t)) ∧
    ∀ δ, (∀ i j, |Real.log (s'.T t i j) - Real.log (s.T t i j)| ≤ δ) → ∀ S : I → J → ℝ, IsCoupling (fun i => ∑ j, s.T t i j) (fun j => ∑ i, s.T t i j) S →
      -(2 * reg * δ * ∑ i, ∑ j, s.T t i j) ≤ Spec.inner (linearised (computeTensor dec a b C1 C2 symmetric) symmetric M alpha s.T t) (fun i j => S i j - s.T t i j) := by
  obtain ⟨x, y, hf⟩ := gStep_form (L := computeTensor dec a b C1 C2 symmetric) (symmetric := symmetric) (M := M) (alpha := alpha) (reg := reg) proj s t
  rw [← hs'] at hf
  have key : ∀ Δ : I → J → ℝ, ZeroRows Δ → ZeroCols Δ → Spec.inner (linearised (computeTensor dec a b C1 C2 symmetric) symmetric M alpha s.T t) Δ
      = -reg * ∑ i, ∑ j, (Real.log (s'.T t i j) - Real.log (s.T t i j)) * Δ i j := by
    intro Δ zr zc
    have e : linearised (computeTensor dec a b C1 C2 symmetric) symmetric M alpha s.T t = fun i j => -reg * (Real.log (s'.T t i j) - Real.log (s.T t i j)) + reg * x i + reg * y j := by
      funext i j
      rw [hf, hlog]
      field_simp
      ring
    rw [e, inner_add_const _ _ _ _ zr zc]
    unfold Spec.inner
    simp only [mul_sum, mul_assoc]
  refine ⟨fun h Δ zr zc r => ?_, fun δ hδ S hS => ?_⟩
  · rw [inner_linearised symmetric dec a b hsym M alpha s.T t Δ (Or.inl ⟨zr, zc⟩) r, key Δ zr zc]
    simp only [h, sub_self, zero_mul, sum_const_zero, mul_zero, add_zero]
  · rw [key _ (fun i => by rw [sum_sub_distrib, hS.row, sub_self]) (fun j => by rw [sum_sub_distrib, hS.col, sub_self])]
    have h1 : |∑ i, ∑ j, (Real.log (s'.T t i j) - Real.log (s.T t i j)) * (S i j - s.T t i j)| ≤ ∑ i, ∑ j, δ * (S i j + s.T t i j) := by
      refine (abs_sum_le_sum_abs _ _).trans (sum_le_sum fun i _ => (abs_sum_le_sum_abs _ _).trans (sum_le_sum fun j _ => ?_))
      rw [abs_mul]
      have h2 : |S i j - s.T t i j| ≤ S i j + s.T t i j := by
        rw [abs_le]
        constructor <;> linarith [hS.nonneg i j, hT i j]
      exact mul_le_mul (hδ i j) h2 (abs_nonneg _) ((abs_nonneg _).trans (hδ i j))
    have h3 : ∑ i, ∑ j, δ * (S i j + s.T t i j) = 2 * δ * ∑ i, ∑ j, s.T t i j := by
      have : ∑ i, ∑ j, S i j = ∑ i, ∑ j, s.T t i j := sum_congr rfl fun i _ => hS.row i
      simp only [← mul_sum, sum_add_distrib, this]
      ring
    rw [h3] at h1
    have h4 := mul_le_mul_of_nonneg_left ((le_abs_self _).trans h1) hreg.le
    linarith

/-- **C107.** A first-order point is a global minimiser among the plans with its marginals when the energy is nonnegative along the directions that keep them (and `alpha ≥ 0`). -/
theorem C107_global {I J V : Type*} [Fintype I] [Fintype J] {L : V → V → ℝ} {C1 : I → I → V} {C2 : J → J → V} {M : I → J → ℝ} {alpha : ℝ} (halpha : 0 ≤ alpha) {T : I → J → ℝ}
    (hcrit : IsFeatCritical L C1 C2 M alpha T) (hconv : ∀ Δ : I → J → ℝ, ZeroRows Δ → ZeroCols Δ → 0 ≤ featEnergy L C1 C2 Δ) {S : I → J → ℝ} (hr : ∀ i, ∑ j, S i j = ∑ j, T i j)
    (hc : ∀ j, ∑ i, S i j = ∑ i, T i j) : featFused L C1 C2 M alpha T ≤ featFused L C1 C2 M alpha S := by
  have zr : ZeroRows fun i j => S i j - T i j := fun i => by rw [sum_sub_distrib, hr, sub_self]
  have zc : ZeroCols fun i j => S i j - T i j := fun j => by rw [sum_sub_distrib, hc, sub_self]
  have h := hcrit _ zr zc 1
  have e : (fun i j => T i j + 1 * (S i j - T i j)) = S := by funext i j; ring
  rw [e] at h
  have := mul_nonneg halpha (hconv _ zr zc)
  rw [h]
  linarith

end Descent

/-! ## What is false of the code -/

/-- **C106, refuted as documented**: the loss `"kl"` is described as `∑ a log(a / b)`, `a` from `C1` and `b` from `C2`; the program computes it with the roles exchanged (here without guard). -/
theorem C106_kl_documented_refuted : ∃ (C1 : Unit → Unit → Unit → Unit → ℝ) (C2 : Unit → Unit → Unit → Unit → ℝ) (T : Unit → Unit → Unit → ℝ), (∀ t i k d, 0 < C1 t i k d) ∧ (∀ t j l d, 0 < C2 t j l d) ∧
    lossQuadraticSamples (klDec 0 false) (fun _ _ => 1) (fun _ _ => 1) C1 C2 T (some true) true () ≠ featEnergy (fun x y => ∑ d, x d * Real.log (x d / y d)) (C1 ()) (C2 ()) (T ()) := by
  refine ⟨fun _ _ _ _ => 1, fun _ _ _ _ => 2, fun _ _ _ => 1, fun _ _ _ _ => one_pos, fun _ _ _ _ => two_pos, ?_⟩
  rw [(C106_loss _ _ _ _ _ _ _).2.2]
  unfold featEnergy
  simp only [(C106_decompositions 0 _ _).2.1]
  unfold featKl
  simp only [univ_unique, sum_singleton, add_zero, Real.log_one, sub_zero, mul_one, one_mul]
  rw [Real.log_div one_ne_zero two_ne_zero, Real.log_one]
  have := Real.log_pos (one_lt_two)
  intro h
  linarith

/-- **C106, calls that fail**: `M` without `alpha` (documented to mean `alpha = 0.5`), and `max_iter = 0` or `max_iter_inner = 0`. -/
theorem C106_fails_refuted {B I J D : Type*} [Fintype B] [Fintype I] [Fintype J] [Fintype D] (eps rtol atol : ℝ) (dec : VDecomp D) (C1 : B → I → I → D → ℝ) (C2 : B → J → J → D → ℝ) (reg : ℝ)
    (a : Option (B → I → ℝ)) (b : Option (B → J → ℝ)) (symmetric : Option Bool) (M : B → I → J → ℝ) (Tinit : Option (B → I → J → ℝ)) (maxIter : ℕ) (tol : ℝ) (maxIterInner : ℕ) (tolInner : ℝ) :
    solveGromovBatch eps rtol atol dec C1 C2 reg a b symmetric (some M) none Tinit maxIter tol maxIterInner tolInner = none ∧
    solveGromovBatch eps rtol atol dec C1 C2 reg a b symmetric none none Tinit 0 tol maxIterInner tolInner = none ∧
    solveGromovBatch eps rtol atol dec C1 C2 reg a b symmetric none none Tinit maxIter tol 0 tolInner = none := by
  refine ⟨rfl, ?_, ?_⟩
  · unfold solveGromovBatch linearPart
    simp
  · unfold solveGromovBatch linearPart
    simp

/-- a cost matrix that is symmetric up to a relative error of `10⁻⁶` -/
noncomputable def almostSym : Unit → Fin 2 → Fin 2 → Unit → ℝ := fun _ i k _ => if i = k then 0 else if i = 0 then 1 + 1 / 10 ^ 6 else 1

/-- **C106, refuted for nearly symmetric costs**: the automatic test uses a relative tolerance of `10⁻⁵`; a matrix that passes it without being symmetric is treated as symmetric, and the linearised cost is not the
derivative of the cost along a direction that keeps the marginals. -/
theorem C106_flag_refuted : ∃ (C2 : Unit → Fin 2 → Fin 2 → Unit → ℝ) (T : Unit → Fin 2 → Fin 2 → ℝ) (Δ : Fin 2 → Fin 2 → ℝ), (∀ t i j, 0 < T t i j) ∧ ZeroRows Δ ∧ ZeroCols Δ ∧
    symFlag (1 / 10 ^ 5) (1 / 10 ^ 10) none almostSym C2 = true ∧
    ∀ a b, featFused sqDec.loss (almostSym ()) (C2 ()) 0 1 (fun i j => T () i j + 1 * Δ i j) ≠ featFused sqDec.loss (almostSym ()) (C2 ()) 0 1 (T ())
      + 1 * Spec.inner (linearised (computeTensor sqDec a b almostSym C2 true) true (fun _ _ _ => 0) 1 T ()) Δ + 1 ^ 2 * (1 * featEnergy sqDec.loss (almostSym ()) (C2 ()) Δ) := by
  refine ⟨fun _ j l _ => if j = l then 0 else 1, fun _ i j => if i = 0 then 1 / 4 else if j = 0 then 1 / 8 else 3 / 8, fun i j => if i = j then 1 else -1, fun t i j => by dsimp only; split_ifs <;> norm_num, ?_, ?_, ?_, fun a b => ?_⟩
  · intro i
    fin_cases i <;> simp
  · intro j
    fin_cases j <;> simp
  · classical
    unfold symFlag
    rw [Option.getD_none]
    refine decide_eq_true ⟨fun t i k d => ?_, fun t i k d => ?_⟩
    · unfold almostSym
      fin_cases i <;> fin_cases k <;> norm_num [abs_of_pos, abs_of_neg]
    · have e : (if i = k then (0 : ℝ) else 1) = if k = i then 0 else 1 := by simp only [eq_comm]
      dsimp only
      rw [e, sub_self, abs_zero]
      positivity
  · rw [inner_lin_coef true sqDec a b _ _ _ _ _ _ _ (Or.inl ⟨by intro i; fin_cases i <;> simp, by intro j; fin_cases j <;> simp⟩)]
    unfold featFused
    rw [featEnergy_bil, featEnergy_bil, featEnergy_bil, bil_line]
    unfold bil coef almostSym cost Spec.inner
    simp only [(C106_decompositions 0 _ _).1, featSq, Fintype.sum_prod_type, Fin.sum_univ_two, univ_unique, sum_singleton]
    norm_num

/-! ### the hypotheses are met -/

/-- the graph with two vertices and one edge -/
def exEdge : Unit → Fin 2 → Fin 2 → Unit → ℝ := fun _ i k _ => if i = k then 0 else 1

theorem exEdge_loss (i k j l : Fin 2) : 0 ≤ (sqDec : VDecomp Unit).loss (exEdge () i k) (exEdge () j l) ∧ (sqDec : VDecomp Unit).loss (exEdge () i k) (exEdge () j l) ≤ 0 + 1 := by
  rw [(C106_decompositions 0 _ _).1]
  unfold featSq exEdge
  rw [univ_unique, sum_singleton]
  split_ifs <;> norm_num

example : ∃ proj, (gLoop (computeTensor sqDec (fun _ _ => 1 / 2) (fun _ => ![1 / 4, 3 / 4]) exEdge exEdge true) true (fun _ _ _ => 0) 1 1 proj 0 (fun _ _ _ => 1 / 4) 4 (1 / 4) : Run (GSt Unit (Fin 2) (Fin 2))).exit = .converged := by
  have ha : ∀ (t : Unit) (i : Fin 2), (0 : ℝ) < (fun _ _ => 1 / 2 : Unit → Fin 2 → ℝ) t i := fun _ _ => by norm_num
  have hb : ∀ (t : Unit) (j : Fin 2), (0 : ℝ) < (fun _ => ![1 / 4, 3 / 4] : Unit → Fin 2 → ℝ) t j := by
    intro t j
    fin_cases j <;> norm_num
  obtain ⟨proj, hproj⟩ := C107_exact_exists ha hb fun t => by rw [Fin.sum_univ_two, Fin.sum_univ_two]; norm_num
  have hE : ∀ T : Fin 2 → Fin 2 → ℝ, IsCoupling (fun _ => 1 / 2) ![1 / 4, 3 / 4] T → 0 ≤ featFused (sqDec : VDecomp Unit).loss (exEdge ()) (exEdge ()) (fun _ _ => 0) 1 T ∧
      featFused (sqDec : VDecomp Unit).loss (exEdge ()) (exEdge ()) (fun _ _ => 0) 1 T ≤ 1 := by
    intro T hT
    have h := C107_bounds (L := (sqDec : VDecomp Unit).loss) (C1 := exEdge ()) (C2 := exEdge ()) (S := 1) exEdge_loss hT.nonneg (by simp only [hT.row, Fin.sum_univ_two]; norm_num)
    unfold featFused
    rw [sub_self, zero_mul, zero_add, one_mul]
    constructor <;> linarith [h.1, h.2]
  refine ⟨proj, C107_stops (fun _ => ⟨?_, ?_⟩) one_pos zero_le_one hproj ha (κ := fun _ => 1 / 2) (lo := fun _ => 0) (hi := fun _ => 1) (fun _ => C107_curvature exEdge_loss) (c := 1 / 2) (by norm_num)
    (fun _ => by rw [Fin.sum_univ_two]; norm_num) (fun _ T hT => (hE T hT).1) (fun _ T hT => (hE T hT).2) 0 _ (by norm_num) (N := 3) ?_ (by norm_num)⟩
  · intro t i k
    funext d
    simp only [exEdge, eq_comm]
  · intro t i k
    funext d
    simp only [exEdge, eq_comm]
  · simp
    norm_num

example := C106_result (1 / 10 ^ 15) (1 / 10 ^ 5) (1 / 10 ^ 10) sqDec exEdge exEdge (1 / 100) (a := none) (b := some fun _ => ![1 / 4, 3 / 4]) (by simp)
  (by intro w hw t j; obtain rfl := Option.some.inj hw; fin_cases j <;> norm_num) none (Or.inl ⟨rfl, rfl, rfl, rfl⟩) none (maxIter := 50) (by norm_num) (1 / 10 ^ 5) (maxIterInner := 50) (by norm_num) (1 / 10 ^ 5)

end POT.Props
