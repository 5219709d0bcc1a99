import Verif.Props.Sinkhorn

/-!
# Log-domain, batched and lazy Sinkhorn (C28, C33, part of C22)
-/

set_option linter.unusedSectionVars false

namespace POT.Props

open Finset Spec Filter Topology Sinkhorn

variable {I J : Type*} [Fintype I] [Fintype J] [Nonempty I] [Nonempty J]

theorem exp_lse {L : Type*} [Fintype L] [Nonempty L] (x : L → ℝ) : Real.exp (logsumexp x) = ∑ l, Real.exp (x l) :=
  Real.exp_log (sum_pos (fun l _ => Real.exp_pos _) univ_nonempty)

theorem exp_log_sub_lse {L : Type*} [Fintype L] [Nonempty L] {w : ℝ} (hw : 0 < w) (x : L → ℝ) :
    Real.exp (Real.log w - logsumexp x) = w / ∑ l, Real.exp (x l) := by
  rw [Real.exp_sub, Real.exp_log hw, exp_lse]

theorem exp_neg_div_add (m reg x : ℝ) : Real.exp (-m / reg + x) = Real.exp (m / -reg) * Real.exp x := by
  rw [← Real.exp_add, div_neg, neg_div]

section LogStep

variable {a : I → ℝ} {b : J → ℝ} {M : I → J → ℝ} {reg : ℝ}

theorem exp_logStep_v (hb : ∀ j, 0 < b j) (t : UV I J) (j : J) :
    Real.exp ((logStep a b M reg t).v j) = b j / ∑ i, kernel M reg i j * Real.exp (t.u i) := by
  have : (logStep a b M reg t).v j = Real.log (b j) - logsumexp fun i => -M i j / reg + t.u i := rfl
  rw [this, exp_log_sub_lse (hb j)]
  simp only [exp_neg_div_add]
  rfl

theorem exp_logStep_u (ha : ∀ i, 0 < a i) (t : UV I J) (i : I) :
    Real.exp ((logStep a b M reg t).u i) = a i / ∑ j, kernel M reg i j * Real.exp ((logStep a b M reg t).v j) := by
  have : (logStep a b M reg t).u i = Real.log (a i) - logsumexp fun j => -M i j / reg + (logStep a b M reg t).v j := rfl
  rw [this, exp_log_sub_lse (ha i)]
  simp only [exp_neg_div_add]
  rfl

theorem logPlan_eq (t : UV I J) (i : I) (j : J) :
    logPlan M reg t i j = Real.exp (t.u i) * kernel M reg i j * Real.exp (t.v j) := by
  unfold logPlan logT kernel
  rw [← Real.exp_add, ← Real.exp_add, div_neg, neg_div]
  congr 1
  ring

/-- The multiplicative and the logarithmic scalings correspond, up to a constant `c`. -/
def RelU (c : ℝ) (s t : UV I J) : Prop := ∀ i, s.u i = c * Real.exp (t.u i)

/-- Both scalings correspond. -/
def RelUV (c : ℝ) (s t : UV I J) : Prop := (∀ i, s.u i = c * Real.exp (t.u i)) ∧ ∀ j, s.v j = Real.exp (t.v j) / c

theorem rel_step {c : ℝ} (hc : 0 < c) (ha : ∀ i, 0 < a i) (hb : ∀ j, 0 < b j) {s t : UV I J} (h : RelU c s t) :
    RelUV c (knoppStep a b (kernel M reg) s) (logStep a b M reg t) := by
  have hv : ∀ j, (knoppStep a b (kernel M reg) s).v j = Real.exp ((logStep a b M reg t).v j) / c := by
    intro j
    rw [knoppStep_v, exp_logStep_v hb]
    have : ∑ i, kernel M reg i j * s.u i = c * ∑ i, kernel M reg i j * Real.exp (t.u i) := by
      rw [mul_sum]
      exact sum_congr rfl fun i _ => by rw [h i]; ring
    rw [this, div_div, mul_comm c]
  refine ⟨fun i => ?_, hv⟩
  rw [knoppStep_u, exp_logStep_u ha]
  have : ∑ j, kernel M reg i j * (knoppStep a b (kernel M reg) s).v j
      = (∑ j, kernel M reg i j * Real.exp ((logStep a b M reg t).v j)) / c := by
    rw [sum_div]
    exact sum_congr rfl fun j _ => by rw [hv j]; ring
  rw [this]
  have p : 0 < ∑ j, kernel M reg i j * Real.exp ((logStep a b M reg t).v j) :=
    sum_pos (fun j _ => mul_pos (kernel_pos M reg i j) (Real.exp_pos _)) univ_nonempty
  field_simp

theorem rel_plan {c : ℝ} (hc : 0 < c) {s t : UV I J} (h : RelUV c s t) : plan (kernel M reg) s = logPlan M reg t := by
  funext i j
  rw [logPlan_eq]
  unfold plan
  rw [h.1, h.2]
  field_simp

/-- The constant by which the default initialisations of the two functions differ. -/
noncomputable def initRatio (I : Type*) [Fintype I] {J : Type*} (warm : Option ((I → ℝ) × (J → ℝ))) : ℝ :=
  match warm with
  | none => 1 / (Fintype.card I : ℝ)
  | some _ => 1

theorem initRatio_pos (warm : Option ((I → ℝ) × (J → ℝ))) : 0 < initRatio I warm := by
  cases warm with
  | none => unfold initRatio; positivity
  | some w => exact one_pos

theorem rel_init (warm : Option ((I → ℝ) × (J → ℝ))) : RelU (initRatio I warm) (knoppInit warm : UV I J) (logInit warm) := by
  intro i
  cases warm with
  | none => simp [knoppInit, logInit, initRatio]
  | some w => simp [knoppInit, logInit, initRatio]

end LogStep

/-- **C28.** For all positive weights, costs, regularisations, thresholds, iteration limits (at least 1) and warm starts (`none` or potentials):
`sinkhorn_log` and `sinkhorn_knopp` end in the same way after the same number of iterations, return the same plan, and their scalings correspond: with a
warm start the multiplicative scalings are exactly the exponentials of the logarithmic ones, and without warm start they are up to the
constant factor `1/n` of the different default initialisations. -/
theorem C28_log_equals_knopp (a : I → ℝ) (b : J → ℝ) (M : I → J → ℝ) (reg : ℝ) (n : ℕ) (hn : 0 < n) (thr : ℝ)
    (warm : Option ((I → ℝ) × (J → ℝ))) (ha : ∀ i, 0 < a i) (hb : ∀ j, 0 < b j) :
    let r := sinkhornKnopp a b M reg n thr warm
    let l := sinkhornLog a b M reg n thr warm
    r.exit = l.exit ∧ r.niter = l.niter ∧ plan (kernel M reg) r.s = logPlan M reg l.s ∧
      (∀ i, r.s.u i = (if warm.isNone then 1 / (Fintype.card I : ℝ) else 1) * Real.exp (l.s.u i)) ∧
      ∀ j, r.s.v j = Real.exp (l.s.v j) / (if warm.isNone then 1 / (Fintype.card I : ℝ) else 1) := by
  intro r l
  have hK := kernel_pos M reg
  have hc := initRatio_pos (I := I) warm
  have hpos : ∀ s t : UV I J, RelU (initRatio I warm) s t → Good s := by
    intro s t h
    refine good_of_pos fun i => ?_
    rw [h i]
    exact mul_pos hc (Real.exp_pos _)
  have h := loop_sim (step := knoppStep a b (kernel M reg)) (step' := logStep a b M reg) (bad := knoppBad a b (kernel M reg))
    (bad' := fun _ => False) (stop := fun ii _ s => ii % 10 = 0 ∧ colErr b (kernel M reg) s < thr)
    (stop' := fun ii _ s => ii % 10 = 0 ∧ logErr b M reg s < thr) (R := RelU (initRatio I warm)) (R' := RelUV (initRatio I warm))
    (fun s t hst => rel_step hc ha hb hst) (fun s t hst => hst.1)
    (fun s t hst => iff_of_false (not_knoppBad hK (weights_of_pos hb) (Or.inl ha) (hpos s t hst)) (fun h => h))
    (fun ii s t hst => by
      have e := rel_plan (M := M) (reg := reg) hc (rel_step (a := a) (b := b) (M := M) (reg := reg) hc ha hb hst)
      have e2 : colErr b (kernel M reg) (knoppStep a b (kernel M reg) s) = logErr b M reg (logStep a b M reg t) := by
        change norm2 (fun j => ∑ i, plan (kernel M reg) _ i j - b j) = norm2 fun j => ∑ i, logPlan M reg _ i j - b j
        rw [e]
      rw [e2]) n 0 (knoppInit warm) (logInit warm) (rel_init warm)
  obtain ⟨h1, h2, -, h4⟩ := h
  have h5 := h4 hn (not_knoppBad hK (weights_of_pos hb) (Or.inl ha) (hpos _ _ (rel_init warm)))
  have hr : initRatio I warm = if warm.isNone then 1 / (Fintype.card I : ℝ) else 1 := by
    cases warm <;> simp [initRatio]
  refine ⟨h1, h2, rel_plan hc h5, ?_, ?_⟩
  · rw [← hr]; exact h5.1
  · rw [← hr]; exact h5.2

/-- Consequence for `sinkhorn_log`: all guarantees of C25 and C27 carry over. -/
theorem C28_log_guarantees (a : I → ℝ) (b : J → ℝ) (M : I → J → ℝ) (reg : ℝ) (n : ℕ) (hn : 0 < n) (thr : ℝ)
    (warm : Option ((I → ℝ) × (J → ℝ))) (ha : ∀ i, 0 < a i) (hb : ∀ j, 0 < b j) :
    let l := sinkhornLog a b M reg n thr warm
    (∀ i, ∑ j, logPlan M reg l.s i j = a i) ∧
      (l.exit = .converged → norm2 (fun j => ∑ i, logPlan M reg l.s i j - b j) < thr) := by
  intro l
  obtain ⟨h1, -, h3, -⟩ := C28_log_equals_knopp a b M reg n hn thr warm ha hb
  have hA := weights_of_pos ha
  have hB := weights_of_pos hb
  rw [← h3]
  refine ⟨((C25_sinkhorn_knopp a b M reg n thr warm hA.nonneg hA.pos hB.nonneg hB.pos (Or.inl ha)).2 hn).1, fun hl => ?_⟩
  rw [← h1] at hl
  exact C27_converged_error a b M reg thr n warm hl

/-! ## Batch solvers -/

section Batch

variable {B : Type*} [Fintype B]

/-- **C28, batch.** `bregman_log_projection_batch(L)` and `bregman_projection_batch(exp(L))` return the same plans after the same number of iterations, for
every batch, iteration limit and tolerance; the potentials of the first are the logarithms of those of the second. -/
theorem C28_batch (L : B → I → J → ℝ) (a : B → I → ℝ) (b : B → J → ℝ) (n : ℕ) (tol : ℝ) (ha : ∀ t i, 0 < a t i)
    (hb : ∀ t j, 0 < b t j) :
    let K := fun t i j => Real.exp (L t i j)
    let r := bregmanBatch K a b n tol
    let l := bregmanLogBatch L a b n tol
    r.exit = l.exit ∧ r.niter = l.niter ∧ (∀ t i, r.s.f t i = Real.exp (l.s.f t i)) ∧ (∀ t j, r.s.g t j = Real.exp (l.s.g t j)) ∧
      ∀ t, batchPlan K r.s t = batchLogPlan L l.s t := by
  intro K r l
  let R : Batch B I J → Batch B I J → Prop := fun s u => (∀ t i, s.f t i = Real.exp (u.f t i)) ∧ ∀ t j, s.g t j = Real.exp (u.g t j)
  have hplan : ∀ s u, R s u → ∀ t, batchPlan K s t = batchLogPlan L u t := by
    intro s u h t
    funext i j
    unfold batchPlan batchLogPlan
    rw [h.1, h.2, Real.exp_add, Real.exp_add]
  have hstep : ∀ s u, R s u → R (batchStep K a b s) (batchLogStep L a b u) := by
    intro s u h
    have hf : ∀ t i, (batchStep K a b s).f t i = Real.exp ((batchLogStep L a b u).f t i) := by
      intro t i
      have e : (batchLogStep L a b u).f t i = Real.log (a t i) - logsumexp fun j => L t i j + u.g t j := rfl
      rw [e, exp_log_sub_lse (ha t i)]
      simp only [Real.exp_add, ← h.2]
      rfl
    refine ⟨hf, fun t j => ?_⟩
    have e : (batchLogStep L a b u).g t j = Real.log (b t j) - logsumexp fun i => L t i j + (batchLogStep L a b u).f t i := rfl
    rw [e, exp_log_sub_lse (hb t j)]
    simp only [Real.exp_add, ← hf]
    rfl
  obtain ⟨h1, h2, h3, -⟩ := loop_sim (step := batchStep K a b) (step' := batchLogStep L a b) (bad := fun _ => False) (bad' := fun _ => False)
    (stop := fun ii _ s => ii % 10 = 0 ∧ ∀ t, norm2 (fun i => ∑ j, batchPlan K s t i j - a t i) < tol)
    (stop' := fun ii _ s => ii % 10 = 0 ∧ ∀ t, norm2 (fun i => ∑ j, batchLogPlan L s t i j - a t i) < tol) (R := R) (R' := R)
    hstep (fun _ _ h => h) (fun _ _ _ => Iff.rfl) (fun ii s u h => by simp only [hplan _ _ (hstep s u h)]) n 0
    { f := fun _ _ => 1, g := fun _ _ => 1 } { f := fun _ _ => 0, g := fun _ _ => 0 } ⟨fun t i => by simp, fun t j => by simp⟩
  exact ⟨h1, h2, h3.1, h3.2, hplan _ _ h3⟩

theorem exp_batchLogStep_g (L : B → I → J → ℝ) (a : B → I → ℝ) (b : B → J → ℝ) (hb : ∀ t j, 0 < b t j) (s : Batch B I J) (t : B) (j : J) :
    ∑ i, batchLogPlan L (batchLogStep L a b s) t i j = b t j := by
  have e : (batchLogStep L a b s).g t j = Real.log (b t j) - logsumexp fun i => L t i j + (batchLogStep L a b s).f t i := rfl
  unfold batchLogPlan
  have p : 0 < ∑ i, Real.exp (L t i j + (batchLogStep L a b s).f t i) := sum_pos (fun i _ => Real.exp_pos _) univ_nonempty
  calc ∑ i, Real.exp (L t i j + (batchLogStep L a b s).f t i + (batchLogStep L a b s).g t j)
      = (∑ i, Real.exp (L t i j + (batchLogStep L a b s).f t i)) * Real.exp ((batchLogStep L a b s).g t j) := by
        rw [sum_mul]
        exact sum_congr rfl fun i _ => Real.exp_add _ _
    _ = b t j := by
        rw [e, exp_log_sub_lse (hb t j), mul_div_cancel₀ _ p.ne']

/-- **C33, batch solvers.** Every problem of the batch gets a plan with exact column marginals, both without and with the extra update of
`grad="last_step"`; when the function ends by its test, every row-marginal error is below the tolerance. -/
theorem C33_batch_marginals (L : B → I → J → ℝ) (a : B → I → ℝ) (b : B → J → ℝ) (n : ℕ) (hn : 0 < n) (tol : ℝ)
    (hb : ∀ t j, 0 < b t j) :
    let l := bregmanLogBatch L a b n tol
    (∀ t j, ∑ i, batchLogPlan L l.s t i j = b t j) ∧
    (∀ t j, ∑ i, batchLogPlan L (batchLogStep L a b l.s) t i j = b t j) ∧
    (l.exit = .converged → ∀ t, norm2 (fun i => ∑ j, batchLogPlan L l.s t i j - a t i) < tol) := by
  intro l
  obtain ⟨k, hk, e, -, -, x1, x2, x3⟩ := loop_spec (step := batchLogStep L a b) (bad := fun _ => False)
    (stop := fun ii _ s => ii % 10 = 0 ∧ ∀ t, norm2 (fun i => ∑ j, batchLogPlan L s t i j - a t i) < tol) n 0
    { f := fun _ _ => 0, g := fun _ _ => 0 }
  have e' : l.s = _ := e
  refine ⟨?_, fun t j => exp_batchLogStep_g L a b hb _ t j, ?_⟩
  · have hk0 : ∃ m, k = m + 1 := by
      rcases h : l.exit with _ | _ | _
      · obtain ⟨m, hm, -⟩ := x2 h
        exact ⟨m, hm⟩
      · exact ⟨n - 1, by rw [x1 h]; omega⟩
      · exact absurd (x3 h).2 (fun h => h)
    obtain ⟨m, rfl⟩ := hk0
    rw [e', Function.iterate_succ_apply']
    exact exp_batchLogStep_g L a b hb _
  · intro h
    obtain ⟨m, rfl, -, -, h4⟩ := x2 h
    rw [e']
    exact h4

/-- The problems of a batch do not influence each other's iterates: the scalings of problem `t` after `k` iterations are those of the batch that
contains problem `t` alone. -/
theorem C28_batch_independent (K : B → I → J → ℝ) (a : B → I → ℝ) (b : B → J → ℝ) (s : Batch B I J) (t : B) (k : ℕ) :
    let one : Batch Unit I J := ⟨fun _ => s.f t, fun _ => s.g t⟩
    ((batchStep K a b)^[k] s).f t = ((batchStep (fun _ : Unit => K t) (fun _ => a t) fun _ => b t)^[k] one).f () ∧
    ((batchStep K a b)^[k] s).g t = ((batchStep (fun _ : Unit => K t) (fun _ => a t) fun _ => b t)^[k] one).g () := by
  intro one
  induction k with
  | zero => exact ⟨rfl, rfl⟩
  | succ k ih =>
    rw [Function.iterate_succ_apply', Function.iterate_succ_apply']
    unfold batchStep at ih ⊢
    constructor
    · funext i
      dsimp only
      rw [ih.2]
    · funext j
      dsimp only
      rw [ih.2]

end Batch

/-! ## The lazy branch of `empirical_sinkhorn` -/

/-- The lazy iteration is the log-domain iteration of the transposed problem. -/
theorem lazy_is_transposed_log (a : I → ℝ) (b : J → ℝ) (M : I → J → ℝ) (reg : ℝ) (s : UV I J) (k : ℕ) :
    let t := (logStep b a (fun j i => M i j) reg)^[k] ⟨s.v, s.u⟩
    (lazyStep a b M reg)^[k] s = ⟨t.v, t.u⟩ := by
  induction k with
  | zero => rfl
  | succ k ih =>
    dsimp only at ih ⊢
    rw [Function.iterate_succ_apply', Function.iterate_succ_apply', ih]
    unfold lazyStep logStep
    dsimp only
    have e : ∀ x y : ℝ, x - y / reg = -y / reg + x := fun x y => by ring
    simp only [e]

theorem lazyPlan_eq (M : I → J → ℝ) (reg : ℝ) (s : UV I J) (i : I) (j : J) : lazyPlan M reg s i j = logPlan M reg s i j := by
  unfold lazyPlan logPlan logT
  congr 1
  ring

/-- **C22, marginals of the lazy branch.** The plan of the potentials that lazy `empirical_sinkhorn` returns has column sums exactly `b` (hence total mass
`∑ b`) after at least one iteration; when the function ends by its test the `ℓ¹` error of the row sums is at most the threshold; and its
iterates are those of `sinkhorn_log` on the transposed problem. -/
theorem C22_lazy_marginals (a : I → ℝ) (b : J → ℝ) (M : I → J → ℝ) (reg : ℝ) (n : ℕ) (hn : 0 < n) (thr : ℝ)
    (warm : Option ((I → ℝ) × (J → ℝ))) (hb : ∀ j, 0 < b j) :
    let r := empiricalLazy a b M reg n thr warm
    (∀ j, ∑ i, lazyPlan M reg r.s i j = b j) ∧
    (r.exit = .converged → ∑ i, |∑ j, lazyPlan M reg r.s i j - a i| ≤ thr) ∧
    ∃ k ≤ n, r.s.u = ((logStep b a (fun j i => M i j) reg)^[k] ⟨(logInit warm).v, (logInit warm : UV I J).u⟩).v ∧
      r.s.v = ((logStep b a (fun j i => M i j) reg)^[k] ⟨(logInit warm).v, (logInit warm : UV I J).u⟩).u := by
  intro r
  obtain ⟨k, hk, e, -, -, x1, x2, x3⟩ := loop_spec (step := lazyStep a b M reg) (bad := fun _ => False)
    (stop := fun ii _ s => (ii + 1) % 10 = 0 ∧ ∑ i, |∑ j, lazyPlan M reg s i j - a i| ≤ thr) n 0 (logInit warm)
  have e' : r.s = _ := e
  have hl := lazy_is_transposed_log a b M reg (logInit warm) k
  dsimp only at hl
  rw [hl] at e'
  refine ⟨?_, ?_, k, hk, by rw [e'], by rw [e']⟩
  · have hk0 : ∃ m, k = m + 1 := by
      rcases h : r.exit with _ | _ | _
      · obtain ⟨m, hm, -⟩ := x2 h
        exact ⟨m, hm⟩
      · exact ⟨n - 1, by rw [x1 h]; omega⟩
      · exact absurd (x3 h).2 (fun h => h)
    obtain ⟨m, rfl⟩ := hk0
    intro j
    rw [e', Function.iterate_succ_apply']
    obtain ⟨t, ht⟩ : ∃ t, (logStep b a (fun j i => M i j) reg)^[m] ⟨(logInit warm).v, (logInit warm : UV I J).u⟩ = t := ⟨_, rfl⟩
    rw [ht]
    simp only [lazyPlan_eq, logPlan_eq]
    rw [exp_logStep_u hb]
    have p : 0 < ∑ i, kernel (fun j i => M i j) reg j i * Real.exp ((logStep b a (fun j i => M i j) reg t).v i) :=
      sum_pos (fun i _ => mul_pos (kernel_pos _ _ _ _) (Real.exp_pos _)) univ_nonempty
    rw [← sum_mul]
    have e2 : ∑ i, Real.exp ((logStep b a (fun j i => M i j) reg t).v i) * kernel M reg i j
        = ∑ i, kernel (fun j i => M i j) reg j i * Real.exp ((logStep b a (fun j i => M i j) reg t).v i) :=
      sum_congr rfl fun i _ => mul_comm _ _
    rw [e2, mul_div_cancel₀ _ p.ne']
  · intro h
    obtain ⟨m, rfl, -, -, h4⟩ := x2 h
    have e3 : r.s = _ := e
    rw [e3]
    exact h4

/-! ## `ot.solve(..., grad="last_step")` -/

theorem logIter_succ_rows {a : I → ℝ} {b : J → ℝ} {M : I → J → ℝ} {reg : ℝ} (t : UV I J) (i : I) :
    (lastStep a b M reg (logStep a b M reg t)).u i = (logStep a b M reg t).u i := rfl

/-- **C33 (partial).** What holds of the plan returned with `grad="last_step"` (and at least two iterations): it is of the scaling form, and its *column* sums
are exactly `b`. The row sums are not exact, see `C33_row_marginal_refuted`. -/
theorem C33_last_step_partial (a : I → ℝ) (b : J → ℝ) (M : I → J → ℝ) (reg : ℝ) (n : ℕ) (tol : ℝ) (hb : ∀ j, 0 < b j) (s : UV I J)
    (h : solveLastStep a b M reg n tol = some s) : ∀ j, ∑ i, logPlan M reg s i j = b j := by
  unfold solveLastStep at h
  split_ifs at h with hn
  have h := Option.some.inj h
  obtain ⟨k, hk, e, -, -, x1, x2, x3⟩ := loop_spec (step := logStep a b M reg) (bad := fun _ => False)
    (stop := fun ii _ s => ii % 10 = 0 ∧ logErr b M reg s < tol) (n - 1) 0 (logInit none)
  have e' : (sinkhornLog a b M reg (n - 1) tol none).s = _ := e
  have hk0 : ∃ m, k = m + 1 := by
    rcases h : (sinkhornLog a b M reg (n - 1) tol none).exit with _ | _ | _
    · obtain ⟨m, hm, -⟩ := x2 h
      exact ⟨m, hm⟩
    · exact ⟨n - 2, by rw [x1 h]; omega⟩
    · exact absurd (x3 h).2 (fun h => h)
  obtain ⟨m, rfl⟩ := hk0
  rw [e', Function.iterate_succ_apply'] at h
  obtain ⟨t, ht⟩ : ∃ t, (logStep a b M reg)^[m] (logInit none) = t := ⟨_, rfl⟩
  rw [ht] at h
  subst h
  intro j
  have hv : (lastStep a b M reg (logStep a b M reg t)).v j = (logStep a b M reg (logStep a b M reg t)).v j := rfl
  simp only [logPlan_eq, hv, logIter_succ_rows]
  rw [exp_logStep_v hb, ← sum_mul]
  have p : 0 < ∑ i, kernel M reg i j * Real.exp ((logStep a b M reg t).u i) :=
    sum_pos (fun i _ => mul_pos (kernel_pos _ _ _ _) (Real.exp_pos _)) univ_nonempty
  have e2 : ∑ i, Real.exp ((logStep a b M reg t).u i) * kernel M reg i j = ∑ i, kernel M reg i j * Real.exp ((logStep a b M reg t).u i) :=
    sum_congr rfl fun i _ => mul_comm _ _
  rw [e2, mul_div_cancel₀ _ p.ne']

/-- The request `max_iter=1` with `grad="last_step"` fails instead of doing one iteration. -/
theorem C33_one_iteration_fails (a : I → ℝ) (b : J → ℝ) (M : I → J → ℝ) (reg tol : ℝ) : solveLastStep a b M reg 1 tol = none := by
  simp [solveLastStep]

/-- **C33 refuted.** Two points each, uniform weights, `M = [[0, log 2], [0, 0]]`, `reg = 1`, two iterations: the first row of the returned plan does not sum
to `1/2`. -/
theorem C33_row_marginal_refuted :
    ∃ s, solveLastStep (fun _ : Fin 2 => (1 / 2 : ℝ)) (fun _ : Fin 2 => (1 / 2 : ℝ)) ![![0, Real.log 2], ![0, 0]] 1 2 0 = some s ∧
      ∑ j, logPlan ![![0, Real.log 2], ![0, 0]] 1 s 0 j ≠ 1 / 2 := by
  refine ⟨_, by rw [solveLastStep, if_neg (by norm_num)], ?_⟩
  have hh : ∀ l : Fin 2, (0 : ℝ) < 1 / 2 := fun _ => by norm_num
  have e : (sinkhornLog (fun _ : Fin 2 => (1 / 2 : ℝ)) (fun _ : Fin 2 => (1 / 2 : ℝ)) ![![0, Real.log 2], ![0, 0]] 1 (2 - 1) 0 none).s
      = logStep (fun _ => 1 / 2) (fun _ => 1 / 2) ![![0, Real.log 2], ![0, 0]] 1 (logInit none) := by
    simp only [sinkhornLog, loop, if_false]
    split_ifs <;> rfl
  have hk : Real.exp (-Real.log 2) = 1 / 2 := by rw [Real.exp_neg, Real.exp_log two_pos]; norm_num
  rw [e]
  have hv : ∀ t : UV (Fin 2) (Fin 2), ∀ j, (lastStep (fun _ => 1 / 2) (fun _ => 1 / 2) ![![0, Real.log 2], ![0, 0]] 1 t).v j
    = (logStep (fun _ : Fin 2 => (1 / 2 : ℝ)) (fun _ => 1 / 2) ![![0, Real.log 2], ![0, 0]] 1 t).v j := fun t j => rfl
  simp only [logPlan_eq, hv, logIter_succ_rows, Fin.sum_univ_two]
  simp only [exp_logStep_v hh, exp_logStep_u hh, Fin.sum_univ_two, kernel, logInit]
  simp [hk, div_neg]
  norm_num

/-- Non-vacuity: the transposed, lazy and log theorems apply to a concrete problem with weights of different sizes. -/
example (i : Fin 2) : ∑ j, logPlan (fun (i : Fin 2) (j : Fin 3) => ((i : ℝ) - j) ^ 2) (1 / 10)
    (sinkhornLog ![1 / 3, 2 / 3] ![1 / 4, 1 / 4, 1 / 2] (fun (i : Fin 2) (j : Fin 3) => ((i : ℝ) - j) ^ 2) (1 / 10) 25 (1 / 100)
      (some (fun _ => 1, fun _ => 0))).s i j = (![1 / 3, 2 / 3] : Fin 2 → ℝ) i :=
  (C28_log_guarantees ![1 / 3, 2 / 3] ![1 / 4, 1 / 4, 1 / 2] _ (1 / 10) 25 (by norm_num) (1 / 100) _
    (by intro i; fin_cases i <;> norm_num) (by intro j; fin_cases j <;> norm_num)).1 i

end POT.Props
