import Verif.Lemmas.BatchSolve
import Verif.Props.SinkhornLog

/-!
# Batched linear solvers (C104) and batched cost matrices (C105)
-/

set_option linter.unusedSectionVars false

namespace POT.Props

open Finset Spec Filter Topology Sinkhorn BatchSolve

section Solve

variable {B I J : Type*} [Fintype B] [Fintype I] [Fintype J] [Nonempty I] [Nonempty J]
variable {a : B → I → ℝ} {b : B → J → ℝ} {M : B → I → J → ℝ} {reg : ℝ}

/-- the kernels of the batch -/
noncomputable def gibbsBatch (M : B → I → J → ℝ) (reg : ℝ) : B → I → J → ℝ := fun t i j => Real.exp (-M t i j / reg)

theorem gibbsBatch_pos (t : B) (i : I) (j : J) : 0 < gibbsBatch M reg t i j := Real.exp_pos _

theorem gibbsBatch_kernel (t : B) : (fun j i => gibbsBatch M reg t i j) = kernel (fun j i => M t i j) reg := by
  funext j i
  unfold gibbsBatch kernel
  rw [div_neg, neg_div]

theorem batch_log_step (L : B → I → J → ℝ) (ha : ∀ t i, 0 < a t i) (hb : ∀ t j, 0 < b t j) {s u : Batch B I J} (hf : ∀ t i, s.f t i = Real.exp (u.f t i)) (hg : ∀ t j, s.g t j = Real.exp (u.g t j)) :
    (∀ t i, (batchStep (fun t i j => Real.exp (L t i j)) a b s).f t i = Real.exp ((batchLogStep L a b u).f t i)) ∧
    ∀ t j, (batchStep (fun t i j => Real.exp (L t i j)) a b s).g t j = Real.exp ((batchLogStep L a b u).g t j) := by
  have h1 : ∀ t i, (batchStep (fun t i j => Real.exp (L t i j)) a b s).f t i = Real.exp ((batchLogStep L a b u).f t i) := by
    intro t i
    have e : (batchLogStep L a b u).f t i = Real.log (a t i) - logsumexp fun j => L t i j + u.g t j := rfl
    rw [e, exp_log_sub_lse (ha t i)]
    simp only [Real.exp_add, ← hg]
    rfl
  refine ⟨h1, fun t j => ?_⟩
  have e : (batchLogStep L a b u).g t j = Real.log (b t j) - logsumexp fun i => L t i j + (batchLogStep L a b u).f t i := rfl
  rw [e, exp_log_sub_lse (hb t j)]
  simp only [Real.exp_add, ← h1]
  rfl

theorem batch_plan_log (L : B → I → J → ℝ) {s u : Batch B I J} (hf : ∀ t i, s.f t i = Real.exp (u.f t i)) (hg : ∀ t j, s.g t j = Real.exp (u.g t j)) :
    batchPlan (fun t i j => Real.exp (L t i j)) s = batchLogPlan L u := by
  funext t i j
  unfold batchPlan batchLogPlan
  rw [hf, hg, Real.exp_add, Real.exp_add]

/-- the run both solvers follow -/
noncomputable def batchRun (M : B → I → J → ℝ) (reg : ℝ) (a : B → I → ℝ) (b : B → J → ℝ) (n : ℕ) (tol : ℝ) : Run (Batch B I J) := bregmanBatch (gibbsBatch M reg) a b n tol

/-- the final scalings -/
noncomputable def batchFinal (lastStep : Bool) (M : B → I → J → ℝ) (reg : ℝ) (a : B → I → ℝ) (b : B → J → ℝ) (n : ℕ) (tol : ℝ) : Batch B I J :=
  if lastStep then batchStep (gibbsBatch M reg) a b (batchRun M reg a b n tol).s else (batchRun M reg a b n tol).s

theorem inner_spec (ha : ∀ t i, 0 < a t i) (hb : ∀ t j, 0 < b t j) {solver : Solver} (hs : solver ≠ .other) (lastStep : Bool) (n : ℕ) (tol : ℝ) :
    ∃ out, inner solver lastStep M reg a b n tol = some out ∧ out.2.1 = batchPlan (gibbsBatch M reg) (batchFinal lastStep M reg a b n tol) ∧ out.2.2 = (batchRun M reg a b n tol).exit ∧
      (solver = .sinkhorn → out.1 = batchFinal lastStep M reg a b n tol) ∧
      (solver = .logSinkhorn → (∀ t i, Real.exp (out.1.f t i) = (batchFinal lastStep M reg a b n tol).f t i) ∧ ∀ t j, Real.exp (out.1.g t j) = (batchFinal lastStep M reg a b n tol).g t j) := by
  cases solver with
  | other => exact absurd rfl hs
  | sinkhorn => exact ⟨_, rfl, rfl, rfl, fun _ => rfl, by simp⟩
  | logSinkhorn =>
    obtain ⟨h1, -, h3, h4, -⟩ := C28_batch (fun t i j => -M t i j / reg) a b n tol ha hb
    obtain ⟨l, hl⟩ : ∃ l, l = bregmanLogBatch (fun t i j => -M t i j / reg) a b n tol := ⟨_, rfl⟩
    obtain ⟨r, hr⟩ : ∃ r, r = batchRun M reg a b n tol := ⟨_, rfl⟩
    have h1' : r.exit = l.exit := by rw [hr, hl]; exact h1
    have h3' : ∀ t i, r.s.f t i = Real.exp (l.s.f t i) := by rw [hr, hl]; exact h3
    have h4' : ∀ t j, r.s.g t j = Real.exp (l.s.g t j) := by rw [hr, hl]; exact h4
    have key : ∃ u, u = (if lastStep then batchLogStep (fun t i j => -M t i j / reg) a b l.s else l.s) ∧ (∀ t i, (batchFinal lastStep M reg a b n tol).f t i = Real.exp (u.f t i)) ∧
        ∀ t j, (batchFinal lastStep M reg a b n tol).g t j = Real.exp (u.g t j) := by
      refine ⟨_, rfl, ?_⟩
      unfold batchFinal
      rw [← hr]
      cases lastStep with
      | false => exact ⟨h3', h4'⟩
      | true => exact batch_log_step (fun t i j => -M t i j / reg) ha hb h3' h4'
    obtain ⟨u, hu, k1, k2⟩ := key
    refine ⟨(u, batchLogPlan (fun t i j => -M t i j / reg) u, l.exit), ?_, ?_, ?_, by simp, fun _ => ⟨fun t i => (k1 t i).symm, fun t j => (k2 t j).symm⟩⟩
    · rw [hu, hl]
      rfl
    · exact (batch_plan_log (fun t i j => -M t i j / reg) k1 k2).symm
    · rw [← hr]
      exact h1'.symm

theorem batchRun_spec (n : ℕ) (hn : 0 < n) (tol : ℝ) : ∃ k, (batchRun M reg a b n tol).s = (batchStep (gibbsBatch M reg) a b)^[k + 1] ones ∧
    ((batchRun M reg a b n tol).exit = .converged → ∀ t, norm2 (fun i => ∑ j, batchPlan (gibbsBatch M reg) (batchRun M reg a b n tol).s t i j - a t i) < tol) ∧
    ((batchRun M reg a b n tol).exit = .exhausted → k + 1 = n) := by
  obtain ⟨k, hk, e, -, -, x1, x2, x3⟩ := loop_spec (step := batchStep (gibbsBatch M reg) a b) (bad := fun _ => False)
    (stop := fun ii _ s => ii % 10 = 0 ∧ ∀ t, norm2 (fun i => ∑ j, batchPlan (gibbsBatch M reg) s t i j - a t i) < tol) n 0 ones
  have e' : (batchRun M reg a b n tol).s = _ := e
  rcases h : (batchRun M reg a b n tol).exit with _ | _ | _
  · obtain ⟨m, rfl, -, -, h4⟩ := x2 h
    refine ⟨m, e', fun _ => ?_, by simp⟩
    rw [e']
    exact h4
  · have := x1 h
    exact ⟨k - 1, by rw [e', show k - 1 + 1 = k by omega], by simp, fun _ => by omega⟩
  · exact absurd (x3 h).2 id

theorem batchRun_zero (n : ℕ) (hn : 0 < n) [Nonempty B] : (batchRun M reg a b n 0).s = (batchStep (gibbsBatch M reg) a b)^[n] ones := by
  obtain ⟨k, e, h1, h2⟩ := batchRun_spec (M := M) (reg := reg) (a := a) (b := b) n hn 0
  rcases h : (batchRun M reg a b n 0).exit with _ | _ | _
  · exact absurd (h1 h (Classical.arbitrary B)) (not_lt.2 (Real.sqrt_nonneg _))
  · rw [e, h2 h]
  · obtain ⟨k, hk, e, -, -, x1, x2, x3⟩ := loop_spec (step := batchStep (gibbsBatch M reg) a b) (bad := fun _ => False)
      (stop := fun ii _ s => ii % 10 = 0 ∧ ∀ t, norm2 (fun i => ∑ j, batchPlan (gibbsBatch M reg) s t i j - a t i) < 0) n 0 ones
    exact absurd (x3 h).2 id

theorem batchFinal_iter (lastStep : Bool) (n : ℕ) (hn : 0 < n) (tol : ℝ) : ∃ k, batchFinal lastStep M reg a b n tol = (batchStep (gibbsBatch M reg) a b)^[k + 1] ones := by
  obtain ⟨k, e, -, -⟩ := batchRun_spec (M := M) (reg := reg) (a := a) (b := b) n hn tol
  unfold batchFinal
  cases lastStep with
  | false => exact ⟨k, e⟩
  | true => exact ⟨k + 1, by rw [Function.iterate_succ_apply', ← e]; rfl⟩

theorem solve_spec (eps : ℝ) (ha : ∀ t i, 0 < a t i) (hb : ∀ t j, 0 < b t j) {solver : Solver} (hs : solver ≠ .other) {regType : RegType} (hr : regType ≠ .other) (lastStep : Bool) {n : ℕ} (hn : 0 < n) (tol : ℝ) :
    ∃ res, solveBatch eps solver regType lastStep M reg (some a) (some b) n tol = some res ∧ res.plan = batchPlan (gibbsBatch M reg) (batchFinal lastStep M reg a b n tol) ∧
      res.exit = (batchRun M reg a b n tol).exit ∧ value eps regType M reg a b res.plan = some res.value ∧ res.valueLinear = lossLinear M res.plan ∧
      (solver = .sinkhorn → (∀ t i, res.potentials.1 t i = (batchFinal lastStep M reg a b n tol).f t i) ∧ ∀ t j, res.potentials.2 t j = (batchFinal lastStep M reg a b n tol).g t j) ∧
      (solver = .logSinkhorn → (∀ t i, Real.exp (res.potentials.1 t i) = (batchFinal lastStep M reg a b n tol).f t i) ∧ ∀ t j, Real.exp (res.potentials.2 t j) = (batchFinal lastStep M reg a b n tol).g t j) := by
  obtain ⟨out, h1, h2, h3, h4, h5⟩ := inner_spec (M := M) (reg := reg) ha hb hs lastStep n tol
  obtain ⟨v, hv⟩ : ∃ v, value eps regType M reg a b out.2.1 = some v := by
    cases regType with
    | other => exact absurd rfl hr
    | entropy => exact ⟨_, rfl⟩
    | kl => exact ⟨_, rfl⟩
  refine ⟨⟨v, lossLinear M out.2.1, out.2.1, (out.1.f, out.1.g), out.2.2⟩, ?_, h2, h3, hv, rfl, fun h => ?_, h5⟩
  · unfold solveBatch
    dsimp only
    rw [if_neg hn.ne', Option.getD_some, Option.getD_some, h1, Option.bind_some, hv]
    rfl
  · rw [← h4 h]
    exact ⟨fun _ _ => rfl, fun _ _ => rfl⟩

/-- **C104.** Both solvers return, for every problem of the batch, a positive plan with exact column sums of the form `exp(x + y - M / reg)`; they return the same plan; when the common test is met the row
sums of every problem are within the tolerance. With `grad="last_step"` the extra update keeps the `ℓ¹` error. -/
theorem C104_solves (eps : ℝ) (ha : ∀ t i, 0 < a t i) (hb : ∀ t j, 0 < b t j) {solver : Solver} (hs : solver ≠ .other) {regType : RegType} (hr : regType ≠ .other) (lastStep : Bool) {n : ℕ} (hn : 0 < n)
    (tol : ℝ) :
    ∃ res, solveBatch eps solver regType lastStep M reg (some a) (some b) n tol = some res ∧ (∀ t i j, 0 < res.plan t i j) ∧ (∀ t j, ∑ i, res.plan t i j = b t j) ∧
      (∀ t, ∃ (x : I → ℝ) (y : J → ℝ), ∀ i j, Real.log (res.plan t i j) = x i + y j - M t i j / reg) ∧
      (res.exit = .converged → ∀ t, ∑ i, |∑ j, res.plan t i j - a t i| ≤ Real.sqrt (Fintype.card I) * tol) ∧
      (res.exit = .converged → lastStep = false → ∀ t, norm2 (fun i => ∑ j, res.plan t i j - a t i) < tol) := by
  obtain ⟨res, h1, h2, h3, -⟩ := solve_spec (M := M) (reg := reg) eps ha hb hs hr lastStep hn tol
  have hK : ∀ t i j, 0 < gibbsBatch M reg t i j := gibbsBatch_pos
  obtain ⟨k, e⟩ := batchFinal_iter (M := M) (reg := reg) (a := a) (b := b) lastStep n hn tol
  have hp := fun t => pos_iter hK ha hb t (k + 1)
  rw [← e] at hp
  refine ⟨res, h1, fun t i j => ?_, fun t j => ?_, fun t => ?_, fun hc t => ?_, fun hc hl t => ?_⟩
  · rw [h2, plan_toUV]
    exact plan_pos (fun j i => hK t i j) (hp t) j i
  · rw [h2, e]
    exact col_exact hK ha hb t k j
  · refine ⟨fun i => Real.log ((batchFinal lastStep M reg a b n tol).f t i), fun j => Real.log ((batchFinal lastStep M reg a b n tol).g t j), fun i j => ?_⟩
    have p1 : 0 < (batchFinal lastStep M reg a b n tol).f t i := (hp t).2 i
    have p2 : 0 < (batchFinal lastStep M reg a b n tol).g t j := (hp t).1 j
    rw [h2]
    unfold batchPlan
    rw [Real.log_mul (mul_pos (hK t i j) p1).ne' p2.ne', Real.log_mul (hK t i j).ne' p1.ne']
    unfold gibbsBatch
    rw [Real.log_exp]
    change _ + Real.log ((batchFinal lastStep M reg a b n tol).f t i) + Real.log ((batchFinal lastStep M reg a b n tol).g t j) = _
    ring
  · obtain ⟨m, e2, h5, -⟩ := batchRun_spec (M := M) (reg := reg) (a := a) (b := b) n hn tol
    rw [h3] at hc
    have h6 := (l1_le_norm2 _).trans (mul_le_mul_of_nonneg_left (h5 hc t).le (Real.sqrt_nonneg (Fintype.card I : ℝ)))
    rw [h2]
    unfold batchFinal
    cases lastStep with
    | false => exact h6
    | true =>
      refine (l1_step hK ha hb t ?_ fun j => ?_).trans h6
      · rw [e2]; exact pos_iter hK ha hb t (m + 1)
      · rw [e2]; exact col_exact hK ha hb t m j
  · obtain ⟨m, e2, h5, -⟩ := batchRun_spec (M := M) (reg := reg) (a := a) (b := b) n hn tol
    rw [h3] at hc
    subst hl
    rw [h2]
    exact h5 hc t

/-- **C104.** The problems share one stopping test; it is met after an explicit number of iterations, the bounds of the problems adding up. -/
theorem C104_stops (eps : ℝ) (hreg : 0 < reg) (ha : ∀ t i, 0 < a t i) (hb : ∀ t j, 0 < b t j) (hS : ∀ t, ∑ i, a t i = ∑ j, b t j) {m₀ m₁ : B → ℝ} (h0 : ∀ t i j, m₀ t ≤ M t i j) (h1 : ∀ t i j, M t i j ≤ m₁ t)
    {solver : Solver} (hs : solver ≠ .other) {regType : RegType} (hr : regType ≠ .other) (lastStep : Bool) {tol : ℝ} (htol : 0 < tol) (T : ℕ)
    (hT : ∑ t, 8 * (∑ i, a t i) ^ 2 * (m₁ t - m₀ t) / reg < T * tol ^ 2) {n : ℕ} (hn : 0 < n) (hn' : 10 * T ≤ n) :
    ∃ res, solveBatch eps solver regType lastStep M reg (some a) (some b) n tol = some res ∧ res.exit = .converged := by
  obtain ⟨res, e1, -, e3, -⟩ := solve_spec (M := M) (reg := reg) eps ha hb hs hr lastStep hn tol
  refine ⟨res, e1, ?_⟩
  rw [e3]
  have hK : ∀ t i j, 0 < gibbsBatch M reg t i j := gibbsBatch_pos
  obtain ⟨l, hl, he⟩ := some_check_batch hK ha hb hS (D := fun t => (∑ j, b t j) * (2 * ((m₁ t - m₀ t) / reg))) (fun t => by
    rw [toUV_step]
    refine (kl_first (fun j i => hK t i j) (hb t) (ha t) (hS t).symm (lo := Real.exp (-m₁ t / reg)) (hi := Real.exp (-m₀ t / reg)) (Real.exp_pos _)
      (fun j i => Real.exp_le_exp.2 (by have := h1 t i j; gcongr)) (fun j i => Real.exp_le_exp.2 (by have := h0 t i j; gcongr)) one_pos fun _ => rfl).trans (le_of_eq ?_)
    rw [← Real.exp_sub, Real.log_exp]
    ring) htol T (by
      refine lt_of_eq_of_lt (sum_congr rfl fun t _ => ?_) hT
      rw [hS t]
      ring)
  refine loop_stops n 0 _ (fun _ => id) (10 * l) (by omega) ⟨by omega, ?_⟩
  exact he

theorem klPlan_transpose (P Q : I → J → ℝ) : klPlan (fun j i => P i j) (fun j i => Q i j) = klPlan P Q := by
  rw [klPlan_eq, klPlan_eq, sum_comm]

/-- **C104.** With threshold `0` and growing iteration limits every plan of the batch converges to the entropic optimum of its problem. -/
theorem C104_converges [Nonempty B] (eps : ℝ) (hreg : 0 < reg) (ha : ∀ t i, 0 < a t i) (hb : ∀ t j, 0 < b t j) (hS : ∀ t, ∑ i, a t i = ∑ j, b t j) {solver : Solver} (hs : solver ≠ .other) {regType : RegType}
    (hr : regType ≠ .other) :
    ∃ P : B → I → J → ℝ, (∀ t, IsEntropicOptimal (a t) (b t) (M t) reg (P t)) ∧
      ∀ t i j, Tendsto (fun n => ((solveBatch eps solver regType false M reg (some a) (some b) n 0).elim 0 fun res => res.plan t i j)) atTop (𝓝 (P t i j)) := by
  have hK : ∀ t i j, 0 < gibbsBatch M reg t i j := gibbsBatch_pos
  have key : ∀ t, ∃ P : I → J → ℝ, IsEntropicOptimal (a t) (b t) (M t) reg P ∧ ∀ i j, Tendsto (fun k => batchPlan (gibbsBatch M reg) ((batchStep (gibbsBatch M reg) a b)^[k] ones) t i j) atTop (𝓝 (P i j)) := by
    intro t
    obtain ⟨P, hP, hpos, ⟨x, y, hform⟩, hlim⟩ := exists_limit (fun j i => hK t i j) (hb t) (ha t) (hS t).symm (ones_pos t)
    refine ⟨fun i j => P j i, optimal_of_form hreg ⟨fun i j => hP.nonneg j i, hP.col, hP.row⟩ (fun i j => hpos j i) (x := y) (y := x) fun i j => ?_, fun i j => ?_⟩
    · rw [hform]
      unfold gibbsBatch
      rw [Real.log_exp]
      ring
    · refine (hlim j i).congr fun k => ?_
      rw [plan_toUV, toUV_iter]
  choose P hP hlim using key
  refine ⟨P, hP, fun t i j => ?_⟩
  rw [← tendsto_add_atTop_iff_nat 1]
  refine ((tendsto_add_atTop_iff_nat 1).2 (hlim t i j)).congr fun n => ?_
  obtain ⟨res, e1, e2, -⟩ := solve_spec (M := M) (reg := reg) (a := a) (b := b) eps ha hb hs hr false n.succ_pos 0
  rw [e1, Option.elim_some, e2]
  unfold batchFinal
  rw [if_neg (by simp), batchRun_zero _ n.succ_pos]

/-- **C104.** Accuracy of an accepted plan, problem by problem. -/
theorem C104_accuracy (eps : ℝ) (hreg : 0 < reg) (ha : ∀ t i, 0 < a t i) (hb : ∀ t j, 0 < b t j) (hS : ∀ t, ∑ i, a t i = ∑ j, b t j) {m₀ m₁ : B → ℝ} (h0 : ∀ t i j, m₀ t ≤ M t i j) (h1 : ∀ t i j, M t i j ≤ m₁ t)
    {solver : Solver} (hs : solver ≠ .other) {regType : RegType} (hr : regType ≠ .other) {tol : ℝ} {n : ℕ} (hn : 0 < n) {res : Result B I J}
    (hres : solveBatch eps solver regType false M reg (some a) (some b) n tol = some res) (hc : res.exit = .converged) {t : B} {P : I → J → ℝ} (hP : IsEntropicOptimal (a t) (b t) (M t) reg P) :
    klPlan P (res.plan t) + klPlan (res.plan t) P ≤ Real.sqrt (Fintype.card I) * tol * (2 * (m₁ t - m₀ t) / reg) := by
  have hK : ∀ t i j, 0 < gibbsBatch M reg t i j := gibbsBatch_pos
  obtain ⟨res', e1, e2, e3, -⟩ := solve_spec (M := M) (reg := reg) (a := a) (b := b) eps ha hb hs hr false hn tol
  obtain rfl : res = res' := Option.some.inj (hres.symm.trans e1)
  obtain ⟨P', hP', hpos', ⟨x, y, hform'⟩, -⟩ := exists_limit (fun j i => hK t i j) (hb t) (ha t) (hS t).symm (ones_pos t)
  have hform : ∀ j i, Real.log (P' j i) = x j + y i - M t i j / reg := fun j i => by
    rw [hform']
    unfold gibbsBatch
    rw [Real.log_exp]
    ring
  have hP'' : IsCoupling (a t) (b t) fun i j => P' j i := ⟨fun i j => hP'.nonneg j i, hP'.col, hP'.row⟩
  have hopt := optimal_of_form (M := M t) hreg hP'' (fun i j => hpos' j i) (x := y) (y := x) fun i j => by rw [hform]; ring
  obtain rfl : P = fun i j => P' j i := (hopt.2 P hP.1).2 (hP.2 _ hP'').1
  obtain ⟨k, h4, h5, -⟩ := batchRun_spec (M := M) (reg := reg) (a := a) (b := b) n hn tol
  have h6 := h5 (by rw [← e3]; exact hc) t
  have hacc := accuracy (M := fun j i => M t i j) hreg (fun j i => h0 t i j) (fun j i => h1 t i j) (hb t) (ha t) (pos_iter hK ha hb t k) hP' hpos' hform
  rw [← gibbsBatch_kernel, ← toUV_step, ← Function.iterate_succ_apply' (batchStep (gibbsBatch M reg) a b), ← h4, ← err_toUV] at hacc
  have e4 : res.plan t = fun i j => plan (fun j i => gibbsBatch M reg t i j) (toUV (batchRun M reg a b n tol).s t) j i := by
    rw [e2]
    funext i j
    exact plan_toUV _ t i j
  have hm : 0 ≤ m₁ t - m₀ t := by
    have := h0 t (Classical.arbitrary I) (Classical.arbitrary J)
    have := h1 t (Classical.arbitrary I) (Classical.arbitrary J)
    linarith
  rw [e4, ← klPlan_transpose, ← klPlan_transpose (fun i j => plan _ _ j i)]
  exact hacc.trans (mul_le_mul_of_nonneg_right (mul_le_mul_of_nonneg_left h6.le (Real.sqrt_nonneg _)) (div_nonneg (by linarith) hreg.le))

theorem log_guard {x r eps : ℝ} (hx : 0 < x) (hr : 0 < r) (he : 0 ≤ eps) : |x * Real.log (x / r + eps) - x * Real.log (x / r)| ≤ eps * r := by
  have h1 : 0 < x / r := div_pos hx hr
  rw [← mul_sub, ← Real.log_div (by positivity) h1.ne', abs_mul, abs_of_pos hx, abs_of_nonneg (Real.log_nonneg (by rw [le_div_iff₀ h1]; linarith))]
  have h2 := Real.log_le_sub_one_of_pos (x := (x / r + eps) / (x / r)) (by positivity)
  have h3 : (x / r + eps) / (x / r) - 1 = eps * r / x := by field_simp; ring
  calc x * Real.log ((x / r + eps) / (x / r)) ≤ x * (eps * r / x) := mul_le_mul_of_nonneg_left (by linarith) hx.le
    _ = eps * r := by field_simp

/-- **C104.** The reported values: `value_linear` is the transport cost of the plan; `value` is, up to the guard inside the logarithm, the entropic objective of the plan, or the transport cost plus `reg`
times the relative entropy with respect to `a bᵀ`. -/
theorem C104_value {eps : ℝ} (heps : 0 ≤ eps) (hreg : 0 < reg) (ha : ∀ t i, 0 < a t i) (hb : ∀ t j, 0 < b t j) {solver : Solver} (hs : solver ≠ .other) {regType : RegType} (hr : regType ≠ .other) (lastStep : Bool)
    {n : ℕ} (hn : 0 < n) {tol : ℝ} {res : Result B I J} (hres : solveBatch eps solver regType lastStep M reg (some a) (some b) n tol = some res) (t : B) :
    res.valueLinear t = cost (M t) (res.plan t) ∧
    (regType = .entropy → |res.value t - entropicObjective (M t) reg (res.plan t)| ≤ reg * (Fintype.card I * Fintype.card J * eps)) ∧
    (regType = .kl → |res.value t - (cost (M t) (res.plan t) + reg * ∑ i, ∑ j, res.plan t i j * Real.log (res.plan t i j / (a t i * b t j)))| ≤ reg * (eps * ((∑ i, a t i) * ∑ j, b t j))) := by
  obtain ⟨res', e1, -, -, e4, e5, -⟩ := solve_spec (M := M) (reg := reg) (a := a) (b := b) eps ha hb hs hr lastStep hn tol
  obtain rfl : res = res' := Option.some.inj (hres.symm.trans e1)
  obtain ⟨res', e1', p1, -⟩ := C104_solves (M := M) (reg := reg) (a := a) (b := b) eps ha hb hs hr lastStep hn tol
  obtain rfl : res = res' := Option.some.inj (hres.symm.trans e1')
  have hl : lossLinear M res.plan t = cost (M t) (res.plan t) := by
    unfold lossLinear cost
    exact sum_congr rfl fun i _ => sum_congr rfl fun j _ => mul_comm _ _
  refine ⟨by rw [e5, hl], fun h => ?_, fun h => ?_⟩
  · subst h
    have ev : res.value = fun t => lossLinear M res.plan t + reg * -entropyBatch eps res.plan t := (Option.some.inj e4).symm
    rw [ev]
    simp only
    unfold entropicObjective entropyBatch
    rw [hl, neg_neg, show cost (M t) (res.plan t) + reg * ∑ i, ∑ j, res.plan t i j * Real.log (res.plan t i j + eps) - (cost (M t) (res.plan t) + reg * ∑ i, ∑ j, res.plan t i j * Real.log (res.plan t i j))
      = reg * (∑ i, ∑ j, (res.plan t i j * Real.log (res.plan t i j + eps) - res.plan t i j * Real.log (res.plan t i j))) by simp only [sum_sub_distrib]; ring, abs_mul, abs_of_pos hreg]
    refine mul_le_mul_of_nonneg_left ?_ hreg.le
    calc _ ≤ ∑ _i : I, ∑ _j : J, eps := (abs_sum_le_sum_abs _ _).trans (sum_le_sum fun i _ => (abs_sum_le_sum_abs _ _).trans (sum_le_sum fun j _ => by
          have := log_guard (p1 t i j) one_pos heps
          simpa using this))
      _ = _ := by simp [mul_assoc]
  · subst h
    have ev : res.value = fun t => lossLinear M res.plan t + reg * ∑ i, ∑ j, res.plan t i j * Real.log (res.plan t i j / (a t i * b t j) + eps) := (Option.some.inj e4).symm
    rw [ev]
    simp only
    rw [hl, show cost (M t) (res.plan t) + reg * ∑ i, ∑ j, res.plan t i j * Real.log (res.plan t i j / (a t i * b t j) + eps)
      - (cost (M t) (res.plan t) + reg * ∑ i, ∑ j, res.plan t i j * Real.log (res.plan t i j / (a t i * b t j)))
      = reg * (∑ i, ∑ j, (res.plan t i j * Real.log (res.plan t i j / (a t i * b t j) + eps) - res.plan t i j * Real.log (res.plan t i j / (a t i * b t j)))) by simp only [sum_sub_distrib]; ring, abs_mul, abs_of_pos hreg]
    refine mul_le_mul_of_nonneg_left ?_ hreg.le
    calc _ ≤ ∑ i : I, ∑ j : J, eps * (a t i * b t j) := (abs_sum_le_sum_abs _ _).trans (sum_le_sum fun i _ => (abs_sum_le_sum_abs _ _).trans (sum_le_sum fun j _ =>
          log_guard (p1 t i j) (mul_pos (ha t i) (hb t j)) heps))
      _ = _ := by
        rw [sum_mul_sum, mul_sum]
        exact sum_congr rfl fun i _ => by rw [mul_sum]

/-- **C104, what the potentials are.** With `solver="log_sinkhorn"` the plan is `exp(f + g - M / reg)`, so `reg` times the returned potentials are dual potentials of the problem. With
`solver="sinkhorn"` the returned pair consists of the scalings `exp(f)`, `exp(g)`: no entry agrees with the other solver. -/
theorem C104_potentials_refuted (eps : ℝ) (ha : ∀ t i, 0 < a t i) (hb : ∀ t j, 0 < b t j) {regType : RegType} (hr : regType ≠ .other) (lastStep : Bool) {n : ℕ} (hn : 0 < n) (tol : ℝ) :
    ∃ r l, solveBatch eps .sinkhorn regType lastStep M reg (some a) (some b) n tol = some r ∧ solveBatch eps .logSinkhorn regType lastStep M reg (some a) (some b) n tol = some l ∧
      r.plan = l.plan ∧ (∀ t i j, l.plan t i j = Real.exp (l.potentials.1 t i + l.potentials.2 t j - M t i j / reg)) ∧
      (∀ t i, r.potentials.1 t i ≠ l.potentials.1 t i) ∧ ∀ t j, r.potentials.2 t j ≠ l.potentials.2 t j := by
  obtain ⟨r, r1, r2, -, -, -, r6, -⟩ := solve_spec (M := M) (reg := reg) (a := a) (b := b) eps ha hb (solver := .sinkhorn) (by decide) hr lastStep hn tol
  obtain ⟨l, l1, l2, -, -, -, -, l7⟩ := solve_spec (M := M) (reg := reg) (a := a) (b := b) eps ha hb (solver := .logSinkhorn) (by decide) hr lastStep hn tol
  obtain ⟨r6, r6'⟩ := r6 rfl
  obtain ⟨l7, l7'⟩ := l7 rfl
  refine ⟨r, l, r1, l1, by rw [r2, l2], fun t i j => ?_, fun t i => ?_, fun t j => ?_⟩
  · rw [l2]
    unfold batchPlan
    rw [← l7, ← l7']
    unfold gibbsBatch
    rw [← Real.exp_add, ← Real.exp_add]
    congr 1
    ring
  · rw [r6, ← l7]
    have := Real.add_one_le_exp (l.potentials.1 t i)
    intro h
    linarith
  · rw [r6', ← l7']
    have := Real.add_one_le_exp (l.potentials.2 t j)
    intro h
    linarith

/-- **C104, calls that fail**: an unknown `reg_type` is not rejected but leaves the value unbound, as does `max_iter = 0` for the iteration count. -/
theorem C104_fails_refuted (eps : ℝ) (solver : Solver) (regType : RegType) (lastStep : Bool) (a : Option (B → I → ℝ)) (b : Option (B → J → ℝ)) (n : ℕ) (tol : ℝ) :
    solveBatch eps solver .other lastStep M reg a b n tol = none ∧ solveBatch eps solver regType lastStep M reg a b 0 tol = none := by
  refine ⟨?_, rfl⟩
  unfold solveBatch
  dsimp only
  split_ifs with h
  · rfl
  · have e : ∀ (A : B → I → ℝ) (C : B → J → ℝ) (T : B → I → J → ℝ), value eps .other M reg A C T = none := fun _ _ _ => rfl
    simp only [e, Option.map_none]
    cases inner solver lastStep M reg (a.getD fun _ _ => 1 / (Fintype.card I : ℝ)) (b.getD fun _ _ => 1 / (Fintype.card J : ℝ)) n tol <;> rfl

end Solve

section Dist

variable {B I J D : Type*} [Fintype B] [Fintype I] [Fintype J] [Fintype D]

/-- **C105.** The cost matrices of `dist_batch`: squared Euclidean and Euclidean distances, and the Minkowski distance, for every batch. -/
theorem C105_metrics (eps : ℝ) {p : ℝ} (X : B → I → D → ℝ) (Y : B → J → D → ℝ) :
    (∃ M, distBatch eps .sqeuclidean p X Y = some M ∧ ∀ t i j, M t i j = ∑ d, (X t i d - Y t j d) ^ 2) ∧
    (∃ M, distBatch eps .euclidean p X Y = some M ∧ ∀ t i j, M t i j = Real.sqrt (∑ d, (X t i d - Y t j d) ^ 2)) ∧
    ∃ M, distBatch eps .minkowski p X Y = some M ∧ ∀ t i j, M t i j = (∑ d, |X t i d - Y t j d| ^ p) ^ (1 / p) := by
  have e : ∀ t i j, ∑ d, X t i d ^ 2 + ∑ d, Y t j d ^ 2 - 2 * ∑ d, X t i d * Y t j d = ∑ d, (X t i d - Y t j d) ^ 2 := fun t i j => by
    rw [mul_sum, ← sum_add_distrib, ← sum_sub_distrib]
    exact sum_congr rfl fun d _ => by ring
  refine ⟨⟨_, rfl, fun t i j => ?_⟩, ⟨_, rfl, fun t i j => ?_⟩, ⟨_, rfl, fun t i j => ?_⟩⟩
  · unfold euclideanBatch
    simp only [if_true]
    exact e t i j
  · unfold euclideanBatch
    simp only [Bool.false_eq_true, if_false]
    rw [e]
  · unfold lpBatch
    dsimp only
    split_ifs with h
    · rfl
    · rw [← not_ne_iff.1 h, div_one, Real.rpow_one]

/-- **C105.** `metric="kl"` is the relative entropy of the target sample with respect to the source sample; without the guard it is nonnegative and vanishes only for equal samples, when the samples are
positive with the same mass. -/
theorem C105_kl (p : ℝ) {X : B → I → D → ℝ} {Y : B → J → D → ℝ} (hX : ∀ t i d, 0 < X t i d) (hY : ∀ t j d, 0 < Y t j d) (hm : ∀ t i j, ∑ d, X t i d = ∑ d, Y t j d) :
    ∃ M, distBatch 0 .kl p X Y = some M ∧ ∀ t i j, M t i j = ∑ d, Y t j d * Real.log (Y t j d / X t i d) ∧ 0 ≤ M t i j ∧ (M t i j = 0 → Y t j = X t i) := by
  refine ⟨_, rfl, fun t i j => ?_⟩
  have e : klBatch 0 X Y t i j = ∑ d, Y t j d * Real.log (Y t j d / X t i d) := by
    unfold klBatch
    rw [← sum_sub_distrib]
    refine sum_congr rfl fun d _ => ?_
    rw [add_zero, add_zero, Real.log_div (hY t j d).ne' (hX t i d).ne', mul_sub]
  have e2 : klBatch 0 X Y t i j = klDivergence (Y t j) (X t i) := by
    rw [e]
    unfold klDivergence
    have := hm t i j
    simp only [sum_add_distrib, sum_sub_distrib]
    linarith
  refine ⟨e, ?_, fun h => ?_⟩
  · rw [e2]
    exact klDivergence_nonneg (fun d => (hY t j d).le) (hX t i)
  · rw [e2] at h
    exact klDivergence_eq_zero (fun d => (hY t j d).le) (hX t i) h.le

/-- **C105.** `solve_sample_batch` is `solve_batch` on those costs, missing weights being uniform; `loss_linear_samples_batch` is the transport cost of the plan for those costs. -/
theorem C105_samples (epsKl eps : ℝ) {solver : Solver} {regType : RegType} (lastStep : Bool) (X : B → I → D → ℝ) (Y : B → J → D → ℝ) (reg : ℝ) (n : ℕ) (tol : ℝ) (T : B → I → J → ℝ) :
    solveSampleBatch epsKl eps .sqeuclidean 2 solver regType lastStep X Y reg none none n tol =
      solveBatch eps solver regType lastStep (fun t i j => ∑ d, (X t i d - Y t j d) ^ 2) reg (some fun _ _ => 1 / (Fintype.card I : ℝ)) (some fun _ _ => 1 / (Fintype.card J : ℝ)) n tol ∧
    ∃ v, lossLinearSamples epsKl .sqeuclidean X Y T = some v ∧ ∀ t, v t = ∑ i, ∑ j, T t i j * ∑ d, (X t i d - Y t j d) ^ 2 := by
  obtain ⟨M, h1, h2⟩ := (C105_metrics (p := 2) epsKl X Y).1
  obtain rfl : M = fun t i j => ∑ d, (X t i d - Y t j d) ^ 2 := by
    funext t i j
    exact h2 t i j
  refine ⟨?_, _, by unfold lossLinearSamples; rw [h1]; rfl, fun t => ?_⟩
  · unfold solveSampleBatch
    rw [h1]
    rfl
  · unfold lossLinear
    first
      | rfl
      | exact sum_congr rfl fun i _ => sum_congr rfl fun j _ => mul_comm _ _

end Dist

theorem broadcastRev_length : ∀ s t u : List ℕ, Conv.broadcastRev s t = some u → u.length = max s.length t.length
  | [], t, u, h => by
    simp only [Conv.broadcastRev, Option.some.injEq] at h
    subst h
    simp
  | a :: s, [], u, h => by
    simp only [Conv.broadcastRev, Option.some.injEq] at h
    subst h
    simp
  | a :: s, b :: t, u, h => by
    unfold Conv.broadcastRev at h
    split_ifs at h
    · obtain ⟨v, hv, rfl⟩ := Option.map_eq_some_iff.1 h
      simp [broadcastRev_length s t v hv]
    · obtain ⟨v, hv, rfl⟩ := Option.map_eq_some_iff.1 h
      simp [broadcastRev_length s t v hv]

theorem broadcast_length {s t u : List ℕ} (h : Conv.broadcast s t = some u) : u.length = max s.length t.length := by
  unfold Conv.broadcast at h
  obtain ⟨v, hv, rfl⟩ := Option.map_eq_some_iff.1 h
  rw [List.length_reverse, broadcastRev_length _ _ _ hv, List.length_reverse, List.length_reverse]

/-- **C105, refuted for logits**: with `logits_X=True`, `dist_kl_batch` never returns an array of shape `(B, n, m)`: it fails or returns a four-dimensional array. -/
theorem C105_logits_refuted (b n m d : ℕ) : klLogitsShape b n m d ≠ some [b, n, m] := by
  intro h
  unfold klLogitsShape at h
  obtain ⟨s, h1, h2⟩ := Option.bind_eq_some_iff.1 h
  have l1 := broadcast_length h1
  have l2 := broadcast_length h2
  simp at l1 l2
  omega

/-- **C105, refuted for the default arguments**: `loss_linear_samples_batch(X, Y, T)` always raises, because its default metric is unknown to `dist_batch`. -/
theorem C105_default_metric_refuted {B I J D : Type*} [Fintype B] [Fintype I] [Fintype J] [Fintype D] (eps : ℝ) (X : B → I → D → ℝ) (Y : B → J → D → ℝ) (T : B → I → J → ℝ) :
    lossLinearSamples eps samplesDefaultMetric X Y T = none := rfl

/-! ### the hypotheses are met -/

/-- two problems with two points each -/
noncomputable def exBatchCost : Fin 2 → Fin 2 → Fin 2 → ℝ := fun t i j => if i = j then 0 else ((t : ℕ) : ℝ)

example : ∃ res, solveBatch 0 .logSinkhorn .entropy false exBatchCost 1 (some fun _ _ => 1 / 2) (some fun _ => ![1 / 4, 3 / 4]) 330 (1 / 2) = some res ∧ res.exit = .converged :=
  C104_stops (a := fun _ _ => 1 / 2) (b := fun _ => ![1 / 4, 3 / 4]) (M := exBatchCost) (B := Fin 2) (I := Fin 2) (J := Fin 2) 0 one_pos (fun _ _ => by norm_num)
    (by intro t j; fin_cases j <;> norm_num) (fun t => by rw [Fin.sum_univ_two, Fin.sum_univ_two]; norm_num) (m₀ := fun _ => 0) (m₁ := fun t : Fin 2 => ((t : ℕ) : ℝ))
    (by intro t i j; unfold exBatchCost; split_ifs <;> simp) (by intro t i j; unfold exBatchCost; split_ifs <;> simp) (by decide) (by decide) false (by norm_num) 33
    (by simp only [Fin.sum_univ_two]; norm_num) (by norm_num) (by norm_num)

example := C105_kl (B := Unit) (I := Unit) (J := Unit) (D := Fin 2) 2 (X := fun _ _ => ![1 / 2, 1 / 2]) (Y := fun _ _ => ![1 / 4, 3 / 4])
  (by intro _ _ d; fin_cases d <;> norm_num) (by intro _ _ d; fin_cases d <;> norm_num) (by intro _ _ _; rw [Fin.sum_univ_two, Fin.sum_univ_two]; norm_num)

end POT.Props
