import Verif.Lemmas.SolveSample
import Verif.Props.EmdLazy
import Verif.Props.Emd1d
import Verif.Props.Gaussian
import Verif.Props.Factored
import Mathlib.Data.Fin.Tuple.Sort

/-! # C121: `ot.solve_sample`, lazy empirical Sinkhorn and the empirical Sinkhorn divergence -/

set_option linter.unusedSectionVars false

namespace POT.Props

open Finset Spec Filter Topology Sinkhorn Solve SolveSample Simplex

variable {n m d : ℕ} [NeZero n] [NeZero m]

/-- C121. Without `lazy` and without a large-scale method the call is `ot.solve` on the matrix of ground costs, also when the two clouds are the same array. -/
theorem C121_dense (e : Env n m d) (μ : PointMetric) {same : Bool} {X : Fin n → Fin d → ℝ} {Y : Fin m → Fin d → ℝ} (hs : SameArg same X Y) (a : Option (Fin n → ℝ)) (b : Option (Fin m → ℝ)) (reg : Option ℝ)
    (c : Option (Fin n → Fin m → ℝ)) (rt : RegArg n m) (ub : Option (Option ℝ × Option ℝ)) (ut : UnbArg) (bst : Option (ℕ × ℕ)) {method : Option Method} (hm : method = none ∨ method = some .other) (mi : Option ℕ)
    (pi : Option (Fin n → Fin m → ℝ)) (rank : ℕ) (pot : Option ((Fin n → ℝ) × (Fin m → ℝ))) (tol : Option ℝ) (grad : Grad) :
    solveSample e same X Y a b (some μ) reg c rt ub ut false bst method mi pi rank pot tol grad = ofSolve (solve e.ext (fun i j => pointCost μ (X i) (Y j)) a b reg c rt ub ut mi pi pot tol grad) := by
  rcases hm with rfl | rfl <;> simp [solveSample, Method.large, distM_eq μ hs]

/-- what the lazy exact branch computes -/
theorem lazy_exact_eq (e : Env n m d) (μ : PointMetric) (same : Bool) (X : Fin n → Fin d → ℝ) (Y : Fin m → Fin d → ℝ) (a : Option (Fin n → ℝ)) (b : Option (Fin m → ℝ)) {reg : Option ℝ} (hreg : reg = none ∨ reg = some 0)
    (c : Option (Fin n → Fin m → ℝ)) (rt : RegArg n m) (ut : UnbArg) (bst : Option (ℕ × ℕ)) (mi : Option ℕ) (pi : Option (Fin n → Fin m → ℝ)) (rank : ℕ) (tol : Option ℝ) (grad : Grad) {r : LazyOut n m ℝ}
    (h : emd2Lazy Real.sqrt true true e.ext.massTol μ a b X Y e.ext.junk e.ext.eps e.ext.feps e.ext.bs (mi.getD 100000) e.ext.turns e.ext.arcs = .done r) :
    solveSample e same X Y a b (some μ) reg c rt none ut true bst none mi pi rank none tol grad =
      .ok { potentials := some (r.u, r.v), value := some r.cost, valueLinear := some r.cost, plan := some (cooEntry r.flows), status := some r.status } := by
  simp [solveSample, hreg, h]

/-- C121. Exact transport with `lazy=True`: the call returns; the reported value is the cost of the plan. Without warning the plan is an optimal coupling, the potentials certify it, and the value agrees
with the one of the dense call (`lazy=False`) that also returns without warning, up to the pivoting tolerance `eps` of the simplex; with a warning it transports part of the mass.
What is missing for "the same result as the dense call": the plans may be different optimal plans, and the two default iteration limits differ. -/
theorem C121_exact_partial (e : Env n m d) (he : 0 ≤ e.ext.eps) (he8 : 8 * e.ext.eps ≤ 1) (hf : 0 ≤ e.ext.feps) (ht : 0 < e.ext.massTol) (hturns : 2 ^ (n * m + (n + m)) < e.ext.turns) (μ : PointMetric) {same : Bool}
    {X : Fin n → Fin d → ℝ} {Y : Fin m → Fin d → ℝ} (hs : SameArg same X Y) {lo hi : Fin d → ℝ} (hX : ∀ i k, lo k ≤ X i k ∧ X i k ≤ hi k) (hY : ∀ j k, lo k ≤ Y j k ∧ Y j k ≤ hi k)
    {a : Fin n → ℝ} {b : Fin m → ℝ} (ha : ∀ i, 0 ≤ a i) (hb : ∀ j, 0 ≤ b j) (hpa : 0 < ∑ i, a i) (hS : ∑ i, a i = ∑ j, b j) {reg : Option ℝ} (hreg : reg = none ∨ reg = some 0)
    (c : Option (Fin n → Fin m → ℝ)) (rt : RegArg n m) (ut : UnbArg) (bst : Option (ℕ × ℕ)) (mi : Option ℕ) (pi : Option (Fin n → Fin m → ℝ)) (rank : ℕ) (tol : Option ℝ) (grad : Grad) :
    ∃ (r : SampleResult n m d) (P : Fin n → Fin m → ℝ) (u : Fin n → ℝ) (v : Fin m → ℝ) (w : ℝ), solveSample e same X Y (some a) (some b) (some μ) reg c rt none ut true bst none mi pi rank none tol grad = .ok r ∧
      r.plan = some P ∧ r.potentials = some (u, v) ∧ r.value = some w ∧ r.valueLinear = some w ∧ w = cost (fun i j => pointCost μ (X i) (Y j)) P ∧
      (r.status = some .optimal ∧ IsEpsOptimal (e.ext.eps * (2 * (pointCost μ lo hi + 1) * (n + m)) * ∑ i, a i) a b (fun i j => pointCost μ (X i) (Y j)) P ∧ dualValue a b u v = w ∧
          (∀ i j, 0 < a i → 0 < b j → u i + v j ≤ pointCost μ (X i) (Y j) + e.ext.eps * (2 * (pointCost μ lo hi + 1) * (n + m))) ∧
          (∀ (mi' : Option ℕ) (r' : SampleResult n m d), solveSample e same X Y (some a) (some b) (some μ) reg c rt none ut false bst none mi' pi rank none tol grad = .ok r' → r'.status = some .optimal →
            ∃ w', r'.value = some w' ∧ |w - w'| ≤ e.ext.eps * (2 * (pointCost μ lo hi + 1) * (n + m)) * ∑ i, a i) ∨
        r.status = some .maxIter ∧ mi ≠ some 0 ∧ IsPartial a b P) := by
  have hpb : 0 < ∑ j, b j := hS ▸ hpa
  have hC : ∀ i j, pointCost μ (X i) (Y j) ≤ pointCost μ lo hi := by
    intro i j
    have hk : ∀ k, (X i k - Y j k) ^ 2 ≤ (lo k - hi k) ^ 2 ∧ |X i k - Y j k| ≤ |lo k - hi k| := by
      intro k
      have h1 := hX i k
      have h2 := hY j k
      have h3 : |X i k - Y j k| ≤ |lo k - hi k| := by
        rw [abs_sub_comm (lo k)]
        exact (abs_le.2 ⟨by linarith, by linarith⟩).trans (le_abs_self _)
      exact ⟨sq_le_sq.2 h3, h3⟩
    cases μ with
    | sqeuclidean => exact sum_le_sum fun k _ => (hk k).1
    | euclidean => exact Real.sqrt_le_sqrt (sum_le_sum fun k _ => (hk k).1)
    | cityblock => exact sum_le_sum fun k _ => (hk k).2
  rcases C120_lazy_end_to_end_partial true true (tol := e.ext.massTol) (μ := μ) (a0 := some a) (b0 := some b) (Or.inl rfl) (Or.inl rfl) hX hY (junk := e.ext.junk) he he8 hf ha hb hpa hpb e.ext.bs (mi.getD 100000)
      e.ext.turns e.ext.arcs hturns with ⟨_, h2, _⟩ | ⟨r, hr, h, _⟩
  · rw [hS, sub_self, abs_zero] at h2
    exact absurd h2 (not_le.2 ht)
  · rw [rescale_self hpb.ne' hS] at h
    refine ⟨_, cooEntry r.flows, r.u, r.v, r.cost, lazy_exact_eq e μ same X Y _ _ hreg c rt ut bst mi pi rank tol grad hr, rfl, rfl, rfl, rfl, ?_, ?_⟩
    · rcases h with ⟨_, hc, _⟩ | ⟨_, _, _, _, h⟩
      · exact hc.cost_eq
      · exact h
    · rcases h with ⟨h1, hc, _⟩ | ⟨h1, h2, _, h4, _⟩
      · refine .inl ⟨by simp [h1], hc.optimal, hc.value_eq.symm, hc.feasible, fun mi' r' hr' hst => ?_⟩
        rw [C121_dense e μ hs (some a) (some b) reg c rt none ut bst (.inl rfl) mi' pi rank none tol grad] at hr'
        obtain ⟨q, hq, hq1, hq2, hq3⟩ := C85_exact e.ext he he8 hf ht hturns (M := fun i j => pointCost μ (X i) (Y j)) (fun i j => pointCost_nonneg μ _ _) hC ha hb hpa hS hreg c rt ut mi' pi none tol grad
        rw [hq] at hr'
        simp only [ofSolve, SampleOutcome.ok.injEq] at hr'
        subst hr'
        refine ⟨q.value, rfl, ?_⟩
        rcases hq3 with ⟨_, hopt, _⟩ | ⟨h5, _⟩
        · have hL := hc.optimal
          rw [hc.cost_eq, hq2, abs_le]
          have e1 := hL.2 _ hopt.1
          have e2 := hopt.2 _ hL.1
          constructor <;> linarith
        · simp only at hst
          rw [h5] at hst
          cases hst
      · refine .inr ⟨by simp [h1], ?_, h4⟩
        rintro rfl
        simp at h2

/-- what the lazy entropic branch computes -/
theorem lazy_entropic_eq (e : Env n m d) (μ : PointMetric) (same : Bool) (X : Fin n → Fin d → ℝ) (Y : Fin m → Fin d → ℝ) (a : Fin n → ℝ) (b : Fin m → ℝ) {reg : ℝ} (hreg : reg ≠ 0)
    (c : Option (Fin n → Fin m → ℝ)) (rt : RegArg n m) (ut : UnbArg) {bs bt : ℕ} (hbs : 0 < bs) (hbt : 0 < bt) {method : Option Method} (hm : method = none ∨ method = some .other) (N : ℕ)
    (pi : Option (Fin n → Fin m → ℝ)) (rank : ℕ) (pot : Option ((Fin n → ℝ) × (Fin m → ℝ))) (tol : ℝ) (grad : Grad) :
    solveSample e same X Y (some a) (some b) (some μ) (some reg) c rt none ut true (some (bs, bt)) method (some (N + 1)) pi rank pot (some tol) grad =
      .ok { potentials := some ((empiricalLazy a b (fun i j => pointCost μ (X i) (Y j)) reg (N + 1) tol none).s.u, (empiricalLazy a b (fun i j => pointCost μ (X i) (Y j)) reg (N + 1) tol none).s.v)
            valueLinear := some (cost (fun i j => pointCost μ (X i) (Y j)) (lazyPlan (fun i j => pointCost μ (X i) (Y j)) reg (empiricalLazy a b (fun i j => pointCost μ (X i) (Y j)) reg (N + 1) tol none).s))
            lazyPlan := some (lazyPlan (fun i j => pointCost μ (X i) (Y j)) reg (empiricalLazy a b (fun i j => pointCost μ (X i) (Y j)) reg (N + 1) tol none).s) } := by
  rcases hm with rfl | rfl <;> simp [solveSample, hreg, empiricalBatched_eq μ hbs hbt, batchedLoss_eq μ hbs, batchedPlan_eq]

/-- C121. Entropic transport with `lazy=True`, any iteration limit, threshold and batch sizes: the lazy plan is positive with column sums exactly `b`; `value_linear` is its cost; either all
iterations were made or the `ℓ¹` error of the row sums is at most the threshold; and the result does not depend on the batch sizes. -/
theorem C121_entropic_state (e : Env n m d) (μ : PointMetric) (same : Bool) (X : Fin n → Fin d → ℝ) (Y : Fin m → Fin d → ℝ) (a : Fin n → ℝ) {b : Fin m → ℝ} (hb : ∀ j, 0 < b j) {reg : ℝ} (hreg : reg ≠ 0)
    (c : Option (Fin n → Fin m → ℝ)) (rt : RegArg n m) (ut : UnbArg) (N : ℕ)
    (pi : Option (Fin n → Fin m → ℝ)) (rank : ℕ) (pot : Option ((Fin n → ℝ) × (Fin m → ℝ))) (tol : ℝ) (grad : Grad) :
    ∃ (r : SampleResult n m d) (P : Fin n → Fin m → ℝ) (f : Fin n → ℝ) (g : Fin m → ℝ),
      (∀ bs' bt', 0 < bs' → 0 < bt' → solveSample e same X Y (some a) (some b) (some μ) (some reg) c rt none ut true (some (bs', bt')) none (some (N + 1)) pi rank pot (some tol) grad = .ok r) ∧
      r.lazyPlan = some P ∧ r.potentials = some (f, g) ∧ (∀ i j, P i j = Real.exp (f i + g j - pointCost μ (X i) (Y j) / reg)) ∧ (∀ j, ∑ i, P i j = b j) ∧
      r.valueLinear = some (cost (fun i j => pointCost μ (X i) (Y j)) P) ∧
      (P = lazyPlan (fun i j => pointCost μ (X i) (Y j)) reg ((lazyStep a b (fun i j => pointCost μ (X i) (Y j)) reg)^[N + 1] ⟨fun _ => 0, fun _ => 0⟩) ∨ ∑ i, |∑ j, P i j - a i| ≤ tol) := by
  obtain ⟨h1, h2, -⟩ := C22_lazy_marginals a b (fun i j => pointCost μ (X i) (Y j)) reg (N + 1) N.succ_pos tol none hb
  refine ⟨_, _, _, _, fun bs' bt' hbs' hbt' => lazy_entropic_eq e μ same X Y a b hreg c rt ut hbs' hbt' (.inl rfl) N pi rank pot tol grad, rfl, rfl, fun i j => rfl, h1, rfl, ?_⟩
  obtain ⟨k, hk, e', -, -, x1, x2, x3⟩ := loop_spec (step := lazyStep a b (fun i j => pointCost μ (X i) (Y j)) reg) (bad := fun _ => False)
    (stop := fun ii _ s => (ii + 1) % 10 = 0 ∧ ∑ i, |∑ j, lazyPlan (fun i j => pointCost μ (X i) (Y j)) reg s i j - a i| ≤ tol) (N + 1) 0 (logInit none)
  rcases h : (empiricalLazy a b (fun i j => pointCost μ (X i) (Y j)) reg (N + 1) tol none).exit with _ | _ | _
  · exact .inr (h2 h)
  · have := x1 h
    rw [this] at e'
    exact .inl (congrArg _ e')
  · exact absurd (x3 h).2 (fun h => h)

/-- C121. Entropic transport, dense and lazy: with growing iteration limits (threshold 0) the plan of the dense call and the lazy plan converge to the same coupling, the unique minimiser of the
regularised cost; the two `value_linear` converge to its cost. This holds for all batch sizes, and for both entropic regularisations of the dense call. -/
theorem C121_entropic (e : Env n m d) (hguard : 0 ≤ e.ext.guard) (entropy : Bool) (μ : PointMetric) {same : Bool} {X : Fin n → Fin d → ℝ} {Y : Fin m → Fin d → ℝ} (hs : SameArg same X Y) {a : Fin n → ℝ}
    {b : Fin m → ℝ} {reg : ℝ} (hreg : 0 < reg) (ha : ∀ i, 0 < a i) (hb : ∀ j, 0 < b j) (hS : ∑ i, a i = ∑ j, b j) (h1 : entropy = false → ∑ i, a i = 1) (c : Option (Fin n → Fin m → ℝ)) (ut : UnbArg)
    {bs bt : ℕ} (hbs : 0 < bs) (hbt : 0 < bt) (pi : Option (Fin n → Fin m → ℝ)) (rank : ℕ) (pot : Option ((Fin n → ℝ) × (Fin m → ℝ))) {grad : Grad} (hg : grad ≠ .lastStep) :
    ∃ (r : Bool → ℕ → SampleResult n m d) (Q : Bool → ℕ → Fin n → Fin m → ℝ) (w : Bool → ℕ → ℝ) (P : Fin n → Fin m → ℝ),
      (∀ lazy N, solveSample e same X Y (some a) (some b) (some μ) (some reg) c (entArg entropy) none ut lazy (some (bs, bt)) none (some (N + 1)) pi rank pot (some 0) grad = .ok (r lazy N)) ∧
      (∀ N, (r false N).plan = some (Q false N)) ∧ (∀ N, (r true N).lazyPlan = some (Q true N)) ∧ (∀ lazy N, (r lazy N).valueLinear = some (w lazy N)) ∧
      IsMinimum (IsCoupling a b) (entObj entropy a b (fun i j => pointCost μ (X i) (Y j)) reg) P ∧
      (∀ P', IsMinimum (IsCoupling a b) (entObj entropy a b (fun i j => pointCost μ (X i) (Y j)) reg) P' → P' = P) ∧
      (∀ lazy i j, Tendsto (fun N => Q lazy N i j) atTop (𝓝 (P i j))) ∧ ∀ lazy, Tendsto (w lazy) atTop (𝓝 (cost (fun i j => pointCost μ (X i) (Y j)) P)) := by
  obtain ⟨M, hM⟩ : ∃ M : Fin n → Fin m → ℝ, M = fun i j => pointCost μ (X i) (Y j) := ⟨_, rfl⟩
  obtain ⟨r, P, hr, hmin, huniq, hl1, hl2, -⟩ := C85_entropic e.ext hguard entropy M hreg ha hb hS h1 c ut pi pot hg
  obtain ⟨P', hP', hl⟩ := lazy_converges M hreg ha hb hS
  have hPP : P' = P := by
    refine huniq P' ⟨hP'.1, fun Q hQ => ?_⟩
    cases entropy
    · exact (C26_kl_regularisation a b M reg ha hb P' hP' Q hQ).1
    · exact (hP'.2 Q hQ).1
  subst hPP
  rw [← hM]
  refine ⟨fun lazy N => if lazy then { potentials := some ((empiricalLazy a b M reg (N + 1) 0 none).s.u, (empiricalLazy a b M reg (N + 1) 0 none).s.v)
                                       valueLinear := some (cost M (lazyPlan M reg (empiricalLazy a b M reg (N + 1) 0 none).s)), lazyPlan := some (lazyPlan M reg (empiricalLazy a b M reg (N + 1) 0 none).s) }
      else { potentials := (r N).potentials, value := some (r N).value, valueLinear := some (r N).valueLinear, plan := some (r N).plan, status := (r N).status },
    fun lazy N => if lazy then lazyPlan M reg (empiricalLazy a b M reg (N + 1) 0 none).s else (r N).plan,
    fun lazy N => if lazy then cost M (lazyPlan M reg (empiricalLazy a b M reg (N + 1) 0 none).s) else (r N).valueLinear, P', ?_, fun N => rfl, fun N => rfl, ?_, hmin, huniq, ?_, ?_⟩
  · intro lazy N
    cases lazy
    · rw [C121_dense e μ hs _ _ _ c _ none ut _ (.inl rfl) _ pi rank pot _ grad, ← hM, hr N]
      rfl
    · rw [lazy_entropic_eq e μ same X Y a b hreg.ne' c _ ut hbs hbt (.inl rfl) N pi rank pot 0 grad, ← hM]
      rfl
  · intro lazy N; cases lazy <;> rfl
  · intro lazy i j
    cases lazy
    · exact hl1 i j
    · exact hl i j
  · intro lazy
    cases lazy
    · exact hl2
    · exact tendsto_finsetSum _ fun i _ => tendsto_finsetSum _ fun j _ => (hl i j).mul_const _

/-- C121. What the lazy entropic branch does not look at: the regulariser `reg_type` (even `"L2"` or a pair of functions), the reference `c`, the initial plan and potentials, the method name and `grad`. -/
theorem C121_entropic_ignores (e : Env n m d) (μ : PointMetric) (same : Bool) (X : Fin n → Fin d → ℝ) (Y : Fin m → Fin d → ℝ) (a : Option (Fin n → ℝ)) (b : Option (Fin m → ℝ)) {reg : ℝ} (hreg : reg ≠ 0)
    (c c' : Option (Fin n → Fin m → ℝ)) (rt rt' : RegArg n m) (ut ut' : UnbArg) (bst : Option (ℕ × ℕ)) (mi : Option ℕ) (pi pi' : Option (Fin n → Fin m → ℝ)) (rank rank' : ℕ)
    (pot pot' : Option ((Fin n → ℝ) × (Fin m → ℝ))) (tol : Option ℝ) (grad grad' : Grad) :
    solveSample e same X Y a b (some μ) (some reg) c rt none ut true bst none mi pi rank pot tol grad =
      solveSample e same X Y a b (some μ) (some reg) c' rt' none ut' true bst (some .other) mi pi' rank' pot' tol grad' := by
  simp [solveSample, hreg, Method.large]

/-- C121, refuted: `value` ("full transport cost, including possible regularization terms") is missing from every lazy entropic result, while the dense call reports it. -/
theorem C121_lazy_value_refuted (e : Env n m d) (μ : PointMetric) {same : Bool} {X : Fin n → Fin d → ℝ} {Y : Fin m → Fin d → ℝ} (hs : SameArg same X Y) (a : Fin n → ℝ) (b : Fin m → ℝ) {reg : ℝ} (hreg : 0 < reg)
    (entropy : Bool) (c : Option (Fin n → Fin m → ℝ)) (ut : UnbArg) {bs bt : ℕ} (hbs : 0 < bs) (hbt : 0 < bt) (N : ℕ) (pi : Option (Fin n → Fin m → ℝ)) (rank : ℕ) (pot : Option ((Fin n → ℝ) × (Fin m → ℝ))) (tol : ℝ)
    {grad : Grad} (hg : grad ≠ .lastStep) :
    (∃ r, solveSample e same X Y (some a) (some b) (some μ) (some reg) c (entArg entropy) none ut true (some (bs, bt)) none (some (N + 1)) pi rank pot (some tol) grad = .ok r ∧ r.value = none ∧ r.plan = none) ∧
    ∃ r, solveSample e same X Y (some a) (some b) (some μ) (some reg) c (entArg entropy) none ut false (some (bs, bt)) none (some (N + 1)) pi rank pot (some tol) grad = .ok r ∧ r.value ≠ none ∧ r.plan ≠ none := by
  refine ⟨⟨_, lazy_entropic_eq e μ same X Y a b hreg.ne' c _ ut hbs hbt (.inl rfl) N pi rank pot tol grad, rfl, rfl⟩, ?_⟩
  rw [C121_dense e μ hs _ _ _ c _ none ut _ (.inl rfl) _ pi rank pot _ grad, solve_entropic e.ext entropy _ a b hreg c ut N pi pot tol hg]
  exact ⟨_, rfl, by simp, by simp⟩

/-- the points `0`, `1` of the line -/
def unitPts : Fin 2 → Fin 1 → ℝ := fun i _ => (i : ℕ)

/-- C121, refuted: with `reg_type="L2"` and `lazy=True` the returned plan is never the minimiser of the quadratically regularised cost, whatever the number of iterations and the threshold: the samples `0`, `1` on both
sides, uniform weights, `reg = 1`. The diagonal plan, which is the minimiser, is strictly better than every coupling the call can return. -/
theorem C121_lazy_l2_refuted (e : Env 2 2 1) (N : ℕ) (tol : ℝ) (grad : Grad) :
    ∃ (r : SampleResult 2 2 1) (P : Fin 2 → Fin 2 → ℝ), solveSample e false unitPts unitPts (some fun _ => 1 / 2) (some fun _ => 1 / 2) (some .sqeuclidean) (some 1) none .l2 none .kl true none none (some (N + 1)) none 100 none
        (some tol) grad = .ok r ∧ r.lazyPlan = some P ∧
      ¬ IsMinimum (IsCoupling (fun _ => 1 / 2) (fun _ => 1 / 2)) (squareObjective (fun i j => pointCost .sqeuclidean (unitPts i) (unitPts j)) 1) P := by
  have h : solveSample e false unitPts unitPts (some fun _ => 1 / 2) (some fun _ => 1 / 2) (some .sqeuclidean) (some 1) none .l2 none .kl true none none (some (N + 1)) none 100 none (some tol) grad =
      solveSample e false unitPts unitPts (some fun _ => 1 / 2) (some fun _ => 1 / 2) (some .sqeuclidean) (some 1) none .l2 none .kl true (some (100, 100)) none (some (N + 1)) none 100 none (some tol) grad := by
    simp [solveSample]
  rw [h, lazy_entropic_eq e .sqeuclidean false unitPts unitPts _ _ one_ne_zero none .l2 .kl (by norm_num) (by norm_num) (.inl rfl) N none 100 none tol grad]
  refine ⟨_, _, rfl, rfl, fun hmin => ?_⟩
  obtain ⟨P, hP⟩ : ∃ P, P = lazyPlan (fun i j => pointCost .sqeuclidean (unitPts i) (unitPts j)) 1
    (empiricalLazy (fun _ => 1 / 2) (fun _ => 1 / 2) (fun i j => pointCost .sqeuclidean (unitPts i) (unitPts j)) 1 (N + 1) tol none).s := ⟨_, rfl⟩
  rw [← hP] at hmin
  have hpos : 0 < P 0 1 := by rw [hP]; exact Real.exp_pos _
  have hd : IsCoupling (fun _ : Fin 2 => (1 / 2 : ℝ)) (fun _ : Fin 2 => 1 / 2) (fun i j => if i = j then 1 / 2 else 0) :=
    ⟨fun i j => by split_ifs <;> norm_num, fun i => by simp, fun j => by simp⟩
  have h2 := hmin.2 _ hd
  have r0 := hmin.1.row 0
  have c0 := hmin.1.col 0
  have c1 := hmin.1.col 1
  rw [Fin.sum_univ_two] at r0 c0 c1
  simp only [squareObjective, cost, pointCost, unitPts, Fin.sum_univ_two, Fin.sum_univ_one] at h2
  norm_num at h2
  have e00 : P 0 0 = 1 / 2 - P 0 1 := by linarith
  have e10 : P 1 0 = P 0 1 := by linarith
  have e11 : P 1 1 = 1 / 2 - P 0 1 := by linarith
  rw [e00, e10, e11] at h2
  nlinarith

/-- C121. `method="1d"`: one value per dimension, the optimal transport cost of the weighted samples on that axis, for the squared distance (`sqeuclidean`) or the distance (`euclidean`, `cityblock`). -/
theorem C121_one_dimensional (e : Env n m d) (hsort : ∀ {k : ℕ} (x : Fin k → ℝ), Monotone fun i => x (e.argsort x i)) (μ : PointMetric) (same lazy : Bool) (X : Fin n → Fin d → ℝ) (Y : Fin m → Fin d → ℝ)
    {a0 : Option (Fin n → ℝ)} {b0 : Option (Fin m → ℝ)} {a : Fin n → ℝ} {b : Fin m → ℝ} (ha0 : Passed a0 a) (hb0 : Passed b0 b) (ha : ∀ i, 0 ≤ a i) (hb : ∀ j, 0 ≤ b j) (hS : ∑ i, a i = ∑ j, b j)
    (reg : Option ℝ) (c : Option (Fin n → Fin m → ℝ)) (rt : RegArg n m) (ub : Option (Option ℝ × Option ℝ)) (ut : UnbArg) (bst : Option (ℕ × ℕ)) (mi : Option ℕ) (pi : Option (Fin n → Fin m → ℝ)) (rank : ℕ)
    (pot : Option ((Fin n → ℝ) × (Fin m → ℝ))) (tol : Option ℝ) (grad : Grad) :
    ∃ (r : SampleResult n m d) (v : Fin d → ℝ), solveSample e same X Y a0 b0 (some μ) reg c rt ub ut lazy bst (some .oneD) mi pi rank pot tol grad = .ok r ∧ r.values1d = some v ∧
      ∀ k, IsOtValue a b (fun i j => if μ = .sqeuclidean then (X i k - Y j k) ^ 2 else |X i k - Y j k|) (v k) := by
  have ea : a0.getD (unif n) = a := by
    rcases ha0 with rfl | ⟨rfl, h⟩
    · rfl
    · funext i; exact (h i).symm
  have eb : b0.getD (unif m) = b := by
    rcases hb0 with rfl | ⟨rfl, h⟩
    · rfl
    · funext i; exact (h i).symm
  refine ⟨{ values1d := some fun k => (Emd1d.wasserstein1d (if μ = .sqeuclidean then 2 else 1) (fun i => X i k) (fun j => Y j k) a b (e.argsort fun i => X i k) (e.argsort fun j => Y j k)).2 }, _, ?_, rfl, fun k => ?_⟩
  · simp [solveSample, Method.large, ea, eb]
  · obtain ⟨h1, h2⟩ := C04_wasserstein1d_optimal (NeZero.one_le (n := n)) (NeZero.one_le (n := m)) (if μ = .sqeuclidean then 2 else 1) (by split_ifs <;> norm_num) (fun i => X i k) (fun j => Y j k) a b
      (e.argsort fun i => X i k) (e.argsort fun j => Y j k) (hsort fun i => X i k) (hsort fun j => Y j k) ha hb hS
    have hc : (fun i j => |X i k - Y j k| ^ (if μ = .sqeuclidean then (2 : ℝ) else 1)) = fun i j => if μ = .sqeuclidean then (X i k - Y j k) ^ 2 else |X i k - Y j k| := by
      funext i j
      split_ifs
      · rw [Real.rpow_two, sq_abs]
      · rw [Real.rpow_one]
    rw [hc] at h1 h2
    exact ⟨⟨_, h1.1, h2.symm⟩, fun x ⟨Q, hQ, hx⟩ => by rw [h2, ← hx]; exact h1.2 Q hQ⟩

/-- C121. `method="gaussian"`: the value is the squared Bures-Wasserstein distance of the two samples **with uniform weights**, a lower bound of every transport cost between the unweighted samples. What is missing: the weights, see
`C121_gaussian_weights_refuted`. -/
theorem C121_gaussian_partial (e : Env n m d) (he : e.eigh.Ok) (same lazy : Bool) (X : Fin n → Fin d → ℝ) (Y : Fin m → Fin d → ℝ) (a : Option (Fin n → ℝ)) (b : Option (Fin m → ℝ))
    {reg : Option ℝ} (hreg : ∀ x, reg = some x → 0 ≤ x) (c : Option (Fin n → Fin m → ℝ)) (rt : RegArg n m) (ub : Option (Option ℝ × Option ℝ)) (ut : UnbArg) (bst : Option (ℕ × ℕ)) (mi : Option ℕ)
    (pi : Option (Fin n → Fin m → ℝ)) (rank : ℕ) (pot : Option ((Fin n → ℝ) × (Fin m → ℝ))) (tol : Option ℝ) (grad : Grad) :
    ∃ (r : SampleResult n m d) (v : ℝ), solveSample e same X Y a b (some .sqeuclidean) reg c rt ub ut lazy bst (some .gaussian) mi pi rank pot tol grad = .ok r ∧ r.value = some v ∧ r.valueLinear = some v ∧
      v = Gaussian.empDist e.eigh true (reg.getD (1 / 10 ^ 6)) (fun _ => 1 / (n : ℝ)) (fun _ => 1 / (m : ℝ)) X Y ^ 2 ∧
      ∀ P, IsCoupling (fun _ => 1 / (n : ℝ)) (fun _ => 1 / (m : ℝ)) P → v ≤ cost (fun i j => pointCost .sqeuclidean (X i) (Y j)) P := by
  have hn : (0 : ℝ) < n := by exact_mod_cast Nat.pos_of_ne_zero (NeZero.ne n)
  have hm : (0 : ℝ) < m := by exact_mod_cast Nat.pos_of_ne_zero (NeZero.ne m)
  have un : Gaussian.uniformW (Fin n) = fun _ => 1 / (n : ℝ) := by funext; simp [Gaussian.uniformW]
  have um : Gaussian.uniformW (Fin m) = fun _ => 1 / (m : ℝ) := by funext; simp [Gaussian.uniformW]
  refine ⟨{ value := some _, valueLinear := some _ }, _, ?_, rfl, rfl, rfl, fun P hP => ?_⟩
  · simp [solveSample, Method.large, un, um]
  · refine C78_empirical_lower_bound e.eigh he true _ ?_ _ _ (fun _ => by positivity) (fun _ => by positivity) ?_ ?_ X Y P ?_
    · cases reg with
      | none => norm_num
      | some x => exact hreg x rfl
    · simp only [sum_const, card_univ, Fintype.card_fin, nsmul_eq_mul]; positivity
    · simp only [sum_const, card_univ, Fintype.card_fin, nsmul_eq_mul]; positivity
    · have e1 : ∑ _k : Fin n, 1 / (n : ℝ) = 1 := by simp [hn.ne']
      have e2 : ∑ _k : Fin m, 1 / (m : ℝ) = 1 := by simp [hm.ne']
      simpa only [e1, e2, div_one] using hP

/-- C121, refuted: the weights `a`, `b`, documented as the weights of the samples, do not reach the Gaussian solver. Samples `0`, `1` with weights `1`, `0` and the sample `0`: both weighted samples are the same point mass,
their transport cost is zero, and the value is at least `1/4`. -/
theorem C121_gaussian_weights_refuted (e : Env 2 1 1) (reg : Option ℝ) (grad : Grad) :
    ∃ (r : SampleResult 2 1 1) (v : ℝ), solveSample e false unitPts (fun _ _ => 0) (some ![1, 0]) (some ![1]) (some .sqeuclidean) reg none .kl none .kl false none (some .gaussian) none none 100 none none grad = .ok r ∧
      r.value = some v ∧ 1 / 4 ≤ v ∧ IsOtValue (![1, 0] : Fin 2 → ℝ) (![1] : Fin 1 → ℝ) (fun i _ => pointCost .sqeuclidean (unitPts i) fun _ => 0) 0 := by
  refine ⟨{ value := some (Gaussian.empDist e.eigh true (reg.getD (1 / 10 ^ 6)) (Gaussian.uniformW (Fin 2)) (Gaussian.uniformW (Fin 1)) unitPts (fun _ _ => 0) ^ 2),
            valueLinear := some (Gaussian.empDist e.eigh true (reg.getD (1 / 10 ^ 6)) (Gaussian.uniformW (Fin 2)) (Gaussian.uniformW (Fin 1)) unitPts (fun _ _ => 0) ^ 2) }, _,
    by simp [solveSample, Method.large], rfl, ?_, ⟨⟨fun i j => (![1, 0] : Fin 2 → ℝ) i, ⟨fun i j => ?_, fun i => ?_, fun j => ?_⟩, ?_⟩, ?_⟩⟩
  · unfold Gaussian.empDist Gaussian.bwDist
    rw [Real.sq_sqrt (le_max_right _ _)]
    refine le_trans ?_ (le_max_left _ _)
    refine le_trans ?_ (le_add_of_nonneg_right (sq_nonneg _))
    simp [Gaussian.sqNorm, Gaussian.empMean, Gaussian.uniformW, unitPts, Fin.sum_univ_two]
    norm_num
  · fin_cases i <;> simp
  · simp
  · fin_cases j; simp
  · simp [cost, Fin.sum_univ_two, pointCost, unitPts]
  · rintro x ⟨P, hP, rfl⟩
    exact sum_nonneg fun i _ => sum_nonneg fun j _ => mul_nonneg (hP.nonneg i j) (SolveSample.pointCost_nn _ _ _)

/-- C121. `method="factored"`: the lazy plan is a coupling of **uniform** weights and its cost is at most twice the reported value; the plan is stored densely unless `lazy=True`.
What is missing: the weights, see `C121_factored_weights_refuted`. -/
theorem C121_factored_partial (e : Env n m d) {rank : ℕ} (hrank : 0 < rank) {reg : Option ℝ} (ra : (Fin n → Fin rank → ℝ) → ℝ) (rb : (Fin rank → Fin m → ℝ) → ℝ)
    (hA : ∀ M, IsPenOptimal (fun _ => 1 / (n : ℝ)) (fun _ => 1 / (rank : ℝ)) ra M (e.solveOt (reg.getD 0) (fun _ => 1 / (n : ℝ)) (fun _ => 1 / (rank : ℝ)) M))
    (hB : ∀ M, IsPenOptimal (fun _ => 1 / (rank : ℝ)) (fun _ => 1 / (m : ℝ)) rb M (e.solveOt (reg.getD 0) (fun _ => 1 / (rank : ℝ)) (fun _ => 1 / (m : ℝ)) M))
    (same lazy : Bool) (X : Fin n → Fin d → ℝ) (Y : Fin m → Fin d → ℝ) (a : Option (Fin n → ℝ)) (b : Option (Fin m → ℝ)) (c : Option (Fin n → Fin m → ℝ)) (rt : RegArg n m) (ub : Option (Option ℝ × Option ℝ))
    (ut : UnbArg) (bst : Option (ℕ × ℕ)) {mi : Option ℕ} (hmi : mi ≠ some 0) (pi : Option (Fin n → Fin m → ℝ)) (pot : Option ((Fin n → ℝ) × (Fin m → ℝ))) (tol : Option ℝ) (grad : Grad) :
    ∃ (r : SampleResult n m d) (P : Fin n → Fin m → ℝ) (v : ℝ), solveSample e same X Y a b (some .sqeuclidean) reg c rt ub ut lazy bst (some .factored) mi pi rank pot tol grad = .ok r ∧
      r.lazyPlan = some P ∧ r.plan = (if lazy then none else some P) ∧ r.value = some v ∧ r.valueLinear = some v ∧
      IsCoupling (fun _ => 1 / (n : ℝ)) (fun _ => 1 / (m : ℝ)) P ∧ cost (fun i j => pointCost .sqeuclidean (X i) (Y j)) P ≤ 2 * v := by
  obtain ⟨k, hk⟩ : ∃ k, mi.getD 100 = k + 1 := by
    refine Nat.exists_eq_succ_of_ne_zero ?_
    cases mi with
    | none => simp
    | some x => simpa using hmi
  obtain ⟨s, hs⟩ : ∃ s, s = Factored.factored X Y (e.solveOt (reg.getD 0) (unif n) (Factored.w rank)) (e.solveOt (reg.getD 0) (Factored.w rank) (unif m)) (tol.getD (1 / 10 ^ 7)) k (e.randn rank) := ⟨_, rfl⟩
  refine ⟨{ value := some (Factored.costA X s + Factored.costB Y s), valueLinear := some (Factored.costA X s + Factored.costB Y s), lazyPlan := some (Factored.lazyPlan s.Ga s.Gb),
            plan := if lazy then none else some (Factored.lazyPlan s.Ga s.Gb) }, _, _, ?_, rfl, rfl, rfl, rfl, ?_⟩
  · simp [solveSample, Method.large, hk, hs]
  · obtain ⟨c1, c2, -⟩ := C74_factored X Y (unif n) (unif m) ra rb (e.solveOt (reg.getD 0) (unif n) (Factored.w rank)) (e.solveOt (reg.getD 0) (Factored.w rank) (unif m)) hA hB (tol.getD (1 / 10 ^ 7)) k (e.randn rank)
    rw [← hs] at c1 c2
    obtain ⟨h1, h2⟩ := C74_lazy_plan hrank X Y (unif n) (unif m) s.Ga s.Gb c1 c2 s.old
    exact ⟨h1, h2⟩

/-- C121, refuted: the weights do not reach factored transport either. Samples `0`, `1` with weights `1`, `0`: the plan gives weight `1/2` to the second sample, whatever (correct) inner solver is used. -/
theorem C121_factored_weights_refuted (e : Env 2 1 1) {reg : Option ℝ} (ra : (Fin 2 → Fin 1 → ℝ) → ℝ) (rb : (Fin 1 → Fin 1 → ℝ) → ℝ)
    (hA : ∀ M, IsPenOptimal (fun _ => 1 / ((2 : ℕ) : ℝ)) (fun _ => 1 / ((1 : ℕ) : ℝ)) ra M (e.solveOt (reg.getD 0) (fun _ => 1 / ((2 : ℕ) : ℝ)) (fun _ => 1 / ((1 : ℕ) : ℝ)) M))
    (hB : ∀ M, IsPenOptimal (fun _ => 1 / ((1 : ℕ) : ℝ)) (fun _ => 1 / ((1 : ℕ) : ℝ)) rb M (e.solveOt (reg.getD 0) (fun _ => 1 / ((1 : ℕ) : ℝ)) (fun _ => 1 / ((1 : ℕ) : ℝ)) M)) (grad : Grad) :
    ∃ (r : SampleResult 2 1 1) (P : Fin 2 → Fin 1 → ℝ), solveSample e false unitPts (fun _ _ => 0) (some ![1, 0]) (some ![1]) (some .sqeuclidean) reg none .kl none .kl false none (some .factored) none none 1 none none grad = .ok r ∧
      r.plan = some P ∧ P 1 0 = 1 / 2 ∧ ¬ IsCoupling ![1, 0] ![1] P := by
  obtain ⟨r, P, v, h1, _, h2, _, _, h3, _⟩ := C121_factored_partial e one_pos ra rb hA hB false false unitPts (fun _ _ => 0) (some ![1, 0]) (some ![1]) none .kl none .kl none (mi := none) (by simp) none none none grad
  have hr := h3.row 1
  rw [Fin.sum_univ_one] at hr
  refine ⟨r, P, h1, h2, by rw [hr]; norm_num, fun h => ?_⟩
  have h' := h.row 1
  rw [Fin.sum_univ_one, hr] at h'
  norm_num at h'

/-- C121. What is not available lazily is refused: unbalanced transport, and exact transport with a method name that is not known. -/
theorem C121_refused (e : Env n m d) (metric : Option PointMetric) (same : Bool) (X : Fin n → Fin d → ℝ) (Y : Fin m → Fin d → ℝ) (a : Option (Fin n → ℝ)) (b : Option (Fin m → ℝ)) (reg : Option ℝ)
    (c : Option (Fin n → Fin m → ℝ)) (rt : RegArg n m) (ub : Option (Option ℝ × Option ℝ)) (ut : UnbArg) (bst : Option (ℕ × ℕ)) {method : Option Method} (hm : method = none ∨ method = some .other) (mi : Option ℕ)
    (pi : Option (Fin n → Fin m → ℝ)) (rank : ℕ) (pot : Option ((Fin n → ℝ) × (Fin m → ℝ))) (tol : Option ℝ) (grad : Grad)
    (h : ub ≠ none ∨ method = some .other ∧ (reg = none ∨ reg = some 0)) :
    solveSample e same X Y a b metric reg c rt ub ut true bst method mi pi rank pot tol grad = .notImplemented := by
  cases ub with
  | none =>
    obtain ⟨rfl, h2⟩ := h.resolve_left (by simp)
    simp [solveSample, h2]
  | some ρ =>
    rcases hm with rfl | rfl <;> simp [solveSample]

/-! ### the empirical Sinkhorn divergence -/

/-- `empirical_sinkhorn2` converges to the cost of the entropic optimum -/
theorem empirical2_tendsto (μ : PointMetric) {same : Bool} {X : Fin n → Fin d → ℝ} {Y : Fin m → Fin d → ℝ} (hs : SameArg same X Y) {isLazy : Option (ℕ × ℕ)} (hl : ∀ x, isLazy = some x → 0 < x.1 ∧ 0 < x.2)
    {a : Fin n → ℝ} {b : Fin m → ℝ} {reg : ℝ} (hreg : 0 < reg) (ha : ∀ i, 0 < a i) (hb : ∀ j, 0 < b j) (hS : ∑ i, a i = ∑ j, b j) :
    ∃ P, IsEntropicOptimal a b (fun i j => pointCost μ (X i) (Y j)) reg P ∧
      Tendsto (fun N => empirical2 μ same isLazy (some a) (some b) X Y reg (N + 1) 0 none) atTop (𝓝 (cost (fun i j => pointCost μ (X i) (Y j)) P)) := by
  cases isLazy with
  | none =>
    obtain ⟨P, hP, h⟩ := C27_converges a b (fun i j => pointCost μ (X i) (Y j)) reg hreg none ha hb hS
    refine ⟨P, hP, ?_⟩
    simp only [empirical2, distM_eq μ hs, Option.getD_some]
    exact tendsto_finsetSum _ fun i _ => tendsto_finsetSum _ fun j _ => ((tendsto_add_atTop_iff_nat 1).2 (h i j)).mul_const _
  | some x =>
    obtain ⟨h1, h2⟩ := hl x rfl
    obtain ⟨P, hP, h⟩ := lazy_converges (fun i j => pointCost μ (X i) (Y j)) hreg ha hb hS
    refine ⟨P, hP, ?_⟩
    simp only [empirical2, Option.getD_some, empiricalBatched_eq μ h1 h2, batchedLoss_eq μ h1]
    exact tendsto_finsetSum _ fun i _ => tendsto_finsetSum _ fun j _ => (h i j).mul_const _

/-- C121. `empirical_sinkhorn_divergence`, dense or lazy with any batch sizes: with growing iteration limits (threshold 0) it converges to the documented expression `⟨γ, M⟩ - (⟨γ_a, M_a⟩ + ⟨γ_b, M_b⟩) / 2`, cut at
zero, where `γ`, `γ_a`, `γ_b` are the entropic optima; exchanging the two samples gives the same limit. -/
theorem C121_divergence_limit (μ : PointMetric) {same : Bool} {X : Fin n → Fin d → ℝ} {Y : Fin m → Fin d → ℝ} (hs : SameArg same X Y) {isLazy : Option (ℕ × ℕ)} (hl : ∀ x, isLazy = some x → 0 < x.1 ∧ 0 < x.2)
    {a : Fin n → ℝ} {b : Fin m → ℝ} {reg : ℝ} (hreg : 0 < reg) (ha : ∀ i, 0 < a i) (hb : ∀ j, 0 < b j) (hS : ∑ i, a i = ∑ j, b j) :
    ∃ P Pa Pb, IsEntropicOptimal a b (fun i j => pointCost μ (X i) (Y j)) reg P ∧ IsEntropicOptimal a a (fun i j => pointCost μ (X i) (X j)) reg Pa ∧
      IsEntropicOptimal b b (fun i j => pointCost μ (Y i) (Y j)) reg Pb ∧
      Tendsto (fun N => divergence μ same isLazy (some a) (some b) X Y reg (N + 1) 0 none) atTop (𝓝 (max 0 (cost (fun i j => pointCost μ (X i) (Y j)) P -
        (cost (fun i j => pointCost μ (X i) (X j)) Pa + cost (fun i j => pointCost μ (Y i) (Y j)) Pb) / 2))) ∧
      Tendsto (fun N => divergence μ same isLazy (some b) (some a) Y X reg (N + 1) 0 none) atTop (𝓝 (max 0 (cost (fun i j => pointCost μ (X i) (Y j)) P -
        (cost (fun i j => pointCost μ (X i) (X j)) Pa + cost (fun i j => pointCost μ (Y i) (Y j)) Pb) / 2))) := by
  have sX : SameArg true X X := fun _ i j h => by rw [Fin.ext h]
  have sY : SameArg true Y Y := fun _ i j h => by rw [Fin.ext h]
  have hs' : SameArg same Y X := fun h i j hij => (hs h j i hij.symm).symm
  obtain ⟨P, hP, h1⟩ := empirical2_tendsto μ hs hl hreg ha hb hS
  obtain ⟨Pa, hPa, h2⟩ := empirical2_tendsto μ sX hl hreg ha ha rfl
  obtain ⟨Pb, hPb, h3⟩ := empirical2_tendsto μ sY hl hreg hb hb rfl
  obtain ⟨P', hP', h4⟩ := empirical2_tendsto μ hs' hl hreg hb ha hS.symm
  have hsym : (fun j i => pointCost μ (Y j) (X i)) = fun j i => pointCost μ (X i) (Y j) := by
    funext j i
    cases μ <;> simp only [pointCost, abs_sub_comm (Y j _), sub_sq_comm (Y j _)]
  rw [hsym] at hP' h4
  have hPP : (fun i j => P' j i) = P := (hP.2 _ (entropic_swap hP').1).2 ((entropic_swap hP').2 P hP.1).1
  have hc : cost (fun j i => pointCost μ (X i) (Y j)) P' = cost (fun i j => pointCost μ (X i) (Y j)) P := by
    rw [← hPP]
    unfold cost
    exact sum_comm
  rw [hc] at h4
  refine ⟨P, Pa, Pb, hP, hPa, hPb, ?_, ?_⟩
  · have := (tendsto_const_nhds (x := (0 : ℝ))).max (h1.sub ((h2.add h3).const_mul (1 / 2)))
    rw [show ∀ x y z : ℝ, x - (y + z) / 2 = x - 1 / 2 * (y + z) from fun x y z => by ring]
    exact this
  · have := (tendsto_const_nhds (x := (0 : ℝ))).max (h4.sub ((h3.add h2).const_mul (1 / 2)))
    rw [show ∀ x y z : ℝ, x - (y + z) / 2 = x - 1 / 2 * (z + y) from fun x y z => by ring]
    exact this

/-- C121. The divergence is non-negative, and zero for identical samples and weights — after any number of iterations, for any threshold and batch sizes, whether or not the two samples are the same array. -/
theorem C121_divergence_zero (μ : PointMetric) (same : Bool) (isLazy : Option (ℕ × ℕ)) (X : Fin n → Fin d → ℝ) (a : Option (Fin n → ℝ)) (reg : ℝ) (N : ℕ) (thr : ℝ) :
    (∀ (Y : Fin m → Fin d → ℝ) b warm, 0 ≤ divergence μ same isLazy a b X Y reg N thr warm) ∧ divergence μ same isLazy a a X X reg N thr none = 0 := by
  refine ⟨fun Y b warm => le_max_left _ _, ?_⟩
  have sX : ∀ s, SameArg s X X := fun s _ i j h => by rw [Fin.ext h]
  have : empirical2 μ same isLazy a a X X reg N thr none = empirical2 μ true isLazy a a X X reg N thr none := by
    unfold empirical2
    cases isLazy with
    | none => simp only [distM_eq μ (sX _)]
    | some x => rfl
  unfold divergence
  simp only [Option.map_none, this]
  rw [show ∀ x : ℝ, x - 1 / 2 * (x + x) = 0 from fun x => by ring, max_self]

/-! ### non-vacuity -/

/-- an environment with exact inner solvers -/
noncomputable def exEnv (n m d : ℕ) (e : Gaussian.Eigh (Fin d)) : Env n m d where
  ext := exExt n m
  eigh := e
  argsort := fun x => Tuple.sort x
  solveOt := fun _ a b M => exactEmd a b M
  randn := fun _ _ _ => 0

/-- two and three points of the plane, weights of different sizes: dense and lazy exact transport -/
example (e : Gaussian.Eigh (Fin 2)) : ∃ (r : SampleResult 2 3 2) (P : Fin 2 → Fin 3 → ℝ), solveSample (exEnv 2 3 2 e) false (fun i _ => (i : ℕ)) (fun j k => (j : ℕ) * (k : ℕ)) (some ![1 / 4, 3 / 4]) (some fun _ => 1 / 3)
    (some .euclidean) none none .kl none .kl true none none none none 100 none none .autodiff = .ok r ∧ r.plan = some P ∧
    r.value = some (cost (fun (i : Fin 2) (j : Fin 3) => pointCost .euclidean (fun _ => ((i : ℕ) : ℝ)) fun k : Fin 2 => ((j : ℕ) : ℝ) * ((k : ℕ) : ℝ)) P) := by
  obtain ⟨r, P, u, v, w, h, h1, _, h2, _, h3, _⟩ := C121_exact_partial (exEnv 2 3 2 e) (by norm_num [exEnv, exExt]) (by norm_num [exEnv, exExt]) (by norm_num [exEnv, exExt]) (by norm_num [exEnv, exExt])
    (by norm_num [exEnv, exExt]) .euclidean (same := false) (X := fun i _ => ((i : ℕ) : ℝ)) (Y := fun j k => ((j : ℕ) : ℝ) * ((k : ℕ) : ℝ)) (by intro h; cases h) (lo := fun _ => 0) (hi := fun _ => 2)
    (fun i k => by fin_cases i <;> simp) (fun j k => by fin_cases j <;> fin_cases k <;> norm_num) (a := ![1 / 4, 3 / 4]) (b := fun _ => 1 / 3)
    (fun i => by fin_cases i <;> norm_num) (by norm_num) (by rw [Fin.sum_univ_two]; norm_num) (by rw [Fin.sum_univ_two]; norm_num) (.inl rfl) none .kl .kl none none none 100 none .autodiff
  exact ⟨r, P, h, h1, h3 ▸ h2⟩

/-- the divergence of two different samples on a line, lazily in batches of one and two -/
example : ∃ v, Tendsto (fun N => divergence .sqeuclidean false (some (1, 2)) (some ![1 / 4, 3 / 4]) (some fun _ => 1 / 3) unitPts (fun (j : Fin 3) _ => ((j : ℕ) : ℝ)) (1 / 10) (N + 1) 0 none) atTop (𝓝 v) := by
  obtain ⟨_, _, _, _, _, _, h, _⟩ := C121_divergence_limit .sqeuclidean (same := false) (X := unitPts) (Y := fun (j : Fin 3) (_ : Fin 1) => ((j : ℕ) : ℝ)) (by intro h; cases h) (isLazy := some (1, 2))
    (by rintro x h; cases h; norm_num) (a := ![1 / 4, 3 / 4]) (b := fun _ => 1 / 3) (reg := 1 / 10) (by norm_num) (fun i => by fin_cases i <;> simp) (by norm_num) (by rw [Fin.sum_univ_two]; norm_num)
  exact ⟨_, h⟩

/-- the hypotheses of the factored theorems are met by an exact inner solver -/
example (e : Gaussian.Eigh (Fin 1)) : ∃ (r : SampleResult 2 1 1) (P : Fin 2 → Fin 1 → ℝ), solveSample (exEnv 2 1 1 e) false unitPts (fun _ _ => 0) (some ![1, 0]) (some ![1]) (some .sqeuclidean) none none .kl none .kl false none
    (some .factored) none none 1 none none .autodiff = .ok r ∧ r.plan = some P ∧ ¬ IsCoupling ![1, 0] ![1] P := by
  have h1 : IsCoupling (fun _ : Fin 2 => 1 / ((2 : ℕ) : ℝ)) (fun _ : Fin 1 => 1 / ((1 : ℕ) : ℝ)) (fun _ _ => 1 / 2) := ⟨fun _ _ => by norm_num, fun i => by simp, fun j => by simp⟩
  have h2 : IsCoupling (fun _ : Fin 1 => 1 / ((1 : ℕ) : ℝ)) (fun _ : Fin 1 => 1 / ((1 : ℕ) : ℝ)) (fun _ _ => 1) := ⟨fun _ _ => by norm_num, fun i => by simp, fun j => by simp⟩
  obtain ⟨r, P, h, h3, _, h4⟩ := C121_factored_weights_refuted (exEnv 2 1 1 e) (reg := none) (fun _ => 0) (fun _ => 0)
    (fun M => ⟨(exactEmd_optimal _ _ M ⟨_, h1⟩).1, fun P' hP' => add_le_add_left ((exactEmd_optimal _ _ M ⟨_, h1⟩).2 P' hP') 0⟩)
    (fun M => ⟨(exactEmd_optimal _ _ M ⟨_, h2⟩).1, fun P' hP' => add_le_add_left ((exactEmd_optimal _ _ M ⟨_, h2⟩).2 P' hP') 0⟩) .autodiff
  exact ⟨r, P, h, h3, h4⟩

/-- `method="1d"` with default weights -/
example (e : Gaussian.Eigh (Fin 1)) : ∃ (r : SampleResult 2 2 1) (v : Fin 1 → ℝ), solveSample (exEnv 2 2 1 e) false unitPts (fun j k => 2 * unitPts j k) none none (some .cityblock) none none .kl none .kl false none
    (some .oneD) none none 100 none none .autodiff = .ok r ∧ r.values1d = some v := by
  obtain ⟨r, v, h, h1, _⟩ := C121_one_dimensional (exEnv 2 2 1 e) (fun x => Tuple.monotone_sort x) .cityblock false false unitPts (fun j k => 2 * unitPts j k) (a0 := none) (b0 := none) (a := fun _ => 1 / (2 : ℕ))
    (b := fun _ => 1 / (2 : ℕ)) (.inr ⟨rfl, fun _ => rfl⟩) (.inr ⟨rfl, fun _ => rfl⟩) (by norm_num) (by norm_num) rfl none none .kl none .kl none none none 100 none none .autodiff
  exact ⟨r, v, h, h1⟩

/-- dense and lazy entropic transport of two samples -/
example (e : Gaussian.Eigh (Fin 1)) (N : ℕ) : ∃ r, solveSample (exEnv 2 2 1 e) false unitPts (fun j k => 2 * unitPts j k) (some ![1 / 4, 3 / 4]) (some fun _ => 1 / 2) (some .sqeuclidean) (some 1) none .kl none .kl true
    (some (1, 1)) none (some (N + 1)) none 100 none (some 0) .autodiff = .ok r := by
  obtain ⟨r, _, _, _, h, _⟩ := C121_entropic (exEnv 2 2 1 e) le_rfl false .sqeuclidean (same := false) (X := unitPts) (Y := fun j k => 2 * unitPts j k) (by intro h; cases h) (a := ![1 / 4, 3 / 4]) (b := fun _ => 1 / 2)
    (reg := 1) one_pos (fun i => by fin_cases i <;> simp) (by norm_num) (by rw [Fin.sum_univ_two]; norm_num) (fun _ => by rw [Fin.sum_univ_two]; norm_num) none .kl one_pos one_pos none 100 none (grad := .autodiff) (by decide)
  exact ⟨_, h true N⟩

end POT.Props
