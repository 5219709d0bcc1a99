import Verif.Lemmas.SlicedPlan
import Verif.Props.Sliced
import Mathlib.Tactic.FinCases

/-!
# C76: plans obtained from one-dimensional projections
-/

set_option linter.unusedSectionVars false

namespace POT.Props

open Finset POT.Spec POT.Emd1d POT.Sliced

variable {n m L : ℕ} {D : Type*} [Fintype D]

/-- C76. Every plan of `sliced_plans` is a coupling of the weights, and an optimal one for the projected samples. -/
theorem C76_sliced_plans (μ : Metric) (p : ℝ) (hp : 1 ≤ effP μ p) (X : Fin n → D → ℝ) (Y : Fin m → D → ℝ) (a : Fin n → ℝ) (b : Fin m → ℝ) (hw : SlicedWeights a b)
    (θ : Fin L → D → ℝ) (σ : Sorters n m L) (hσ : σ.Sorts X Y θ) (k : Fin L) :
    IsOptimal a b (fun i j => |dotP (X i) (θ k) - dotP (Y j) (θ k)| ^ effP μ p) (slicedPlan μ p X Y a b θ σ k) :=
  slicedPlan_optimal μ p X Y a b θ σ hw.n1 hw.m1 hp hw.ha hw.hb hw.mass hσ k

/-- C76. `min_sliced_transport_plan` returns a coupling: one of the plans of the projections, with the least reported cost. -/
theorem C76_min_sliced (μ : Metric) (p : ℝ) (hp : 1 ≤ effP μ p) (batch : Option ℕ) (X : Fin n → D → ℝ) (Y : Fin m → D → ℝ) (a : Fin n → ℝ) (b : Fin m → ℝ)
    (hw : SlicedWeights a b) (θ : Fin (L + 1) → D → ℝ) (σ : Sorters n m (L + 1)) (hσ : σ.Sorts X Y θ) :
    IsCoupling a b (minSlicedPlan μ p batch X Y a b θ σ).1 ∧
    (∃ k, (minSlicedPlan μ p batch X Y a b θ σ) = (slicedPlan μ p X Y a b θ σ k, planCost μ p batch X Y a b θ σ k)) ∧
    ∀ k, (minSlicedPlan μ p batch X Y a b θ σ).2 ≤ planCost μ p batch X Y a b θ σ k :=
  ⟨(slicedPlan_optimal μ p X Y a b θ σ hw.n1 hw.m1 hp hw.ha hw.hb hw.mass hσ _).1, ⟨_, rfl⟩, fun k => argmin_le (planCost μ p batch X Y a b θ σ) k⟩

/-- C76, the part of the cost claim that holds of the code: for samples of the same size with uniform weights of total mass one, every reported cost is
the cost of the plan reported with it, whatever the batch size; the plan returned by `min_sliced_transport_plan` is the cheapest of
the projected plans, and its cost is an upper bound of the optimal transport value.  Missing: other weights, samples of different sizes (`C76_cost_refuted`,
`C76_min_refuted`) and masses other than one (`C76_mass_refuted`), for which the claim is false of the code. -/
theorem C76_cost_partial (μ : Metric) (p : ℝ) (hp : 1 ≤ effP μ p) (batch : Option ℕ) (hb : ∀ bs ∈ batch, 1 ≤ bs) (X : Fin (n + 1) → D → ℝ) (Y : Fin (n + 1) → D → ℝ)
    (θ : Fin (L + 1) → D → ℝ) (σ : Sorters (n + 1) (n + 1) (L + 1)) (hσ : σ.Sorts X Y θ) (a b : Fin (n + 1) → ℝ) (ha : ∀ i, a i = 1 / (n + 1)) (hb' : ∀ i, b i = 1 / (n + 1)) :
    (∀ k, planCost μ p batch X Y a b θ σ k = cost (fun i j => pairDist μ p (X i) (Y j)) (slicedPlan μ p X Y a b θ σ k)) ∧
    (minSlicedPlan μ p batch X Y a b θ σ).2 = cost (fun i j => pairDist μ p (X i) (Y j)) (minSlicedPlan μ p batch X Y a b θ σ).1 ∧
    (∀ k, cost (fun i j => pairDist μ p (X i) (Y j)) (minSlicedPlan μ p batch X Y a b θ σ).1 ≤ cost (fun i j => pairDist μ p (X i) (Y j)) (slicedPlan μ p X Y a b θ σ k)) ∧
    ∀ v, IsOtValue a b (fun i j => pairDist μ p (X i) (Y j)) v → v ≤ (minSlicedPlan μ p batch X Y a b θ σ).2 := by
  have hs : ∑ i, a i = 1 := by simp [ha]; field_simp
  have hs' : ∑ i, b i = 1 := by simp [hb']; field_simp
  have hperm : isPerm a b := ⟨rfl, fun i => by rw [hs, ha]; push_cast; ring, fun i => by rw [hs, hb']; push_cast; ring⟩
  have hc : ∀ k, planCost μ p batch X Y a b θ σ k = cost (fun i j => pairDist μ p (X i) (Y j)) (slicedPlan μ p X Y a b θ σ k) := fun k => by
    rw [← planCost_perm μ p X Y a b θ σ (by omega) (by omega) hb hperm k, hs, mul_one]
  have hcp := (slicedPlan_optimal μ p X Y a b θ σ (by omega) (by omega) hp (fun i => by rw [ha]; positivity) (fun i => by rw [hb']; positivity) (hs.trans hs'.symm) hσ
    (argmin (planCost μ p batch X Y a b θ σ))).1
  refine ⟨hc, hc _, fun k => ?_, fun v hv => ?_⟩
  · show cost _ (slicedPlan μ p X Y a b θ σ (argmin (planCost μ p batch X Y a b θ σ))) ≤ _
    rw [← hc, ← hc]; exact argmin_le _ k
  · show v ≤ planCost μ p batch X Y a b θ σ (argmin (planCost μ p batch X Y a b θ σ))
    rw [hc]; exact hv.2 ⟨_, hcp, rfl⟩

/-- C76. `expected_sliced_plan` returns a coupling, a mean of the plans of the projections with non-negative weights summing to one, when `n_projections` is
not given together with `projections` or agrees with them; the weights are larger for plans of smaller reported cost when `β > 0`. -/
theorem C76_expected (μ : Metric) (p : ℝ) (hp : 1 ≤ effP μ p) (batch : Option ℕ) (β : ℝ) (nProj : Option ℕ) (hN : ∀ N ∈ nProj, N = L + 1) (X : Fin n → D → ℝ) (Y : Fin m → D → ℝ)
    (a : Fin n → ℝ) (b : Fin m → ℝ) (hw : SlicedWeights a b) (θ : Fin (L + 1) → D → ℝ) (σ : Sorters n m (L + 1)) (hσ : σ.Sorts X Y θ) :
    IsCoupling a b (expectedSlicedPlan μ p batch β nProj X Y a b θ σ).1 ∧
    ∃ w : Fin (L + 1) → ℝ, (∀ k, 0 ≤ w k) ∧ ∑ k, w k = 1 ∧ (∀ i j, (expectedSlicedPlan μ p batch β nProj X Y a b θ σ).1 i j = ∑ k, w k * slicedPlan μ p X Y a b θ σ k i j) ∧
      (0 ≤ β → ∀ k l, planCost μ p batch X Y a b θ σ k ≤ planCost μ p batch X Y a b θ σ l → w l ≤ w k) ∧ (β = 0 → ∀ k, w k = 1 / (L + 1)) ∧
      ∀ k l, w k * Real.exp (-β * planCost μ p batch X Y a b θ σ l) = w l * Real.exp (-β * planCost μ p batch X Y a b θ σ k) := by
  have h0 := expWeights_nonneg β nProj (planCost μ p batch X Y a b θ σ)
  have h1 := expWeights_sum β nProj hN (by omega) (planCost μ p batch X Y a b θ σ)
  have hk := fun k => (slicedPlan_optimal μ p X Y a b θ σ hw.n1 hw.m1 hp hw.ha hw.hb hw.mass hσ k).1
  have e := expected_eq μ p X Y a b θ σ batch β nProj
  refine ⟨⟨fun i j => ?_, fun i => ?_, fun j => ?_⟩, expWeights β nProj (planCost μ p batch X Y a b θ σ), h0, h1, fun i j => ?_, fun hβ k l hkl => ?_, fun hβ k => ?_, fun k l => ?_⟩
  · rw [e]; exact sum_nonneg fun k _ => mul_nonneg ((hk k).nonneg i j) (h0 k)
  · simp only [e]
    rw [sum_comm]
    simp only [← sum_mul, (hk _).row, ← mul_sum, h1, mul_one]
  · simp only [e]
    rw [sum_comm]
    simp only [← sum_mul, (hk _).col, ← mul_sum, h1, mul_one]
  · rw [e]; exact sum_congr rfl fun k _ => mul_comm _ _
  · unfold expWeights
    split_ifs
    · exact Real.exp_le_exp.2 (by nlinarith)
    · exact le_rfl
  · unfold expWeights
    rw [if_neg (by simpa using hβ)]
    have : nProj.getD (L + 1) = L + 1 := by cases nProj with
      | none => rfl
      | some N => exact hN N rfl
    rw [this]; push_cast; rfl
  · unfold expWeights
    split_ifs with hβ
    · rw [← Real.exp_add, ← Real.exp_add]; congr 1; ring
    · push Not at hβ
      rw [hβ]; simp

/-- C76. The cost reported by `expected_sliced_plan` is the cost of the plan it returns: always for `β = 0`; for other `β` for samples of the same size with uniform weights of
total mass one.  In that case it is at least the cost of the best projected plan.  Missing: `β ≠ 0` with other weights, for which the claim is false of the code
(the reported costs of `C76_cost_refuted` are averaged). -/
theorem C76_expected_cost_partial (μ : Metric) (p : ℝ) (hp : 1 ≤ effP μ p) (batch : Option ℕ) (hb : ∀ bs ∈ batch, 1 ≤ bs) (β : ℝ) (nProj : Option ℕ)
    (hN : ∀ N ∈ nProj, N = L + 1) (X : Fin (n + 1) → D → ℝ) (Y : Fin (n + 1) → D → ℝ)
    (θ : Fin (L + 1) → D → ℝ) (σ : Sorters (n + 1) (n + 1) (L + 1)) (hσ : σ.Sorts X Y θ) (a b : Fin (n + 1) → ℝ) (ha : ∀ i, a i = 1 / (n + 1)) (hb' : ∀ i, b i = 1 / (n + 1)) :
    (expectedSlicedPlan μ p batch β nProj X Y a b θ σ).2 = cost (fun i j => pairDist μ p (X i) (Y j)) (expectedSlicedPlan μ p batch β nProj X Y a b θ σ).1 ∧
    (minSlicedPlan μ p batch X Y a b θ σ).2 ≤ (expectedSlicedPlan μ p batch β nProj X Y a b θ σ).2 := by
  obtain ⟨hc, hmin, hle, _⟩ := C76_cost_partial μ p hp batch hb X Y θ σ hσ a b ha hb'
  have h0 := expWeights_nonneg β nProj (planCost μ p batch X Y a b θ σ)
  have h1 := expWeights_sum β nProj hN (by omega) (planCost μ p batch X Y a b θ σ)
  have e : cost (fun i j => pairDist μ p (X i) (Y j)) (expectedSlicedPlan μ p batch β nProj X Y a b θ σ).1 =
      ∑ k, planCost μ p batch X Y a b θ σ k * expWeights β nProj (planCost μ p batch X Y a b θ σ) k := by
    unfold cost
    simp only [expected_eq, hc]
    unfold cost
    simp only [sum_mul]
    rw [sum_comm (s := (univ : Finset (Fin (L + 1))))]
    refine sum_congr rfl fun i _ => ?_
    rw [sum_comm (s := (univ : Finset (Fin (L + 1))))]
    exact sum_congr rfl fun j _ => sum_congr rfl fun k _ => by ring
  have h2 : (expectedSlicedPlan μ p batch β nProj X Y a b θ σ).2 = cost (fun i j => pairDist μ p (X i) (Y j)) (expectedSlicedPlan μ p batch β nProj X Y a b θ σ).1 := by
    by_cases hβ : β ≠ 0
    · rw [e]
      unfold expectedSlicedPlan
      exact if_pos hβ
    · unfold expectedSlicedPlan
      exact if_neg hβ
  refine ⟨h2, ?_⟩
  rw [h2, e]
  calc (minSlicedPlan μ p batch X Y a b θ σ).2 = ∑ k, (minSlicedPlan μ p batch X Y a b θ σ).2 * expWeights β nProj (planCost μ p batch X Y a b θ σ) k := by
        rw [← mul_sum, h1, mul_one]
    _ ≤ _ := sum_le_sum fun k _ => mul_le_mul_of_nonneg_right (argmin_le (planCost μ p batch X Y a b θ σ) k) (h0 k)

/-- C76. With `β = 0` the cost reported by `expected_sliced_plan` is the cost of the plan it returns, for all weights. -/
theorem C76_expected_cost_uniform (μ : Metric) (p : ℝ) (batch nProj : Option ℕ) (X : Fin n → D → ℝ) (Y : Fin m → D → ℝ) (a : Fin n → ℝ) (b : Fin m → ℝ)
    (θ : Fin L → D → ℝ) (σ : Sorters n m L) :
    (expectedSlicedPlan μ p batch 0 nProj X Y a b θ σ).2 = cost (fun i j => pairDist μ p (X i) (Y j)) (expectedSlicedPlan μ p batch 0 nProj X Y a b θ σ).1 := by
  unfold expectedSlicedPlan
  exact if_neg (by simp)

/-- C76. The result of `sparse_ot_dist` does not depend on the batch size. -/
theorem C76_batch_size (dist : ℕ → ℕ → ℝ) (ij : List (ℕ × ℕ)) (w : Option (List ℝ)) (bs : ℕ) (hbs : 1 ≤ bs) : sparseOtDist dist ij w (some bs) = sparseOtDist dist ij w none := by
  rw [sparseOtDist_eq _ _ _ (by simpa using hbs), sparseOtDist_eq _ _ _ (by simp)]

/-- C76. The ground costs are the documented ones. -/
theorem C76_metrics (p : ℝ) (x y : D → ℝ) : pairDist .sqeuclidean p x y = sqEuclid x y ∧ pairDist .euclidean p x y = euclid x y ∧ pairDist .cityblock p x y = ∑ d, |x d - y d| ∧
    pairDist .minkowski p x y = (∑ d, |x d - y d| ^ p) ^ (1 / p) := by
  refine ⟨rfl, ?_, ?_, rfl⟩
  · unfold euclid
    rw [Real.sqrt_eq_rpow]
    simp [pairDist, effP]
  · simp [pairDist, effP]

/-! ## Counterexamples -/

/-- The list of `wasserstein_1d` for weights `3/4, 1/4` and `1/2, 1/2`. -/
theorem w1d_example (u v : ℕ → ℝ) (hu0 : u 0 = 3 / 4) (hu1 : u 1 = 1 / 4) (hv0 : v 0 = 1 / 2) (hv1 : v 1 = 1 / 2) (M : ℕ → ℕ → ℝ) :
    (wasserstein1dSorted 2 2 u v M).1 = [(1 / 2, 0, 0), (1 / 4, 0, 1), (1 / 4, 1, 1), (0, 1, 1)] := by
  have hu : cumsum u 2 = [3 / 4, 1] := by
    simp only [cumsum, List.range_succ, List.range_zero, List.nil_append, List.map_append, List.map_cons, List.map_nil, List.cons_append]
    simp [sum_range_succ, hu0, hu1]; norm_num
  have hv : cumsum v 2 = [1 / 2, 1] := by
    simp only [cumsum, List.range_succ, List.range_zero, List.nil_append, List.map_append, List.map_cons, List.map_nil, List.cons_append]
    simp [sum_range_succ, hv0, hv1]; norm_num
  have hs : ([3 / 4, 1] ++ [1 / 2, 1] : List ℝ).mergeSort (· ≤ ·) = [1 / 2, 3 / 4, 1, 1] := by
    refine mergeSort_eq_of ?_ (by simp; norm_num)
    exact (List.perm_middle (l₁ := [3 / 4, 1]) (a := (1 / 2 : ℝ)) (l₂ := [1]))
  unfold wasserstein1dSorted
  simp only [hu, hv, hs]
  norm_num [List.zipWith, quantileIdx, List.countP_cons]

/-- The samples of the counterexample. -/
def xsEx : Fin 2 → Fin 2 → ℝ := ![![0, 0], ![1, 1]]
/-- The samples of the counterexample. -/
def ysEx : Fin 2 → Fin 2 → ℝ := ![![0, 3], ![1, 0]]
/-- The two coordinate axes. -/
def thEx : Fin 2 → Fin 2 → ℝ := ![![1, 0], ![0, 1]]
/-- The argsorts: the targets are exchanged on the second axis. -/
def soEx : Sorters 2 2 2 := ⟨fun _ => 1, ![1, Equiv.swap 0 1]⟩

theorem soEx_sorts : soEx.Sorts xsEx ysEx thEx := by
  intro k
  fin_cases k <;> constructor <;> intro i j hij <;> fin_cases i <;> fin_cases j <;>
    simp_all [soEx, proj, xsEx, ysEx, thEx, Fin.sum_univ_two]

theorem not_perm_ex : ¬ isPerm (![3 / 4, 1 / 4] : Fin 2 → ℝ) (![1 / 2, 1 / 2] : Fin 2 → ℝ) := by
  rintro ⟨_, h, _⟩
  have := h 0
  norm_num [Fin.sum_univ_two] at this

theorem planList_ex (k : Fin 2) : planList .sqeuclidean 2 xsEx ysEx ![3 / 4, 1 / 4] ![1 / 2, 1 / 2] thEx soEx k =
    if k = 0 then [(1 / 2, 0, 0), (1 / 4, 0, 1), (1 / 4, 1, 1), (0, 1, 1)] else [(1 / 2, 0, 1), (1 / 4, 0, 0), (1 / 4, 1, 0), (0, 1, 0)] := by
  unfold planList
  rw [if_neg not_perm_ex, w1d_example _ _ (by simp [pad, soEx]) (by simp [pad, soEx]) (by fin_cases k <;> simp [pad, soEx]) (by fin_cases k <;> simp [pad, soEx])]
  fin_cases k <;> simp [permIdx, soEx]

theorem cost_ex (k : Fin 2) : cost (fun i j => pairDist .sqeuclidean 2 (xsEx i) (ysEx j)) (slicedPlan .sqeuclidean 2 xsEx ysEx ![3 / 4, 1 / 4] ![1 / 2, 1 / 2] thEx soEx k) =
    if k = 0 then 5 else 4 := by
  unfold slicedPlan
  rw [cost_dense _ (distIdx .sqeuclidean 2 xsEx ysEx) (distIdx_val _ _ _ _) _ (planList_rng _ _ _ _ _ _ _ _ (by norm_num) (by norm_num) k), planList_ex]
  fin_cases k <;> simp [pair, distIdx, pairDist, xsEx, ysEx, Fin.sum_univ_two] <;> norm_num

theorem planCost_ex (k : Fin 2) : planCost .sqeuclidean 2 none xsEx ysEx ![3 / 4, 1 / 4] ![1 / 2, 1 / 2] thEx soEx k = if k = 0 then 11 / 2 else 15 / 2 := by
  unfold planCost
  simp only [if_neg not_perm_ex]
  rw [sparseOtDist_eq _ _ _ (by simp), planList_ex]
  fin_cases k <;> simp [distIdx, pairDist, xsEx, ysEx, Fin.sum_univ_two] <;> norm_num

theorem sw_ex : SlicedWeights (![3 / 4, 1 / 4] : Fin 2 → ℝ) (![1 / 2, 1 / 2] : Fin 2 → ℝ) where
  n1 := by norm_num
  m1 := by norm_num
  ha i := by fin_cases i <;> norm_num
  hb i := by fin_cases i <;> norm_num
  mass := by norm_num [Fin.sum_univ_two]

/-- C76 is false of the code for non-uniform weights: `min_sliced_transport_plan` returns a plan of cost 5, reports 11/2 for it, and discards a projected plan of cost 4.
(`sparse_ot_dist` reads the weight of an entry at the source index of the entry.) -/
theorem C76_min_refuted : ∃ (X Y : Fin 2 → Fin 2 → ℝ) (a b : Fin 2 → ℝ) (θ : Fin 2 → Fin 2 → ℝ) (σ : Sorters 2 2 2), SlicedWeights a b ∧ σ.Sorts X Y θ ∧
    (minSlicedPlan .sqeuclidean 2 none X Y a b θ σ).2 ≠ cost (fun i j => sqEuclid (X i) (Y j)) (minSlicedPlan .sqeuclidean 2 none X Y a b θ σ).1 ∧
    ∃ k, cost (fun i j => sqEuclid (X i) (Y j)) (slicedPlan .sqeuclidean 2 X Y a b θ σ k) < cost (fun i j => sqEuclid (X i) (Y j)) (minSlicedPlan .sqeuclidean 2 none X Y a b θ σ).1 := by
  have hpos : argmin (planCost .sqeuclidean 2 none xsEx ysEx ![3 / 4, 1 / 4] ![1 / 2, 1 / 2] thEx soEx) = 0 := by
    have := argmin_le (planCost .sqeuclidean 2 none xsEx ysEx ![3 / 4, 1 / 4] ![1 / 2, 1 / 2] thEx soEx) 0
    by_contra h
    rw [planCost_ex, planCost_ex, if_neg h, if_pos rfl] at this
    norm_num at this
  have h1 : (minSlicedPlan .sqeuclidean 2 none xsEx ysEx ![3 / 4, 1 / 4] ![1 / 2, 1 / 2] thEx soEx) =
      (slicedPlan .sqeuclidean 2 xsEx ysEx ![3 / 4, 1 / 4] ![1 / 2, 1 / 2] thEx soEx 0, planCost .sqeuclidean 2 none xsEx ysEx ![3 / 4, 1 / 4] ![1 / 2, 1 / 2] thEx soEx 0) := by
    unfold minSlicedPlan; rw [hpos]
  have c0 := cost_ex 0
  have c1 := cost_ex 1
  refine ⟨xsEx, ysEx, _, _, thEx, soEx, sw_ex, soEx_sorts, ?_, 1, ?_⟩
  · rw [h1]
    show planCost _ _ _ _ _ _ _ _ _ _ ≠ cost (fun i j => pairDist .sqeuclidean 2 (xsEx i) (ysEx j)) _
    rw [c0, planCost_ex]; norm_num
  · rw [h1]
    show cost (fun i j => pairDist .sqeuclidean 2 (xsEx i) (ysEx j)) _ < cost (fun i j => pairDist .sqeuclidean 2 (xsEx i) (ysEx j)) _
    rw [c0, c1]; norm_num

/-- C76 is false of the code even for the default weights when the samples have different sizes: one point against two points. -/
theorem C76_cost_refuted : ∃ (X : Fin 1 → Fin 1 → ℝ) (Y : Fin 2 → Fin 1 → ℝ) (θ : Fin 1 → Fin 1 → ℝ) (σ : Sorters 1 2 1), σ.Sorts X Y θ ∧
    planCost .sqeuclidean 2 none X Y (fun _ => 1) (fun _ => 1 / 2) θ σ 0 ≠
      cost (fun i j => sqEuclid (X i) (Y j)) (slicedPlan .sqeuclidean 2 X Y (fun _ => 1) (fun _ => 1 / 2) θ σ 0) := by
  have hnp : ¬ isPerm (fun _ : Fin 1 => (1 : ℝ)) (fun _ : Fin 2 => (1 / 2 : ℝ)) := fun h => by have := h.1; omega
  have hpl : planList .sqeuclidean 2 (fun _ _ => 0 : Fin 1 → Fin 1 → ℝ) ![![0], ![1]] (fun _ => 1) (fun _ => 1 / 2) (fun (_ : Fin 1) _ => 1) ⟨fun _ => 1, fun _ => 1⟩ 0 =
      [(1 / 2, 0, 0), (1 / 2, 0, 1), (0, 0, 1)] := by
    unfold planList
    rw [if_neg hnp]
    have hu : cumsum (pad fun i : Fin 1 => (1 : ℝ)) 1 = [1] := by simp [cumsum, pad]
    have hv : cumsum (pad fun i : Fin 2 => (1 / 2 : ℝ)) 2 = [1 / 2, 1] := by
      simp only [cumsum, List.range_succ, List.range_zero, List.nil_append, List.map_append, List.map_cons, List.map_nil, List.cons_append]
      simp [sum_range_succ, pad]; norm_num
    have hs : ([1] ++ [1 / 2, 1] : List ℝ).mergeSort (· ≤ ·) = [1 / 2, 1, 1] := by
      refine mergeSort_eq_of ?_ (by simp; norm_num)
      exact (List.perm_middle (l₁ := [1]) (a := (1 / 2 : ℝ)) (l₂ := [1]))
    unfold wasserstein1dSorted
    simp only [hu, hv, hs]
    norm_num [List.zipWith, quantileIdx, List.countP_cons, permIdx]
  refine ⟨fun _ _ => 0, ![![0], ![1]], fun _ _ => 1, ⟨fun _ => 1, fun _ => 1⟩, ?_, ?_⟩
  · intro k
    constructor <;> intro i j hij
    · fin_cases i; fin_cases j; simp
    · fin_cases i <;> fin_cases j <;> simp_all [proj]
  · show _ ≠ cost (fun i j => pairDist .sqeuclidean 2 ((fun _ _ => 0 : Fin 1 → Fin 1 → ℝ) i) ((![![0], ![1]] : Fin 2 → Fin 1 → ℝ) j)) _
    unfold slicedPlan
    rw [cost_dense _ (distIdx .sqeuclidean 2 _ _) (distIdx_val _ _ _ _) _ (planList_rng _ _ _ _ _ _ _ _ (by norm_num) (by norm_num) 0), hpl]
    unfold planCost
    simp only [if_neg hnp]
    rw [sparseOtDist_eq _ _ _ (by simp), hpl]
    simp [pair, distIdx, pairDist]
    try norm_num

/-- C76 is false of the code for uniform weights whose mass is not one: the reported cost forgets the mass. -/
theorem C76_mass_refuted : ∃ (X Y : Fin 1 → Fin 1 → ℝ) (a b : Fin 1 → ℝ) (θ : Fin 1 → Fin 1 → ℝ) (σ : Sorters 1 1 1), SlicedWeights a b ∧ σ.Sorts X Y θ ∧
    planCost .sqeuclidean 2 none X Y a b θ σ 0 ≠ cost (fun i j => sqEuclid (X i) (Y j)) (slicedPlan .sqeuclidean 2 X Y a b θ σ 0) := by
  have hperm : isPerm (fun _ : Fin 1 => (2 : ℝ)) (fun _ : Fin 1 => (2 : ℝ)) := ⟨rfl, by simp, by simp⟩
  refine ⟨fun _ _ => 0, fun _ _ => 1, fun _ => 2, fun _ => 2, fun _ _ => 1, ⟨fun _ => 1, fun _ => 1⟩, ⟨le_rfl, le_rfl, by simp, by simp, rfl⟩, ?_, ?_⟩
  · intro k
    constructor <;> intro i j hij <;> simp [proj]
  · have h := planCost_perm .sqeuclidean 2 (fun _ _ => 0 : Fin 1 → Fin 1 → ℝ) (fun _ _ => 1) (fun _ => 2) (fun _ => 2) (fun (_ : Fin 1) _ => 1) ⟨fun _ => 1, fun _ => 1⟩
      le_rfl le_rfl (batch := none) (by simp) hperm 0
    show _ ≠ cost (fun i j => pairDist .sqeuclidean 2 ((fun _ _ => 0 : Fin 1 → Fin 1 → ℝ) i) ((fun _ _ => 1 : Fin 1 → Fin 1 → ℝ) j)) _
    rw [← h]
    have hv : planCost .sqeuclidean 2 none (fun _ _ => 0 : Fin 1 → Fin 1 → ℝ) (fun _ _ => 1 : Fin 1 → Fin 1 → ℝ) (fun _ => 2) (fun _ => 2) (fun (_ : Fin 1) _ => 1) ⟨fun _ => 1, fun _ => 1⟩ 0 = 1 := by
      unfold planCost
      simp only [if_pos hperm]
      rw [sparseOtDist_eq _ _ _ (by simp), planList_perm _ _ _ _ _ _ _ _ hperm]
      simp [permIdx, distIdx, pairDist]
    rw [hv]; norm_num

/-- C76 is false of the code when `n_projections` is given together with `projections` and differs from their number (the documentation says that it is then not used):
with one projection and `n_projections=2` the returned plan has half of the mass. -/
theorem C76_expected_refuted : ∃ (X Y : Fin 1 → Fin 1 → ℝ) (a b : Fin 1 → ℝ) (θ : Fin 1 → Fin 1 → ℝ) (σ : Sorters 1 1 1), SlicedWeights a b ∧ σ.Sorts X Y θ ∧
    ¬ IsCoupling a b (expectedSlicedPlan .sqeuclidean 2 none 0 (some 2) X Y a b θ σ).1 := by
  have hperm : isPerm (fun _ : Fin 1 => (1 : ℝ)) (fun _ : Fin 1 => (1 : ℝ)) := ⟨rfl, by simp, by simp⟩
  refine ⟨fun _ _ => 0, fun _ _ => 1, fun _ => 1, fun _ => 1, fun _ _ => 1, ⟨fun _ => 1, fun _ => 1⟩, ⟨le_rfl, le_rfl, by simp, by simp, rfl⟩, ?_, ?_⟩
  · intro k
    constructor <;> intro i j hij <;> simp [proj]
  · intro h
    have hr := h.row 0
    rw [Fin.sum_univ_one, expected_eq, Fin.sum_univ_one] at hr
    have hs := (C76_sliced_plans .sqeuclidean 2 (by norm_num [effP]) (fun _ _ => 0 : Fin 1 → Fin 1 → ℝ) (fun _ _ => 1) (fun _ => 1) (fun _ => 1) ⟨le_rfl, le_rfl, by simp, by simp, rfl⟩
      (fun (_ : Fin 1) _ => 1) ⟨fun _ => 1, fun _ => 1⟩ (fun k => by constructor <;> intro i j hij <;> simp [proj]) 0).1.row 0
    rw [Fin.sum_univ_one] at hs
    rw [hs] at hr
    norm_num [expWeights] at hr

/-- non-vacuity of the uniform case: the hypotheses of `C76_cost_partial` are met by the example of the documentation (two points, two axes), and the
two plans differ. -/
example : ∃ σ : Sorters 2 2 2, σ.Sorts (![![3, 3], ![1, 1]] : Fin 2 → Fin 2 → ℝ) ![![2, 2.5], ![3, 2]] ![![1, 0], ![0, 1]] := exists_sorts _ _ _

end POT.Props
