import Verif.Model.Sliced
import Verif.Lemmas.Emd1d
import Verif.Lemmas.Sliced
import Verif.Props.Emd1d

/-!
# Lemmas on the sliced plans
-/

set_option linter.unusedSectionVars false

namespace POT.Sliced

open Finset POT.Emd1d POT.Spec

variable {n m L : ℕ} {D : Type*} [Fintype D]

/-- The batches add up to the whole sum. -/
theorem batchLoop_eq (dist : ℕ → ℕ → ℝ) (w : List ℝ) {bs : ℕ} (hb : 1 ≤ bs) : ∀ (fuel : ℕ) (l : List (ℕ × ℕ)) (d : ℝ), l.length ≤ fuel →
    batchLoop dist w bs fuel l d = d + (l.map fun ij => dist ij.1 ij.2 * w.getD ij.1 0).sum
  | 0, l, d, h => by
    have : l = [] := List.length_eq_zero_iff.1 (by omega)
    subst this; simp [batchLoop]
  | _ + 1, [], d, _ => by simp [batchLoop]
  | fuel + 1, e :: es, d, h => by
    have e1 : batchLoop dist w bs (fuel + 1) (e :: es) d =
      batchLoop dist w bs fuel ((e :: es).drop bs) (d + (((e :: es).take bs).map fun ij => dist ij.1 ij.2 * w.getD ij.1 0).sum) := rfl
    rw [e1, batchLoop_eq dist w hb fuel _ _ (by rw [List.length_drop]; simp only [List.length_cons] at h ⊢; omega), add_assoc, ← List.sum_append, ← List.map_append,
      List.take_append_drop]

/-- `sparse_ot_dist` does not depend on the batch size. -/
theorem sparseOtDist_eq (dist : ℕ → ℕ → ℝ) (ij : List (ℕ × ℕ)) (w : Option (List ℝ)) {batch : Option ℕ} (hb : ∀ bs ∈ batch, 1 ≤ bs) :
    sparseOtDist dist ij w batch = (ij.map fun e => dist e.1 e.2 * (w.getD (ij.map fun _ => 1 / (ij.length : ℝ))).getD e.1 0).sum := by
  unfold sparseOtDist
  cases batch with
  | none =>
    by_cases h : ij = []
    · subst h; simp [batchLoop]
    · simp only [Option.getD_none]
      rw [batchLoop_eq _ _ (List.length_pos_iff.2 h) _ _ _ le_rfl, zero_add]
  | some bs =>
    simp only [Option.getD_some]
    rw [batchLoop_eq _ _ (hb bs rfl) _ _ _ le_rfl, zero_add]

theorem permIdx_lt (σ : Equiv.Perm (Fin n)) {i : ℕ} (h : i < n) : permIdx σ i < n := by unfold permIdx; rw [dif_pos h]; exact (σ _).2

theorem permIdx_eq_iff (σ : Equiv.Perm (Fin n)) {i : ℕ} (h : i < n) (k : Fin n) : permIdx σ i = k ↔ i = (σ.symm k : Fin n) := by
  unfold permIdx
  rw [dif_pos h, Fin.val_inj, ← Equiv.eq_symm_apply]
  exact ⟨fun e => congrArg Fin.val e, fun e => Fin.ext e⟩

theorem permIdx_val (σ : Equiv.Perm (Fin n)) (i : Fin n) : permIdx σ i = σ i := by unfold permIdx; rw [dif_pos i.2]

/-- Writing the entries at the original positions. -/
theorem dense_map (σ : Equiv.Perm (Fin n)) (τ : Equiv.Perm (Fin m)) (i : Fin n) (j : Fin m) : ∀ out : List (Entry ℝ), (∀ e ∈ out, e.2.1 < n ∧ e.2.2 < m) →
    dense (out.map fun e => (e.1, permIdx σ e.2.1, permIdx τ e.2.2)) i j = dense out (σ.symm i : Fin n) (τ.symm j : Fin m)
  | [], _ => rfl
  | e :: out, h => by
    have he := h e List.mem_cons_self
    rw [List.map_cons, dense_cons, dense_cons, dense_map σ τ i j out fun e he => h e (List.mem_cons_of_mem _ he)]
    simp only [permIdx_eq_iff σ he.1, permIdx_eq_iff τ he.2]

theorem cost_dense (M : Fin n → Fin m → ℝ) (φ : ℕ → ℕ → ℝ) (hφ : ∀ (i : Fin n) (j : Fin m), φ i j = M i j) (out : List (Entry ℝ)) (h : ∀ e ∈ out, e.2.1 < n ∧ e.2.2 < m) :
    cost M (fun i j => dense out i j) = pair out φ := by
  rw [pair_eq_dense φ out h, ← Fin.sum_univ_eq_sum_range (fun i => ∑ j ∈ range m, dense out i j * φ i j)]
  unfold cost
  refine sum_congr rfl fun i _ => ?_
  rw [← Fin.sum_univ_eq_sum_range (fun j => dense out i j * φ i j)]
  exact sum_congr rfl fun j _ => by rw [hφ]

theorem distIdx_val (μ : Metric) (p : ℝ) (X : Fin n → D → ℝ) (Y : Fin m → D → ℝ) (i : Fin n) (j : Fin m) : distIdx μ p X Y i j = pairDist μ p (X i) (Y j) := by
  unfold distIdx; rw [dif_pos ⟨i.2, j.2⟩]

/-- The diagonal list of uniform weights. -/
theorem diag_exOut (c : ℝ) (hc : 0 ≤ c) (M : ℕ → ℕ → ℝ) :
    ExOut n n (fun _ => c) (fun _ => c) M ((List.range n).map fun t => (c, t, t)) (pair ((List.range n).map fun t => (c, t, t)) M) where
  rng e he := by
    obtain ⟨t, ht, rfl⟩ := List.mem_map.1 he
    simpa using List.mem_range.1 ht
  row φ := by
    unfold pair
    rw [List.map_map, Finset.sum_range, ← List.sum_ofFn, List.ofFn_eq_map, ← List.map_coe_finRange_eq_range, List.map_map]
    rfl
  col ψ := by
    unfold pair
    rw [List.map_map, Finset.sum_range, ← List.sum_ofFn, List.ofFn_eq_map, ← List.map_coe_finRange_eq_range, List.map_map]
    rfl
  nonneg e he := by
    obtain ⟨t, _, rfl⟩ := List.mem_map.1 he
    exact hc
  mono := by
    rw [List.pairwise_map]
    exact List.pairwise_lt_range.imp fun h => ⟨h.le, h.le⟩
  cost := rfl

theorem w1dSorted_rng (hn : 1 ≤ n) (hm : 1 ≤ m) (u v : ℕ → ℝ) (M : ℕ → ℕ → ℝ) : ∀ e ∈ (wasserstein1dSorted n m u v M).1, e.2.1 < n ∧ e.2.2 < m := by
  intro e he
  unfold wasserstein1dSorted at he
  obtain ⟨i, hi, hi'⟩ := List.mem_iff_getElem.1 he
  rw [List.getElem_zipWith] at hi'
  rw [← hi']
  exact ⟨quantileIdx_lt hn, quantileIdx_lt hm⟩

variable (μ : Metric) (p : ℝ) (X : Fin n → D → ℝ) (Y : Fin m → D → ℝ) (a : Fin n → ℝ) (b : Fin m → ℝ) (θ : Fin L → D → ℝ) (σ : Sorters n m L)

theorem planList_perm (h : isPerm a b) (k : Fin L) :
    planList μ p X Y a b θ σ k = ((List.range n).map fun t => ((∑ i, a i) / n, t, t)).map fun e => (e.1, permIdx (σ.permA k) e.2.1, permIdx (σ.permB k) e.2.2) := by
  unfold planList
  rw [if_pos h, List.map_map]
  refine List.map_congr_left fun t ht => ?_
  have := List.mem_range.1 ht
  simp only [Function.comp]
  rw [pad, dif_pos this, h.2.1 ⟨t, this⟩]

theorem planList_rng (hn : 1 ≤ n) (hm : 1 ≤ m) (k : Fin L) : ∀ e ∈ planList μ p X Y a b θ σ k, e.2.1 < n ∧ e.2.2 < m := by
  intro e he
  by_cases h : isPerm a b
  · rw [planList_perm _ _ _ _ _ _ _ _ h, List.map_map] at he
    obtain ⟨t, ht, rfl⟩ := List.mem_map.1 he
    have := List.mem_range.1 ht
    exact ⟨permIdx_lt _ this, permIdx_lt _ (h.1 ▸ this)⟩
  · unfold planList at he
    rw [if_neg h] at he
    obtain ⟨e, he, rfl⟩ := List.mem_map.1 he
    have := w1dSorted_rng hn hm _ _ _ e ‹_›
    exact ⟨permIdx_lt _ this.1, permIdx_lt _ this.2⟩

/-- Each plan is the monotone plan of the projected samples, optimal for `|x - y|^p` on the line. -/
theorem slicedPlan_optimal (hn : 1 ≤ n) (hm : 1 ≤ m) (hp : 1 ≤ effP μ p) (ha : ∀ i, 0 ≤ a i) (hb : ∀ j, 0 ≤ b j) (hs : ∑ i, a i = ∑ j, b j) (hσ : σ.Sorts X Y θ) (k : Fin L) :
    IsOptimal a b (fun i j => |proj X θ k i - proj Y θ k j| ^ effP μ p) (slicedPlan μ p X Y a b θ σ k) := by
  by_cases h : isPerm a b
  · obtain ⟨rfl, ha', hb'⟩ := id h
    obtain ⟨c, hc⟩ : ∃ c, c = (∑ i, a i) / (n : ℝ) := ⟨_, rfl⟩
    have hc0 : 0 ≤ c := by rw [hc]; exact div_nonneg (sum_nonneg fun i _ => ha i) (Nat.cast_nonneg n)
    have ho := diag_exOut (n := n) c hc0 fun i j => |pad (fun i => proj X θ k (σ.permA k i)) i - pad (fun j => proj Y θ k (σ.permB k j)) j| ^ effP μ p
    have hX := (hσ k).1
    have hY := (hσ k).2
    have := (ho.isOptimal (by
      intro i i' j j' hi hi' hj hj'
      refine monge_of_convex (convex_abs_rpow hp) ?_ ?_
      · have := @hX ⟨i, by omega⟩ ⟨i', hi'⟩ hi
        simpa [pad, hi', show i < n by omega] using this
      · have := @hY ⟨j, by omega⟩ ⟨j', hj'⟩ hj
        simpa [pad, hj', show j < n by omega] using this)).reindex (σ.permA k).symm (σ.permB k).symm
    have e1 : slicedPlan μ p X Y a b θ σ k = fun i j => dense ((List.range n).map fun t => (c, t, t)) ((σ.permA k).symm i : Fin n) ((σ.permB k).symm j : Fin n) := by
      funext i j
      unfold slicedPlan
      rw [planList_perm _ _ _ _ _ _ _ _ h, ← hc, dense_map _ _ _ _ _ ho.rng]
    rw [e1, show a = fun _ => c from funext fun i => by rw [ha' i, hc], show b = fun _ => c from funext fun i => by rw [hb' i, hc]]
    simpa [pad] using this
  · have := (Props.C04_wasserstein1d_optimal hn hm _ hp (proj X θ k) (proj Y θ k) a b (σ.permA k) (σ.permB k) (hσ k).1 (hσ k).2 ha hb hs).1
    have e1 : slicedPlan μ p X Y a b θ σ k = (wasserstein1d (effP μ p) (proj X θ k) (proj Y θ k) a b (σ.permA k) (σ.permB k)).1 := by
      funext i j
      unfold slicedPlan planList wasserstein1d
      rw [if_neg h, dense_map _ _ _ _ _ (w1dSorted_rng hn hm _ _ _)]
    rw [e1]; exact this

/-- For uniform weights the reported cost is the cost of the plan divided by the mass. -/
theorem planCost_perm (hn : 1 ≤ n) (hm : 1 ≤ m) {batch : Option ℕ} (hb : ∀ bs ∈ batch, 1 ≤ bs) (h : isPerm a b) (k : Fin L) :
    planCost μ p batch X Y a b θ σ k * (∑ i, a i) = cost (fun i j => pairDist μ p (X i) (Y j)) (slicedPlan μ p X Y a b θ σ k) := by
  have hr := planList_rng μ p X Y a b θ σ hn hm k
  unfold slicedPlan
  rw [cost_dense _ (distIdx μ p X Y) (distIdx_val μ p X Y) _ hr]
  unfold planCost
  simp only [if_pos h]
  rw [sparseOtDist_eq _ _ _ hb]
  unfold pair
  have hl : (planList μ p X Y a b θ σ k).length = n := by rw [planList_perm _ _ _ _ _ _ _ _ h]; simp
  rw [List.map_map, ← List.sum_map_mul_right]
  congr 1
  refine List.map_congr_left fun e he => ?_
  have hd : e.1 = (∑ i, a i) / n := by
    rw [planList_perm _ _ _ _ _ _ _ _ h, List.map_map] at he
    obtain ⟨t, _, rfl⟩ := List.mem_map.1 he
    rfl
  have hg : ∀ (l : List (ℕ × ℕ)) (c : ℝ) (i : ℕ), i < l.length → (l.map fun _ => c).getD i 0 = c := by
    intro l c i hi
    rw [List.getD_eq_getElem?_getD, List.getElem?_map, List.getElem?_eq_getElem hi]; rfl
  simp only [Function.comp, Option.getD_none]
  rw [hg _ _ _ (by rw [List.length_map, hl]; exact (hr e he).1), List.length_map, hl, hd]
  ring

theorem argmin_le : ∀ {L : ℕ} (f : Fin (L + 1) → ℝ) (k : Fin (L + 1)), f (argmin f) ≤ f k
  | 0, f, k => by rw [Fin.fin_one_eq_zero k]; exact le_rfl
  | L + 1, f, k => by
    have e : argmin f = if f (argmin fun k : Fin (L + 1) => f k.succ).succ < f 0 then (argmin fun k : Fin (L + 1) => f k.succ).succ else 0 := rfl
    have ih := argmin_le fun k : Fin (L + 1) => f k.succ
    rw [e]
    split_ifs with h
    · refine Fin.cases h.le (fun i => ih i) k
    · refine Fin.cases le_rfl (fun i => (not_lt.1 h).trans (ih i)) k

theorem dense_append (o o' : List (Entry ℝ)) (i j : ℕ) : dense (o ++ o') i j = dense o i j + dense o' i j := by unfold dense; simp

theorem dense_scale (c : ℝ) (i j : ℕ) : ∀ o : List (Entry ℝ), dense (o.map fun e => (e.1 * c, e.2)) i j = dense o i j * c
  | [] => by simp [dense]
  | e :: o => by
    rw [List.map_cons, dense_cons, dense_cons, dense_scale c i j o]
    split_ifs <;> ring

theorem dense_flatMap {A : Type*} (g : A → List (Entry ℝ)) (i j : ℕ) : ∀ l : List A, dense (l.flatMap g) i j = (l.map fun x => dense (g x) i j).sum
  | [] => by simp [dense]
  | x :: l => by rw [List.flatMap_cons, dense_append, dense_flatMap g i j l]; simp

/-- The expected plan is the weighted mean of the plans. -/
theorem expected_eq (batch : Option ℕ) (β : ℝ) (nProj : Option ℕ) (i : Fin n) (j : Fin m) : (expectedSlicedPlan μ p batch β nProj X Y a b θ σ).1 i j =
    ∑ k, slicedPlan μ p X Y a b θ σ k i j * expWeights β nProj (planCost μ p batch X Y a b θ σ) k := by
  unfold expectedSlicedPlan slicedPlan
  simp only
  rw [dense_flatMap, ← List.sum_ofFn, List.ofFn_eq_map]
  congr 1
  exact List.map_congr_left fun k _ => dense_scale _ _ _ _

theorem expWeights_nonneg (β : ℝ) (nProj : Option ℕ) (c : Fin L → ℝ) (k : Fin L) : 0 ≤ expWeights β nProj c k := by
  unfold expWeights
  split_ifs
  · exact (Real.exp_pos _).le
  · positivity

theorem expWeights_sum (β : ℝ) (nProj : Option ℕ) (hN : ∀ N ∈ nProj, N = L) (hL : 1 ≤ L) (c : Fin L → ℝ) : ∑ k, expWeights β nProj c k = 1 := by
  have : Nonempty (Fin L) := ⟨⟨0, by omega⟩⟩
  unfold expWeights
  split_ifs
  · have hpos : 0 < ∑ k, Real.exp (-β * c k) := sum_pos (fun k _ => Real.exp_pos _) univ_nonempty
    simp only [Real.exp_sub, Real.exp_log hpos]
    rw [← sum_div, div_self hpos.ne']
  · have : nProj.getD L = L := by cases nProj with
      | none => rfl
      | some N => exact hN N rfl
    rw [this]; simp; field_simp

theorem mergeSort_eq_of {l l' : List ℝ} (hp : l.Perm l') (hs : l'.Pairwise (· ≤ ·)) : l.mergeSort (· ≤ ·) = l' :=
  List.Perm.eq_of_pairwise (fun _ _ _ _ h1 h2 => le_antisymm h1 h2) (mergeSort_pairwise l) hs ((List.mergeSort_perm l _).trans hp)

end POT.Sliced
