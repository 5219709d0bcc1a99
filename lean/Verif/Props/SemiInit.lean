import Verif.Lemmas.SemiInit
import Verif.Lemmas.ExactEmd
import Mathlib.Tactic.FinCases
import Mathlib.Algebra.BigOperators.Field

/-! # C130: initial plans of the semi-relaxed Gromov-Wasserstein problems

`initPlan` is the model of `semirelaxed_init_plan`.  `hemd` says that the exact solver returns an optimal plan for nonnegative weights of equal mass (C05, C06).
The labels found by the clustering libraries are arbitrary. -/

set_option linter.unusedSectionVars false

namespace POT.Props

open Spec SemiInit Finset

variable {n m : ℕ}

/-- the exact solver does what C06 says: an optimal plan for nonnegative weights of equal mass and nonnegative costs -/
def SemiInitEmd (E : Ext n m) : Prop :=
  ∀ {k l : ℕ} (a : Fin k → ℝ) (b : Fin l → ℝ) (M : Fin k → Fin l → ℝ), (∀ i, 0 ≤ a i) → (∀ j, 0 ≤ b j) → ∑ i, a i = ∑ j, b j →
    (∀ i j, 0 ≤ M i j) → IsOptimal a b M (E.emd a b M)

/-- the clusters can be used: of positive weight if the larger first graph is cut up and aligned, not empty if the larger second graph is cut up -/
def GoodClusters (E : Ext n m) (p : Fin n → ℝ) (useTarget : Bool) (method : String) : Prop :=
  (m < n → useTarget = true → ∀ c, 0 < clusterMass p (E.part1 method) c) ∧ (n < m → ∀ c, ∃ j, E.part2 method j = c)

/-- what the plan of a clustering method is, before the option "soft" -/
def AlignedPlan (E : Ext n m) (C1 : Fin n → Fin n → ℝ) (C2 : Fin m → Fin m → ℝ) (p : Fin n → ℝ) (useTarget : Bool) (method : String) (T : Fin n → Fin m → ℝ) : Prop :=
  (m < n → useTarget = true → ∃ B, (∀ B', clusterError p C1 (E.part1 method) B ≤ clusterError p C1 (E.part1 method) B') ∧
    IsOptimal p (clusterMass p (E.part1 method)) (fun i j => rowDistance (B (E.part1 method i)) (C2 j)) T) ∧
  (m < n → useTarget = false → ∀ i c, T i c = if E.part1 method i = c then p i else 0) ∧
  (n < m → ∃ B, (∀ B', clusterError (fun _ => 1 / (m : ℝ)) C2 (E.part2 method) B ≤ clusterError (fun _ => 1 / (m : ℝ)) C2 (E.part2 method) B') ∧
    IsOptimal p (fun _ => 1 / (m : ℝ)) (fun i j => rowDistance (B (E.part2 method j)) (C1 i)) T) ∧
  ∀ h : m = n, IsOptimal p (fun j => p (Fin.cast h j)) (fun i j => rowDistance (C1 i) fun e => C2 j (Fin.cast h.symm e)) T

private theorem from_partition {E : Ext n m} (hemd : SemiInitEmd E) (C1 : Fin n → Fin n → ℝ) (C2 : Fin m → Fin m → ℝ) {p : Fin n → ℝ} (hp : ∀ i, 0 ≤ p i)
    (hsum : ∑ i, p i = 1) {useTarget : Bool} {method : String} (hc : GoodClusters E p useTarget method) :
    ∃ T q, fromPartition E C1 C2 p useTarget method = some (T, q) ∧ IsSemiRelaxed p T ∧ (∀ j, q j = ∑ i, T i j) ∧ AlignedPlan E C1 C2 p useTarget method T := by
  unfold fromPartition AlignedPlan
  by_cases h1 : m < n
  · rw [dif_pos h1]
    dsimp only
    rw [colSum_label]
    cases useTarget with
    | true =>
      have hq := hc.1 h1 rfl
      rw [if_pos rfl, if_neg (by rintro ⟨c, h⟩; exact (hq c).ne' h)]
      have ho := hemd (clusterMass p (E.part1 method)) (clusterMass p (E.part1 method))
        (eucl (factored (labelPlan p (E.part1 method)) C1 (clusterMass p (E.part1 method))) C2) (fun c => (hq c).le) (fun c => (hq c).le) rfl (fun _ _ => Real.sqrt_nonneg _)
      have hT := through_optimal p hp (E.part1 method) hq ho
      refine ⟨_, _, rfl, ⟨hT.1.nonneg, hT.1.row⟩, fun j => (hT.1.col j).symm, fun _ _ => ⟨_, factored_best p (E.part1 method) hq C1, ?_⟩, fun _ h => (by cases h),
        fun h => (by omega), fun h => (by omega)⟩
      simp only [eucl_eq] at hT ⊢
      exact hT
    | false =>
      rw [if_neg (by decide)]
      refine ⟨_, _, rfl, ⟨fun i c => ?_, fun i => ?_⟩, fun j => ?_, fun _ h => (by cases h), fun _ _ i c => ?_, fun h => (by omega), fun h => (by omega)⟩
      · simp only [labelPlan]; split_ifs <;> simp [hp i]
      · simp only [labelPlan, mul_ite, mul_one, mul_zero]
        rw [Finset.sum_ite_eq]; simp
      · rw [← colSum_label, colSum]
      · simp only [labelPlan, mul_ite, mul_one, mul_zero]
  · rw [dif_neg h1]
    by_cases h2 : n < m
    · rw [dif_pos h2]
      dsimp only
      rw [colSum_label]
      have hm : (0 : ℝ) < m := by
        have : 0 < m := by omega
        exact_mod_cast this
      have hw : ∀ i : Fin m, (0 : ℝ) ≤ 1 / (m : ℝ) := fun _ => by positivity
      have hq : ∀ c, 0 < clusterMass (fun _ => 1 / (m : ℝ)) (E.part2 method) c := by
        intro c
        obtain ⟨j, hj⟩ := hc.2 h2 c
        refine Finset.sum_pos' (fun i _ => by split_ifs; exacts [hw i, le_rfl]) ⟨j, mem_univ _, ?_⟩
        rw [if_pos hj]; positivity
      rw [if_neg (by rintro ⟨c, h⟩; exact (hq c).ne' h)]
      have hs : ∑ c, clusterMass (fun _ => 1 / (m : ℝ)) (E.part2 method) c = ∑ i, p i := by
        rw [mass_sum, hsum, Finset.sum_const, card_univ, Fintype.card_fin, nsmul_eq_mul, mul_one_div, div_self hm.ne']
      have ho := hemd (clusterMass (fun _ => 1 / (m : ℝ)) (E.part2 method)) p
        (eucl (factored (labelPlan (fun _ => 1 / (m : ℝ)) (E.part2 method)) C2 (clusterMass (fun _ => 1 / (m : ℝ)) (E.part2 method))) C1) (fun c => (hq c).le) hp hs (fun _ _ => Real.sqrt_nonneg _)
      have hT := optimal_swap (through_optimal _ hw (E.part2 method) hq ho)
      refine ⟨_, _, rfl, ⟨hT.1.nonneg, hT.1.row⟩, fun j => rfl, fun h => (by omega), fun h => (by omega),
        fun _ => ⟨_, factored_best _ (E.part2 method) hq C2, ?_⟩, fun h => (by omega)⟩
      simp only [eucl_eq] at hT ⊢
      exact hT
    · rw [dif_neg h2]
      have h : m = n := by omega
      subst h
      have ho := hemd p p (eucl C1 C2) hp hp rfl (fun _ _ => Real.sqrt_nonneg _)
      refine ⟨_, _, rfl, ⟨ho.1.nonneg, ho.1.row⟩, fun j => (ho.1.col j).symm, fun h => (by omega), fun h => (by omega), fun h => (by omega), fun _ => ?_⟩
      simp only [Fin.cast_eq_self] at ho ⊢
      have e : eucl C1 C2 = fun i j => rowDistance (C1 i) (C2 j) := by funext i j; exact eucl_eq C1 C2 i j
      rw [e] at ho ⊢
      exact ho

private theorem not_special {method : String} (h : method ∈ partitioning) : method ≠ "product" ∧ method ≠ "random_product" ∧ method ≠ "random" := by
  simp only [partitioning, List.mem_cons, List.not_mem_nil, or_false] at h
  rcases h with rfl | rfl | rfl | rfl | rfl | rfl <;> decide

/-- **C130**, clustering methods.  For weights of mass `1` and usable clusters the call returns an admissible plan.  For the plain methods: if the first graph is larger, its
clusters are represented by their best structure and the plan sends nodes optimally for the distance between the row of their cluster and the rows of the second graph (or every
node to its own cluster, `use_target=False`); if the second is larger, likewise with its clusters, and the plan has uniform column sums; with equal sizes the plan aligns the rows
optimally. -/
theorem C130_clustering [NeZero m] {E : Ext n m} (hemd : SemiInitEmd E) (C1 : Fin n → Fin n → ℝ) (C2 : Fin m → Fin m → ℝ) {p : Fin n → ℝ} (hp : ∀ i, 0 ≤ p i)
    (hsum : ∑ i, p i = 1) {useTarget : Bool} {method : String} (hmem : method ∈ ["fluid", "spectral", "kmeans"]) (hc : GoodClusters E p useTarget method) (alpha : ℝ) :
    ∃ T, initPlan E C1 C2 p none alpha method useTarget = .ok T ∧ IsSemiRelaxed p T ∧ AlignedPlan E C1 C2 p useTarget method T := by
  obtain ⟨T, q, h1, h2, h3, h4⟩ := from_partition hemd C1 C2 hp hsum hc
  have hpart : method ∈ partitioning := by
    simp only [List.mem_cons, List.not_mem_nil, or_false] at hmem
    rcases hmem with rfl | rfl | rfl <;> decide
  have hns : method ∉ soft := by
    simp only [List.mem_cons, List.not_mem_nil, or_false] at hmem
    rcases hmem with rfl | rfl | rfl <;> decide
  obtain ⟨e1, e2, e3⟩ := not_special hpart
  refine ⟨T, ?_, h2, h4⟩
  simp only [initPlan, structPlan, if_neg e1, if_neg e2, if_neg e3, if_pos hpart, h1, if_neg hns]

/-- **C130**, soft methods.  For the same labels the soft plan is the mean of the plain plan and the product of its marginals; it is admissible and has the same column sums. -/
theorem C130_soft [NeZero m] {E : Ext n m} (hemd : SemiInitEmd E) (C1 : Fin n → Fin n → ℝ) (C2 : Fin m → Fin m → ℝ) {p : Fin n → ℝ} (hp : ∀ i, 0 ≤ p i)
    (hsum : ∑ i, p i = 1) {useTarget : Bool} {method : String} (hmem : method ∈ ["fluid", "spectral", "kmeans"]) (hc : GoodClusters E p useTarget method)
    (h1 : E.part1 (method ++ "_soft") = E.part1 method) (h2 : E.part2 (method ++ "_soft") = E.part2 method) (alpha : ℝ) :
    ∃ T S, initPlan E C1 C2 p none alpha method useTarget = .ok T ∧ initPlan E C1 C2 p none alpha (method ++ "_soft") useTarget = .ok S ∧
      (∀ i j, S i j = (T i j + p i * ∑ i', T i' j) / 2) ∧ IsSemiRelaxed p S ∧ ∀ j, ∑ i, S i j = ∑ i, T i j := by
  obtain ⟨T, q, g1, g2, g3, g4⟩ := from_partition hemd C1 C2 hp hsum hc
  have hsame : fromPartition E C1 C2 p useTarget (method ++ "_soft") = fromPartition E C1 C2 p useTarget method := by
    unfold fromPartition; rw [h1, h2]
  have hpart : method ∈ partitioning ∧ method ∉ soft ∧ method ++ "_soft" ∈ partitioning ∧ method ++ "_soft" ∈ soft := by
    simp only [List.mem_cons, List.not_mem_nil, or_false] at hmem
    rcases hmem with rfl | rfl | rfl <;> decide
  obtain ⟨e1, e2, e3⟩ := not_special hpart.1
  obtain ⟨f1, f2, f3⟩ := not_special hpart.2.2.1
  refine ⟨T, fun i j => (T i j + p i * q j) / 2, ?_, ?_, fun i j => by simp only [g3], ⟨fun i j => ?_, fun i => ?_⟩, fun j => ?_⟩
  · simp only [initPlan, structPlan, if_neg e1, if_neg e2, if_neg e3, if_pos hpart.1, g1, if_neg hpart.2.1]
  · simp only [initPlan, structPlan, if_neg f1, if_neg f2, if_neg f3, if_pos hpart.2.2.1, hsame, g1, if_pos hpart.2.2.2]
  · have : 0 ≤ q j := by rw [g3]; exact Finset.sum_nonneg fun i _ => g2.nonneg i j
    have := mul_nonneg (hp i) this
    have := g2.nonneg i j
    positivity
  · have hq1 : ∑ j, q j = 1 := by
      simp only [g3]
      rw [Finset.sum_comm]
      simp only [g2.row, hsum]
    rw [← Finset.sum_div, Finset.sum_add_distrib, ← Finset.mul_sum, g2.row, hq1]; ring
  · rw [← Finset.sum_div, Finset.sum_add_distrib, ← Finset.sum_mul, hsum, ← g3]; ring

/-- all supported names -/
def initNames : List String := ["fluid", "spectral", "kmeans", "fluid_soft", "spectral_soft", "kmeans_soft", "product", "random_product", "random"]

/-- **C130**.  Every method returns a plan that is admissible for the semi-relaxed problems, i.e. nonnegative with row sums `p`, with or without features: for weights of mass `1`,
`0 ≤ alpha ≤ 1`, usable clusters and random numbers that are not all zero. -/
theorem C130_admissible [NeZero m] {E : Ext n m} (hemd : SemiInitEmd E) (C1 : Fin n → Fin n → ℝ) (C2 : Fin m → Fin m → ℝ) {p : Fin n → ℝ} (hp : ∀ i, 0 ≤ p i)
    (hsum : ∑ i, p i = 1) {useTarget : Bool} {method : String} (hmem : method ∈ initNames) (hc : method ∈ partitioning → GoodClusters E p useTarget method)
    (hrq : (∀ j, 0 ≤ E.rq j) ∧ 0 < ∑ j, E.rq j) (hrU : ∀ i, (∀ j, 0 ≤ E.rU i j) ∧ 0 < ∑ j, E.rU i j)
    (M : Option (Fin n → Fin m → ℝ)) {alpha : ℝ} (ha : 0 ≤ alpha ∧ alpha ≤ 1) :
    ∃ T, initPlan E C1 C2 p M alpha method useTarget = .ok T ∧ IsSemiRelaxed p T := by
  have key : ∃ T, structPlan E C1 C2 p useTarget method = .ok T ∧ IsSemiRelaxed p T := by
    by_cases hpart : method ∈ partitioning
    · obtain ⟨T, q, g1, g2, g3, _⟩ := from_partition hemd C1 C2 hp hsum (hc hpart)
      obtain ⟨e1, e2, e3⟩ := not_special hpart
      refine ⟨_, by simp only [structPlan, if_neg e1, if_neg e2, if_neg e3, if_pos hpart, g1]; rfl, ?_⟩
      by_cases hs : method ∈ soft
      · rw [if_pos hs]
        refine ⟨fun i j => ?_, fun i => ?_⟩
        · have : 0 ≤ q j := by rw [g3]; exact Finset.sum_nonneg fun i _ => g2.nonneg i j
          have := mul_nonneg (hp i) this
          have := g2.nonneg i j
          positivity
        · have hq1 : ∑ j, q j = 1 := by
            simp only [g3]
            rw [Finset.sum_comm]
            simp only [g2.row, hsum]
          rw [← Finset.sum_div, Finset.sum_add_distrib, ← Finset.mul_sum, g2.row, hq1]; ring
      · rw [if_neg hs]; exact g2
    · by_cases e1 : method = "product"
      · refine ⟨_, by simp only [structPlan, if_pos e1]; rfl, fun i j => mul_nonneg (hp i) (by positivity), fun i => ?_⟩
        have hm : (m : ℝ) ≠ 0 := by exact_mod_cast NeZero.ne m
        rw [Finset.sum_const, card_univ, Fintype.card_fin, nsmul_eq_mul]
        field_simp
      · by_cases e2 : method = "random_product"
        · refine ⟨_, by simp only [structPlan, if_neg e1, if_pos e2, if_neg hrq.2.ne'], fun i j => mul_nonneg (hp i) (div_nonneg (hrq.1 j) hrq.2.le), fun i => ?_⟩
          rw [← Finset.mul_sum, ← Finset.sum_div, div_self hrq.2.ne', mul_one]
        · by_cases e3 : method = "random"
          · refine ⟨_, by simp only [structPlan, if_neg e1, if_neg e2, if_pos e3, if_neg (show ¬ ∃ i, ∑ j, E.rU i j = 0 by rintro ⟨i, h⟩; exact (hrU i).2.ne' h)],
              fun i j => mul_nonneg (div_nonneg (hp i) (hrU i).2.le) ((hrU i).1 j), fun i => ?_⟩
            rw [← Finset.mul_sum, div_mul_cancel₀ _ (hrU i).2.ne']
          · exfalso
            simp only [initNames, partitioning, List.mem_cons, List.not_mem_nil, or_false] at hmem hpart
            tauto
  obtain ⟨T, h1, h2⟩ := key
  cases M with
  | none => exact ⟨T, by simp only [initPlan, h1], h2⟩
  | some M =>
    have hf := (feature_optimal p hp M).1
    refine ⟨_, by simp only [initPlan, h1]; rfl, fun i j => ?_, fun i => ?_⟩
    · exact add_nonneg (mul_nonneg ha.1 (h2.nonneg i j)) (mul_nonneg (by linarith) (hf.nonneg i j))
    · rw [Finset.sum_add_distrib, ← Finset.mul_sum, ← Finset.mul_sum, h2.row, hf.row]; ring

/-- **C130**, features.  With a cost matrix `M` between the features the result mixes the plan without features with a cheapest admissible plan for `M`: with `alpha = 0` it is one. -/
theorem C130_features [NeZero m] (E : Ext n m) (C1 : Fin n → Fin n → ℝ) (C2 : Fin m → Fin m → ℝ) {p : Fin n → ℝ} (hp : ∀ i, 0 ≤ p i) (useTarget : Bool) (method : String)
    (M : Fin n → Fin m → ℝ) (alpha : ℝ) {T : Fin n → Fin m → ℝ} (h : initPlan E C1 C2 p none alpha method useTarget = .ok T) :
    ∃ S TM, initPlan E C1 C2 p (some M) alpha method useTarget = .ok S ∧ IsSemiRelaxedOptimal p M TM ∧ (∀ i j, S i j = alpha * T i j + (1 - alpha) * TM i j) ∧
      (alpha = 0 → IsSemiRelaxedOptimal p M S) := by
  have h1 : structPlan E C1 C2 p useTarget method = .ok T := by
    unfold initPlan at h
    cases hs : structPlan E C1 C2 p useTarget method with
    | error e => rw [hs] at h; cases h
    | ok T' => rw [hs] at h; cases h; rfl
  refine ⟨_, featurePlan p M, by simp only [initPlan, h1], feature_optimal p hp M, fun i j => rfl, fun h0 => ?_⟩
  have : (fun i j => alpha * T i j + (1 - alpha) * featurePlan p M i j) = featurePlan p M := by
    funext i j; rw [h0]; ring
  rw [this]
  exact feature_optimal p hp M

/-- **C130**, names.  An unsupported name is refused with `ValueError`, and only such. -/
theorem C130_names [NeZero m] (E : Ext n m) (C1 : Fin n → Fin n → ℝ) (C2 : Fin m → Fin m → ℝ) (p : Fin n → ℝ) (M : Option (Fin n → Fin m → ℝ)) (alpha : ℝ) (method : String)
    (useTarget : Bool) : initPlan E C1 C2 p M alpha method useTarget = .error .value ↔ method ∉ initNames := by
  classical
  have key : structPlan E C1 C2 p useTarget method = .error .value ↔ method ∉ initNames := by
    unfold structPlan
    by_cases e1 : method = "product"
    · rw [if_pos e1]; subst e1; simp [initNames]
    rw [if_neg e1]
    by_cases e2 : method = "random_product"
    · rw [if_pos e2]; subst e2; split_ifs <;> simp [initNames]
    rw [if_neg e2]
    by_cases e3 : method = "random"
    · rw [if_pos e3]; subst e3; split_ifs <;> simp [initNames]
    rw [if_neg e3]
    by_cases e4 : method ∈ partitioning
    · rw [if_pos e4]
      have : method ∈ initNames := by
        simp only [initNames, partitioning, List.mem_cons, List.not_mem_nil, or_false] at e4 ⊢
        tauto
      cases fromPartition E C1 C2 p useTarget method with
      | none => simp [this]
      | some x => simp [this]
    · rw [if_neg e4]
      simp only [initNames, partitioning, List.mem_cons, List.not_mem_nil, or_false] at e4 ⊢
      tauto
  rw [← key]
  unfold initPlan
  cases structPlan E C1 C2 p useTarget method with
  | error e => rfl
  | ok T => cases M <;> simp

/-- **C130**, refuted for clusters without weight.  All clusters may be nonempty and the weights nonnegative of mass `1`, and yet the plan is NaN: a cluster made of nodes of weight
zero. -/
theorem C130_zero_weight_cluster_refuted (E : Ext 3 2) (hpart : E.part1 "kmeans" = ![0, 0, 1]) (C1 : Fin 3 → Fin 3 → ℝ) (C2 : Fin 2 → Fin 2 → ℝ)
    (M : Option (Fin 3 → Fin 2 → ℝ)) (alpha : ℝ) :
    (∀ c, ∃ i, E.part1 "kmeans" i = c) ∧ (∀ i, 0 ≤ (![1 / 2, 1 / 2, 0] : Fin 3 → ℝ) i) ∧ ∑ i, (![1 / 2, 1 / 2, 0] : Fin 3 → ℝ) i = 1 ∧
      initPlan E C1 C2 ![1 / 2, 1 / 2, 0] M alpha "kmeans" true = .error .nan := by
  refine ⟨?_, ?_, ?_, ?_⟩
  · rw [hpart]; decide
  · intro i; fin_cases i <;> simp
  · simp [Fin.sum_univ_three]; norm_num
  · have h : fromPartition E C1 C2 ![1 / 2, 1 / 2, 0] true "kmeans" = none := by
      unfold fromPartition
      rw [dif_pos (by decide)]
      dsimp only
      have h0 : ∃ c, colSum (labelPlan ![1 / 2, 1 / 2, 0] (E.part1 "kmeans")) c = 0 := ⟨1, by rw [colSum_label, hpart]; simp [clusterMass, Fin.sum_univ_three]⟩
      rw [if_pos rfl, if_pos h0]
    have hk : "kmeans" ∈ partitioning := by decide
    unfold initPlan structPlan
    rw [if_neg (by decide), if_neg (by decide), if_neg (by decide), if_pos hk, h]

/-! ### The hypotheses can be met -/

/-- an exact solver and labels -/
noncomputable def siExt : Ext 3 2 where
  part1 := fun _ => ![0, 1, 1]
  part2 := fun _ => ![0, 1]
  emd := exactEmd
  rq := fun _ => 1
  rU := fun _ _ => 1

example : SemiInitEmd siExt ∧ GoodClusters siExt (fun _ => 1 / 3) true "kmeans" := by
  refine ⟨fun a b M ha hb hs _ => exactEmd_optimal a b M (product_coupling a b ha hb hs), fun _ _ c => ?_, fun h => by omega⟩
  fin_cases c <;> simp [clusterMass, Fin.sum_univ_three, siExt]

/-- a second graph that is larger -/
noncomputable def siExt' : Ext 2 3 where
  part1 := fun _ => ![0, 1]
  part2 := fun _ => ![0, 1, 1]
  emd := exactEmd
  rq := fun _ => 1
  rU := fun _ _ => 1

example : SemiInitEmd siExt' ∧ GoodClusters siExt' (fun _ => 1 / 2) true "spectral" := by
  refine ⟨fun a b M ha hb hs _ => exactEmd_optimal a b M (product_coupling a b ha hb hs), fun h => by omega, fun _ c => ?_⟩
  fin_cases c
  · exact ⟨0, rfl⟩
  · exact ⟨1, rfl⟩

end POT.Props
