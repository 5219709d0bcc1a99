import Verif.Model.SemiInit
import Verif.Spec.SemiInit

/-! # Lemmas for the initial plans of the semi-relaxed problems -/

set_option linter.unusedSectionVars false

namespace POT.SemiInit

open Spec Finset

variable {k l r n m : ℕ}

theorem sum_part (part : Fin k → Fin l) (f : Fin k → Fin l → ℝ) :
    ∑ i, f i (part i) = ∑ c, ∑ i, if part i = c then f i c else 0 := by
  rw [Finset.sum_comm]
  refine Finset.sum_congr rfl fun i _ => ?_
  rw [Finset.sum_ite_eq]; simp

theorem colSum_label (w : Fin k → ℝ) (part : Fin k → Fin l) : colSum (labelPlan w part) = clusterMass w part := by
  funext c
  simp only [colSum, labelPlan, clusterMass, mul_ite, mul_one, mul_zero]

theorem through_label (w : Fin k → ℝ) (part : Fin k → Fin l) (q : Fin l → ℝ) (E : Fin l → Fin r → ℝ) (i j) :
    through (labelPlan w part) q E i j = w i / q (part i) * E (part i) j := by
  simp only [through, labelPlan, mul_ite, mul_one, mul_zero, ite_mul, zero_mul]
  rw [Finset.sum_ite_eq]
  simp only [mem_univ, if_true]
  ring

/-- sending the clusters optimally is sending the nodes optimally for the cost of their clusters -/
theorem through_optimal (w : Fin k → ℝ) (hw : ∀ i, 0 ≤ w i) (part : Fin k → Fin l) (hq : ∀ c, 0 < clusterMass w part c) {b : Fin r → ℝ} {D E : Fin l → Fin r → ℝ}
    (hE : IsOptimal (clusterMass w part) b D E) :
    IsOptimal w b (fun i j => D (part i) j) (through (labelPlan w part) (clusterMass w part) E) := by
  have hsum : ∀ g : Fin l → ℝ, ∑ i, w i / clusterMass w part (part i) * g (part i) = ∑ c, g c := by
    intro g
    rw [sum_part part fun i c => w i / clusterMass w part c * g c]
    refine Finset.sum_congr rfl fun c _ => ?_
    have : ∀ i, (if part i = c then w i / clusterMass w part c * g c else 0) = (if part i = c then w i else 0) * (g c / clusterMass w part c) := by
      intro i; split_ifs <;> ring
    simp only [this]
    rw [← Finset.sum_mul]
    change clusterMass w part c * _ = _
    rw [mul_div_assoc', mul_comm, mul_div_assoc, div_self (hq c).ne', mul_one]
  refine ⟨⟨fun i j => ?_, fun i => ?_, fun j => ?_⟩, fun T hT => ?_⟩
  · rw [through_label]
    exact mul_nonneg (div_nonneg (hw i) (hq _).le) (hE.1.nonneg _ _)
  · simp only [through_label]
    rw [← Finset.mul_sum, hE.1.row, div_mul_cancel₀ _ (hq _).ne']
  · simp only [through_label]
    rw [hsum fun c => E c j, hE.1.col]
  · have hA : IsCoupling (clusterMass w part) b fun c j => ∑ i, if part i = c then T i j else 0 := by
      refine ⟨fun c j => Finset.sum_nonneg fun i _ => by split_ifs; exacts [hT.nonneg _ _, le_rfl], fun c => ?_, fun j => ?_⟩
      · rw [Finset.sum_comm]
        refine Finset.sum_congr rfl fun i _ => ?_
        by_cases h : part i = c
        · simp only [if_pos h, hT.row]
        · simp only [if_neg h, Finset.sum_const_zero]
      · rw [← sum_part part fun i _ => T i j, hT.col]
    have h1 := hE.2 _ hA
    have e1 : cost (fun i j => D (part i) j) (through (labelPlan w part) (clusterMass w part) E) = cost D E := by
      simp only [cost, through_label]
      rw [← hsum fun c => ∑ j, E c j * D c j]
      refine Finset.sum_congr rfl fun i _ => ?_
      rw [Finset.mul_sum]
      exact Finset.sum_congr rfl fun j _ => by ring
    have e2 : cost (fun i j => D (part i) j) T = cost D fun c j => ∑ i, if part i = c then T i j else 0 := by
      simp only [cost]
      rw [sum_part part fun i c => ∑ j, T i j * D c j]
      refine Finset.sum_congr rfl fun c _ => ?_
      have : ∀ j, (∑ i, if part i = c then T i j else 0) * D c j = ∑ i, if part i = c then T i j * D c j else 0 := by
        intro j
        rw [Finset.sum_mul]
        exact Finset.sum_congr rfl fun i _ => by split_ifs <;> ring
      simp only [this]
      rw [Finset.sum_comm]
      refine Finset.sum_congr rfl fun i _ => ?_
      by_cases h : part i = c
      · simp only [if_pos h]
      · simp only [if_neg h, Finset.sum_const_zero]
    rw [e1, e2]; exact h1

theorem sum_part2 (part : Fin k → Fin l) (A : Fin k → Fin k → ℝ) (G : Fin l → Fin l → ℝ) :
    ∑ i, ∑ j, A i j * G (part i) (part j) =
      ∑ c, ∑ c', (∑ j, (∑ i, (if part i = c then 1 else 0) * A i j) * if part j = c' then 1 else 0) * G c c' := by
  rw [sum_part part fun i c => ∑ j, A i j * G c (part j)]
  refine Finset.sum_congr rfl fun c _ => ?_
  have h1 : ∀ i, (if part i = c then ∑ j, A i j * G c (part j) else 0) = ∑ j, ((if part i = c then 1 else 0) * A i j) * G c (part j) := by
    intro i
    split_ifs
    · exact Finset.sum_congr rfl fun j _ => by ring
    · simp
  simp only [h1]
  rw [Finset.sum_comm]
  simp only [← Finset.sum_mul]
  rw [sum_part part fun j c' => (∑ i, (if part i = c then 1 else 0) * A i j) * G c c']
  refine Finset.sum_congr rfl fun c' _ => ?_
  rw [Finset.sum_mul]
  refine Finset.sum_congr rfl fun j _ => ?_
  split_ifs <;> ring

/-- the averaged structure is the best structure between the clusters -/
theorem factored_best (w : Fin k → ℝ) (part : Fin k → Fin l) (hq : ∀ c, 0 < clusterMass w part c) (C : Fin k → Fin k → ℝ) (B : Fin l → Fin l → ℝ) :
    clusterError w C part (factored (labelPlan w part) C (clusterMass w part)) ≤ clusterError w C part B := by
  set F := factored (labelPlan w part) C (clusterMass w part) with hF
  have hqq : ∀ c c', (∑ j, (∑ i, (if part i = c then 1 else 0) * (w i * w j)) * if part j = c' then 1 else 0) = clusterMass w part c * clusterMass w part c' := by
    intro c c'
    simp only [clusterMass]
    rw [Finset.mul_sum]
    refine Finset.sum_congr rfl fun j _ => ?_
    have : ∀ i, (if part i = c then (1 : ℝ) else 0) * (w i * w j) = (if part i = c then w i else 0) * w j := by intro i; split_ifs <;> ring
    simp only [this, ← Finset.sum_mul]
    split_ifs <;> ring
  have hqC : ∀ c c', (∑ j, (∑ i, (if part i = c then 1 else 0) * (w i * w j * C i j)) * if part j = c' then 1 else 0) =
      clusterMass w part c * clusterMass w part c' * F c c' := by
    intro c c'
    have h1 : clusterMass w part c * clusterMass w part c' ≠ 0 := (mul_pos (hq c) (hq c')).ne'
    simp only [hF, factored]
    rw [mul_div_cancel₀ _ h1]
    refine Finset.sum_congr rfl fun j _ => ?_
    rw [Finset.sum_mul, Finset.sum_mul]
    refine Finset.sum_congr rfl fun i _ => ?_
    simp only [labelPlan]; ring
  have key : clusterError w C part B = clusterError w C part F + ∑ c, ∑ c', clusterMass w part c * clusterMass w part c' * (F c c' - B c c') ^ 2 := by
    have e : ∀ i j, w i * w j * (C i j - B (part i) (part j)) ^ 2 = w i * w j * (C i j - F (part i) (part j)) ^ 2 +
        (w i * w j * C i j * (2 * (F (part i) (part j) - B (part i) (part j))) +
          w i * w j * (B (part i) (part j) ^ 2 - F (part i) (part j) ^ 2)) := fun i j => by ring
    unfold clusterError
    simp only [e, Finset.sum_add_distrib]
    rw [sum_part2 part (fun i j => w i * w j * C i j) fun c c' => 2 * (F c c' - B c c'), sum_part2 part (fun i j => w i * w j) fun c c' => B c c' ^ 2 - F c c' ^ 2]
    simp only [hqq, hqC]
    rw [← Finset.sum_add_distrib]
    congr 1
    refine Finset.sum_congr rfl fun c _ => ?_
    rw [← Finset.sum_add_distrib]
    exact Finset.sum_congr rfl fun c' _ => by ring
  rw [key]
  have : 0 ≤ ∑ c, ∑ c', clusterMass w part c * clusterMass w part c' * (F c c' - B c c') ^ 2 :=
    Finset.sum_nonneg fun c _ => Finset.sum_nonneg fun c' _ => mul_nonneg (mul_pos (hq c) (hq c')).le (sq_nonneg _)
  linarith

theorem eucl_eq {d : ℕ} (X : Fin k → Fin d → ℝ) (Y : Fin l → Fin d → ℝ) (i j) : eucl X Y i j = rowDistance (X i) (Y j) := by
  unfold eucl rowDistance
  have e : -2 * (∑ e, X i e * Y j e) + ∑ e, X i e * X i e + ∑ e, Y j e * Y j e = ∑ e, (X i e - Y j e) ^ 2 := by
    rw [Finset.mul_sum, ← Finset.sum_add_distrib, ← Finset.sum_add_distrib]
    exact Finset.sum_congr rfl fun e _ => by ring
  rw [e, max_eq_left (Finset.sum_nonneg fun _ _ => sq_nonneg _)]

theorem mass_sum (w : Fin k → ℝ) (part : Fin k → Fin l) : ∑ c, clusterMass w part c = ∑ i, w i := by
  simp only [clusterMass]
  rw [← sum_part part fun i _ => w i]

theorem optimal_swap {a : Fin k → ℝ} {b : Fin l → ℝ} {D T : Fin k → Fin l → ℝ} (h : IsOptimal a b D T) : IsOptimal b a (fun j i => D i j) fun j i => T i j := by
  refine ⟨⟨fun j i => h.1.nonneg _ _, h.1.col, h.1.row⟩, fun T' hT' => ?_⟩
  have := h.2 (fun i j => T' j i) ⟨fun i j => hT'.nonneg _ _, hT'.col, hT'.row⟩
  simp only [cost] at this ⊢
  rw [Finset.sum_comm, Finset.sum_comm (f := fun j i => T' j i * D i j)]
  exact this

/-- the plan of equal shares on the cheapest columns is a cheapest admissible plan -/
theorem feature_optimal [NeZero m] (p : Fin n → ℝ) (hp : ∀ i, 0 ≤ p i) (M : Fin n → Fin m → ℝ) : IsSemiRelaxedOptimal p M (featurePlan p M) := by
  classical
  set mn : Fin n → ℝ := fun i => Finset.univ.inf' ⟨0, Finset.mem_univ _⟩ (M i) with hmn
  have hle : ∀ i j, mn i ≤ M i j := fun i j => Finset.inf'_le _ (mem_univ j)
  have hex : ∀ i, ∃ j, M i j = mn i := fun i => by
    obtain ⟨j, _, hj⟩ := Finset.exists_mem_eq_inf' (⟨0, Finset.mem_univ _⟩ : (Finset.univ : Finset (Fin m)).Nonempty) (M i)
    exact ⟨j, hj.symm⟩
  have hpos : ∀ i, 0 < ∑ j, (if M i j = mn i then (1 : ℝ) else 0) := fun i => by
    obtain ⟨j, hj⟩ := hex i
    refine lt_of_lt_of_le one_pos (le_trans (le_of_eq ?_) (Finset.single_le_sum (f := fun j => if M i j = mn i then (1 : ℝ) else 0) (fun j _ => by split_ifs <;> norm_num) (mem_univ j)))
    rw [if_pos hj]
  have hdef : ∀ i j, featurePlan p M i j = (if M i j = mn i then (1 : ℝ) else 0) * (p i / ∑ j, if M i j = mn i then (1 : ℝ) else 0) := by
    intro i j
    simp only [featurePlan, hmn]
  have hadm : IsSemiRelaxed p (featurePlan p M) := by
    refine ⟨fun i j => ?_, fun i => ?_⟩
    · rw [hdef]
      exact mul_nonneg (by split_ifs <;> norm_num) (div_nonneg (hp i) (hpos i).le)
    · simp only [hdef]
      rw [← Finset.sum_mul, mul_div_assoc', mul_comm, mul_div_assoc, div_self (hpos i).ne', mul_one]
  refine ⟨hadm, fun T hT => ?_⟩
  have h1 : cost M (featurePlan p M) = ∑ i, p i * mn i := by
    simp only [cost]
    refine Finset.sum_congr rfl fun i _ => ?_
    rw [← hadm.row i, Finset.sum_mul]
    refine Finset.sum_congr rfl fun j _ => ?_
    rw [hdef]
    by_cases h : M i j = mn i
    · rw [h]
    · rw [if_neg h]; ring
  rw [h1]
  simp only [cost]
  refine Finset.sum_le_sum fun i _ => ?_
  rw [← hT.row i, Finset.sum_mul]
  exact Finset.sum_le_sum fun j _ => mul_le_mul_of_nonneg_left (hle i j) (hT.nonneg i j)

end POT.SemiInit
