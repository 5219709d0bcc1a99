import Verif.Lemmas.Transport
import Mathlib.Algebra.BigOperators.Module
import Mathlib.Algebra.BigOperators.Intervals
import Mathlib.Algebra.BigOperators.Fin

/-! # Comonotone plans are optimal for Monge costs -/

set_option linter.unusedSectionVars false

namespace POT.Spec

open Finset

variable {R : Type*} [Field R] [LinearOrder R] [IsStrictOrderedRing R]

/-- Double summation by parts for an array with zero marginals. -/
theorem sum_mul_of_zero_marginals (n m : ℕ) (D c : ℕ → ℕ → R)
    (hrow : ∀ i < n, ∑ j ∈ range m, D i j = 0) (hcol : ∀ j < m, ∑ i ∈ range n, D i j = 0) :
    ∑ i ∈ range n, ∑ j ∈ range m, D i j * c i j =
      ∑ l ∈ range (m - 1), ∑ k ∈ range (n - 1),
        (c (k + 1) (l + 1) - c (k + 1) l - (c k (l + 1) - c k l)) *
          ∑ i ∈ range (k + 1), ∑ j ∈ range (l + 1), D i j := by
  have h1 : ∀ i ∈ range n, ∑ j ∈ range m, D i j * c i j =
      - ∑ l ∈ range (m - 1), (c i (l + 1) - c i l) * ∑ j ∈ range (l + 1), D i j := by
    intro i hi
    have := sum_range_by_parts (fun j => c i j) (fun j => D i j) m
    simp only [smul_eq_mul] at this
    rw [hrow i (mem_range.1 hi), mul_zero, zero_sub] at this
    rw [← this]
    exact sum_congr rfl fun j _ => mul_comm _ _
  rw [sum_congr rfl h1, sum_neg_distrib, sum_comm, ← sum_neg_distrib]
  refine sum_congr rfl fun l hl => ?_
  have := sum_range_by_parts (fun i => c i (l + 1) - c i l)
    (fun i => ∑ j ∈ range (l + 1), D i j) n
  simp only [smul_eq_mul] at this
  rw [sum_comm (s := range n)] at this
  rw [sum_congr rfl (g := fun _ => (0 : R)) (s₁ := range (l + 1)) (fun j hj => hcol j (by
    have := mem_range.1 hl; have := mem_range.1 hj; omega))] at this
  rw [sum_const_zero, mul_zero, zero_sub] at this
  rw [this, neg_neg]

/-- Cumulative mass of a comonotone plan dominates that of any plan with the same marginals. -/
theorem cum_le_of_comonotone (n m : ℕ) (G G' : ℕ → ℕ → R)
    (hG' : ∀ i < n, ∀ j < m, 0 ≤ G' i j)
    (hrow : ∀ i < n, ∑ j ∈ range m, G' i j = ∑ j ∈ range m, G i j)
    (hcol : ∀ j < m, ∑ i ∈ range n, G' i j = ∑ i ∈ range n, G i j)
    (hco : ∀ i < n, ∀ i' < n, ∀ j < m, ∀ j' < m, i < i' → j' < j → G i j = 0 ∨ G i' j' = 0)
    {k l : ℕ} (hk : k ≤ n) (hl : l ≤ m) :
    ∑ i ∈ range k, ∑ j ∈ range l, G' i j ≤ ∑ i ∈ range k, ∑ j ∈ range l, G i j := by
  by_cases hz : ∀ i < k, ∀ j < m, l ≤ j → G i j = 0
  · -- no mass to the right: the cumulative mass is the row mass
    have h1 : ∑ i ∈ range k, ∑ j ∈ range l, G i j = ∑ i ∈ range k, ∑ j ∈ range m, G i j := by
      refine sum_congr rfl fun i hi => ?_
      refine sum_subset (range_subset_range.2 hl) fun j hj hj' => ?_
      simp only [mem_range, not_lt] at hi hj hj'
      exact hz i hi j hj hj'
    rw [h1]
    refine sum_le_sum fun i hi => ?_
    simp only [mem_range] at hi
    rw [← hrow i (by omega)]
    refine sum_le_sum_of_subset_of_nonneg (range_subset_range.2 hl) fun j hj _ => ?_
    exact hG' i (by omega) j (mem_range.1 hj)
  · push Not at hz
    obtain ⟨i₀, hi₀, j₀, hj₀, hlj, hne⟩ := hz
    have hz' : ∀ i < n, ∀ j < l, k ≤ i → G i j = 0 := by
      intro i hi j hj hki
      rcases hco i₀ (by omega) i hi j₀ hj₀ j (by omega) (by omega) (by omega) with h | h
      · exact absurd h hne
      · exact h
    rw [sum_comm, sum_comm (s := range k) (f := fun i j => G i j)]
    have h1 : ∀ j ∈ range l, ∑ i ∈ range k, G i j = ∑ i ∈ range n, G i j := by
      intro j hj
      refine sum_subset (range_subset_range.2 hk) fun i hi hi' => ?_
      simp only [mem_range, not_lt] at hi hj hi'
      exact hz' i hi j hj hi'
    rw [sum_congr rfl h1]
    refine sum_le_sum fun j hj => ?_
    simp only [mem_range] at hj
    rw [← hcol j (by omega)]
    refine sum_le_sum_of_subset_of_nonneg (range_subset_range.2 hk) fun i hi _ => ?_
    exact hG' i (mem_range.1 hi) j (by omega)

theorem range_cost_le_of_comonotone (n m : ℕ) (G G' M : ℕ → ℕ → R)
    (hG' : ∀ i < n, ∀ j < m, 0 ≤ G' i j)
    (hrow : ∀ i < n, ∑ j ∈ range m, G' i j = ∑ j ∈ range m, G i j)
    (hcol : ∀ j < m, ∑ i ∈ range n, G' i j = ∑ i ∈ range n, G i j)
    (hco : ∀ i < n, ∀ i' < n, ∀ j < m, ∀ j' < m, i < i' → j' < j → G i j = 0 ∨ G i' j' = 0)
    (hM : ∀ i, i + 1 < n → ∀ j, j + 1 < m → M i j + M (i + 1) (j + 1) ≤ M i (j + 1) + M (i + 1) j) :
    ∑ i ∈ range n, ∑ j ∈ range m, G i j * M i j ≤ ∑ i ∈ range n, ∑ j ∈ range m, G' i j * M i j := by
  rw [← sub_nonneg]
  have h := sum_mul_of_zero_marginals n m (fun i j => G' i j - G i j) M
    (fun i hi => by simp [hrow i hi]) (fun j hj => by simp [hcol j hj])
  have h0 : ∑ i ∈ range n, ∑ j ∈ range m, G' i j * M i j - ∑ i ∈ range n, ∑ j ∈ range m, G i j * M i j
      = ∑ i ∈ range n, ∑ j ∈ range m, (G' i j - G i j) * M i j := by
    simp only [sub_mul, sum_sub_distrib]
  rw [h0, h]
  refine sum_nonneg fun l hl => sum_nonneg fun k hk => ?_
  simp only [mem_range] at hl hk
  refine mul_nonneg_of_nonpos_of_nonpos ?_ ?_
  · have := hM k (by omega) l (by omega)
    linarith
  · simp only [sum_sub_distrib]
    have := cum_le_of_comonotone n m G G' hG' hrow hcol hco (k := k + 1) (l := l + 1) (by omega) (by omega)
    linarith

/-- Two comonotone plans with the same marginals are equal. -/
theorem eq_of_comonotone (n m : ℕ) (G G' : ℕ → ℕ → R)
    (hG : ∀ i < n, ∀ j < m, 0 ≤ G i j)
    (hG' : ∀ i < n, ∀ j < m, 0 ≤ G' i j)
    (hrow : ∀ i < n, ∑ j ∈ range m, G' i j = ∑ j ∈ range m, G i j)
    (hcol : ∀ j < m, ∑ i ∈ range n, G' i j = ∑ i ∈ range n, G i j)
    (hco : ∀ i < n, ∀ i' < n, ∀ j < m, ∀ j' < m, i < i' → j' < j → G i j = 0 ∨ G i' j' = 0)
    (hco' : ∀ i < n, ∀ i' < n, ∀ j < m, ∀ j' < m, i < i' → j' < j → G' i j = 0 ∨ G' i' j' = 0) :
    ∀ i < n, ∀ j < m, G i j = G' i j := by
  have H : ∀ k ≤ n, ∀ l ≤ m, ∑ i ∈ range k, ∑ j ∈ range l, G i j = ∑ i ∈ range k, ∑ j ∈ range l, G' i j := by
    intro k hk l hl
    exact le_antisymm
      (cum_le_of_comonotone n m G' G hG (fun i hi => (hrow i hi).symm) (fun j hj => (hcol j hj).symm) hco' hk hl)
      (cum_le_of_comonotone n m G G' hG' hrow hcol hco hk hl)
  intro i hi j hj
  have h1 := H (i + 1) (by omega) (j + 1) (by omega)
  have h2 := H i (by omega) (j + 1) (by omega)
  have h3 := H (i + 1) (by omega) j (by omega)
  have h4 := H i (by omega) j (by omega)
  simp only [sum_range_succ, sum_add_distrib] at h1 h2 h3 h4
  linarith

/-- A comonotone coupling is optimal for a Monge cost. -/
theorem isOptimal_of_comonotone {n m : ℕ} {a : Fin n → R} {b : Fin m → R} {G M : Fin n → Fin m → R}
    (hG : IsCoupling a b G)
    (hco : ∀ i i' j j', i < i' → j' < j → G i j = 0 ∨ G i' j' = 0)
    (hM : ∀ i i' j j', i ≤ i' → j ≤ j' → M i j + M i' j' ≤ M i j' + M i' j) :
    IsOptimal a b M G := by
  refine ⟨hG, fun G' hG' => ?_⟩
  let E : (Fin n → Fin m → R) → ℕ → ℕ → R := fun F i j =>
    if h : i < n ∧ j < m then F ⟨i, h.1⟩ ⟨j, h.2⟩ else 0
  have hE : ∀ F (i : Fin n) (j : Fin m), E F i j = F i j := by
    intro F i j; simp [E]
  have key : ∀ F K : Fin n → Fin m → R, ∑ i, ∑ j, F i j * K i j
      = ∑ i ∈ range n, ∑ j ∈ range m, E F i j * E K i j := by
    intro F K
    rw [← Fin.sum_univ_eq_sum_range (fun i => ∑ j ∈ range m, E F i j * E K i j)]
    refine sum_congr rfl fun i _ => ?_
    rw [← Fin.sum_univ_eq_sum_range (fun j => E F i j * E K i j)]
    exact sum_congr rfl fun j _ => by rw [hE, hE]
  have hr : ∀ F, ∀ i (hi : i < n), ∑ j ∈ range m, E F i j = ∑ j, F ⟨i, hi⟩ j := by
    intro F i hi
    rw [← Fin.sum_univ_eq_sum_range (fun j => E F i j)]
    exact sum_congr rfl fun j _ => hE F ⟨i, hi⟩ j
  have hc : ∀ F, ∀ j (hj : j < m), ∑ i ∈ range n, E F i j = ∑ i, F i ⟨j, hj⟩ := by
    intro F j hj
    rw [← Fin.sum_univ_eq_sum_range (fun i => E F i j)]
    exact sum_congr rfl fun i _ => hE F i ⟨j, hj⟩
  unfold cost
  rw [key, key]
  refine range_cost_le_of_comonotone n m _ _ _ ?_ ?_ ?_ ?_ ?_
  · intro i hi j hj
    have := hG'.nonneg ⟨i, hi⟩ ⟨j, hj⟩
    simpa [E, hi, hj] using this
  · intro i hi
    rw [hr _ _ hi, hr _ _ hi, hG'.row, hG.row]
  · intro j hj
    rw [hc _ _ hj, hc _ _ hj, hG'.col, hG.col]
  · intro i hi i' hi' j hj j' hj' h1 h2
    have := hco ⟨i, hi⟩ ⟨i', hi'⟩ ⟨j, hj⟩ ⟨j', hj'⟩ h1 h2
    simpa [E, hi, hj, hi', hj'] using this
  · intro i hi j hj
    have := hM ⟨i, by omega⟩ ⟨i + 1, hi⟩ ⟨j, by omega⟩ ⟨j + 1, hj⟩ (Nat.le_succ i) (Nat.le_succ j)
    simpa [E, hi, hj, show i < n by omega, show j < m by omega] using this

/-- Relabelling both sides preserves couplings. -/
theorem IsCoupling.reindex {I J I' J' : Type*} [Fintype I] [Fintype J] [Fintype I'] [Fintype J']
    (e : I' ≃ I) (f : J' ≃ J) {a : I → R} {b : J → R} {G : I → J → R} (h : IsCoupling a b G) :
    IsCoupling (fun i => a (e i)) (fun j => b (f j)) (fun i j => G (e i) (f j)) where
  nonneg i j := h.nonneg _ _
  row i := by rw [← h.row, ← Equiv.sum_comp f]
  col j := by rw [← h.col, ← Equiv.sum_comp e]

theorem cost_reindex {I J I' J' : Type*} [Fintype I] [Fintype J] [Fintype I'] [Fintype J']
    (e : I' ≃ I) (f : J' ≃ J) (M G : I → J → R) :
    cost (fun i j => M (e i) (f j)) (fun i j => G (e i) (f j)) = cost M G := by
  unfold cost
  rw [← Equiv.sum_comp e (fun i => ∑ j, G i j * M i j)]
  refine sum_congr rfl fun i _ => ?_
  rw [← Equiv.sum_comp f (fun j => G (e i) j * M (e i) j)]

/-- Relabelling both sides preserves optimality. -/
theorem IsOptimal.reindex {I J I' J' : Type*} [Fintype I] [Fintype J] [Fintype I'] [Fintype J']
    (e : I' ≃ I) (f : J' ≃ J) {a : I → R} {b : J → R} {M G : I → J → R} (h : IsOptimal a b M G) :
    IsOptimal (fun i => a (e i)) (fun j => b (f j)) (fun i j => M (e i) (f j))
      (fun i j => G (e i) (f j)) := by
  refine ⟨h.1.reindex e f, fun G' hG' => ?_⟩
  rw [cost_reindex e f]
  have h2 := hG'.reindex e.symm f.symm
  simp only [Equiv.apply_symm_apply] at h2
  have h3 := h.2 _ h2
  have h4 := cost_reindex e f M (fun i j => G' (e.symm i) (f.symm j))
  simp only [Equiv.symm_apply_apply] at h4
  rw [h4]
  exact h3

end POT.Spec
