import Verif.Lemmas.Quantized
import Verif.Props.Gromov
import Mathlib.Data.Fin.Tuple.Sort
import Mathlib.Data.Fintype.Perm
import Verif.Lemmas.ExactEmd
import Mathlib.Tactic.FinCases
import Mathlib.Tactic.IntervalCases
import Mathlib.Tactic.NormNum

/-!
# C116: quantized (fused) Gromov-Wasserstein
-/

set_option linter.unusedSectionVars false

namespace POT.Props

open Finset POT.Spec POT.Quantized POT.Emd1d

/-- C116, the coupling assembled from the partitions.  For lists of non-empty partitions with non-negative weights and any global coupling of their masses, the function returns a matrix, which is a coupling of the
concatenated weights; the mass of each block is the global entry, and a block that carries mass is an optimal plan between the distances to the two representants, for the squared difference. -/
theorem C116_partitioned (S S' : Parted) (hs : ∀ k, 1 ≤ S.size k) (hs' : ∀ l, 1 ≤ S'.size l) (hw : ∀ k i, 0 ≤ S.w k i) (hw' : ∀ l j, 0 ≤ S'.w l j) (σ : Sorts S S')
    (hl : ∀ k l, Monotone fun i => S.R k (σ.left k l i)) (hr : ∀ k l, Monotone fun j => S'.R l (σ.right k l j)) (Tg : Fin S.K → Fin S'.K → ℝ)
    (hT : IsCoupling (fun k => ∑ i, S.w k i) (fun l => ∑ j, S'.w l j) Tg) :
    ∃ T, partitioned S S' Tg σ = some T ∧
      IsCoupling (fun r => S.w (finSigmaFinEquiv.symm r).1 (finSigmaFinEquiv.symm r).2) (fun s => S'.w (finSigmaFinEquiv.symm s).1 (finSigmaFinEquiv.symm s).2) T ∧
      (∀ k l, ∑ i, ∑ j, T (finSigmaFinEquiv ⟨k, i⟩) (finSigmaFinEquiv ⟨l, j⟩) = Tg k l) ∧
      ∀ k l, Tg k l ≠ 0 → IsOptimal (fun i => S.w k i / ∑ i, S.w k i) (fun j => S'.w l j / ∑ j, S'.w l j) (fun i j => (S.R k i - S'.R l j) ^ 2)
        fun i j => T (finSigmaFinEquiv ⟨k, i⟩) (finSigmaFinEquiv ⟨l, j⟩) / Tg k l := by
  classical
  have hm0 : ∀ k, 0 ≤ S.mass k := fun k => Finset.sum_nonneg fun i _ => hw k i
  have hm0' : ∀ l, 0 ≤ S'.mass l := fun l => Finset.sum_nonneg fun i _ => hw' l i
  have hpos : ∀ k l, Tg k l ≠ 0 → 0 < S.mass k ∧ 0 < S'.mass l := by
    intro k l h
    have h1 : 0 < Tg k l := lt_of_le_of_ne (hT.nonneg k l) (Ne.symm h)
    constructor
    · refine lt_of_lt_of_le h1 ?_
      have := Finset.single_le_sum (f := fun l => Tg k l) (fun l _ => hT.nonneg k l) (mem_univ l)
      exact this.trans (hT.row k).le
    · refine lt_of_lt_of_le h1 ?_
      have := Finset.single_le_sum (f := fun k => Tg k l) (fun k _ => hT.nonneg k l) (mem_univ k)
      exact this.trans (hT.col l).le
  -- the blocks
  have hB : ∀ k l, ∃ B, block S S' Tg σ k l = some B ∧ (∀ i j, 0 ≤ B i j) ∧ (∀ i, ∑ j, B i j = Tg k l * S.norm k i) ∧ (∀ j, ∑ i, B i j = Tg k l * S'.norm l j) ∧
      (Tg k l = 0 → ∀ i j, B i j = 0) ∧
      (Tg k l ≠ 0 → IsOptimal (S.norm k) (S'.norm l) (fun i j => (S.R k i - S'.R l j) ^ 2) fun i j => B i j / Tg k l) := by
    intro k l
    by_cases h : Tg k l = 0
    · exact ⟨fun _ _ => 0, by rw [block, if_pos h], fun _ _ => le_rfl, fun i => by simp [h], fun j => by simp [h], fun _ _ _ => rfl, fun h' => absurd h h'⟩
    · obtain ⟨hk, hl'⟩ := hpos k l h
      obtain ⟨G, hG, hopt⟩ := localPlan_ok S S' σ hs hs' hw hw' hl hr k l hk hl'
      refine ⟨fun i j => Tg k l * G i j, by rw [block, if_neg h, hG]; rfl, fun i j => mul_nonneg (hT.nonneg k l) (hopt.1.nonneg i j), fun i => ?_, fun j => ?_, fun h' => absurd h' h, fun _ => ?_⟩
      · rw [← Finset.mul_sum, hopt.1.row]
      · rw [← Finset.mul_sum, hopt.1.col]
      · have e : (fun i j => Tg k l * G i j / Tg k l) = G := by funext i j; field_simp
        rw [e]; exact hopt
  choose B hB1 hB2 hB3 hB4 hB5 hB6 using hB
  have hsome : ∀ k l, (block S S' Tg σ k l).isSome := fun k l => by rw [hB1]; rfl
  have hget : ∀ k l, (block S S' Tg σ k l).get (hsome k l) = B k l := fun k l => by simp only [hB1, Option.get_some]
  obtain ⟨T, hTdef⟩ : ∃ T : Fin (∑ k, S.size k) → Fin (∑ l, S'.size l) → ℝ, T = fun r s => B (finSigmaFinEquiv.symm r).1 (finSigmaFinEquiv.symm s).1 (finSigmaFinEquiv.symm r).2 (finSigmaFinEquiv.symm s).2 :=
    ⟨_, rfl⟩
  have hTB : ∀ k i l j, T (finSigmaFinEquiv ⟨k, i⟩) (finSigmaFinEquiv ⟨l, j⟩) = B k l i j := by
    intro k i l j
    rw [hTdef]
    change (fun (x : Σ k, Fin (S.size k)) (y : Σ l, Fin (S'.size l)) => B x.1 y.1 x.2 y.2) (finSigmaFinEquiv.symm (finSigmaFinEquiv ⟨k, i⟩)) (finSigmaFinEquiv.symm (finSigmaFinEquiv ⟨l, j⟩)) = _
    rw [Equiv.symm_apply_apply, Equiv.symm_apply_apply]
  have hwn : ∀ k i, S.mass k * S.norm k i = S.w k i := by
    intro k i
    rcases eq_or_ne (S.mass k) 0 with h | h
    · have := (Finset.sum_eq_zero_iff_of_nonneg fun i _ => hw k i).1 h i (mem_univ i)
      rw [h, this, zero_mul]
    · rw [Parted.norm]; field_simp
  have hwn' : ∀ l j, S'.mass l * S'.norm l j = S'.w l j := by
    intro l j
    rcases eq_or_ne (S'.mass l) 0 with h | h
    · have := (Finset.sum_eq_zero_iff_of_nonneg fun i _ => hw' l i).1 h j (mem_univ j)
      rw [h, this, zero_mul]
    · rw [Parted.norm]; field_simp
  refine ⟨T, ?_, ⟨?_, ?_, ?_⟩, ?_, ?_⟩
  · rw [partitioned, dif_pos hsome, hTdef]
    congr 1
    funext r s
    rw [hget]
  · intro r s; rw [hTdef]; exact hB2 _ _ _ _
  · intro r
    obtain ⟨⟨k, i⟩, rfl⟩ := finSigmaFinEquiv.surjective r
    rw [← Equiv.sum_comp finSigmaFinEquiv, Fintype.sum_sigma]
    simp only [hTB, hB3]
    change _ = (fun x : Σ k, Fin (S.size k) => S.w x.1 x.2) (finSigmaFinEquiv.symm (finSigmaFinEquiv ⟨k, i⟩))
    rw [← Finset.sum_mul, hT.row, Equiv.symm_apply_apply]
    exact hwn k i
  · intro s
    obtain ⟨⟨l, j⟩, rfl⟩ := finSigmaFinEquiv.surjective s
    rw [← Equiv.sum_comp finSigmaFinEquiv, Fintype.sum_sigma]
    simp only [hTB, hB4]
    change _ = (fun x : Σ l, Fin (S'.size l) => S'.w x.1 x.2) (finSigmaFinEquiv.symm (finSigmaFinEquiv ⟨l, j⟩))
    rw [← Finset.sum_mul, hT.col, Equiv.symm_apply_apply]
    exact hwn' l j
  · intro k l
    simp only [hTB, hB3]
    rw [← Finset.mul_sum]
    by_cases h : Tg k l = 0
    · rw [h, zero_mul]
    · have : ∑ i, S.norm k i = 1 := by
        simp only [Parted.norm, ← Finset.sum_div]; exact div_self (hpos k l h).1.ne'
      rw [this, mul_one]
  · intro k l h
    simp only [hTB]
    exact hB6 k l h

/-- C116, as many partitions as nodes: the returned matrix is the global coupling itself. -/
theorem C116_singletons (S S' : Parted) (hs : ∀ k, S.size k = 1) (hs' : ∀ l, S'.size l = 1) (hw : ∀ k i, 0 ≤ S.w k i) (hw' : ∀ l j, 0 ≤ S'.w l j) (σ : Sorts S S') (Tg : Fin S.K → Fin S'.K → ℝ)
    (hT : IsCoupling (fun k => ∑ i, S.w k i) (fun l => ∑ j, S'.w l j) Tg) :
    ∃ T, partitioned S S' Tg σ = some T ∧ ∀ k i l j, T (finSigmaFinEquiv ⟨k, i⟩) (finSigmaFinEquiv ⟨l, j⟩) = Tg k l := by
  have hsub : ∀ k, Subsingleton (Fin (S.size k)) := fun k => by rw [hs k]; infer_instance
  have hsub' : ∀ l, Subsingleton (Fin (S'.size l)) := fun l => by rw [hs' l]; infer_instance
  obtain ⟨T, h, -, hm, -⟩ := C116_partitioned S S' (fun k => (hs k).ge) (fun l => (hs' l).ge) hw hw' σ (fun k l i j _ => by rw [(hsub k).elim i j])
    (fun k l i j _ => by rw [(hsub' l).elim i j]) Tg hT
  refine ⟨T, h, fun k i l j => ?_⟩
  rw [← hm k l]
  have := hsub k
  have := hsub' l
  rw [Fintype.sum_subsingleton _ i, Fintype.sum_subsingleton _ j]

section
variable {n m : ℕ}

/-- C116, what the solvers on graphs and on samples return.  For any labels, any choice of representants and any global coupling of the partition masses, the returned matrix is a coupling of the weights listed
partition by partition: row `r` belongs to node `e₁ r` and column `s` to node `e₂ s`, where `e₁`, `e₂` sort the labels.  Once its rows and columns are put back in the order of the nodes it is a coupling of `p` and
`q`. -/
theorem C116_order (C1 : Fin n → Fin n → ℝ) (C2 : Fin m → Fin m → ℝ) (p : Fin n → ℝ) (q : Fin m → ℝ) (hp : ∀ i, 0 ≤ p i) (hq : ∀ j, 0 ≤ q j) (part1 : Fin n → ℕ) (part2 : Fin m → ℕ)
    (rep1 : Fin (partIds part1).length → Fin n) (rep2 : Fin (partIds part2).length → Fin m) (Tg : Fin (partIds part1).length → Fin (partIds part2).length → ℝ)
    (hT : IsCoupling (fun k => ∑ i, (format C1 p part1 rep1).w k i) (fun l => ∑ j, (format C2 q part2 rep2).w l j) Tg) (σ : Sorts (format C1 p part1 rep1) (format C2 q part2 rep2))
    (hl : ∀ k l, Monotone fun i => (format C1 p part1 rep1).R k (σ.left k l i)) (hr : ∀ k l, Monotone fun j => (format C2 q part2 rep2).R l (σ.right k l j)) :
    ∃ T e₁ e₂, quantized C1 C2 p q part1 part2 rep1 rep2 Tg σ = some T ∧ StableSort part1 e₁ ∧ StableSort part2 e₂ ∧ IsCoupling (fun r => p (e₁ r)) (fun s => q (e₂ s)) T ∧
      IsCoupling p q fun i j => T (e₁.symm i) (e₂.symm j) := by
  obtain ⟨T, hrun, hc, -, -⟩ := C116_partitioned (format C1 p part1 rep1) (format C2 q part2 rep2) (indices_pos part1) (indices_pos part2) (fun k i => hp _) (fun l j => hq _) σ hl hr Tg hT
  have hcoup : IsCoupling (fun r => p (((finCongr (size_sum part1)).trans (order part1)) r)) (fun s => q (((finCongr (size_sum part2)).trans (order part2)) s))
      fun r s => T (Fin.cast (size_sum part1) r) (Fin.cast (size_sum part2) s) := by
    refine ⟨fun r s => hc.nonneg _ _, fun r => ?_, fun s => ?_⟩
    · exact (Equiv.sum_comp (finCongr (size_sum part2)) fun s => T (Fin.cast (size_sum part1) r) s).trans (hc.row (Fin.cast (size_sum part1) r))
    · exact (Equiv.sum_comp (finCongr (size_sum part1)) fun r => T r (Fin.cast (size_sum part2) s)).trans (hc.col (Fin.cast (size_sum part2) s))
  refine ⟨_, _, _, by rw [quantized, hrun]; rfl, order_stable part1, order_stable part2, hcoup, fun i j => hcoup.nonneg _ _, fun i => ?_, fun j => ?_⟩
  · rw [Equiv.sum_comp ((finCongr (size_sum part2)).trans (order part2)).symm fun s => T (Fin.cast (size_sum part1) (((finCongr (size_sum part1)).trans (order part1)).symm i)) (Fin.cast (size_sum part2) s),
      hcoup.row, Equiv.apply_symm_apply]
  · rw [Equiv.sum_comp ((finCongr (size_sum part1)).trans (order part1)).symm fun r => T (Fin.cast (size_sum part1) r) (Fin.cast (size_sum part2) (((finCongr (size_sum part2)).trans (order part2)).symm j)),
      hcoup.col, Equiv.apply_symm_apply]

/-- a stable sort of non-decreasing labels is the identity -/
theorem stableSort_id {part : Fin n → ℕ} (hm : Monotone part) {e : Fin n ≃ Fin n} (he : StableSort part e) : ∀ r, e r = r := by
  have hsm : StrictMono e := by
    intro r s hrs
    rcases he r s hrs with h | h
    · by_contra hc
      exact absurd (hm (not_lt.1 hc)) (not_le.2 h)
    · exact h.2
  intro r
  have := StrictMono.orderIsoOfSurjective (⇑e) hsm e.surjective
  have h2 : StrictMono.orderIsoOfSurjective (⇑e) hsm e.surjective = OrderIso.refl _ := Subsingleton.elim _ _
  have h3 := congrArg (fun f : Fin n ≃o Fin n => f r) h2
  exact h3

/-- C116, labels given in non-decreasing order: the returned matrix is a coupling of `p` and `q`, and the logged value is its fused Gromov-Wasserstein loss. -/
theorem C116_sorted_partial (C1 : Fin n → Fin n → ℝ) (C2 : Fin m → Fin m → ℝ) (p : Fin n → ℝ) (q : Fin m → ℝ) (hp : ∀ i, 0 ≤ p i) (hq : ∀ j, 0 ≤ q j) (part1 : Fin n → ℕ) (part2 : Fin m → ℕ)
    (h1 : Monotone part1) (h2 : Monotone part2) (rep1 : Fin (partIds part1).length → Fin n) (rep2 : Fin (partIds part2).length → Fin m)
    (Tg : Fin (partIds part1).length → Fin (partIds part2).length → ℝ)
    (hT : IsCoupling (fun k => ∑ i, (format C1 p part1 rep1).w k i) (fun l => ∑ j, (format C2 q part2 rep2).w l j) Tg) (σ : Sorts (format C1 p part1 rep1) (format C2 q part2 rep2))
    (hl : ∀ k l, Monotone fun i => (format C1 p part1 rep1).R k (σ.left k l i)) (hr : ∀ k l, Monotone fun j => (format C2 q part2 rep2).R l (σ.right k l j)) (α : ℝ) (M : Fin n → Fin m → ℝ) :
    ∃ T, quantized C1 C2 p q part1 part2 rep1 rep2 Tg σ = some T ∧ IsCoupling p q T ∧
      reported α M C1 C2 p q T = α * (∑ i, ∑ j, ∑ k, ∑ l, (C1 i k - C2 j l) ^ 2 * T i j * T k l) + (1 - α) * ∑ i, ∑ j, T i j * M i j := by
  obtain ⟨T, e₁, e₂, hrun, hs1, hs2, hc, -⟩ := C116_order C1 C2 p q hp hq part1 part2 rep1 rep2 Tg hT σ hl hr
  simp only [stableSort_id h1 hs1, stableSort_id h2 hs2] at hc
  refine ⟨T, hrun, hc, ?_⟩
  rw [reported, C38_gwloss_square C1 C2 p q T hc.row hc.col]
  by_cases h : α = 1
  · simp [h]
  · rw [if_pos h]
    simp only [mul_comm (M _ _)]

/-- C116, representants: unless every node is its own partition, the representant of a partition belongs to it. -/
theorem C116_representant (part : Fin n → ℕ) (choice) (h : (partIds part).length ≠ n) (k) : part (representants part choice k) = (partIds part).get k := by
  rw [representants, dif_neg h]
  exact node_part part k _
end

/-- C116: with as many labels as nodes in another order than `0, 1, …`, the representant of a partition is a node of another partition. -/
theorem C116_representant_refuted : ∃ part : Fin 2 → ℕ, ∀ choice k, part (representants part choice k) ≠ (partIds part).get k := by
  refine ⟨![1, 0], fun choice k => ?_⟩
  have hlen : partIds ![1, 0] = [0, 1] := by
    rw [partIds, show univ.image (![1, 0] : Fin 2 → ℕ) = [0, 1].toFinset by decide]
    exact (List.toFinset_sort _ (by decide)).2 (by decide)
  have hl : (partIds ![1, 0]).length = 2 := by rw [hlen]; rfl
  rw [representants, dif_pos hl]
  obtain ⟨k, hk⟩ := k
  have hk2 : k < 2 := hl ▸ hk
  have : (partIds ![1, 0]).get ⟨k, hk⟩ = [0, 1].get ⟨k, hk2⟩ := by simp [hlen]
  rw [this]
  interval_cases k <;> simp

/-- C116: the returned matrix is not a coupling of the weights of the nodes when the labels are not sorted: whatever the representants and the global plan, with labels `1, 0, 0` and weights `1/2, 1/4, 1/4` it gives
mass `1/4` to the first node; and the logged value, `13/8`, is not the loss of a coupling, which is `11/8` for the only coupling. -/
theorem C116_order_refuted : ∃ (C1 : Fin 3 → Fin 3 → ℝ) (p : Fin 3 → ℝ) (part1 : Fin 3 → ℕ), (∀ i, 0 < p i) ∧ ∑ i, p i = 1 ∧
    ∀ rep1 rep2 Tg (σ : Sorts (format C1 p part1 rep1) (format (fun _ _ : Fin 1 => 0) (fun _ => 1) (fun _ => 0) rep2)),
      IsCoupling (fun k => ∑ i, (format C1 p part1 rep1).w k i) (fun l => ∑ j, (format (fun _ _ : Fin 1 => 0) (fun _ => 1) (fun _ => 0) rep2).w l j) Tg →
      (∀ k l, Monotone fun i => (format C1 p part1 rep1).R k (σ.left k l i)) →
      (∀ k l, Monotone fun j => (format (fun _ _ : Fin 1 => 0) (fun _ => 1) (fun _ => 0) rep2).R l (σ.right k l j)) →
      ∃ T, quantized C1 (fun _ _ : Fin 1 => 0) p (fun _ => 1) part1 (fun _ => 0) rep1 rep2 Tg σ = some T ∧ p 0 = 1 / 2 ∧ ∑ j, T 0 j = 1 / 4 ∧
        reported 1 (fun _ _ => 0) C1 (fun _ _ => 0) p (fun _ => 1) T = 13 / 8 ∧
        ∀ P, IsCoupling p (fun _ : Fin 1 => 1) P → ∑ i, ∑ j, ∑ k, ∑ l, (C1 i k - 0) ^ 2 * P i j * P k (l : Fin 1) = 11 / 8 := by
  refine ⟨![![0, 1, 2], ![1, 0, 1], ![2, 1, 0]], ![1 / 2, 1 / 4, 1 / 4], ![1, 0, 0], fun i => by fin_cases i <;> norm_num, by simp [Fin.sum_univ_three]; norm_num, ?_⟩
  intro rep1 rep2 Tg σ hT hl hr
  obtain ⟨T, e₁, e₂, hrun, hs1, hs2, hc, -⟩ := C116_order _ _ _ _ (by intro i; fin_cases i <;> norm_num) (by intro i; norm_num) _ _ rep1 rep2 Tg hT σ hl hr
  have hdec : ∀ e : Fin 3 ≃ Fin 3, (∀ r s, r < s → (![1, 0, 0] : Fin 3 → ℕ) (e r) < (![1, 0, 0] : Fin 3 → ℕ) (e s) ∨
      ((![1, 0, 0] : Fin 3 → ℕ) (e r) = (![1, 0, 0] : Fin 3 → ℕ) (e s) ∧ e r < e s)) → e 0 = 1 ∧ e 1 = 2 ∧ e 2 = 0 := by decide
  have he := hdec e₁ hs1
  obtain ⟨h0, h1, h2⟩ := he
  have r0 := hc.row 0
  have r1 := hc.row 1
  have r2 := hc.row 2
  simp only [h0, h1, h2, Fin.sum_univ_one, Fin.isValue, Matrix.cons_val_zero, Matrix.cons_val_one, Matrix.cons_val] at r0 r1 r2
  refine ⟨T, hrun, by norm_num, by simpa using r0, ?_, ?_⟩
  · simp [reported, Gromov.gwF, Gromov.gwloss, Gromov.tensorProduct, Gromov.constC, Gromov.dot3, Gromov.mapM, Gromov.square, Fin.sum_univ_three, r0, r1, r2]
    norm_num
  · intro P hP
    have p0 := hP.row 0
    have p1 := hP.row 1
    have p2 := hP.row 2
    simp only [Fin.sum_univ_one, Fin.isValue, Matrix.cons_val_zero, Matrix.cons_val_one, Matrix.cons_val] at p0 p1 p2
    simp [Fin.sum_univ_three, p0, p1, p2]
    norm_num

/-- C116, methods: without networkx methods the requested ones are used as long as scikit-learn is there. -/
theorem C116_methods_partial (nxI : Bool) : methods nxI true .spectral .random = (.spectral, .random) ∧ methods nxI true .spectralFused .random = (.spectralFused, .random) ∧
    ∀ sk, methods nxI sk .random .random = (.random, .random) := by
  cases nxI <;> refine ⟨by decide, by decide, fun sk => by cases sk <;> decide⟩

/-- C116: even with networkx and scikit-learn installed, the documented Louvain and fluid partitions and the PageRank representants are never used; any such request gives random partitions and random
representants, also when the other method is available. -/
theorem C116_methods_refuted (nxI sk : Bool) (pm : PartMethod) (rm : RepMethod) (h : pm ∈ [.fluid, .louvain, .fluidFused, .louvainFused] ∨ rm ∈ [.pagerank, .pagerankFused]) :
    methods nxI sk pm rm = (.random, .random) := by
  cases nxI <;> cases sk <;> cases pm <;> cases rm <;> first | decide | (exfalso; revert h; decide)

/-- C116, samples: k-means on samples and features is available for `alpha ≠ 1`, and raises for the default `alpha = 1`, where plain k-means is available. -/
theorem C116_samples_method (α : ℝ) : (α ≠ 1 → sampleMethod α .kmeansFused = some .kmeans) ∧ sampleMethod α .kmeans = some .kmeans ∧ sampleMethod α .random = some .random ∧
    sampleMethod 1 .kmeansFused = none := by
  refine ⟨fun h => by simp [sampleMethod, h], by simp [sampleMethod], by simp [sampleMethod], by simp [sampleMethod]⟩

/-- C116, trade-off: the problem is solved exactly for `alpha` in `]0, 1]`, by the Gromov-Wasserstein solver for `1` and by the fused one below; `alpha = 0` and values outside `[0, 1]` raise. -/
theorem C116_alpha {X : Type*} (α : ℝ) (gw fgw : X) : (globalSolver α gw fgw = some gw ∨ globalSolver α gw fgw = some fgw ↔ 0 < α ∧ α ≤ 1) ∧ globalSolver 1 gw fgw = some gw ∧
    (0 < α → α < 1 → globalSolver α gw fgw = some fgw) := by
  refine ⟨?_, by simp [globalSolver], fun h1 h2 => by rw [globalSolver, if_neg h2.ne, if_pos ⟨h2, h1⟩]⟩
  rw [globalSolver]
  constructor
  · intro h
    by_cases h1 : α = 1
    · rw [h1]; norm_num
    · by_cases h2 : α < 1 ∧ 0 < α
      · exact ⟨h2.2, h2.1.le⟩
      · rw [if_neg h1, if_neg h2] at h; simp at h
  · rintro ⟨h1, h2⟩
    rcases h2.lt_or_eq with h | h
    · right; rw [if_neg h.ne, if_pos ⟨h, h1⟩]
    · left; rw [if_pos h]

/-- the hypotheses can be met for all weights in the simplex and all labels: sorting permutations exist, and the product of the masses is a global plan -/
example {n m : ℕ} (C1 : Fin n → Fin n → ℝ) (C2 : Fin m → Fin m → ℝ) (p : Fin n → ℝ) (q : Fin m → ℝ) (hp : ∀ i, 0 ≤ p i) (hq : ∀ j, 0 ≤ q j) (hp1 : ∑ i, p i = 1) (hq1 : ∑ j, q j = 1)
    (part1 : Fin n → ℕ) (part2 : Fin m → ℕ) (rep1 rep2) : ∃ Tg, ∃ σ : Sorts (format C1 p part1 rep1) (format C2 q part2 rep2),
    IsCoupling (fun k => ∑ i, (format C1 p part1 rep1).w k i) (fun l => ∑ j, (format C2 q part2 rep2).w l j) Tg ∧ (∀ k l, Monotone fun i => (format C1 p part1 rep1).R k (σ.left k l i)) ∧
    ∀ k l, Monotone fun j => (format C2 q part2 rep2).R l (σ.right k l j) := by
  obtain ⟨Tg, hTg⟩ := product_coupling (fun k => ∑ i, (format C1 p part1 rep1).w k i) (fun l => ∑ j, (format C2 q part2 rep2).w l j) (fun k => Finset.sum_nonneg fun i _ => hp _)
    (fun k => Finset.sum_nonneg fun i _ => hq _) (by rw [mass_sum, mass_sum, hp1, hq1])
  exact ⟨Tg, ⟨fun k _ => Tuple.sort _, fun _ l => Tuple.sort _⟩, hTg, fun _ _ => Tuple.monotone_sort _, fun _ _ => Tuple.monotone_sort _⟩

/-- two partitions of two points against one of four -/
example : ∃ T, partitioned ⟨2, fun _ => 2, fun _ _ => 0, fun _ _ => 1⟩ ⟨1, fun _ => 4, fun _ _ => 0, fun _ _ => 1⟩ (fun _ _ => 2) ⟨fun _ _ => 1, fun _ _ => 1⟩ = some T := by
  obtain ⟨T, h, -⟩ := C116_partitioned ⟨2, fun _ => 2, fun _ _ => 0, fun _ _ => 1⟩ ⟨1, fun _ => 4, fun _ _ => 0, fun _ _ => 1⟩ (fun _ => by norm_num) (fun _ => by norm_num)
    (fun _ _ => zero_le_one) (fun _ _ => zero_le_one) ⟨fun _ _ => 1, fun _ _ => 1⟩ (fun _ _ _ _ _ => le_rfl) (fun _ _ _ _ _ => le_rfl) (fun _ _ => 2)
    ⟨fun k l => by norm_num, fun k => by simp, fun l => by simp; norm_num⟩
  exact ⟨T, h⟩

end POT.Props
