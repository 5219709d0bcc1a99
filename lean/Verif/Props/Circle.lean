import Verif.Lemmas.CircleSemi
import Mathlib.Tactic.FinCases
import Mathlib.Algebra.Order.Field.Rat
import Mathlib.Data.Rat.Floor

/-!
# C55, C56, C57: the closed-form solvers on the circle
-/

set_option linter.unusedSectionVars false

namespace POT.Props

open Finset Spec Circle

section field
variable {K : Type*} [Field K] [LinearOrder K] [IsStrictOrderedRing K] [FloorRing K]

/-- **C55** (partial).  `wasserstein1_circle` returns the least transport cost for the circular distance over all couplings of the two weighted samples, when one of the samples lies at the
origin of the circle (some value is an integer).  `sz` sorts the merged values and `sd` the differences of the distribution functions, as `sort2` does.

Missing: samples without a value at the origin, for which the claim is false, see `C55_wasserstein1_circle_refuted`. -/
theorem C55_wasserstein1_circle_partial {n m : ℕ} (u : Fin (n + 1) → K) (v : Fin (m + 1) → K) (uw : Fin (n + 1) → K) (vw : Fin (m + 1) → K) (su : Equiv.Perm (Fin (n + 1)))
    (sv : Equiv.Perm (Fin (m + 1))) (sz sd : Equiv.Perm (Fin (n + 1 + m + 1))) (huw : ∀ i, 0 ≤ uw i) (hvw : ∀ j, 0 ≤ vw j) (hpos : 0 < ∑ i, uw i)
    (hsum : ∑ i, uw i = ∑ j, vw j)
    (hsz : Monotone fun k => (Fin.append (fun i => Int.fract (u (su i))) (fun j => Int.fract (v (sv j))) : Fin (n + 1 + (m + 1)) → K) (sz k))
    (hsd : Monotone fun l => cdfs (N := n + 1 + m) (fun k => (Fin.append (fun i => uw (su i)) (fun j => -vw (sv j)) : Fin (n + 1 + (m + 1)) → K) (sz k)) (sd l))
    (h0 : (∃ i, Int.fract (u i) = 0) ∨ ∃ j, Int.fract (v j) = 0) :
    IsLeast {c | ∃ P, IsCoupling uw vw P ∧ cost (fun i j => circDist (u i) (v j)) P = c} (wasserstein1Circle u v uw vw su sv sz sd) :=
  w1_isLeast u v uw vw su sv sz sd huw hvw hpos hsum hsz hsd h0

/-- consequence: under the same condition the result is symmetric -/
theorem C55_wasserstein1_circle_symm_partial {n m : ℕ} (u : Fin (n + 1) → K) (v : Fin (m + 1) → K) (uw : Fin (n + 1) → K) (vw : Fin (m + 1) → K) (su su' : Equiv.Perm (Fin (n + 1)))
    (sv sv' : Equiv.Perm (Fin (m + 1))) (sz sd : Equiv.Perm (Fin (n + 1 + m + 1))) (sz' sd' : Equiv.Perm (Fin (m + 1 + n + 1))) (huw : ∀ i, 0 ≤ uw i) (hvw : ∀ j, 0 ≤ vw j)
    (hpos : 0 < ∑ i, uw i) (hsum : ∑ i, uw i = ∑ j, vw j)
    (hsz : Monotone fun k => (Fin.append (fun i => Int.fract (u (su i))) (fun j => Int.fract (v (sv j))) : Fin (n + 1 + (m + 1)) → K) (sz k))
    (hsd : Monotone fun l => cdfs (N := n + 1 + m) (fun k => (Fin.append (fun i => uw (su i)) (fun j => -vw (sv j)) : Fin (n + 1 + (m + 1)) → K) (sz k)) (sd l))
    (hsz' : Monotone fun k => (Fin.append (fun j => Int.fract (v (sv' j))) (fun i => Int.fract (u (su' i))) : Fin (m + 1 + (n + 1)) → K) (sz' k))
    (hsd' : Monotone fun l => cdfs (N := m + 1 + n) (fun k => (Fin.append (fun j => vw (sv' j)) (fun i => -uw (su' i)) : Fin (m + 1 + (n + 1)) → K) (sz' k)) (sd' l))
    (h0 : (∃ i, Int.fract (u i) = 0) ∨ ∃ j, Int.fract (v j) = 0) :
    wasserstein1Circle u v uw vw su sv sz sd = wasserstein1Circle v u vw uw sv' su' sz' sd' := by
  have h1 := w1_isLeast u v uw vw su sv sz sd huw hvw hpos hsum hsz hsd h0
  have h2 := w1_isLeast v u vw uw sv' su' sz' sd' hvw huw (hsum ▸ hpos) hsum.symm hsz' hsd' h0.symm
  refine h1.unique ?_
  have e : {c | ∃ P, IsCoupling uw vw P ∧ cost (fun i j => circDist (u i) (v j)) P = c} = {c | ∃ P, IsCoupling vw uw P ∧ cost (fun j i => circDist (v j) (u i)) P = c} := by
    ext c
    constructor
    · rintro ⟨P, hP, rfl⟩
      refine ⟨fun j i => P i j, ⟨fun j i => hP.nonneg i j, hP.col, hP.row⟩, ?_⟩
      unfold cost
      rw [sum_comm]
      exact sum_congr rfl fun i _ => sum_congr rfl fun j _ => by simp only; rw [circDist_comm]
    · rintro ⟨P, hP, rfl⟩
      refine ⟨fun i j => P j i, ⟨fun j i => hP.nonneg i j, hP.col, hP.row⟩, ?_⟩
      unfold cost
      rw [sum_comm]
      exact sum_congr rfl fun i _ => sum_congr rfl fun j _ => by simp only; rw [circDist_comm]
  rw [e]
  exact h2

/-! ### C57 -/

theorem paddedCdf_mono {n : ℕ} {w : Fin (n + 1) → K} (hw : ∀ i, 0 ≤ w i) : Monotone (paddedCdf w) := fun l l' h => by
  unfold paddedCdf
  refine sum_le_sum_of_subset_of_nonneg (fun i hi => ?_) fun i _ _ => hw i
  rw [mem_filter] at hi ⊢
  exact ⟨hi.1, lt_of_lt_of_le hi.2 h⟩

theorem paddedCdf_zero {n : ℕ} (w : Fin (n + 1) → K) : paddedCdf w 0 = 0 := by
  unfold paddedCdf
  rw [filter_false_of_mem (by intro i _; simp), sum_empty]

theorem paddedCdf_last {n : ℕ} (w : Fin (n + 1) → K) : paddedCdf w (Fin.last (n + 1)) = ∑ i, w i := by
  unfold paddedCdf
  rw [filter_true_of_mem]
  intro i _
  exact i.2

theorem padded_index {n : ℕ} {w : Fin (n + 1) → K} (hw : ∀ i, 0 ≤ w i) {q : K} {i : Fin (n + 1)} (h1 : paddedCdf w i.castSucc < q) (h2 : q ≤ paddedCdf w i.succ) :
    (univ.filter fun l => paddedCdf w l < q).card = i + 1 := by
  have e : (univ.filter fun l => paddedCdf w l < q) = Iic i.castSucc := by
    ext l
    simp only [mem_filter, mem_univ, true_and, mem_Iic]
    constructor
    · intro h
      by_contra hcon
      have h3 : i.succ ≤ l := by
        rw [Fin.le_def]; rw [Fin.le_def] at hcon
        simp only [Fin.val_castSucc, Fin.val_succ] at hcon ⊢; omega
      exact absurd (h2.trans (paddedCdf_mono hw h3)) (not_le.2 h)
    · intro h
      exact (paddedCdf_mono hw h).trans_lt h1
  rw [e, Fin.card_Iic]; simp

/-- **C57** (partial).  For every level `q ∈ (0, 1]` let `i` be the atom of the quantile of level `q` (sorted atoms `xs`, positive weights `ws` of sum `1`): the quantile used by
`linear_circular_embedding` is not `xs i` but the next atom, `xs (i + 1)`, or the last one.  The claim of C57 is false, see `C57_embedding_refuted`. -/
theorem C57_embedding_next_atom_partial {n : ℕ} (xs ws : Fin (n + 1) → K) (hxs : StrictMono xs) (hws : ∀ i, 0 ≤ ws i) (hsum : ∑ i, ws i = 1) {q : K} (hq0 : 0 < q) (hq1 : q ≤ 1) :
    ∃ i : Fin (n + 1), IsQuantile xs ws q (xs i) ∧ quantile q (paddedCdf ws) xs = xs ⟨min ((i : ℕ) + 1) n, by omega⟩ := by
  classical
  have hex : ∃ k : ℕ, ∃ h : k < n + 2, q ≤ paddedCdf ws ⟨k, h⟩ := ⟨n + 1, by omega, by
    have := paddedCdf_last ws
    rw [hsum] at this
    rw [show (⟨n + 1, by omega⟩ : Fin (n + 2)) = Fin.last (n + 1) from rfl, this]; exact hq1⟩
  obtain ⟨k, ⟨hk, hkq⟩, hmin⟩ : ∃ k, (∃ h : k < n + 2, q ≤ paddedCdf ws ⟨k, h⟩) ∧ ∀ k' < k, ¬ ∃ h : k' < n + 2, q ≤ paddedCdf ws ⟨k', h⟩ :=
    ⟨Nat.find hex, Nat.find_spec hex, fun k' h => Nat.find_min hex h⟩
  have hk0 : k ≠ 0 := by
    rintro rfl
    have := paddedCdf_zero ws
    rw [show (⟨0, hk⟩ : Fin (n + 2)) = 0 from rfl, this] at hkq
    exact absurd hq0 (not_lt.2 hkq)
  obtain ⟨i, hi⟩ : ∃ i : Fin (n + 1), (i : ℕ) + 1 = k := ⟨⟨k - 1, by omega⟩, by simp only; omega⟩
  have h2 : q ≤ paddedCdf ws i.succ := by
    have e : (⟨k, hk⟩ : Fin (n + 2)) = i.succ := Fin.ext (by simp [hi])
    rw [← e]; exact hkq
  have h1 : paddedCdf ws i.castSucc < q := by
    have := hmin i (by omega)
    push Not at this
    exact this (by omega)
  refine ⟨i, ⟨?_, fun t ht => ?_⟩, ?_⟩
  · refine h2.trans_eq ?_
    unfold paddedCdf
    refine sum_congr (filter_congr fun j _ => ?_) fun _ _ => rfl
    rw [hxs.le_iff_le, Fin.le_def, Fin.val_succ]
    omega
  · by_contra hcon
    have hcon' : t < xs i := not_le.1 hcon
    have : ∑ j ∈ univ.filter (fun j : Fin (n + 1) => xs j ≤ t), ws j ≤ paddedCdf ws i.castSucc := by
      unfold paddedCdf
      refine sum_le_sum_of_subset_of_nonneg (fun j hj => ?_) fun j _ _ => hws j
      rw [mem_filter] at hj ⊢
      refine ⟨hj.1, ?_⟩
      have := hxs.lt_iff_lt.1 (hj.2.trans_lt hcon')
      exact Fin.lt_def.1 this
    exact absurd (le_trans ht this) (not_le.2 h1)
  · unfold quantile
    congr 2
    rw [padded_index hws h1 h2]

/-- **C57** (partial), for the whole function: the level is `x - ∫ z dμ + 1/2` modulo 1, the quantile of that level is an atom `i`, the value returned is the one of the next atom. -/
theorem C57_embedding_value_partial {n : ℕ} (x : K) (u w : Fin (n + 1) → K) (su : Equiv.Perm (Fin (n + 1))) (hsu : StrictMono fun i => Int.fract (u (su i))) (hw : ∀ i, 0 ≤ w i)
    (hsum : ∑ i, w i = 1) (hq : Int.fract (x - ∑ i, Int.fract (u i) * w i + 1 / 2) ≠ 0) :
    ∃ i : Fin (n + 1), IsQuantile (fun i => Int.fract (u i)) w (Int.fract (x - ∑ i, Int.fract (u i) * w i + 1 / 2)) (Int.fract (u (su i))) ∧
      embedding x u w su = Int.fract (Int.fract (u (su ⟨min ((i : ℕ) + 1) n, by omega⟩)) - x) := by
  have e : ∑ i, Int.fract (u (su i)) * w (su i) = ∑ i, Int.fract (u i) * w i := Equiv.sum_comp su fun i => Int.fract (u i) * w i
  obtain ⟨q, hqe⟩ : ∃ q, q = Int.fract (x - ∑ i, Int.fract (u i) * w i + 1 / 2) := ⟨_, rfl⟩
  rw [← hqe] at hq ⊢
  have hq0 : 0 < q := lt_of_le_of_ne (by rw [hqe]; exact Int.fract_nonneg _) (Ne.symm hq)
  obtain ⟨i, hi, hv⟩ := C57_embedding_next_atom_partial (fun i => Int.fract (u (su i))) (fun i => w (su i)) hsu (fun i => hw _) (by rw [Equiv.sum_comp su w]; exact hsum) hq0
    (by rw [hqe]; exact (Int.fract_lt_one _).le)
  refine ⟨i, ?_, ?_⟩
  · have hs : ∀ t : K, ∑ j ∈ univ.filter (fun j : Fin (n + 1) => Int.fract (u (su j)) ≤ t), w (su j) = ∑ j ∈ univ.filter (fun j : Fin (n + 1) => Int.fract (u j) ≤ t), w j := by
      intro t
      rw [sum_filter, sum_filter]
      exact Equiv.sum_comp su fun j => if Int.fract (u j) ≤ t then w j else 0
    unfold IsQuantile at hi ⊢
    simp only [hs] at hi
    exact hi
  · unfold embedding
    simp only
    rw [e, ← hqe, hv]

/-- with a single atom the embedding is the documented one -/
theorem C57_embedding_dirac (x : K) (u w : Fin 1 → K) (su : Equiv.Perm (Fin 1)) : embedding x u w su = Int.fract (Int.fract (u 0) - x) := by
  unfold embedding quantile
  simp only
  congr 4
  exact Subsingleton.elim _ _

/-- each term of `linear_circular_ot` is the squared circular distance of the two embeddings -/
theorem min_abs_eq_circDist {a b : K} (ha : 0 ≤ a ∧ a < 1) (hb : 0 ≤ b ∧ b < 1) : min |a - b| (1 - |a - b|) = circDist a b := by
  rcases le_total a b with h | h
  · rw [circDist_of_le ha.1 h hb.2, abs_sub_comm, abs_of_nonneg (sub_nonneg.2 h)]
  · rw [circDist_comm, circDist_of_le hb.1 h ha.2, abs_of_nonneg (sub_nonneg.2 h)]

theorem linearCircularOt_eq {n m : ℕ} (u : Fin (n + 1) → K) (v : Fin (m + 1) → K) (uw : Fin (n + 1) → K) (vw : Fin (m + 1) → K) (su : Equiv.Perm (Fin (n + 1)))
    (sv : Equiv.Perm (Fin (m + 1))) : linearCircularOt u v uw vw su sv = (∑ g : Fin 100, circDist (embedding (grid g) u uw su) (embedding (grid g) v vw sv) ^ 2) / 100 := by
  unfold linearCircularOt
  simp only
  congr 1
  refine sum_congr rfl fun g _ => ?_
  rw [min_abs_eq_circDist]
  · exact ⟨Int.fract_nonneg _, Int.fract_lt_one _⟩
  · exact ⟨Int.fract_nonneg _, Int.fract_lt_one _⟩

/-- **C57**.  `linear_circular_ot` is a mean of squared circular distances between the embeddings of its two arguments: non-negative, at most `1/4`, symmetric, zero on equal arguments,
and its square root satisfies the triangle inequality in the form `W(u,v) ≤ 2 (W(u,r) + W(r,v))`. -/
theorem C57_linear_circular_ot_semimetric {n m k : ℕ} (u : Fin (n + 1) → K) (v : Fin (m + 1) → K) (r : Fin (k + 1) → K) (uw : Fin (n + 1) → K) (vw : Fin (m + 1) → K)
    (rw' : Fin (k + 1) → K) (su : Equiv.Perm (Fin (n + 1))) (sv : Equiv.Perm (Fin (m + 1))) (sr : Equiv.Perm (Fin (k + 1))) :
    0 ≤ linearCircularOt u v uw vw su sv ∧ linearCircularOt u v uw vw su sv ≤ 1 / 4 ∧ linearCircularOt u v uw vw su sv = linearCircularOt v u vw uw sv su ∧
      linearCircularOt u u uw uw su su = 0 ∧ linearCircularOt u v uw vw su sv ≤ 2 * (linearCircularOt u r uw rw' su sr + linearCircularOt r v rw' vw sr sv) := by
  simp only [linearCircularOt_eq]
  have hhalf : ∀ x y : K, circDist x y ≤ 1 / 2 := by
    intro x y
    unfold circDist
    rcases le_total (Int.fract (x - y)) (1 / 2) with h | h
    · exact (min_le_left _ _).trans h
    · exact (min_le_right _ _).trans (by linarith)
  refine ⟨?_, ?_, ?_, ?_, ?_⟩
  · exact div_nonneg (sum_nonneg fun g _ => sq_nonneg _) (by norm_num)
  · have : ∑ g : Fin 100, circDist (embedding (grid g) u uw su) (embedding (grid g) v vw sv) ^ 2 ≤ ∑ g : Fin 100, (1 / 2) ^ 2 :=
      sum_le_sum fun g _ => pow_le_pow_left₀ (circDist_nonneg _ _) (hhalf _ _) 2
    rw [sum_const, card_univ, Fintype.card_fin, nsmul_eq_mul] at this
    rw [div_le_iff₀ (by norm_num)]
    refine this.trans_eq ?_
    norm_num
  · exact congrArg (· / 100) (sum_congr rfl fun g _ => by rw [circDist_comm])
  · rw [sum_eq_zero, zero_div]
    intro g _
    simp [circDist]
  · rw [← add_div, ← mul_div_assoc, ← sum_add_distrib, mul_sum]
    refine div_le_div_of_nonneg_right (sum_le_sum fun g _ => ?_) (by norm_num)
    have h1 := circDist_triangle (embedding (grid g) u uw su) (embedding (grid g) r rw' sr) (embedding (grid g) v vw sv)
    have h0 := circDist_nonneg (embedding (grid g) u uw su) (embedding (grid g) v vw sv)
    nlinarith [sq_nonneg (circDist (embedding (grid g) u uw su) (embedding (grid g) r rw' sr) - circDist (embedding (grid g) r rw' sr) (embedding (grid g) v vw sv))]

/-- **C57**.  The embedding, hence `linear_circular_ot`, does not depend on the order of the samples nor on integer shifts of the values (distinct points of the circle). -/
theorem C57_embedding_order {n : ℕ} (x : K) (u w : Fin (n + 1) → K) (z : Fin (n + 1) → ℤ) (τ su su' : Equiv.Perm (Fin (n + 1))) (hsu : StrictMono fun i => Int.fract (u (su i)))
    (hsu' : StrictMono fun i => Int.fract (u (τ (su' i)) + z (τ (su' i)))) :
    embedding x (fun i => u (τ i) + z (τ i)) (fun i => w (τ i)) su' = embedding x u w su := by
  have hf : ∀ i, Int.fract (u i + z i) = Int.fract (u i) := fun i => Int.fract_add_intCast _ _
  simp only [hf] at hsu'
  have hinj : Function.Injective fun i => Int.fract (u i) := by
    intro a b hab
    have := hsu.injective (a₁ := su.symm a) (a₂ := su.symm b) (by simpa using hab)
    exact su.symm.injective this
  have he : ∀ i, τ (su' i) = su i := by
    -- two strictly increasing enumerations of the same set agree
    have hrange : Set.range (fun i => Int.fract (u (τ (su' i)))) = Set.range fun i => Int.fract (u (su i)) := by
      ext t
      constructor
      · rintro ⟨i, rfl⟩; exact ⟨su.symm (τ (su' i)), by simp⟩
      · rintro ⟨i, rfl⟩; exact ⟨su'.symm (τ.symm (su i)), by simp⟩
    have heq := StrictMono.range_inj hsu' hsu |>.1 hrange
    intro i
    exact hinj (congrFun heq i)
  unfold embedding
  simp only [hf, he]

end field

/-- **C55**, counterexample.  One atom at `2/5` and one at `4/5`: the distance is `2/5`, `wasserstein1_circle` returns `1/5`, and `2/5` with the arguments exchanged.  The piece of the
circle before the first sample is left out of the integral and of the median. -/
theorem C55_wasserstein1_circle_refuted :
    circDist (2 / 5 : ℚ) (4 / 5) = 2 / 5 ∧
      wasserstein1Circle (n := 0) (m := 0) (fun _ => (2 / 5 : ℚ)) (fun _ => 4 / 5) (fun _ => 1) (fun _ => 1) 1 1 1 (Equiv.swap 0 1) = 1 / 5 ∧
      wasserstein1Circle (n := 0) (m := 0) (fun _ => (4 / 5 : ℚ)) (fun _ => 2 / 5) (fun _ => 1) (fun _ => 1) 1 1 (Equiv.swap 0 1) 1 = 2 / 5 := by
  refine ⟨?_, ?_, ?_⟩
  · rw [circDist_of_le (by norm_num) (by norm_num) (by norm_num)]; norm_num
  · decide +kernel
  · decide +kernel

/-- the permutations used in the counterexample are the ones found by the sorts -/
example : (Monotone fun k => (Fin.append (fun _ : Fin 1 => Int.fract (2 / 5 : ℚ)) (fun _ : Fin 1 => Int.fract (4 / 5 : ℚ)) : Fin 2 → ℚ) k) ∧
    Monotone fun l => cdfs (N := 1) (fun k => (Fin.append (fun _ : Fin 1 => (1 : ℚ)) (fun _ : Fin 1 => -1) : Fin 2 → ℚ) k) (Equiv.swap 0 1 l) := by
  constructor <;> decide +kernel

/-- a case that meets the hypotheses of C55: atoms `0, 1/2` against `1/4, 3/4` with unequal weights, value `3/8` -/
example : IsLeast {c | ∃ P, IsCoupling ![(1 / 4 : ℚ), 3 / 4] ![3 / 4, 1 / 4] P ∧ cost (fun i j => circDist (![(0 : ℚ), 1 / 2] i) (![(1 / 8 : ℚ), 3 / 4] j)) P = c}
    (wasserstein1Circle (n := 1) (m := 1) ![(0 : ℚ), 1 / 2] ![1 / 8, 3 / 4] ![1 / 4, 3 / 4] ![3 / 4, 1 / 4] 1 1 (Equiv.swap 1 2) (Equiv.swap 0 1 * Equiv.swap 1 3)) := by
  refine C55_wasserstein1_circle_partial _ _ _ _ _ _ _ _ (by decide +kernel) (by decide +kernel) (by decide +kernel) (by decide +kernel) ?_ ?_ (Or.inl ⟨0, by decide +kernel⟩)
  · decide +kernel
  · decide +kernel

/-! ### C56 -/

theorem semidiscrete_eq {n : ℕ} (u w : Fin (n + 1) → ℝ) (su : Equiv.Perm (Fin (n + 1))) (hw1 : ∑ i, w i = 1) :
    semidiscrete u w su = monoValue (fun i => Int.fract (u (su i))) w := by
  rw [monoValue_eq _ _ hw1]
  unfold semidiscrete
  simp only
  have e : ∀ i : Fin (n + 1), ∑ l ∈ Iio i, w l = cum w i := by
    intro i
    unfold cum
    have h : ∀ l ∈ Iio i, w l = ext 0 w l := fun l _ => (ext_val 0 w l).symm
    rw [sum_congr rfl h]
    refine sum_bij (fun l _ => (l : ℕ)) (fun l hl => mem_range.2 (Fin.lt_def.1 (mem_Iio.1 hl))) (fun a _ b _ h => Fin.ext h) (fun r hr => ?_) (fun _ _ => rfl)
    have := mem_range.1 hr
    exact ⟨⟨r, by omega⟩, mem_Iio.2 this, rfl⟩
  simp only [e]

/-- **C56** (partial).  `semidiscrete_wasserstein2_unif_circle` is the least cost, for the squared circular distance, of a transport plan between the weighted samples and the uniform
measure of the circle, when sorting the samples does not change the list of weights: the samples are given in increasing order modulo 1, or the weights are equal.

Missing: unsorted samples with unequal weights, for which the claim is false, see `C56_semidiscrete_refuted`. -/
theorem C56_semidiscrete_partial {n : ℕ} (u w : Fin (n + 1) → ℝ) (su : Equiv.Perm (Fin (n + 1))) (hsu : Monotone fun i => Int.fract (u (su i))) (hw : ∀ i, 0 ≤ w i)
    (hw1 : ∑ i, w i = 1) (hperm : ∀ i, w (su i) = w i) :
    IsLeast {c | ∃ p, IsSemiPlan w p ∧ semiCost u p = c} (semidiscrete u w su) := by
  rw [semidiscrete_eq u w su hw1]
  have h := semi_isLeast (fun i => Int.fract (u (su i))) w hw hw1 hsu (fun i => Int.fract_nonneg _) (fun i => Int.fract_lt_one _)
  have e : {c | ∃ p, IsSemiPlan w p ∧ semiCost (fun i => Int.fract (u (su i))) p = c} = {c | ∃ p, IsSemiPlan w p ∧ semiCost u p = c} := by
    have hcd : ∀ a b : ℝ, circDist (Int.fract a) b = circDist a b := fun a b => by rw [← circDist_fract (Int.fract a) b, Int.fract_fract, circDist_fract]
    ext c
    constructor
    · rintro ⟨p, hp, rfl⟩
      refine ⟨fun i => p (su.symm i), ⟨fun i => hp.nonneg _, fun i => hp.periodic _, fun i => hp.integrable _, fun y => ?_, fun i => ?_⟩, ?_⟩
      · rw [Equiv.sum_comp su.symm fun i => p i y]; exact hp.sum_one y
      · rw [hp.mass, ← hperm, Equiv.apply_symm_apply]
      · unfold semiCost
        rw [← Equiv.sum_comp su]
        simp only [Equiv.symm_apply_apply, hcd]
    · rintro ⟨p, hp, rfl⟩
      refine ⟨fun i => p (su i), ⟨fun i => hp.nonneg _, fun i => hp.periodic _, fun i => hp.integrable _, fun y => ?_, fun i => ?_⟩, ?_⟩
      · rw [Equiv.sum_comp su fun i => p i y]; exact hp.sum_one y
      · rw [hp.mass, hperm]
      · unfold semiCost
        rw [← Equiv.sum_comp su fun i => ∫ y in (0 : ℝ)..1, circDist (u i) y ^ 2 * p i y]
        simp only [hcd]
  rw [← e]
  exact h

/-- **C56** for equal weights: the value does not depend on the order of the samples -/
theorem C56_semidiscrete_order_uniform {n : ℕ} (u : Fin (n + 1) → ℝ) (τ su su' : Equiv.Perm (Fin (n + 1))) (hsu : Monotone fun i => Int.fract (u (su i)))
    (hsu' : Monotone fun i => Int.fract (u (τ (su' i)))) :
    semidiscrete (fun i => u (τ i)) (fun _ => 1 / ((n : ℝ) + 1)) su' = semidiscrete u (fun _ => 1 / ((n : ℝ) + 1)) su := by
  have hpos : (0 : ℝ) < (n : ℝ) + 1 := by positivity
  have hw1 : ∑ _i : Fin (n + 1), 1 / ((n : ℝ) + 1) = 1 := by
    rw [sum_const, card_univ, Fintype.card_fin, nsmul_eq_mul]; push_cast; field_simp
  have h1 := C56_semidiscrete_partial u _ su hsu (fun _ => by positivity) hw1 (fun _ => rfl)
  have h2 := C56_semidiscrete_partial (fun i => u (τ i)) _ su' hsu' (fun _ => by positivity) hw1 (fun _ => rfl)
  refine h2.unique ?_
  have e : {c | ∃ p, IsSemiPlan (fun _ : Fin (n + 1) => 1 / ((n : ℝ) + 1)) p ∧ semiCost (fun i => u (τ i)) p = c} =
      {c | ∃ p, IsSemiPlan (fun _ : Fin (n + 1) => 1 / ((n : ℝ) + 1)) p ∧ semiCost u p = c} := by
    ext c
    constructor
    · rintro ⟨p, hp, rfl⟩
      refine ⟨fun i => p (τ.symm i), ⟨fun i => hp.nonneg _, fun i => hp.periodic _, fun i => hp.integrable _, fun y => ?_, fun i => hp.mass _⟩, ?_⟩
      · rw [Equiv.sum_comp τ.symm fun i => p i y]; exact hp.sum_one y
      · unfold semiCost
        rw [← Equiv.sum_comp τ]
        simp only [Equiv.symm_apply_apply]
    · rintro ⟨p, hp, rfl⟩
      refine ⟨fun i => p (τ i), ⟨fun i => hp.nonneg _, fun i => hp.periodic _, fun i => hp.integrable _, fun y => ?_, fun i => hp.mass _⟩, ?_⟩
      · rw [Equiv.sum_comp τ fun i => p i y]; exact hp.sum_one y
      · unfold semiCost
        rw [← Equiv.sum_comp τ fun i => ∫ y in (0 : ℝ)..1, circDist (u i) y ^ 2 * p i y]
  rw [e]
  exact h1

/-- **C56**, counterexample.  The samples `1/4, 0, 1/2` with weights `1/2, 1/4, 1/4`, and the same pairs in increasing order, give different values: the values are sorted, the weights are not. -/
theorem C56_semidiscrete_refuted :
    semidiscrete ![(1 / 4 : ℚ), 0, 1 / 2] ![1 / 2, 1 / 4, 1 / 4] (Equiv.swap 0 1) ≠ semidiscrete ![(0 : ℚ), 1 / 4, 1 / 2] ![1 / 4, 1 / 2, 1 / 4] 1 := by
  decide +kernel

/-- the permutations used in the counterexample sort the samples -/
example : (Monotone fun i => Int.fract (![(1 / 4 : ℚ), 0, 1 / 2] (Equiv.swap 0 1 i))) ∧ Monotone fun i => Int.fract (![(0 : ℚ), 1 / 4, 1 / 2] ((1 : Equiv.Perm (Fin 3)) i)) := by
  constructor <;> decide +kernel

/-- a case that meets the hypotheses of C56: sorted samples with unequal weights -/
example : IsLeast {c | ∃ p, IsSemiPlan ![(1 / 4 : ℝ), 3 / 4] p ∧ semiCost ![0, 1 / 2] p = c} (semidiscrete ![0, 1 / 2] ![1 / 4, 3 / 4] 1) := by
  have f0 : Int.fract (0 : ℝ) = 0 := Int.fract_zero
  have f1 : Int.fract (1 / 2 : ℝ) = 1 / 2 := Int.fract_eq_self.2 ⟨by norm_num, by norm_num⟩
  refine C56_semidiscrete_partial _ _ _ ?_ ?_ ?_ (fun _ => rfl)
  · intro i j h
    fin_cases i <;> fin_cases j <;> simp_all [-one_div]
  · intro i; fin_cases i <;> norm_num
  · rw [Fin.sum_univ_two]; norm_num

/-- **C57**, counterexample.  Atoms `0` and `1/2` with equal weights, evaluated at `x = 0`: the level is `1/4`, whose quantile is `0`, so the documented embedding is `0`; the function returns `1/2`. -/
theorem C57_embedding_refuted :
    IsQuantile ![(0 : ℚ), 1 / 2] ![1 / 2, 1 / 2] (0 - (0 * (1 / 2) + 1 / 2 * (1 / 2)) + 1 / 2) 0 ∧ embedding (0 : ℚ) ![0, 1 / 2] ![1 / 2, 1 / 2] 1 = 1 / 2 := by
  refine ⟨⟨by decide +kernel, fun t ht => ?_⟩, by decide +kernel⟩
  by_contra hcon
  have h0 : ¬ (0 : ℚ) ≤ t := hcon
  have h1 : ¬ (1 / 2 : ℚ) ≤ t := fun h => h0 (by linarith)
  have : (univ.filter fun i : Fin 2 => ![(0 : ℚ), 1 / 2] i ≤ t) = ∅ := by
    ext i
    fin_cases i
    · simpa using h0
    · simpa using h1
  rw [Set.mem_ofPred_eq, this, sum_empty] at ht
  norm_num at ht

/-- a case that meets the hypotheses of the C57 theorems -/
example : ∃ i : Fin 2, IsQuantile ![(0 : ℚ), 1 / 2] ![1 / 4, 3 / 4] (1 / 8) (![(0 : ℚ), 1 / 2] i) ∧
    quantile (1 / 8) (paddedCdf ![(1 / 4 : ℚ), 3 / 4]) ![0, 1 / 2] = ![(0 : ℚ), 1 / 2] ⟨min ((i : ℕ) + 1) 1, by omega⟩ :=
  C57_embedding_next_atom_partial _ _ (by decide +kernel) (by decide +kernel) (by decide +kernel) (by norm_num) (by norm_num)

end POT.Props
