import Verif.Model.LpDual
import Verif.Lemmas.Transport
import Mathlib.Tactic.FinCases
import Mathlib.Tactic.LinearCombination
import Mathlib.Data.Fin.VecNotation
import Mathlib.Algebra.BigOperators.Fin
import Mathlib.Data.Rat.Defs
import Mathlib.Algebra.Order.Ring.Rat

/-! # C15 – C18: zero weights, dual potentials and gradients of the exact solver -/

set_option linter.unusedSectionVars false

namespace POT.Props

open Finset LpDual Spec

variable {R : Type*} [Field R] [LinearOrder R] [IsStrictOrderedRing R]
variable {I J : Type*} [Fintype I] [Fintype J]

/-! ## C15 -/

/-- sum over the active indices of a function vanishing elsewhere -/
theorem sum_active {w : I → R} {f : I → R} (h : ∀ i, w i = 0 → f i = 0) :
    ∑ i : Active w, f i = ∑ i, f i := by
  classical
  rw [← Finset.sum_subtype (univ.filter fun i => w i ≠ 0) (by simp) f]
  refine Finset.sum_subset (filter_subset _ _) fun i _ hi => ?_
  simp only [mem_filter, mem_univ, true_and, not_not] at hi
  exact h i hi

theorem inflatePlan_coe (a : I → R) (b : J → R) (G : Active a → Active b → R) (i : Active a) (j : Active b) :
    inflatePlan a b G i j = G i j := by
  unfold inflatePlan; rw [dif_pos ⟨i.2, j.2⟩]

theorem inflatePlan_zero (a : I → R) (b : J → R) (G : Active a → Active b → R) {i : I} {j : J}
    (h : a i = 0 ∨ b j = 0) : inflatePlan a b G i j = 0 := by
  unfold inflatePlan; rw [dif_neg]; rintro ⟨h1, h2⟩; rcases h with h | h <;> contradiction

/-- C15. Inflating a coupling of the non-zero weights gives a coupling of the original weights. -/
theorem C15_inflate_coupling (a : I → R) (b : J → R) (G : Active a → Active b → R)
    (hG : IsCoupling (subWeights a) (subWeights b) G) : IsCoupling a b (inflatePlan a b G) where
  nonneg i j := by
    unfold inflatePlan; split_ifs with h
    · exact hG.nonneg _ _
    · exact le_rfl
  row i := by
    by_cases hi : a i = 0
    · rw [hi]; exact sum_eq_zero fun j _ => inflatePlan_zero a b G (Or.inl hi)
    · rw [← sum_active (w := b) fun j hj => inflatePlan_zero a b G (Or.inr hj)]
      rw [← show subWeights a ⟨i, hi⟩ = a i from rfl, ← hG.row ⟨i, hi⟩]
      exact sum_congr rfl fun j _ => inflatePlan_coe a b G ⟨i, hi⟩ j
  col j := by
    by_cases hj : b j = 0
    · rw [hj]; exact sum_eq_zero fun i _ => inflatePlan_zero a b G (Or.inr hj)
    · rw [← sum_active (w := a) fun i hi => inflatePlan_zero a b G (Or.inl hi)]
      rw [← show subWeights b ⟨j, hj⟩ = b j from rfl, ← hG.col ⟨j, hj⟩]
      exact sum_congr rfl fun i _ => inflatePlan_coe a b G i ⟨j, hj⟩

/-- C15. Inflating keeps the cost. -/
theorem C15_inflate_cost (a : I → R) (b : J → R) (M : I → J → R) (G : Active a → Active b → R) :
    cost M (inflatePlan a b G) = cost (subMatrix a b M) G := by
  unfold cost
  rw [← sum_active (w := a) fun i hi => sum_eq_zero fun j _ => by
    rw [inflatePlan_zero a b G (Or.inl hi), zero_mul]]
  refine sum_congr rfl fun i _ => ?_
  rw [← sum_active (w := b) fun j hj => by rw [inflatePlan_zero a b G (Or.inr hj), zero_mul]]
  refine sum_congr rfl fun j _ => ?_
  rw [inflatePlan_coe]; rfl

/-- A coupling puts nothing on zero-weight rows and columns. -/
theorem coupling_zero {a : I → R} {b : J → R} {G : I → J → R} (hG : IsCoupling a b G) {i : I} {j : J}
    (h : a i = 0 ∨ b j = 0) : G i j = 0 := by
  refine le_antisymm ?_ (hG.nonneg i j)
  rcases h with h | h
  · exact h ▸ hG.le_left i j
  · exact h ▸ hG.le_right i j

/-- C15. If the plan of the reduced problem is optimal there, the inflated plan is optimal for the original problem. -/
theorem C15_inflate_optimal (a : I → R) (b : J → R) (M : I → J → R) (G : Active a → Active b → R)
    (hG : IsOptimal (subWeights a) (subWeights b) (subMatrix a b M) G) :
    IsOptimal a b M (inflatePlan a b G) := by
  refine ⟨C15_inflate_coupling a b G hG.1, fun G' hG' => ?_⟩
  have hr : IsCoupling (subWeights a) (subWeights b) (fun i j => G' i j : Active a → Active b → R) := by
    refine ⟨fun i j => hG'.nonneg _ _, fun i => ?_, fun j => ?_⟩
    · rw [sum_active (w := b) (f := fun j => G' i j) fun j hj => coupling_zero hG' (Or.inr hj), hG'.row]; rfl
    · rw [sum_active (w := a) (f := fun i => G' i j) fun i hi => coupling_zero hG' (Or.inl hi), hG'.col]; rfl
  have he : G' = inflatePlan a b (fun i j => G' i j) := by
    funext i j
    unfold inflatePlan
    split_ifs with h
    · rfl
    · refine coupling_zero hG' ?_
      by_contra hc
      push Not at hc
      exact h hc
  rw [C15_inflate_cost, he, C15_inflate_cost]
  exact hG.2 _ hr

/-- non-vacuity of C15: weights `(1, 0)` and `(0, 1)`: one active row, one active column. -/
example : IsOptimal (subWeights (![1, 0] : Fin 2 → ℚ)) (subWeights (![0, 1] : Fin 2 → ℚ))
    (subMatrix _ _ fun i j => ((i : ℕ) : ℚ) + (j : ℕ)) (fun _ _ => 1) := by
  have h1 : ∀ f : Active (![1, 0] : Fin 2 → ℚ) → ℚ, ∑ i, f i = f ⟨0, by simp⟩ := by
    intro f
    refine Fintype.sum_eq_single _ fun i hi => ?_
    obtain ⟨i, h⟩ := i
    fin_cases i
    · exact absurd rfl hi
    · simp at h
  have h2 : ∀ f : Active (![0, 1] : Fin 2 → ℚ) → ℚ, ∑ i, f i = f ⟨1, by simp⟩ := by
    intro f
    refine Fintype.sum_eq_single _ fun i hi => ?_
    obtain ⟨i, h⟩ := i
    fin_cases i
    · simp at h
    · exact absurd rfl hi
  refine ⟨⟨fun _ _ => zero_le_one, fun i => ?_, fun j => ?_⟩, fun G' hG' => ?_⟩
  · rw [h2]; obtain ⟨i, h⟩ := i; fin_cases i
    · simp [subWeights]
    · simp at h
  · rw [h1]; obtain ⟨i, h⟩ := j; fin_cases i
    · simp at h
    · simp [subWeights]
  · have := hG'.row ⟨0, by simp⟩
    rw [h2] at this
    simp only [cost, h1, h2, this]
    simp [subWeights, subMatrix]

/-! ## C16 -/

/-- C16. Centering leaves every sum `α_i + β_j` unchanged (so also dual feasibility and tightness for every cost matrix). -/
theorem C16_center_sums (α : I → R) (β : J → R) (a : I → R) (b : J → R) (i : I) (j : J) :
    (centerOtDual α β a b).1 i + (centerOtDual α β a b).2 j = α i + β j := by
  simp only [centerOtDual]; ring

/-- C16. For equal masses the dual objective is unchanged. -/
theorem C16_center_value (α : I → R) (β : J → R) (a : I → R) (b : J → R) (hs : ∑ i, a i = ∑ j, b j) :
    dualValue a b (centerOtDual α β a b).1 (centerOtDual α β a b).2 = dualValue a b α β := by
  simp only [centerOtDual, dualValue, add_mul, sub_mul, sum_add_distrib, sum_sub_distrib, ← mul_sum, hs]
  ring

/-- C16. Afterwards both halves of the dual objective agree. -/
theorem C16_center_balanced (α : I → R) (β : J → R) (a : I → R) (b : J → R)
    (hd : ∑ i, a i + ∑ j, b j ≠ 0) :
    ∑ i, a i * (centerOtDual α β a b).1 i = ∑ j, b j * (centerOtDual α β a b).2 j := by
  simp only [centerOtDual, mul_add, mul_sub, sum_add_distrib, sum_sub_distrib, ← sum_mul]
  have := div_mul_cancel₀ (∑ j, b j * β j - ∑ i, a i * α i) hd
  linear_combination this

/-- non-vacuity of C16: potentials that are not centred are changed by the function. -/
example : (centerOtDual (![2, 0] : Fin 2 → ℚ) (![0] : Fin 1 → ℚ) ![1, 1] ![2]).1 0 = 3 / 2 ∧
    ∑ i, (![1, 1] : Fin 2 → ℚ) i = ∑ j, (![2] : Fin 1 → ℚ) j := by
  simp [centerOtDual, Fin.sum_univ_succ]; norm_num

/-! ## C17 -/

/-- C17. If the potentials satisfy the dual constraints between points of positive weight, the repaired potentials satisfy
all of them. -/
theorem C17_repair_feasible [Nonempty I] [Nonempty J] (α : I → R) (β : J → R) (a : I → R) (b : J → R)
    (M : I → J → R) (h : ∀ i j, a i ≠ 0 → b j ≠ 0 → α i + β j ≤ M i j) :
    DualFeasible M (estimateDualNullWeights α β a b M).1 (estimateDualNullWeights α β a b M).2 := by
  intro i j
  unfold estimateDualNullWeights
  simp only
  rw [C16_center_sums]
  have h1 : α i + β j - M i j ≤ univ.sup' univ_nonempty fun j => α i + β j - M i j :=
    le_sup' (fun j => α i + β j - M i j) (mem_univ j)
  have h2 : α i + β j - M i j ≤ univ.sup' univ_nonempty fun i => α i + β j - M i j :=
    le_sup' (fun i => α i + β j - M i j) (mem_univ i)
  have h3 := le_max_left (univ.sup' univ_nonempty fun j => α i + β j - M i j) 0
  have h3' := le_max_right (univ.sup' univ_nonempty fun j => α i + β j - M i j) 0
  have h4 := le_max_left (univ.sup' univ_nonempty fun i => α i + β j - M i j) 0
  have h4' := le_max_right (univ.sup' univ_nonempty fun i => α i + β j - M i j) 0
  by_cases hi : a i = 0 <;> by_cases hj : b j = 0 <;> simp only [hi, hj, ne_eq, not_true_eq_false, if_false,
    not_false_eq_true, if_true, add_zero]
  · linarith
  · linarith
  · linarith
  · exact h i j hi hj

/-- C17. The repair does not change the dual objective. -/
theorem C17_repair_value [Nonempty I] [Nonempty J] (α : I → R) (β : J → R) (a : I → R) (b : J → R)
    (M : I → J → R) (hs : ∑ i, a i = ∑ j, b j) :
    dualValue a b (estimateDualNullWeights α β a b M).1 (estimateDualNullWeights α β a b M).2
      = dualValue a b α β := by
  unfold estimateDualNullWeights
  simp only
  rw [C16_center_value _ _ _ _ hs]
  unfold dualValue
  congr 1
  · refine sum_congr rfl fun i _ => ?_
    by_cases hi : a i = 0 <;> simp [hi]
  · refine sum_congr rfl fun j _ => ?_
    by_cases hj : b j = 0 <;> simp [hj]

theorem dualValue_inflate (a : I → R) (b : J → R) (u : Active a → R) (v : Active b → R) :
    dualValue a b (inflateVec a u) (inflateVec b v) = dualValue (subWeights a) (subWeights b) u v := by
  unfold dualValue
  congr 1
  · rw [← sum_active (w := a) fun i hi => by rw [hi, mul_zero]]
    refine sum_congr rfl fun i _ => ?_
    unfold inflateVec; rw [dif_pos i.2]; rfl
  · rw [← sum_active (w := b) fun i hi => by rw [hi, mul_zero]]
    refine sum_congr rfl fun i _ => ?_
    unfold inflateVec; rw [dif_pos i.2]; rfl

/-- C17. The repair only lowers constraint sums, does not touch pairs of points of non-zero weight, and leaves potentials that
are already feasible alone (all sums unchanged). -/
theorem C17_repair_conservative [Nonempty I] [Nonempty J] (α : I → R) (β : J → R) (a : I → R) (b : J → R)
    (M : I → J → R) (i : I) (j : J) :
    let r := estimateDualNullWeights α β a b M
    r.1 i + r.2 j ≤ α i + β j ∧
    (a i ≠ 0 → b j ≠ 0 → r.1 i + r.2 j = α i + β j) ∧
    (DualFeasible M α β → r.1 i + r.2 j = α i + β j) := by
  intro r
  have hr : r.1 i + r.2 j = _ := C16_center_sums _ _ a b i j
  rw [hr]
  refine ⟨?_, fun hi hj => by simp [hi, hj], fun hf => ?_⟩
  · have h3' := le_max_right (univ.sup' univ_nonempty fun j => α i + β j - M i j) 0
    have h4' := le_max_right (univ.sup' univ_nonempty fun i => α i + β j - M i j) 0
    split_ifs <;> linarith
  · have h1 : (univ.sup' univ_nonempty fun j => α i + β j - M i j) ≤ 0 :=
      sup'_le _ _ fun j _ => sub_nonpos.2 (hf i j)
    have h2 : (univ.sup' univ_nonempty fun i => α i + β j - M i j) ≤ 0 :=
      sup'_le _ _ fun i _ => sub_nonpos.2 (hf i j)
    rw [max_eq_right h1, max_eq_right h2]
    simp

/-- C17 (whole post-processing of `emd`). From an optimal plan and matching feasible potentials of the reduced problem, the potentials `emd`
reports are feasible for *all* pairs and certify the plan: dual value = cost of the returned plan. -/
theorem C17_emd_certificate [Nonempty I] [Nonempty J] (centerDual : Bool) (a : I → R) (b : J → R) (M : I → J → R)
    (G : Active a → Active b → R) (u : Active a → R) (v : Active b → R)
    (hG : IsCoupling (subWeights a) (subWeights b) G)
    (hd : DualFeasible (subMatrix a b M) u v)
    (hv : cost (subMatrix a b M) G = dualValue (subWeights a) (subWeights b) u v) :
    let r := emdPost centerDual a b M G u v
    IsOptimal a b M r.1 ∧ DualFeasible M r.2.1 r.2.2 ∧ cost M r.1 = dualValue a b r.2.1 r.2.2 := by
  classical
  have hs : ∑ i, a i = ∑ j, b j := (C15_inflate_coupling a b G hG).sum_eq
  have hopt : IsOptimal (subWeights a) (subWeights b) (subMatrix a b M) G :=
    ⟨hG, fun G' hG' => hv ▸ weak_duality hG' hd⟩
  intro r
  -- the potentials before the repair
  obtain ⟨uv, huv, hfe, hval⟩ : ∃ uv : (I → R) × (J → R),
      uv = (if centerDual then centerOtDual (inflateVec a u) (inflateVec b v) a b
        else (inflateVec a u, inflateVec b v)) ∧
      (∀ i j, a i ≠ 0 → b j ≠ 0 → uv.1 i + uv.2 j ≤ M i j) ∧
      dualValue a b uv.1 uv.2 = dualValue (subWeights a) (subWeights b) u v := by
    refine ⟨_, rfl, ?_, ?_⟩
    · intro i j hi hj
      have : inflateVec a u i + inflateVec b v j ≤ M i j := by
        unfold inflateVec; rw [dif_pos hi, dif_pos hj]; exact hd ⟨i, hi⟩ ⟨j, hj⟩
      split_ifs
      · rw [C16_center_sums]; exact this
      · exact this
    · split_ifs
      · rw [C16_center_value _ _ _ _ hs, dualValue_inflate]
      · rw [dualValue_inflate]
  have hr : r = (inflatePlan a b G,
      (if (∃ i, a i = 0) ∨ (∃ j, b j = 0) then estimateDualNullWeights uv.1 uv.2 a b M else uv).1,
      (if (∃ i, a i = 0) ∨ (∃ j, b j = 0) then estimateDualNullWeights uv.1 uv.2 a b M else uv).2) := by
    rw [huv]; rfl
  rw [hr]
  refine ⟨C15_inflate_optimal a b M G hopt, ?_, ?_⟩
  · dsimp only
    split_ifs with h0
    · exact C17_repair_feasible _ _ _ _ _ hfe
    · push Not at h0
      exact fun i j => hfe i j (h0.1 i) (h0.2 j)
  · dsimp only
    rw [C15_inflate_cost, hv]
    split_ifs with h0
    · rw [C17_repair_value _ _ _ _ _ hs, hval]
    · rw [hval]

/-- non-vacuity of C17: a zero-weight source whose inflated potential `0` violates the constraint. -/
example : (∀ i j, (![1, 0] : Fin 2 → ℚ) i ≠ 0 → (![1] : Fin 1 → ℚ) j ≠ 0 →
      (![0, 0] : Fin 2 → ℚ) i + (![3] : Fin 1 → ℚ) j ≤ (![![3], ![1]] : Fin 2 → Fin 1 → ℚ) i j) ∧
    ¬ DualFeasible (![![3], ![1]] : Fin 2 → Fin 1 → ℚ) ![0, 0] ![3] := by
  constructor
  · intro i j hi _
    fin_cases i <;> fin_cases j <;> simp_all
  · intro h
    have := h 1 0
    norm_num at this

/-! ## C18 -/

/-- C18. Let `(G, u, v)` be what the exact solver returns (a coupling with feasible potentials of the same value). For any weights
`a', b'` with the same total masses, any coupling of them costs at least `value + ⟨∂a, a'-a⟩ + ⟨∂b, b'-b⟩`, where `∂a, ∂b` are
the gradients `emd2` attaches. -/
theorem C18_emd2_subgradient [Nonempty I] [Nonempty J] {a a' : I → R} {b b' : J → R} {M G G' : I → J → R}
    {u : I → R} {v : J → R}
    (hd : DualFeasible M u v) (hv : cost M G = dualValue a b u v)
    (hG' : IsCoupling a' b' G') (hsa : ∑ i, a' i = ∑ i, a i) (hsb : ∑ j, b' j = ∑ j, b j) :
    cost M G + ∑ i, (emd2Grad u v).1 i * (a' i - a i) + ∑ j, (emd2Grad u v).2 j * (b' j - b j)
      ≤ cost M G' := by
  have h := weak_duality hG' hd
  have e1 : ∑ i, (emd2Grad u v).1 i * (a' i - a i) = ∑ i, u i * a' i - ∑ i, u i * a i := by
    simp only [emd2Grad, sub_mul, sum_sub_distrib, ← mul_sum, mul_sub, hsa]; ring
  have e2 : ∑ j, (emd2Grad u v).2 j * (b' j - b j) = ∑ j, v j * b' j - ∑ j, v j * b j := by
    simp only [emd2Grad, sub_mul, sum_sub_distrib, ← mul_sum, mul_sub, hsb]; ring
  rw [e1, e2, hv]
  unfold dualValue at *
  linarith

/-- C18. The gradients are centred: each sums to zero, and they differ from the potentials by a constant only. -/
theorem C18_emd2_grad_centred [Nonempty I] [Nonempty J] (u : I → R) (v : J → R) :
    ∑ i, (emd2Grad u v).1 i = 0 ∧ ∑ j, (emd2Grad u v).2 j = 0 ∧
    (∀ i i', (emd2Grad u v).1 i - (emd2Grad u v).1 i' = u i - u i') ∧
    (∀ j j', (emd2Grad u v).2 j - (emd2Grad u v).2 j' = v j - v j') := by
  have hI : (Fintype.card I : R) ≠ 0 := Nat.cast_ne_zero.2 Fintype.card_ne_zero
  have hJ : (Fintype.card J : R) ≠ 0 := Nat.cast_ne_zero.2 Fintype.card_ne_zero
  simp only [emd2Grad, sum_sub_distrib, sum_const, card_univ, nsmul_eq_mul]
  refine ⟨?_, ?_, fun i i' => by ring, fun j j' => by ring⟩
  · rw [mul_div_cancel₀ _ hI, sub_self]
  · rw [mul_div_cancel₀ _ hJ, sub_self]

/-- C18. The plan is a supergradient of the optimal value with respect to the cost matrix: an optimal plan for `M'` costs at
most `value + ⟨G, M' - M⟩`. -/
theorem C18_emd2_supergradient {a : I → R} {b : J → R} {M M' G G' : I → J → R}
    (hG : IsOptimal a b M G) (hG' : IsOptimal a b M' G') :
    cost M' G' ≤ cost M G + ∑ i, ∑ j, G i j * (M' i j - M i j) := by
  refine (hG'.2 G hG.1).trans (le_of_eq ?_)
  unfold cost
  simp only [mul_sub, sum_sub_distrib]
  ring

/-- Boundary of C18: when `a'` and `b'` are balanced but their total mass differs from that of `a, b`, the centred gradients are *not*
subgradients: one point each, cost `1`, mass `1`, `u = 1`, `v = 0`: the gradients are `0` but mass `1/2` costs `1/2 < 1`. -/
theorem C18_mass_change_counterexample :
    ∃ (a a' b b' u v : Fin 1 → ℚ) (M G G' : Fin 1 → Fin 1 → ℚ),
      IsOptimal a b M G ∧ DualFeasible M u v ∧ cost M G = dualValue a b u v ∧ IsCoupling a' b' G' ∧
      cost M G' < cost M G + ∑ i, (emd2Grad u v).1 i * (a' i - a i) + ∑ j, (emd2Grad u v).2 j * (b' j - b j) := by
  have hd : DualFeasible (fun _ _ => 1 : Fin 1 → Fin 1 → ℚ) (fun _ => 1) (fun _ => 0) := by
    intro i j; norm_num
  have hc : IsCoupling (fun _ => 1) (fun _ => 1) (fun _ _ => 1 : Fin 1 → Fin 1 → ℚ) :=
    ⟨by intros; norm_num, by simp, by simp⟩
  refine ⟨fun _ => 1, fun _ => 1/2, fun _ => 1, fun _ => 1/2, fun _ => 1, fun _ => 0, fun _ _ => 1,
    fun _ _ => 1, fun _ _ => 1/2, ?_, hd, ?_, ⟨?_, ?_, ?_⟩, ?_⟩
  · exact isOptimal_of_dual hc hd (by intros; norm_num)
  · simp [cost, dualValue]
  · intros; norm_num
  · simp
  · simp
  · simp [cost, emd2Grad]; norm_num

/-- non-vacuity of C18: a 2 × 1 problem with feasible tight potentials and different weights of the same mass. -/
example : DualFeasible (![![1], ![3]] : Fin 2 → Fin 1 → ℚ) ![1, 3] ![0] ∧
    IsCoupling (![1/4, 3/4] : Fin 2 → ℚ) (![1] : Fin 1 → ℚ) ![![1/4], ![3/4]] := by
  refine ⟨?_, ?_, ?_, ?_⟩
  · intro i j; fin_cases i <;> fin_cases j <;> norm_num
  · intro i j; fin_cases i <;> fin_cases j <;> norm_num
  · intro i; fin_cases i <;> simp
  · intro j; fin_cases j; simp [Fin.sum_univ_succ]; norm_num

end POT.Props
