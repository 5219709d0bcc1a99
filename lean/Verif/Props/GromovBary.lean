import Verif.Model.GromovBary
import Verif.Spec.Gromov
import Mathlib.Tactic.LinearCombination
import Mathlib.Data.Fin.VecNotation
import Mathlib.Algebra.BigOperators.Fin
import Mathlib.Tactic.FinCases

/-! # C41: the barycenter updates minimise the barycenter objective -/

set_option linter.unusedSectionVars false

namespace POT.Props

open Finset GromovBary Spec

section
variable {R : Type*} [Field R] [LinearOrder R] [IsStrictOrderedRing R]
variable {S : Type*} [Fintype S] {I : S → Type*} [∀ s, Fintype (I s)] {J : Type*} [Fintype J]

/-- The barycenter objective in the structure: `∑ λ_s GW(C_s, C, T_s)`. -/
def baryEnergy (L : R → R → R) (lam : S → R) (T : (s : S) → I s → J → R) (C : (s : S) → I s → I s → R) (X : J → J → R) : R :=
  ∑ s, lam s * gwEnergy L (C s) X (T s)

/-- The objective entry by entry. -/
theorem baryEnergy_entry (L : R → R → R) (lam : S → R) (T : (s : S) → I s → J → R) (C : (s : S) → I s → I s → R) (X : J → J → R) :
    baryEnergy L lam T C X = ∑ j, ∑ l, ∑ s, ∑ i, ∑ k, lam s * (T s i j * T s k l) * L (C s i k) (X j l) := by
  unfold baryEnergy gwEnergy
  have h1 : ∀ s, lam s * ∑ i, ∑ j, ∑ k, ∑ l, L (C s i k) (X j l) * T s i j * T s k l
      = ∑ j, ∑ l, ∑ i, ∑ k, lam s * (T s i j * T s k l) * L (C s i k) (X j l) := by
    intro s
    rw [mul_sum]
    have : ∀ i, lam s * ∑ j, ∑ k, ∑ l, L (C s i k) (X j l) * T s i j * T s k l
        = ∑ j, ∑ l, ∑ k, lam s * (T s i j * T s k l) * L (C s i k) (X j l) := by
      intro i
      rw [mul_sum]
      refine sum_congr rfl fun j _ => ?_
      rw [sum_comm, mul_sum]
      refine sum_congr rfl fun l _ => ?_
      rw [mul_sum]
      exact sum_congr rfl fun k _ => by ring
    simp only [this]
    rw [sum_comm]
    exact sum_congr rfl fun j _ => sum_comm
  simp only [h1]
  rw [sum_comm]
  exact sum_congr rfl fun j _ => sum_comm

/-- weights of an entry -/
theorem entry_weight (lam : S → R) (T : (s : S) → I s → J → R) (j l : J) :
    ∑ s, ∑ i, ∑ k, lam s * (T s i j * T s k l) = ∑ s, lam s * (margTarget T s j * margTarget T s l) := by
  refine sum_congr rfl fun s _ => ?_
  rw [margTarget, margTarget, sum_mul_sum]
  simp only [mul_sum]

theorem entry_num (lam : S → R) (T : (s : S) → I s → J → R) (C : (s : S) → I s → I s → R) (j l : J) :
    ∑ s, ∑ i, ∑ k, lam s * (T s i j * T s k l) * C s i k = structSum lam T C j l := by
  refine sum_congr rfl fun s _ => ?_
  rw [mul_sum, sum_comm]
  refine sum_congr rfl fun k _ => ?_
  rw [sum_mul, mul_sum]
  exact sum_congr rfl fun i _ => by ring

/-- If the total weight of an entry vanishes so does every single weight. -/
theorem entry_zero {lam : S → R} (hl : ∀ s, 0 ≤ lam s) {T : (s : S) → I s → J → R} (hT : ∀ s i j, 0 ≤ T s i j) {j l : J}
    (h : ∑ s, lam s * (margTarget T s j * margTarget T s l) = 0) (s : S) (i k : I s) :
    lam s * (T s i j * T s k l) = 0 := by
  rw [← entry_weight] at h
  have nn : ∀ s i k, 0 ≤ lam s * (T s i j * T s k l) := fun s i k => mul_nonneg (hl s) (mul_nonneg (hT s i j) (hT s k l))
  have e1 := (sum_eq_zero_iff_of_nonneg (fun s _ => sum_nonneg fun i _ => sum_nonneg fun k _ => nn s i k)).1 h s (mem_univ s)
  have e2 := (sum_eq_zero_iff_of_nonneg (fun i _ => sum_nonneg fun k _ => nn s i k)).1 e1 i (mem_univ i)
  exact (sum_eq_zero_iff_of_nonneg (fun k _ => nn s i k)).1 e2 k (mem_univ k)

theorem weight_nonneg {lam : S → R} (hl : ∀ s, 0 ≤ lam s) {T : (s : S) → I s → J → R} (hT : ∀ s i j, 0 ≤ T s i j) (j l : J) :
    0 ≤ ∑ s, lam s * (margTarget T s j * margTarget T s l) :=
  sum_nonneg fun s _ => mul_nonneg (hl s) (mul_nonneg (sum_nonneg fun i _ => hT s i j) (sum_nonneg fun i _ => hT s i l))

/-- C41, square loss, `target=True`. Exact excess of the objective of any structure over that of the update; zero weights allowed. -/
theorem C41_structure_square_excess (lam : S → R) (hl : ∀ s, 0 ≤ lam s) (T : (s : S) → I s → J → R) (hT : ∀ s i j, 0 ≤ T s i j)
    (C : (s : S) → I s → I s → R) (X : J → J → R) :
    baryEnergy sqLoss lam T C X = baryEnergy sqLoss lam T C (updateTarget2 lam T C)
      + ∑ j, ∑ l, (∑ s, lam s * ((∑ i, T s i j) * ∑ k, T s k l)) * (X j l - updateTarget2 lam T C j l) ^ 2 := by
  simp only [baryEnergy_entry, ← sum_add_distrib]
  refine sum_congr rfl fun j _ => sum_congr rfl fun l _ => ?_
  set W := ∑ s, lam s * (margTarget T s j * margTarget T s l) with hW
  set c := updateTarget2 lam T C j l with hc
  have hquad : ∀ x, ∑ s, ∑ i, ∑ k, lam s * (T s i j * T s k l) * sqLoss (C s i k) x
      = ∑ s, ∑ i, ∑ k, lam s * (T s i j * T s k l) * C s i k ^ 2 - 2 * x * structSum lam T C j l + x ^ 2 * W := by
    intro x
    rw [← entry_num, hW, ← entry_weight]
    simp only [mul_sum, ← sum_sub_distrib, ← sum_add_distrib]
    refine sum_congr rfl fun s _ => sum_congr rfl fun i _ => sum_congr rfl fun k _ => ?_
    unfold sqLoss; ring
  rw [hquad, hquad]
  have hWW : ∑ s, lam s * ((∑ i, T s i j) * ∑ k, T s k l) = W := rfl
  rw [hWW]
  have hstat : structSum lam T C j l = c * W := by
    by_cases h0 : W = 0
    · have hn : structSum lam T C j l = 0 := by
        rw [← entry_num]
        refine sum_eq_zero fun s _ => sum_eq_zero fun i _ => sum_eq_zero fun k _ => ?_
        rw [entry_zero hl hT h0 s i k, zero_mul]
      rw [hn, h0, mul_zero]
    · rw [hc]; simp only [updateTarget2, prod2, nanInv]
      rw [← hW, if_neg h0]; field_simp
  rw [hstat]; ring

/-- C41, square loss, `target=True`: the update is a minimiser over all structures. -/
theorem C41_structure_square (lam : S → R) (hl : ∀ s, 0 ≤ lam s) (T : (s : S) → I s → J → R) (hT : ∀ s i j, 0 ≤ T s i j)
    (C : (s : S) → I s → I s → R) (X : J → J → R) :
    baryEnergy sqLoss lam T C (updateTarget2 lam T C) ≤ baryEnergy sqLoss lam T C X := by
  rw [C41_structure_square_excess lam hl T hT C X]
  refine le_add_of_nonneg_right (sum_nonneg fun j _ => sum_nonneg fun l _ => mul_nonneg ?_ (sq_nonneg _))
  exact weight_nonneg hl hT j l

/-- with shared marginals and weights `λ` summing to one the one-dimensional form is the same update -/
theorem C41_shared_marginal (lam : S → R) (hl1 : ∑ s, lam s = 1) (T : (s : S) → I s → J → R) (hl : ∀ s, 0 ≤ lam s)
    (hT : ∀ s i j, 0 ≤ T s i j) (p : J → R)
    (hp : ∀ s j, ∑ i, T s i j = p j) (C : (s : S) → I s → I s → R) :
    updateTarget1 lam T C p = updateTarget2 lam T C := by
  funext j l
  simp only [updateTarget1, updateTarget2, prod1, prod2]
  have hm : ∀ s j, margTarget T s j = p j := hp
  have hsum : ∑ s, lam s * (margTarget T s j * margTarget T s l) = p j * p l := by
    simp only [hm, ← sum_mul, hl1, one_mul]
  by_cases h0 : p j * p l = 0
  · have hz : structSum lam T C j l = 0 := by
      rw [← entry_num]
      refine sum_eq_zero fun s _ => sum_eq_zero fun i _ => sum_eq_zero fun k _ => ?_
      rw [entry_zero hl hT (hsum.trans h0) s i k, zero_mul]
    rw [hz]; ring
  · have hj : p j ≠ 0 := fun h => h0 (by rw [h]; ring)
    have hl' : p l ≠ 0 := fun h => h0 (by rw [h]; ring)
    rw [hsum]
    simp only [nanInv, if_neg hj, if_neg hl', if_neg h0]
    field_simp

/-- C41, square loss, `target=False` (the barycenter is the first space). -/
theorem C41_structure_square_source (lam : S → R) (hl : ∀ s, 0 ≤ lam s) (T : (s : S) → J → I s → R) (hT : ∀ s i j, 0 ≤ T s i j)
    (C : (s : S) → I s → I s → R) (X : J → J → R) :
    ∑ s, lam s * gwEnergy sqLoss (updateSource2 lam T C) (C s) (T s) ≤ ∑ s, lam s * gwEnergy sqLoss X (C s) (T s) := by
  have flip : ∀ (A : J → J → R), ∑ s, lam s * gwEnergy sqLoss A (C s) (T s)
      = baryEnergy sqLoss lam (fun s i j => T s j i) C A := by
    intro A
    refine sum_congr rfl fun s _ => ?_
    congr 1
    unfold gwEnergy
    rw [sum_comm]
    refine sum_congr rfl fun j _ => sum_congr rfl fun i _ => ?_
    rw [sum_comm]
    refine sum_congr rfl fun l _ => sum_congr rfl fun k _ => ?_
    unfold sqLoss; ring
  have hu : updateSource2 lam T C = updateTarget2 lam (fun s i j => T s j i) C := rfl
  rw [flip, flip, hu]
  exact C41_structure_square lam hl _ (fun s i j => hT s j i) C X

/-- The feature objective `∑ λ_s ∑ T_s,ij ‖Y_s,i - Z_j‖²`. -/
def baryFeature {E : Type*} [Fintype E] (lam : S → R) (T : (s : S) → I s → J → R) (Y : (s : S) → I s → E → R) (Z : J → E → R) : R :=
  ∑ s, lam s * ∑ i, ∑ j, T s i j * ∑ d, (Y s i d - Z j d) ^ 2

/-- C41, features: exact excess over the update. -/
theorem C41_feature_excess {E : Type*} [Fintype E] (lam : S → R) (hl : ∀ s, 0 ≤ lam s) (T : (s : S) → I s → J → R)
    (hT : ∀ s i j, 0 ≤ T s i j) (Y : (s : S) → I s → E → R) (Z : J → E → R) :
    baryFeature lam T Y Z = baryFeature lam T Y (updateFeature2 lam T Y)
      + ∑ j, ∑ d, (∑ s, lam s * ∑ i, T s i j) * (Z j d - updateFeature2 lam T Y j d) ^ 2 := by
  have hentry : ∀ Z : J → E → R, baryFeature lam T Y Z = ∑ j, ∑ d, ∑ s, ∑ i, lam s * T s i j * (Y s i d - Z j d) ^ 2 := by
    intro Z
    unfold baryFeature
    have h1 : ∀ s, lam s * ∑ i, ∑ j, T s i j * ∑ d, (Y s i d - Z j d) ^ 2
        = ∑ j, ∑ d, ∑ i, lam s * T s i j * (Y s i d - Z j d) ^ 2 := by
      intro s
      rw [sum_comm, mul_sum]
      refine sum_congr rfl fun j _ => ?_
      rw [mul_sum, sum_comm]
      refine sum_congr rfl fun i _ => ?_
      rw [← mul_assoc, mul_sum]
    simp only [h1]
    rw [sum_comm]
    exact sum_congr rfl fun j _ => sum_comm
  simp only [hentry, ← sum_add_distrib]
  refine sum_congr rfl fun j _ => sum_congr rfl fun d _ => ?_
  set W := ∑ s, lam s * margTarget T s j with hW
  set c := updateFeature2 lam T Y j d with hc
  set N := ∑ s, lam s * ∑ i, T s i j * Y s i d with hN
  have hquad : ∀ x, ∑ s, ∑ i, lam s * T s i j * (Y s i d - x) ^ 2
      = ∑ s, ∑ i, lam s * T s i j * Y s i d ^ 2 - 2 * x * N + x ^ 2 * W := by
    intro x
    simp only [hN, hW, margTarget, mul_sum, ← sum_sub_distrib, ← sum_add_distrib]
    refine sum_congr rfl fun s _ => sum_congr rfl fun i _ => ?_
    ring
  rw [hquad, hquad]
  have hWW : ∑ s, lam s * ∑ i, T s i j = W := rfl
  rw [hWW]
  have hstat : N = c * W := by
    by_cases h0 : W = 0
    · have nn : ∀ s, 0 ≤ lam s * margTarget T s j := fun s => mul_nonneg (hl s) (sum_nonneg fun i _ => hT s i j)
      have hz : ∀ s, lam s * margTarget T s j = 0 := fun s => (sum_eq_zero_iff_of_nonneg (fun s _ => nn s)).1 h0 s (mem_univ s)
      have hn : N = 0 := by
        refine sum_eq_zero fun s _ => ?_
        rcases mul_eq_zero.1 (hz s) with h | h
        · rw [h, zero_mul]
        · have : ∀ i, T s i j = 0 := fun i => (sum_eq_zero_iff_of_nonneg (fun i _ => hT s i j)).1 h i (mem_univ i)
          simp only [this, zero_mul, sum_const_zero, mul_zero]
      rw [hn, h0, mul_zero]
    · rw [hc]; simp only [updateFeature2, nanInv]
      rw [← hW, ← hN, if_neg h0]; field_simp
  rw [hstat]; ring

/-- C41, features: the update is a minimiser. -/
theorem C41_feature {E : Type*} [Fintype E] (lam : S → R) (hl : ∀ s, 0 ≤ lam s) (T : (s : S) → I s → J → R)
    (hT : ∀ s i j, 0 ≤ T s i j) (Y : (s : S) → I s → E → R) (Z : J → E → R) :
    baryFeature lam T Y (updateFeature2 lam T Y) ≤ baryFeature lam T Y Z := by
  rw [C41_feature_excess lam hl T hT Y Z]
  refine le_add_of_nonneg_right (sum_nonneg fun j _ => sum_nonneg fun d _ => mul_nonneg ?_ (sq_nonneg _))
  exact sum_nonneg fun s _ => mul_nonneg (hl s) (sum_nonneg fun i _ => hT s i j)

/-- C41, features, shared `p`. -/
theorem C41_feature_shared {E : Type*} [Fintype E] (lam : S → R) (hl1 : ∑ s, lam s = 1) (T : (s : S) → I s → J → R)
    (p : J → R) (hp : ∀ s j, ∑ i, T s i j = p j) (Y : (s : S) → I s → E → R) :
    updateFeature1 lam T Y p = updateFeature2 lam T Y := by
  funext j d
  have hm : ∀ s j, margTarget T s j = p j := hp
  simp only [updateFeature1, updateFeature2, hm, ← sum_mul, hl1, one_mul]

end

section KL
variable {S : Type*} [Fintype S] {I : S → Type*} [∀ s, Fintype (I s)] {J : Type*} [Fintype J]

/-- C41, KL loss, `target=True`: no structure with positive entries does better than the update (the same formula as for
the square loss); the guard `1e-18` of the loss is not present in this statement. -/
theorem C41_structure_kl (lam : S → ℝ) (hl : ∀ s, 0 ≤ lam s) (T : (s : S) → I s → J → ℝ) (hT : ∀ s i j, 0 ≤ T s i j)
    (C : (s : S) → I s → I s → ℝ) (hC : ∀ s i k, 0 ≤ C s i k) (X : J → J → ℝ) (hX : ∀ j l, 0 < X j l) :
    baryEnergy (klLoss 0) lam T C (updateTarget2 lam T C) ≤ baryEnergy (klLoss 0) lam T C X := by
  simp only [baryEnergy_entry]
  refine sum_le_sum fun j _ => sum_le_sum fun l _ => ?_
  set W := ∑ s, lam s * (margTarget T s j * margTarget T s l) with hW
  set N := structSum lam T C j l with hN
  set c := updateTarget2 lam T C j l with hc
  have hform : ∀ x, ∑ s, ∑ i, ∑ k, lam s * (T s i j * T s k l) * klLoss 0 (C s i k) x
      = ∑ s, ∑ i, ∑ k, lam s * (T s i j * T s k l) * (C s i k * Real.log (C s i k) - C s i k) - N * Real.log x + x * W := by
    intro x
    rw [hN, ← entry_num, hW, ← entry_weight]
    simp only [mul_sum, sum_mul, ← sum_sub_distrib, ← sum_add_distrib]
    refine sum_congr rfl fun s _ => sum_congr rfl fun i _ => sum_congr rfl fun k _ => ?_
    unfold klLoss; rw [add_zero, add_zero]; ring
  rw [hform, hform]
  have hN0 : 0 ≤ N := by
    rw [hN, ← entry_num]
    exact sum_nonneg fun s _ => sum_nonneg fun i _ => sum_nonneg fun k _ =>
      mul_nonneg (mul_nonneg (hl s) (mul_nonneg (hT s i j) (hT s k l))) (hC s i k)
  have hW0 : 0 ≤ W := weight_nonneg hl hT j l
  rcases hW0.eq_or_lt with h0 | hpos
  · have hn : N = 0 := by
      rw [hN, ← entry_num]
      refine sum_eq_zero fun s _ => sum_eq_zero fun i _ => sum_eq_zero fun k _ => ?_
      rw [entry_zero hl hT h0.symm s i k, zero_mul]
    rw [hn, ← h0]; simp
  · have hcv : c = N / W := by
      rw [hc]; simp only [updateTarget2, prod2, nanInv]
      rw [← hW, if_neg hpos.ne', ← hN]; field_simp
    rcases hN0.eq_or_lt with hn | hn
    · rw [hcv, ← hn]; simp only [zero_div, zero_mul, sub_zero, add_zero]
      have := mul_nonneg (hX j l).le hW0
      linarith
    · have hcp : 0 < c := by rw [hcv]; positivity
      have hcW : c * W = N := by rw [hcv]; field_simp
      have hlog : Real.log (X j l / c) ≤ X j l / c - 1 := Real.log_le_sub_one_of_pos (div_pos (hX j l) hcp)
      rw [Real.log_div (hX j l).ne' hcp.ne'] at hlog
      have : N * (Real.log (X j l) - Real.log c) ≤ N * (X j l / c - 1) := mul_le_mul_of_nonneg_left hlog hn.le
      have e : N * (X j l / c - 1) = X j l * W - c * W := by
        rw [← hcW]; field_simp
      linarith

/-- C41, KL loss, `target=False`: the geometric-mean update is a minimiser, for inputs not smaller than the guard. -/
theorem C41_structure_kl_source (ε : ℝ) (lam : S → ℝ) (hl : ∀ s, 0 ≤ lam s) (T : (s : S) → J → I s → ℝ)
    (hT : ∀ s i j, 0 ≤ T s i j) (C : (s : S) → I s → I s → ℝ) (hC : ∀ s i k, ε ≤ C s i k)
    (X : J → J → ℝ) (hX : ∀ j l, 0 < X j l) :
    ∑ s, lam s * gwEnergy (klLoss 0) (updateSourceKl ε lam T C) (C s) (T s)
      ≤ ∑ s, lam s * gwEnergy (klLoss 0) X (C s) (T s) := by
  classical
  have flip : ∀ (A : J → J → ℝ), ∑ s, lam s * gwEnergy (klLoss 0) A (C s) (T s)
      = baryEnergy (fun x y => klLoss 0 y x) lam (fun s i j => T s j i) C A := by
    intro A
    refine sum_congr rfl fun s _ => ?_
    congr 1
    unfold gwEnergy
    rw [sum_comm]
    refine sum_congr rfl fun j _ => sum_congr rfl fun i _ => ?_
    rw [sum_comm]
  rw [flip, flip]
  simp only [baryEnergy_entry]
  refine sum_le_sum fun j _ => sum_le_sum fun l _ => ?_
  set T' : (s : S) → I s → J → ℝ := fun s i j => T s j i with hT'
  have hT'0 : ∀ s i j, 0 ≤ T' s i j := fun s i j => hT s j i
  set W := ∑ s, lam s * (margTarget T' s j * margTarget T' s l) with hW
  set N := structSum lam T' (fun s i k => Real.log (C s i k)) j l with hN
  set B := structSum lam T' C j l with hB
  have hform : ∀ x, ∑ s, ∑ i, ∑ k, lam s * (T' s i j * T' s k l) * klLoss 0 x (C s i k)
      = W * (x * Real.log x - x) - x * N + B := by
    intro x
    rw [hN, ← entry_num, hW, ← entry_weight, hB, ← entry_num]
    simp only [mul_sum, sum_mul, ← sum_sub_distrib, ← sum_add_distrib]
    refine sum_congr rfl fun s _ => sum_congr rfl fun i _ => sum_congr rfl fun k _ => ?_
    unfold klLoss; rw [add_zero, add_zero]; ring
  have e1 : ∀ s i k, lam s * (T s j i * T s l k) = lam s * (T' s i j * T' s k l) := fun _ _ _ => rfl
  simp only [e1]
  rw [hform, hform]
  have hu : updateSourceKl ε lam T C j l = Real.exp (N * prod2 lam (margTarget T') j l) := by
    simp only [updateSourceKl, max_eq_left (hC _ _ _)]
    congr 2
  set c := updateSourceKl ε lam T C j l with hc
  have hcp : 0 < c := by rw [hu]; exact Real.exp_pos _
  have hW0 : 0 ≤ W := weight_nonneg hl hT'0 j l
  rcases hW0.eq_or_lt with h0 | hpos
  · have hn : N = 0 := by
      rw [hN, ← entry_num]
      refine sum_eq_zero fun s _ => sum_eq_zero fun i _ => sum_eq_zero fun k _ => ?_
      rw [entry_zero hl hT'0 h0.symm s i k, zero_mul]
    rw [hn, ← h0]; simp
  · have hlc : Real.log c = N / W := by
      rw [hu, Real.log_exp, prod2, ← hW, nanInv, if_neg hpos.ne']; field_simp
    have hNc : N = W * Real.log c := by rw [hlc]; field_simp
    have hlog : Real.log (c / X j l) ≤ c / X j l - 1 := Real.log_le_sub_one_of_pos (div_pos hcp (hX j l))
    rw [Real.log_div hcp.ne' (hX j l).ne'] at hlog
    have hx := hX j l
    have h2 : X j l * (Real.log c - Real.log (X j l)) ≤ c - X j l := by
      have := mul_le_mul_of_nonneg_left hlog hx.le
      have e : X j l * (c / X j l - 1) = c - X j l := by field_simp
      linarith
    have h3 : 0 ≤ W * (c - X j l - X j l * (Real.log c - Real.log (X j l))) := mul_nonneg hW0 (by linarith)
    rw [hNc]
    nlinarith

end KL

/-! ### Non-vacuity: two inputs with different node sets and unequal weights -/

example : updateTarget2 (S := Fin 2) (I := fun _ => Fin 1) (J := Fin 1) (![1/3, 2/3] : Fin 2 → ℚ) (fun _ _ _ => 1)
    (fun s _ _ => ![1, 4] s) 0 0 = 3 := by
  simp [updateTarget2, structSum, prod2, nanInv, margTarget, Fin.sum_univ_two]
  norm_num

end POT.Props
