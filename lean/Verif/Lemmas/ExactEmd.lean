import Verif.Lemmas.StrongDuality
import Mathlib.Algebra.BigOperators.Field

/-! # An exact solver, for the examples: optimal plans exist whenever plans exist -/

set_option linter.unusedSectionVars false

namespace POT.Spec

open Finset

variable {R : Type*} [Field R] [LinearOrder R] [IsStrictOrderedRing R] {I J : Type*} [Fintype I] [Fintype J]

theorem exists_optimal (a : I → R) (b : J → R) (M : I → J → R) (h : ∃ P, IsCoupling a b P) : ∃ P, IsOptimal a b M P := by
  obtain ⟨P, hP⟩ := h
  have ha : ∀ i, 0 ≤ a i := fun i => by rw [← hP.row i]; exact sum_nonneg fun j _ => hP.nonneg i j
  have hb : ∀ j, 0 ≤ b j := fun j => by rw [← hP.col j]; exact sum_nonneg fun i _ => hP.nonneg i j
  have hs : ∑ i, a i = ∑ j, b j := by
    simp only [← hP.row, ← hP.col]; exact sum_comm
  rcases (sum_nonneg fun i (_ : i ∈ univ) => ha i).lt_or_eq with h0 | h0
  · obtain ⟨G, u, v, hG, -⟩ := strong_duality a b M ha hb h0 hs
    exact ⟨G, hG⟩
  · refine ⟨P, hP, fun Q hQ => ?_⟩
    have ha0 : ∀ i, a i = 0 := fun i => (sum_eq_zero_iff_of_nonneg fun i _ => ha i).1 h0.symm i (mem_univ i)
    have hz : ∀ G, IsCoupling a b G → ∀ i j, G i j = 0 := fun G hG i j => (sum_eq_zero_iff_of_nonneg fun j _ => hG.nonneg i j).1 ((hG.row i).trans (ha0 i)) j (mem_univ j)
    unfold cost
    simp [hz P hP, hz Q hQ]

open Classical in
/-- some optimal plan, when there is one -/
noncomputable def exactEmd (a : I → R) (b : J → R) (M : I → J → R) : I → J → R := if h : ∃ P, IsOptimal a b M P then h.choose else 0

theorem exactEmd_optimal (a : I → R) (b : J → R) (M : I → J → R) (h : ∃ P, IsCoupling a b P) : IsOptimal a b M (exactEmd a b M) := by
  have h' := exists_optimal a b M h
  unfold exactEmd
  rw [dif_pos h']
  exact h'.choose_spec

/-- the independent plan -/
theorem product_coupling (a : I → R) (b : J → R) (ha : ∀ i, 0 ≤ a i) (hb : ∀ j, 0 ≤ b j) (hs : ∑ i, a i = ∑ j, b j) : ∃ P, IsCoupling a b P := by
  rcases (sum_nonneg fun i (_ : i ∈ univ) => ha i).lt_or_eq with h0 | h0
  · refine ⟨fun i j => a i * b j / ∑ i, a i, fun i j => div_nonneg (mul_nonneg (ha i) (hb j)) h0.le, fun i => ?_, fun j => ?_⟩
    · simp only [← sum_div, ← mul_sum]
      rw [← hs, mul_div_assoc, div_self h0.ne', mul_one]
    · simp only [← sum_div, ← sum_mul]
      rw [mul_comm, mul_div_assoc, div_self h0.ne', mul_one]
  · have ha0 : ∀ i, a i = 0 := fun i => (sum_eq_zero_iff_of_nonneg fun i _ => ha i).1 h0.symm i (mem_univ i)
    have hb0 : ∀ j, b j = 0 := fun j => (sum_eq_zero_iff_of_nonneg fun j _ => hb j).1 (hs.symm.trans h0.symm) j (mem_univ j)
    exact ⟨0, fun _ _ => le_refl _, fun i => by simp [ha0], fun j => by simp [hb0]⟩

end POT.Spec
