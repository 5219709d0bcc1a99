import Verif.Spec.Transport

/-! # Elementary facts about couplings and duality -/

set_option linter.unusedSectionVars false

namespace POT.Spec

open Finset

variable {R : Type*} [Field R] [LinearOrder R] [IsStrictOrderedRing R]
variable {I J : Type*} [Fintype I] [Fintype J]

omit [LinearOrder R] [IsStrictOrderedRing R] in
/-- A cost of the form `f i + g j` integrates to the sum of the marginal integrals. -/
theorem sum_add_mul (f : I → R) (g : J → R) (G : I → J → R) :
    ∑ i, ∑ j, G i j * (f i + g j) = ∑ i, f i * (∑ j, G i j) + ∑ j, g j * (∑ i, G i j) := by
  simp only [mul_add, sum_add_distrib, mul_sum]
  congr 1
  · exact sum_congr rfl fun i _ => sum_congr rfl fun j _ => mul_comm _ _
  · rw [sum_comm]
    exact sum_congr rfl fun i _ => sum_congr rfl fun j _ => mul_comm _ _

theorem IsCoupling.sum_add_mul {a : I → R} {b : J → R} {G : I → J → R} (h : IsCoupling a b G)
    (f : I → R) (g : J → R) :
    ∑ i, ∑ j, G i j * (f i + g j) = ∑ i, f i * a i + ∑ j, g j * b j := by
  rw [POT.Spec.sum_add_mul]
  simp only [h.row, h.col]

/-- Weak duality. -/
theorem weak_duality {a : I → R} {b : J → R} {M G : I → J → R} {u : I → R} {v : J → R}
    (hG : IsCoupling a b G) (h : DualFeasible M u v) : dualValue a b u v ≤ cost M G := by
  unfold dualValue cost
  rw [← hG.sum_add_mul u v]
  exact sum_le_sum fun i _ => sum_le_sum fun j _ => mul_le_mul_of_nonneg_left (h i j) (hG.nonneg i j)

/-- A coupling supported where the dual constraint is tight has the dual value as its cost. -/
theorem cost_eq_dualValue {a : I → R} {b : J → R} {M G : I → J → R} {u : I → R} {v : J → R}
    (hG : IsCoupling a b G) (h : ∀ i j, G i j ≠ 0 → u i + v j = M i j) :
    cost M G = dualValue a b u v := by
  unfold dualValue cost
  rw [← hG.sum_add_mul u v]
  refine sum_congr rfl fun i _ => sum_congr rfl fun j _ => ?_
  by_cases h0 : G i j = 0
  · simp [h0]
  · rw [h i j h0]

/-- Complementary slackness: a coupling with a tight feasible dual is optimal. -/
theorem isOptimal_of_dual {a : I → R} {b : J → R} {M G : I → J → R} {u : I → R} {v : J → R}
    (hG : IsCoupling a b G) (hd : DualFeasible M u v)
    (h : ∀ i j, G i j ≠ 0 → u i + v j = M i j) : IsOptimal a b M G :=
  ⟨hG, fun _ hG' => (cost_eq_dualValue hG h).trans_le (weak_duality hG' hd)⟩

theorem IsCoupling.sum_eq {a : I → R} {b : J → R} {G : I → J → R} (h : IsCoupling a b G) :
    ∑ i, a i = ∑ j, b j := by
  simp only [← h.row, ← h.col]
  exact sum_comm

theorem IsCoupling.left_nonneg {a : I → R} {b : J → R} {G : I → J → R} (h : IsCoupling a b G)
    (i : I) : 0 ≤ a i := by
  rw [← h.row]; exact sum_nonneg fun j _ => h.nonneg i j

theorem IsCoupling.right_nonneg {a : I → R} {b : J → R} {G : I → J → R} (h : IsCoupling a b G)
    (j : J) : 0 ≤ b j := by
  rw [← h.col]; exact sum_nonneg fun i _ => h.nonneg i j

theorem IsCoupling.le_left {a : I → R} {b : J → R} {G : I → J → R} (h : IsCoupling a b G)
    (i : I) (j : J) : G i j ≤ a i := by
  rw [← h.row]; exact single_le_sum (f := fun j => G i j) (fun j _ => h.nonneg i j) (mem_univ j)

theorem IsCoupling.le_right {a : I → R} {b : J → R} {G : I → J → R} (h : IsCoupling a b G)
    (i : I) (j : J) : G i j ≤ b j := by
  rw [← h.col]; exact single_le_sum (f := fun i => G i j) (fun i _ => h.nonneg i j) (mem_univ i)

end POT.Spec
