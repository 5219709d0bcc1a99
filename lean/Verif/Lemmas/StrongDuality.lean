import Verif.Props.EmdPy

/-! # Strong duality of discrete optimal transport, from the correctness of the network simplex (C62) -/

set_option linter.unusedSectionVars false

namespace POT.Spec

open Finset

variable {R : Type*} [Field R] [LinearOrder R] [IsStrictOrderedRing R]

theorem strong_duality_fin {n1 n2 : ℕ} [NeZero n1] [NeZero n2] (a : Fin n1 → R) (b : Fin n2 → R) (M : Fin n1 → Fin n2 → R) (ha : ∀ i, 0 ≤ a i)
    (hb : ∀ j, 0 ≤ b j) (hpos : 0 < ∑ i, a i) (hsum : ∑ i, a i = ∑ j, b j) :
    ∃ G u v, IsOptimal a b M G ∧ DualFeasible M u v ∧ dualValue a b u v = cost M G := by
  -- shift the cost so that it is non-negative
  obtain ⟨c, hc⟩ : ∃ c : R, ∀ i j, 0 ≤ M i j + c := by
    refine ⟨∑ i, ∑ j, |M i j|, fun i j => ?_⟩
    have h1 : |M i j| ≤ ∑ j, |M i j| := single_le_sum (f := fun j => |M i j|) (fun _ _ => abs_nonneg _) (mem_univ j)
    have h2 : ∑ j, |M i j| ≤ ∑ i, ∑ j, |M i j| := single_le_sum (f := fun i => ∑ j, |M i j|) (fun _ _ => sum_nonneg fun _ _ => abs_nonneg _) (mem_univ i)
    linarith [neg_abs_le (M i j)]
  obtain ⟨r, -, -, hopt, -, hfeas, hval, -⟩ := Props.C62_emd_exact (R := R) false false (tol := 1) one_pos (a := a) (b := b) (M := fun i j => M i j + c) (junk := 0)
    (feps := 0) le_rfl hc ha hb hpos hsum 1 _ (fun _ => []) (Nat.lt_succ_self _)
  have hcost : ∀ G, IsCoupling a b G → cost (fun i j => M i j + c) G = cost M G + c * ∑ i, a i := by
    intro G hG
    unfold cost
    simp only [mul_add, sum_add_distrib]
    refine congrArg _ ?_
    rw [mul_sum]
    exact sum_congr rfl fun i _ => by rw [← sum_mul, hG.row, mul_comm]
  refine ⟨r.G, fun i => r.u i - c, r.v, ⟨hopt.1, fun G' hG' => ?_⟩, fun i j => ?_, ?_⟩
  · have := hopt.2 G' hG'
    rw [hcost _ hopt.1, hcost _ hG'] at this
    linarith
  · have := hfeas i j
    simp only at this
    linarith
  · have e : dualValue a b (fun i => r.u i - c) r.v = dualValue a b r.u r.v - c * ∑ i, a i := by
      unfold dualValue
      simp only [sub_mul, sum_sub_distrib, ← mul_sum]; ring
    rw [e, hval, hcost _ hopt.1]; ring

/-- Strong duality: an optimal plan and dual feasible potentials of the same value exist. -/
theorem strong_duality {I J : Type*} [Fintype I] [Fintype J] (a : I → R) (b : J → R) (M : I → J → R) (ha : ∀ i, 0 ≤ a i)
    (hb : ∀ j, 0 ≤ b j) (hpos : 0 < ∑ i, a i) (hsum : ∑ i, a i = ∑ j, b j) :
    ∃ G u v, IsOptimal a b M G ∧ DualFeasible M u v ∧ dualValue a b u v = cost M G := by
  have hI : Nonempty I := by
    by_contra hne
    rw [not_nonempty_iff] at hne
    simp at hpos
  have hJ : Nonempty J := by
    by_contra hne
    rw [not_nonempty_iff] at hne
    rw [hsum] at hpos
    simp at hpos
  haveI : NeZero (Fintype.card I) := ⟨Fintype.card_ne_zero⟩
  haveI : NeZero (Fintype.card J) := ⟨Fintype.card_ne_zero⟩
  obtain ⟨eI⟩ : Nonempty (Fin (Fintype.card I) ≃ I) := ⟨(Fintype.equivFin I).symm⟩
  obtain ⟨eJ⟩ : Nonempty (Fin (Fintype.card J) ≃ J) := ⟨(Fintype.equivFin J).symm⟩
  have sI : ∀ f : I → R, ∑ i, f (eI i) = ∑ i, f i := fun f => Equiv.sum_comp eI f
  have sJ : ∀ f : J → R, ∑ j, f (eJ j) = ∑ j, f j := fun f => Equiv.sum_comp eJ f
  obtain ⟨G, u, v, hopt, hf, hv⟩ := strong_duality_fin (fun i => a (eI i)) (fun j => b (eJ j)) (fun i j => M (eI i) (eJ j)) (fun i => ha _) (fun j => hb _)
    (by rw [sI]; exact hpos) (by rw [sI, sJ]; exact hsum)
  have hback : ∀ G : Fin (Fintype.card I) → Fin (Fintype.card J) → R, cost M (fun i j => G (eI.symm i) (eJ.symm j)) = cost (fun i j => M (eI i) (eJ j)) G := by
    intro G
    unfold cost
    rw [← sI]
    refine sum_congr rfl fun i _ => ?_
    rw [← sJ]
    simp
  have hfor : ∀ G : I → J → R, cost (fun i j => M (eI i) (eJ j)) (fun i j => G (eI i) (eJ j)) = cost M G := by
    intro G
    unfold cost
    rw [← sI]
    exact sum_congr rfl fun i _ => sJ fun j => G (eI i) j * M (eI i) j
  refine ⟨fun i j => G (eI.symm i) (eJ.symm j), fun i => u (eI.symm i), fun j => v (eJ.symm j), ⟨⟨fun i j => hopt.1.nonneg _ _, fun i => ?_, fun j => ?_⟩, ?_⟩, ?_, ?_⟩
  · rw [← sJ]
    simp only [Equiv.symm_apply_apply]
    rw [hopt.1.row, Equiv.apply_symm_apply]
  · rw [← sI]
    simp only [Equiv.symm_apply_apply]
    rw [hopt.1.col, Equiv.apply_symm_apply]
  · intro G' hG'
    rw [hback, ← hfor G']
    exact hopt.2 _ ⟨fun i j => hG'.nonneg _ _, fun i => by rw [sJ fun j => G' (eI i) j]; exact hG'.row _, fun j => by rw [sI fun i => G' i (eJ j)]; exact hG'.col _⟩
  · intro i j
    have := hf (eI.symm i) (eJ.symm j)
    simpa using this
  · rw [hback, ← hv]
    unfold dualValue
    rw [← sI, ← sJ]
    simp

end POT.Spec
