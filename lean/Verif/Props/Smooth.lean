import Verif.Lemmas.Smooth
import Mathlib.Analysis.Calculus.LocalExtr.Basic
import Mathlib.Data.Fin.Tuple.Sort

/-! # C52, C53: smooth and sparse transport (`ot/smooth.py`) -/

set_option linter.unusedSectionVars false

namespace POT.Props

open Finset Spec Smooth

variable {n m : ℕ}

/-- C52. `delta_Omega` returns the conjugate of the regularisation: its value is the maximum of `⟨y, x⟩ - Ω(y)` over the admissible columns `y`, and the
returned gradient is a maximiser. -/
theorem C52_conjugate (o : Oracle n) (ho : o.Ok) (r : RegType) (hr : RegOk n r) (γ : ℝ) (hγ : 0 < γ) (x : Fin n → ℝ) :
    IsGreatest {v | ∃ y, AdmCol r y ∧ v = ∑ i, y i * x i - omega r γ y} (deltaOmega o r γ x).1 ∧
    AdmCol r (deltaOmega o r γ x).2 ∧
    (deltaOmega o r γ x).1 = ∑ i, (deltaOmega o r γ x).2 i * x i - omega r γ (deltaOmega o r γ x).2 := by
  have h := conj_delta o ho hγ r hr
  refine ⟨⟨⟨_, h.mem x, h.eq x⟩, ?_⟩, h.mem x, h.eq x⟩
  rintro v ⟨y, hy, rfl⟩
  exact h.le x y hy

theorem lagr (r : RegType) (γ : ℝ) (α : Fin n → ℝ) (β : Fin m → ℝ) (C P : Fin n → Fin m → ℝ) :
    ∑ j, (dot (fun i => P i j) (fun i => α i + β j - C i j) - omega r γ (fun i => P i j)) =
      ∑ i, α i * ∑ j, P i j + ∑ j, β j * ∑ i, P i j - regObjective r γ C P := by
  unfold regObjective cost dot
  rw [sum_sub_distrib]
  have h1 : ∑ j, ∑ i, P i j * (α i + β j - C i j) = ∑ i, α i * ∑ j, P i j + ∑ j, β j * ∑ i, P i j - ∑ i, ∑ j, P i j * C i j := by
    simp only [mul_sub, mul_add, sum_sub_distrib, sum_add_distrib]
    rw [sum_comm, sum_comm (f := fun j i => P i j * C i j)]
    congr 2
    · exact sum_congr rfl fun i _ => by rw [mul_sum]; exact sum_congr rfl fun j _ => mul_comm _ _
    · exact sum_congr rfl fun i _ => by rw [mul_sum]; exact sum_congr rfl fun j _ => mul_comm _ _
  rw [h1]; ring

/-- C52. The dual objective is at most the regularised cost of every admissible coupling. -/
theorem C52_weak_duality (o : Oracle n) (ho : o.Ok) (r : RegType) (hr : RegOk n r) (γ : ℝ) (hγ : 0 < γ) (a : Fin n → ℝ) (b : Fin m → ℝ)
    (C : Fin n → Fin m → ℝ) (α : Fin n → ℝ) (β : Fin m → ℝ) (P : Fin n → Fin m → ℝ) (hP : RegCoupling r a b P) :
    (dualObjGrad o r γ α β a b C).1 ≤ regObjective r γ C P := by
  have h := conj_delta o ho hγ r hr
  have h1 : ∑ j, (dot (fun i => P i j) (fun i => α i + β j - C i j) - omega r γ (fun i => P i j)) ≤
      ∑ j, (deltaOmega o r γ (fun i => α i + β j - C i j)).1 := sum_le_sum fun j _ => h.le _ _ (hP.2 j)
  rw [lagr] at h1
  simp only [hP.1.row, hP.1.col] at h1
  simp only [dualObjGrad]
  linarith

/-- The value of the recovered plan (whatever the potentials): `⟨T, C⟩ + Ω(T) = obj - ⟨α, grad_α⟩ - ⟨β, grad_β⟩`. -/
theorem C52_plan_value (o : Oracle n) (ho : o.Ok) (r : RegType) (hr : RegOk n r) (γ : ℝ) (hγ : 0 < γ) (a : Fin n → ℝ) (b : Fin m → ℝ)
    (C : Fin n → Fin m → ℝ) (α : Fin n → ℝ) (β : Fin m → ℝ) :
    regObjective r γ C (planFromDual o r γ α β C) =
      (dualObjGrad o r γ α β a b C).1 - ∑ i, α i * (dualObjGrad o r γ α β a b C).2.1 i - ∑ j, β j * (dualObjGrad o r γ α β a b C).2.2 j := by
  have h := conj_delta o ho hγ r hr
  have h1 : ∑ j, (dot (fun i => planFromDual o r γ α β C i j) (fun i => α i + β j - C i j) - omega r γ (fun i => planFromDual o r γ α β C i j)) =
      ∑ j, (deltaOmega o r γ (fun i => α i + β j - C i j)).1 := sum_congr rfl fun j _ => (h.eq _).symm
  rw [lagr] at h1
  simp only [dualObjGrad]
  simp only [mul_sub, sum_sub_distrib]
  have e1 : ∑ i, α i * ∑ j, (deltaOmega o r γ fun i => α i + β j - C i j).2 i = ∑ i, α i * ∑ j, planFromDual o r γ α β C i j := rfl
  have e2 : ∑ j, β j * ∑ i, (deltaOmega o r γ fun i => α i + β j - C i j).2 i = ∑ j, β j * ∑ i, planFromDual o r γ α β C i j := rfl
  rw [e1, e2]
  linarith

/-- C52. The gradients returned by `dual_obj_grad` are the marginal errors of the recovered plan. -/
theorem C52_gradient_is_marginal_error (o : Oracle n) (r : RegType) (γ : ℝ) (a : Fin n → ℝ) (b : Fin m → ℝ) (C : Fin n → Fin m → ℝ) (α : Fin n → ℝ)
    (β : Fin m → ℝ) :
    (∀ i, (dualObjGrad o r γ α β a b C).2.1 i = a i - ∑ j, planFromDual o r γ α β C i j) ∧
    ∀ j, (dualObjGrad o r γ α β a b C).2.2 j = b j - ∑ i, planFromDual o r γ α β C i j := ⟨fun _ => rfl, fun _ => rfl⟩

/-- C52. Wherever the optimiser stops, the recovered plan is non-negative (and as sparse as requested) and it is the solution of the regularised problem
for its own marginals: no admissible plan with the same marginals is better, and for the entropic and the quadratic regularisation every other one is worse. -/
theorem C52_plan_optimal (o : Oracle n) (ho : o.Ok) (r : RegType) (hr : RegOk n r) (γ : ℝ) (hγ : 0 < γ)
    (C : Fin n → Fin m → ℝ) (α : Fin n → ℝ) (β : Fin m → ℝ) :
    RegOptimal r γ (fun i => ∑ j, planFromDual o r γ α β C i j) (fun j => ∑ i, planFromDual o r γ α β C i j) C (planFromDual o r γ α β C) ∧
    ((∀ k, r ≠ .sparse k) →
      RegUnique r γ (fun i => ∑ j, planFromDual o r γ α β C i j) (fun j => ∑ i, planFromDual o r γ α β C i j) C (planFromDual o r γ α β C)) := by
  have h := conj_delta o ho hγ r hr
  have hv := C52_plan_value o ho r hr γ hγ (fun i => ∑ j, planFromDual o r γ α β C i j) (fun j => ∑ i, planFromDual o r γ α β C i j) C α β
  have hz := C52_gradient_is_marginal_error o r γ (fun i => ∑ j, planFromDual o r γ α β C i j) (fun j => ∑ i, planFromDual o r γ α β C i j) C α β
  simp only [hz.1, hz.2, sub_self, mul_zero, sum_const_zero, sub_zero] at hv
  have hcol : ∀ j, AdmCol r (fun i => planFromDual o r γ α β C i j) := fun j => h.mem _
  refine ⟨⟨⟨⟨fun i j => (hcol j).1 i, fun i => rfl, fun j => rfl⟩, hcol⟩, fun Q hQ => ?_⟩, fun hns Q hQ hle => ?_⟩
  · rw [hv]; exact C52_weak_duality o ho r hr γ hγ _ _ C α β Q hQ
  · rw [hv] at hle
    have hl := lagr r γ α β C Q
    simp only [hQ.1.row, hQ.1.col] at hl
    have hle' : ∀ j ∈ (univ : Finset (Fin m)), dot (fun i => Q i j) (fun i => α i + β j - C i j) - omega r γ (fun i => Q i j) ≤
        (deltaOmega o r γ (fun i => α i + β j - C i j)).1 := fun j _ => h.le _ _ (hQ.2 j)
    have hsum : ∑ j, (deltaOmega o r γ (fun i => α i + β j - C i j)).1 ≤
        ∑ j, (dot (fun i => Q i j) (fun i => α i + β j - C i j) - omega r γ (fun i => Q i j)) := by
      rw [hl]
      simp only [dualObjGrad] at hle
      linarith
    have heq := (sum_eq_sum_iff_of_le hle').1 (le_antisymm (sum_le_sum hle') hsum)
    funext i j
    have hj : (fun i => Q i j) = (deltaOmega o r γ (fun i => α i + β j - C i j)).2 := by
      match r, hns with
      | .kl, _ => exact strict_kl o hγ _ _ (hQ.2 j) (heq j (mem_univ j)).ge
      | .l2, _ => exact strict_l2 o hγ _ _ (hQ.2 j) (heq j (mem_univ j)).ge
      | .sparse k, hns => exact absurd rfl (hns k)
    exact congrFun hj i

/-- C52. Wherever the optimiser stops, the regularised cost of the recovered plan exceeds the optimum by at most `-⟨α, grad_α⟩ - ⟨β, grad_β⟩`. -/
theorem C52_gap (o : Oracle n) (ho : o.Ok) (r : RegType) (hr : RegOk n r) (γ : ℝ) (hγ : 0 < γ) (a : Fin n → ℝ) (b : Fin m → ℝ)
    (C : Fin n → Fin m → ℝ) (α : Fin n → ℝ) (β : Fin m → ℝ) (Q : Fin n → Fin m → ℝ) (hQ : RegCoupling r a b Q) :
    regObjective r γ C (planFromDual o r γ α β C) ≤ regObjective r γ C Q -
      ∑ i, α i * (a i - ∑ j, planFromDual o r γ α β C i j) - ∑ j, β j * (b j - ∑ i, planFromDual o r γ α β C i j) := by
  have h1 := C52_plan_value o ho r hr γ hγ a b C α β
  have h2 := C52_weak_duality o ho r hr γ hγ a b C α β Q hQ
  simp only [(C52_gradient_is_marginal_error o r γ a b C α β)] at h1
  linarith

/-- C52. Where the returned gradient vanishes, the recovered plan is an optimal plan (the only one for the entropic and the quadratic regularisation), and
the dual objective is its regularised cost. -/
theorem C52_stationary (o : Oracle n) (ho : o.Ok) (r : RegType) (hr : RegOk n r) (γ : ℝ) (hγ : 0 < γ) (a : Fin n → ℝ) (b : Fin m → ℝ)
    (C : Fin n → Fin m → ℝ) (α : Fin n → ℝ) (β : Fin m → ℝ)
    (hα : ∀ i, (dualObjGrad o r γ α β a b C).2.1 i = 0) (hβ : ∀ j, (dualObjGrad o r γ α β a b C).2.2 j = 0) :
    RegOptimal r γ a b C (planFromDual o r γ α β C) ∧ ((∀ k, r ≠ .sparse k) → RegUnique r γ a b C (planFromDual o r γ α β C)) ∧
    (dualObjGrad o r γ α β a b C).1 = regObjective r γ C (planFromDual o r γ α β C) := by
  have hz := C52_gradient_is_marginal_error o r γ a b C α β
  have ha : (fun i => ∑ j, planFromDual o r γ α β C i j) = a := funext fun i => by have := hz.1 i; rw [hα] at this; linarith
  have hb : (fun j => ∑ i, planFromDual o r γ α β C i j) = b := funext fun j => by have := hz.2 j; rw [hβ] at this; linarith
  have h := C52_plan_optimal o ho r hr γ hγ C α β
  rw [ha, hb] at h
  refine ⟨h.1, h.2, ?_⟩
  have hv := C52_plan_value o ho r hr γ hγ a b C α β
  simp only [hα, hβ, mul_zero, sum_const_zero, sub_zero] at hv
  exact hv.symm

/-- C52. The objective is concave with the returned gradients as supergradients (for every regularisation). -/
theorem C52_supergradient (o : Oracle n) (ho : o.Ok) (r : RegType) (hr : RegOk n r) (γ : ℝ) (hγ : 0 < γ) (a : Fin n → ℝ) (b : Fin m → ℝ)
    (C : Fin n → Fin m → ℝ) (α α' : Fin n → ℝ) (β β' : Fin m → ℝ) :
    (dualObjGrad o r γ α' β' a b C).1 ≤ (dualObjGrad o r γ α β a b C).1 +
      ∑ i, (dualObjGrad o r γ α β a b C).2.1 i * (α' i - α i) + ∑ j, (dualObjGrad o r γ α β a b C).2.2 j * (β' j - β j) := by
  have h := conj_delta o ho hγ r hr
  have h1 : ∑ j, ((deltaOmega o r γ (fun i => α i + β j - C i j)).1 + dot (deltaOmega o r γ (fun i => α i + β j - C i j)).2
      (fun i => (α' i + β' j - C i j) - (α i + β j - C i j))) ≤ ∑ j, (deltaOmega o r γ (fun i => α' i + β' j - C i j)).1 :=
    sum_le_sum fun j _ => h.sub _ _
  rw [sum_add_distrib] at h1
  have h2 : ∑ j, dot (deltaOmega o r γ (fun i => α i + β j - C i j)).2 (fun i => (α' i + β' j - C i j) - (α i + β j - C i j)) =
      ∑ i, (∑ j, (deltaOmega o r γ (fun i => α i + β j - C i j)).2 i) * (α' i - α i) +
      ∑ j, (∑ i, (deltaOmega o r γ (fun i => α i + β j - C i j)).2 i) * (β' j - β j) := by
    simp only [dot, sum_mul]
    rw [sum_comm (s := (univ : Finset (Fin n))), ← sum_add_distrib]
    refine sum_congr rfl fun j _ => ?_
    rw [← sum_add_distrib]
    exact sum_congr rfl fun i _ => by ring
  rw [h2] at h1
  simp only [dualObjGrad, sub_mul, sum_sub_distrib]
  have e1 : ∑ i, a i * (α' i - α i) = ∑ i, α' i * a i - ∑ i, α i * a i := by rw [← sum_sub_distrib]; exact sum_congr rfl fun i _ => by ring
  have e2 : ∑ j, b j * (β' j - β j) = ∑ j, β' j * b j - ∑ j, β j * b j := by rw [← sum_sub_distrib]; exact sum_congr rfl fun i _ => by ring
  rw [e1, e2]
  linarith

theorem delta_cont (o : Oracle n) (r : RegType) (hr : ∀ k, r ≠ .sparse k) (γ : ℝ) (f : ℝ → Fin n → ℝ) (hf : ∀ i, Continuous fun t => f t i) (i : Fin n) :
    Continuous fun t => (deltaOmega o r γ (f t)).2 i := by
  match r, hr with
  | .kl, _ => exact Real.continuous_exp.comp (((hf i).div_const γ).sub continuous_const)
  | .l2, _ => exact (((hf i).max continuous_const)).div_const γ
  | .sparse k, hr => exact absurd rfl (hr k)

/-- C52. For the entropic and the quadratic regularisation the returned gradients are the derivatives of the returned objective, in every direction. -/
theorem C52_gradient (o : Oracle n) (ho : o.Ok) (r : RegType) (hr : ∀ k, r ≠ .sparse k) (γ : ℝ) (hγ : 0 < γ) (a : Fin n → ℝ) (b : Fin m → ℝ)
    (C : Fin n → Fin m → ℝ) (α d : Fin n → ℝ) (β e : Fin m → ℝ) :
    HasDerivAt (fun t : ℝ => (dualObjGrad o r γ (fun i => α i + t * d i) (fun j => β j + t * e j) a b C).1)
      (∑ i, (dualObjGrad o r γ α β a b C).2.1 i * d i + ∑ j, (dualObjGrad o r γ α β a b C).2.2 j * e j) 0 := by
  have hr' : RegOk n r := by
    cases r with
    | kl => trivial
    | l2 => trivial
    | sparse k => exact absurd rfl (hr k)
  obtain ⟨D, hD⟩ : ∃ D : ℝ → ℝ × (Fin n → ℝ) × (Fin m → ℝ), D = fun t => dualObjGrad o r γ (fun i => α i + t * d i) (fun j => β j + t * e j) a b C := ⟨_, rfl⟩
  have hcont1 : ∀ i, Continuous fun t => (D t).2.1 i := by
    intro i
    rw [hD]
    exact continuous_const.sub (continuous_finsetSum _ fun j _ => delta_cont o r hr γ _ (fun i => by fun_prop) i)
  have hcont2 : ∀ j, Continuous fun t => (D t).2.2 j := by
    intro j
    rw [hD]
    exact continuous_const.sub (continuous_finsetSum _ fun i _ => delta_cont o r hr γ _ (fun i => by fun_prop) i)
  have key := hasDerivAt_of_sub (fun t => -(D t).1) (fun t => -(∑ i, (D t).2.1 i * d i + ∑ j, (D t).2.2 j * e j)) (fun x y => by
      have := C52_supergradient o ho r hr' γ hγ a b C (fun i => α i + x * d i) (fun i => α i + y * d i) (fun j => β j + x * e j) (fun j => β j + y * e j)
      have e1 : ∀ i, α i + y * d i - (α i + x * d i) = d i * (y - x) := fun i => by ring
      have e2 : ∀ j, β j + y * e j - (β j + x * e j) = e j * (y - x) := fun j => by ring
      simp only [e1, e2, ← mul_assoc, ← sum_mul] at this
      simp only [hD]
      linarith) 0 (by
      refine Continuous.continuousAt (Continuous.neg (Continuous.add ?_ ?_))
      · exact continuous_finsetSum _ fun i _ => (hcont1 i).mul continuous_const
      · exact continuous_finsetSum _ fun j _ => (hcont2 j).mul continuous_const)
  have := key.neg
  have hneg : (-fun t => -(D t).1) = fun t => (D t).1 := funext fun t => neg_neg _
  rw [hneg, neg_neg] at this
  have hz : D 0 = dualObjGrad o r γ α β a b C := by rw [hD]; simp
  rw [hz] at this
  rw [hD] at this
  exact this

/-- C52. A maximiser of the dual has zero gradient, so that `C52_stationary` applies to it (entropic and quadratic regularisation). -/
theorem C52_maximiser (o : Oracle n) (ho : o.Ok) (r : RegType) (hr : ∀ k, r ≠ .sparse k) (γ : ℝ) (hγ : 0 < γ) (a : Fin n → ℝ) (b : Fin m → ℝ)
    (C : Fin n → Fin m → ℝ) (α : Fin n → ℝ) (β : Fin m → ℝ)
    (hmax : ∀ α' β', (dualObjGrad o r γ α' β' a b C).1 ≤ (dualObjGrad o r γ α β a b C).1) :
    (∀ i, (dualObjGrad o r γ α β a b C).2.1 i = 0) ∧ ∀ j, (dualObjGrad o r γ α β a b C).2.2 j = 0 := by
  have key : ∀ (d : Fin n → ℝ) (e : Fin m → ℝ),
      ∑ i, (dualObjGrad o r γ α β a b C).2.1 i * d i + ∑ j, (dualObjGrad o r γ α β a b C).2.2 j * e j = 0 := by
    intro d e
    refine IsLocalMax.hasDerivAt_eq_zero (Filter.Eventually.of_forall fun t => ?_) (C52_gradient o ho r hr γ hγ a b C α d β e)
    have := hmax (fun i => α i + t * d i) (fun j => β j + t * e j)
    simpa using this
  constructor
  · intro i
    have := key (fun k => if k = i then 1 else 0) (fun _ => 0)
    simpa using this
  · intro j
    have := key (fun _ => 0) (fun k => if k = j then 1 else 0)
    simpa using this

/-! ## semi-dual -/

/-- C53. Whatever the potential (any stopping point of the optimiser), the plan recovered from the semi-dual is non-negative, its column sums are exactly `b`,
and with the sparsity constraint no column has more than `max_nz` non-zeros. -/
theorem C53_target_marginal (o : Oracle n) (ho : o.Ok) (hn : 0 < n) (r : RegType) (hr : RegOk' n r) (γ : ℝ) (hγ : 0 < γ) (b : Fin m → ℝ) (hb : ∀ j, 0 < b j)
    (C : Fin n → Fin m → ℝ) (α : Fin n → ℝ) :
    (∀ i j, 0 ≤ planFromSemiDual o r γ α b C i j) ∧ (∀ j, ∑ i, planFromSemiDual o r γ α b C i j = b j) ∧
    ∀ j, AdmCol r (fun i => planFromSemiDual o r γ α b C i j) := by
  have hm := fun j => (conjMax o ho hn hγ (hb j) r hr).mem (fun i => α i - C i j)
  have h0 : ∀ i j, 0 ≤ planFromSemiDual o r γ α b C i j := fun i j => mul_nonneg ((hm j).1.1 i) (hb j).le
  refine ⟨h0, fun j => ?_, fun j => ⟨fun i => h0 i j, ?_⟩⟩
  · show ∑ i, (maxOmega o r γ (fun i => α i - C i j) (b j)).2 i * b j = b j
    rw [← sum_mul, (hm j).2, one_mul]
  · match r, hm with
    | .kl, _ => trivial
    | .l2, _ => trivial
    | .sparse k, hm =>
      have := (hm j).1.2
      refine le_trans (card_le_card fun i hi => ?_) this
      simp only [mem_filter, mem_univ, true_and] at hi ⊢
      intro hc
      apply hi
      show (maxOmega o (.sparse k) γ (fun i => α i - C i j) (b j)).2 i * b j = 0
      rw [hc, zero_mul]

theorem AdmSimplex_scale (r : RegType) (y : Fin n → ℝ) (b : ℝ) (hb : 0 < b) (hy : AdmCol r y) (hs : ∑ i, y i = b) :
    AdmSimplex r (fun i => y i / b) := by
  refine ⟨⟨fun i => div_nonneg (hy.1 i) hb.le, ?_⟩, by rw [← sum_div, hs, div_self hb.ne']⟩
  match r, hy with
  | .kl, _ => trivial
  | .l2, _ => trivial
  | .sparse k, hy =>
    refine le_trans (card_le_card fun i hi => ?_) hy.2
    simp only [mem_filter, mem_univ, true_and] at hi ⊢
    intro hc
    apply hi
    rw [hc, zero_div]

theorem lagr_semi (r : RegType) (γ : ℝ) (α : Fin n → ℝ) (b : Fin m → ℝ) (hb : ∀ j, 0 < b j) (C P : Fin n → Fin m → ℝ) :
    ∑ j, b j * (dot (fun i => P i j / b j) (fun i => α i - C i j) - omegaScaled r γ (b j) (fun i => P i j / b j)) =
      ∑ i, α i * ∑ j, P i j - regObjective r γ C P := by
  have h := lagr r γ α (fun _ => 0) C P
  simp only [add_zero, zero_mul, sum_const_zero] at h
  rw [← h]
  refine sum_congr rfl fun j _ => ?_
  rw [mul_sub]
  congr 1
  · unfold dot
    rw [mul_sum]
    refine sum_congr rfl fun i _ => ?_
    have := (hb j).ne'
    field_simp
  · unfold omegaScaled
    have := (hb j).ne'
    have e : (fun i => b j * (P i j / b j)) = fun i => P i j := funext fun i => by field_simp
    rw [e]; field_simp

/-- C53. The semi-dual objective is at most the regularised cost of every admissible coupling. -/
theorem C53_weak_duality (o : Oracle n) (ho : o.Ok) (hn : 0 < n) (r : RegType) (hr : RegOk' n r) (γ : ℝ) (hγ : 0 < γ) (a : Fin n → ℝ) (b : Fin m → ℝ)
    (hb : ∀ j, 0 < b j) (C : Fin n → Fin m → ℝ) (α : Fin n → ℝ) (P : Fin n → Fin m → ℝ) (hP : RegCoupling r a b P) :
    (semiDualObjGrad o r γ α a b C).1 ≤ regObjective r γ C P := by
  have h1 : ∑ j, b j * (dot (fun i => P i j / b j) (fun i => α i - C i j) - omegaScaled r γ (b j) (fun i => P i j / b j)) ≤
      ∑ j, b j * (maxOmega o r γ (fun i => α i - C i j) (b j)).1 := sum_le_sum fun j _ =>
        mul_le_mul_of_nonneg_left ((conjMax o ho hn hγ (hb j) r hr).le _ _ (AdmSimplex_scale r _ _ (hb j) (hP.2 j) (hP.1.col j))) (hb j).le
  rw [lagr_semi r γ α b hb] at h1
  simp only [hP.1.row] at h1
  simp only [semiDualObjGrad]
  linarith

/-- C53. The value of the recovered plan: `⟨T, C⟩ + Ω(T) = obj - ⟨α, grad⟩`, and the gradient is the error of the source marginal. -/
theorem C53_plan_value (o : Oracle n) (ho : o.Ok) (hn : 0 < n) (r : RegType) (hr : RegOk' n r) (γ : ℝ) (hγ : 0 < γ) (a : Fin n → ℝ) (b : Fin m → ℝ)
    (hb : ∀ j, 0 < b j) (C : Fin n → Fin m → ℝ) (α : Fin n → ℝ) :
    (∀ i, (semiDualObjGrad o r γ α a b C).2 i = a i - ∑ j, planFromSemiDual o r γ α b C i j) ∧
    regObjective r γ C (planFromSemiDual o r γ α b C) =
      (semiDualObjGrad o r γ α a b C).1 - ∑ i, α i * (semiDualObjGrad o r γ α a b C).2 i := by
  refine ⟨fun i => rfl, ?_⟩
  have e : ∀ j, (fun i => planFromSemiDual o r γ α b C i j / b j) = (maxOmega o r γ (fun i => α i - C i j) (b j)).2 := fun j => funext fun i => by
    show (maxOmega o r γ (fun i => α i - C i j) (b j)).2 i * b j / b j = _
    rw [mul_div_assoc, div_self (hb j).ne', mul_one]
  have h1 := lagr_semi r γ α b hb C (planFromSemiDual o r γ α b C)
  have h2 : ∑ j, b j * (dot (fun i => planFromSemiDual o r γ α b C i j / b j) (fun i => α i - C i j) -
      omegaScaled r γ (b j) (fun i => planFromSemiDual o r γ α b C i j / b j)) = ∑ j, b j * (maxOmega o r γ (fun i => α i - C i j) (b j)).1 :=
    sum_congr rfl fun j _ => by rw [e j, (conjMax o ho hn hγ (hb j) r hr).eq]
  rw [h2] at h1
  simp only [semiDualObjGrad, mul_sub, sum_sub_distrib]
  have e1 : ∑ i, α i * ∑ j, (maxOmega o r γ (fun i => α i - C i j) (b j)).2 i * b j = ∑ i, α i * ∑ j, planFromSemiDual o r γ α b C i j := rfl
  rw [e1]
  linarith

/-- C53. Wherever the optimiser stops, the recovered plan solves the regularised problem between its own row sums and `b`. -/
theorem C53_plan_optimal (o : Oracle n) (ho : o.Ok) (hn : 0 < n) (r : RegType) (hr : RegOk' n r) (γ : ℝ) (hγ : 0 < γ) (b : Fin m → ℝ)
    (hb : ∀ j, 0 < b j) (C : Fin n → Fin m → ℝ) (α : Fin n → ℝ) :
    RegOptimal r γ (fun i => ∑ j, planFromSemiDual o r γ α b C i j) b C (planFromSemiDual o r γ α b C) ∧
    ((∀ k, r ≠ .sparse k) → RegUnique r γ (fun i => ∑ j, planFromSemiDual o r γ α b C i j) b C (planFromSemiDual o r γ α b C)) := by
  obtain ⟨h0, hc, ha⟩ := C53_target_marginal o ho hn r hr γ hγ b hb C α
  obtain ⟨hg, hv⟩ := C53_plan_value o ho hn r hr γ hγ (fun i => ∑ j, planFromSemiDual o r γ α b C i j) b hb C α
  simp only [hg, sub_self, mul_zero, sum_const_zero, sub_zero] at hv
  refine ⟨⟨⟨⟨h0, fun i => rfl, hc⟩, ha⟩, fun Q hQ => ?_⟩, fun hns Q hQ hle => ?_⟩
  · rw [hv]; exact C53_weak_duality o ho hn r hr γ hγ _ b hb C α Q hQ
  · rw [hv] at hle
    have hl := lagr_semi r γ α b hb C Q
    simp only [hQ.1.row] at hl
    have hadm : ∀ j, AdmSimplex r (fun i => Q i j / b j) := fun j => AdmSimplex_scale r _ _ (hb j) (hQ.2 j) (hQ.1.col j)
    have hle' : ∀ j ∈ (univ : Finset (Fin m)), b j * (dot (fun i => Q i j / b j) (fun i => α i - C i j) - omegaScaled r γ (b j) (fun i => Q i j / b j)) ≤
        b j * (maxOmega o r γ (fun i => α i - C i j) (b j)).1 := fun j _ =>
          mul_le_mul_of_nonneg_left ((conjMax o ho hn hγ (hb j) r hr).le _ _ (hadm j)) (hb j).le
    have hsum : ∑ j, b j * (maxOmega o r γ (fun i => α i - C i j) (b j)).1 ≤
        ∑ j, b j * (dot (fun i => Q i j / b j) (fun i => α i - C i j) - omegaScaled r γ (b j) (fun i => Q i j / b j)) := by
      rw [hl]
      simp only [semiDualObjGrad] at hle
      linarith
    have heq := (sum_eq_sum_iff_of_le hle').1 (le_antisymm (sum_le_sum hle') hsum)
    funext i j
    have hq := mul_left_cancel₀ (hb j).ne' (heq j (mem_univ j))
    have hj : (fun i => Q i j / b j) = (maxOmega o r γ (fun i => α i - C i j) (b j)).2 := by
      match r, hns with
      | .kl, _ => exact strictMax_kl o hn hγ (hb j) _ _ (hadm j) hq.ge
      | .l2, _ => exact strictMax_l2 o hn hγ (hb j) _ _ (hadm j) hq.ge
      | .sparse k, hns => exact absurd rfl (hns k)
    have := congrFun hj i
    show Q i j = (maxOmega o r γ (fun i => α i - C i j) (b j)).2 i * b j
    rw [← this, div_mul_cancel₀ _ (hb j).ne']

/-- C53. Where the returned gradient vanishes, the recovered plan is an optimal plan between `a` and `b` and the semi-dual objective is its cost. In general the
cost of the recovered plan exceeds the optimum by at most `-⟨α, grad⟩`. -/
theorem C53_stationary (o : Oracle n) (ho : o.Ok) (hn : 0 < n) (r : RegType) (hr : RegOk' n r) (γ : ℝ) (hγ : 0 < γ) (a : Fin n → ℝ) (b : Fin m → ℝ)
    (hb : ∀ j, 0 < b j) (C : Fin n → Fin m → ℝ) (α : Fin n → ℝ) :
    ((∀ i, (semiDualObjGrad o r γ α a b C).2 i = 0) → RegOptimal r γ a b C (planFromSemiDual o r γ α b C) ∧
      ((∀ k, r ≠ .sparse k) → RegUnique r γ a b C (planFromSemiDual o r γ α b C)) ∧
      (semiDualObjGrad o r γ α a b C).1 = regObjective r γ C (planFromSemiDual o r γ α b C)) ∧
    ∀ Q, RegCoupling r a b Q → regObjective r γ C (planFromSemiDual o r γ α b C) ≤
      regObjective r γ C Q - ∑ i, α i * (a i - ∑ j, planFromSemiDual o r γ α b C i j) := by
  obtain ⟨hg, hv⟩ := C53_plan_value o ho hn r hr γ hγ a b hb C α
  constructor
  · intro hz
    have ha : (fun i => ∑ j, planFromSemiDual o r γ α b C i j) = a := funext fun i => by have := hg i; rw [hz] at this; linarith
    have h := C53_plan_optimal o ho hn r hr γ hγ b hb C α
    rw [ha] at h
    refine ⟨h.1, h.2, ?_⟩
    simp only [hz, mul_zero, sum_const_zero, sub_zero] at hv
    exact hv.symm
  · intro Q hQ
    have := C53_weak_duality o ho hn r hr γ hγ a b hb C α Q hQ
    simp only [hg] at hv
    linarith

/-- C53. The semi-dual objective is concave with the returned gradient as supergradient. -/
theorem C53_supergradient (o : Oracle n) (ho : o.Ok) (hn : 0 < n) (r : RegType) (hr : RegOk' n r) (γ : ℝ) (hγ : 0 < γ) (a : Fin n → ℝ) (b : Fin m → ℝ)
    (hb : ∀ j, 0 < b j) (C : Fin n → Fin m → ℝ) (α α' : Fin n → ℝ) :
    (semiDualObjGrad o r γ α' a b C).1 ≤ (semiDualObjGrad o r γ α a b C).1 + ∑ i, (semiDualObjGrad o r γ α a b C).2 i * (α' i - α i) := by
  have h1 : ∑ j, b j * ((maxOmega o r γ (fun i => α i - C i j) (b j)).1 + dot (maxOmega o r γ (fun i => α i - C i j) (b j)).2
      (fun i => (α' i - C i j) - (α i - C i j))) ≤ ∑ j, b j * (maxOmega o r γ (fun i => α' i - C i j) (b j)).1 :=
    sum_le_sum fun j _ => mul_le_mul_of_nonneg_left ((conjMax o ho hn hγ (hb j) r hr).sub _ _) (hb j).le
  simp only [mul_add] at h1
  rw [sum_add_distrib] at h1
  have h2 : ∑ j, b j * dot (maxOmega o r γ (fun i => α i - C i j) (b j)).2 (fun i => (α' i - C i j) - (α i - C i j)) =
      ∑ i, (∑ j, (maxOmega o r γ (fun i => α i - C i j) (b j)).2 i * b j) * (α' i - α i) := by
    simp only [dot, sum_mul, mul_sum]
    rw [sum_comm]
    refine sum_congr rfl fun i _ => sum_congr rfl fun j _ => by ring
  rw [h2] at h1
  simp only [semiDualObjGrad, sub_mul, sum_sub_distrib]
  have e1 : ∑ i, a i * (α' i - α i) = ∑ i, α' i * a i - ∑ i, α i * a i := by rw [← sum_sub_distrib]; exact sum_congr rfl fun i _ => by ring
  rw [e1]
  linarith

/-- C53. For the entropic and the quadratic regularisation the returned gradient is the derivative of the returned objective, in every direction. -/
theorem C53_gradient (o : Oracle n) (ho : o.Ok) (hn : 0 < n) (r : RegType) (hr : ∀ k, r ≠ .sparse k) (γ : ℝ) (hγ : 0 < γ) (a : Fin n → ℝ) (b : Fin m → ℝ)
    (hb : ∀ j, 0 < b j) (C : Fin n → Fin m → ℝ) (α d : Fin n → ℝ) :
    HasDerivAt (fun t : ℝ => (semiDualObjGrad o r γ (fun i => α i + t * d i) a b C).1) (∑ i, (semiDualObjGrad o r γ α a b C).2 i * d i) 0 := by
  have hr' : RegOk' n r := by
    cases r with
    | kl => trivial
    | l2 => trivial
    | sparse k => exact absurd rfl (hr k)
  obtain ⟨D, hD⟩ : ∃ D : ℝ → ℝ × (Fin n → ℝ), D = fun t => semiDualObjGrad o r γ (fun i => α i + t * d i) a b C := ⟨_, rfl⟩
  have hcont1 : ∀ i, Continuous fun t => (D t).2 i := by
    intro i
    rw [hD]
    exact continuous_const.sub (continuous_finsetSum _ fun j _ => (maxOmega_cont o hn r hr hγ (hb j) _ (fun i => by fun_prop) i).mul continuous_const)
  have key := hasDerivAt_of_sub (fun t => -(D t).1) (fun t => -(∑ i, (D t).2 i * d i)) (fun x y => by
      have := C53_supergradient o ho hn r hr' γ hγ a b hb C (fun i => α i + x * d i) (fun i => α i + y * d i)
      have e1 : ∀ i, α i + y * d i - (α i + x * d i) = d i * (y - x) := fun i => by ring
      simp only [e1, ← mul_assoc, ← sum_mul] at this
      simp only [hD]
      linarith) 0 (by
      refine Continuous.continuousAt (Continuous.neg ?_)
      exact continuous_finsetSum _ fun i _ => (hcont1 i).mul continuous_const)
  have := key.neg
  have hneg : (-fun t => -(D t).1) = fun t => (D t).1 := funext fun t => neg_neg _
  rw [hneg, neg_neg] at this
  have hz : D 0 = semiDualObjGrad o r γ α a b C := by rw [hD]; simp
  rw [hz] at this
  rw [hD] at this
  exact this

/-- C53. A maximiser of the semi-dual has zero gradient, so that `C53_stationary` applies to it (entropic and quadratic regularisation). -/
theorem C53_maximiser (o : Oracle n) (ho : o.Ok) (hn : 0 < n) (r : RegType) (hr : ∀ k, r ≠ .sparse k) (γ : ℝ) (hγ : 0 < γ) (a : Fin n → ℝ) (b : Fin m → ℝ)
    (hb : ∀ j, 0 < b j) (C : Fin n → Fin m → ℝ) (α : Fin n → ℝ)
    (hmax : ∀ α', (semiDualObjGrad o r γ α' a b C).1 ≤ (semiDualObjGrad o r γ α a b C).1) (i : Fin n) : (semiDualObjGrad o r γ α a b C).2 i = 0 := by
  have key : ∑ k, (semiDualObjGrad o r γ α a b C).2 k * (if k = i then 1 else 0) = 0 := by
    refine IsLocalMax.hasDerivAt_eq_zero (Filter.Eventually.of_forall fun t => ?_)
      (C53_gradient o ho hn r hr γ hγ a b hb C α fun k => if k = i then 1 else 0)
    have := hmax (fun k => α k + t * if k = i then 1 else 0)
    simpa using this
  simpa using key

/-- `projection_simplex` returns the nearest point of the simplex. -/
theorem C53_projection_simplex (hn : 0 < n) (v : Fin n → ℝ) (z : ℝ) (hz : 0 < z) :
    InSimplex z (projectionSimplex v z) ∧ ∀ y, InSimplex z y → sqDist (projectionSimplex v z) v ≤ sqDist y v ∧
      (sqDist y v ≤ sqDist (projectionSimplex v z) v → y = projectionSimplex v z) := C19_proj_simplex hn v z hz

/-! ### the hypotheses can be met -/

/-- an oracle: sort with the library, take the last `k` -/
noncomputable def exOracle (n : ℕ) : Oracle n where
  part x k := (Utils.topIndices (Tuple.sort x) k).toFinset
  sort x := Tuple.sort x

theorem exOracle_ok (n : ℕ) : (exOracle n).Ok where
  card x k hk := by
    show (Utils.topIndices (Tuple.sort x) k).toFinset.card = k
    rw [List.toFinset_card_of_nodup (topIndices_nodup _ k), topIndices_length _ k hk.le]
  top x k hk i hi j hj := by
    have h1 : n - k ≤ ((Tuple.sort x).symm i).val := (mem_topIndices _ k i).1 (List.mem_toFinset.1 hi)
    have h2 : ¬ n - k ≤ ((Tuple.sort x).symm j).val := fun h => hj (List.mem_toFinset.2 ((mem_topIndices _ k j).2 h))
    have := Tuple.monotone_sort x (show (Tuple.sort x).symm j ≤ (Tuple.sort x).symm i from by rw [Fin.le_def]; omega)
    simpa using this
  sorted x := Tuple.monotone_sort x

/-- a stationary point with the quadratic regularisation: `γ = 1`, uniform weights on two points, zero cost, `α = β = 1/8` -/
example : (∀ i, (dualObjGrad (exOracle 2) .l2 1 (fun _ => 1 / 8) (fun _ => 1 / 8) (fun _ => 1 / 2) (fun _ : Fin 2 => 1 / 2) (fun _ _ => 0)).2.1 i = 0) ∧
    ∀ j, (dualObjGrad (exOracle 2) .l2 1 (fun _ => 1 / 8) (fun _ => 1 / 8) (fun _ => 1 / 2) (fun _ : Fin 2 => 1 / 2) (fun _ _ => 0)).2.2 j = 0 := by
  have : max ((1 : ℝ) / 8 + 1 / 8 - 0) 0 = 1 / 4 := by norm_num
  constructor <;> intro i <;> simp only [dualObjGrad, deltaOmega, this, Fin.sum_univ_two] <;> norm_num

/-- a stationary point with the entropic regularisation: the same problem with `α = 1 + log (1/4)`, `β = 0` -/
example : (∀ i, (dualObjGrad (exOracle 2) .kl 1 (fun _ => 1 + Real.log (1 / 4)) (fun _ => 0) (fun _ => 1 / 2) (fun _ : Fin 2 => 1 / 2) (fun _ _ => 0)).2.1 i = 0) ∧
    ∀ j, (dualObjGrad (exOracle 2) .kl 1 (fun _ => 1 + Real.log (1 / 4)) (fun _ => 0) (fun _ => 1 / 2) (fun _ : Fin 2 => 1 / 2) (fun _ _ => 0)).2.2 j = 0 := by
  have h : Real.exp ((1 + Real.log (1 / 4) + 0 - 0) / 1 - 1) = 1 / 4 := by
    rw [show (1 + Real.log (1 / 4) + 0 - 0) / 1 - 1 = Real.log (1 / 4) by ring, Real.exp_log (by norm_num)]
  constructor <;> intro i <;> simp only [dualObjGrad, deltaOmega, h, Fin.sum_univ_two] <;> norm_num

/-- a stationary point with one non-zero per column: cost `0` on the diagonal and `1` elsewhere, `α = β = 1/4`; the plan is half the identity -/
example : (∀ i, (dualObjGrad (exOracle 2) (.sparse 1) 1 (fun _ => 1 / 4) (fun _ => 1 / 4) (fun _ => 1 / 2) (fun _ : Fin 2 => 1 / 2)
      (fun i j => if i = j then 0 else 1)).2.1 i = 0) ∧ RegOk 2 (.sparse 1) := by
  have hp : ∀ i j : Fin 2, (deltaOmega (exOracle 2) (.sparse 1) 1 (fun i => 1 / 4 + 1 / 4 - if i = j then 0 else 1)).2 i = if i = j then 1 / 2 else 0 := by
    intro i j
    simp only [deltaOmega]
    by_cases hij : i = j
    · subst hij
      have hin : i ∈ (exOracle 2).part (fun k => 1 / 4 + 1 / 4 - if k = i then 0 else 1) 1 := by
        by_contra hc
        have hcard := (exOracle_ok 2).card (fun k => 1 / 4 + 1 / 4 - if k = i then (0 : ℝ) else 1) 1 (by norm_num)
        obtain ⟨k, hk⟩ := card_eq_one.1 hcard
        have hk' : k ∈ (exOracle 2).part (fun k => 1 / 4 + 1 / 4 - if k = i then 0 else 1) 1 := by rw [hk]; exact mem_singleton_self k
        have := (exOracle_ok 2).top (fun k => 1 / 4 + 1 / 4 - if k = i then (0 : ℝ) else 1) 1 (by norm_num) k hk' i hc
        have hki : k ≠ i := fun h => hc (h ▸ hk')
        simp only [if_neg hki, if_true] at this
        norm_num at this
      simp only [hin, if_true]
      norm_num
    · simp only [if_neg hij]
      split_ifs <;> norm_num
  refine ⟨fun i => ?_, by show 1 < 2; norm_num⟩
  simp only [dualObjGrad, hp]
  simp

end POT.Props
