import Verif.Lemmas.Coot
import Verif.Lemmas.ExactEmd
import Verif.Spec.Entropic
import Mathlib.Algebra.Order.Field.Rat

set_option linter.unusedSectionVars false

/-! # Properties: co-optimal transport -/

namespace POT.Props

open Finset Spec

variable {R : Type*} [Field R] [LinearOrder R] [IsStrictOrderedRing R]
variable {I J A B : Type*} [Fintype I] [Fintype J] [Fintype A] [Fintype B]

theorem coot_penS (p : Coot.Problem R I J A B) : p.penS = planPenalty p.alphaSamp p.MSamp p.epsSamp p.klSamp := by
  funext P
  cases h : p.MSamp with
  | none => simp [Coot.Problem.penS, planPenalty, Coot.Problem.aS, h]
  | some M =>
    by_cases ha : p.alphaSamp = 0
    · simp [Coot.Problem.penS, planPenalty, Coot.Problem.aS, ha]
    · simp [Coot.Problem.penS, planPenalty, Coot.Problem.aS, Coot.Problem.mS, ha, h]

theorem coot_penF (p : Coot.Problem R I J A B) : p.penF = planPenalty p.alphaFeat p.MFeat p.epsFeat p.klFeat := by
  funext P
  cases h : p.MFeat with
  | none => simp [Coot.Problem.penF, planPenalty, Coot.Problem.aF, h]
  | some M =>
    by_cases ha : p.alphaFeat = 0
    · simp [Coot.Problem.penF, planPenalty, Coot.Problem.aF, ha]
    · simp [Coot.Problem.penF, planPenalty, Coot.Problem.aF, Coot.Problem.mF, ha, h]

/-- The objective of the documentation. -/
def cootF (p : Coot.Problem R I J A B) : (I → J → R) → (A → B → R) → R :=
  coOtObjective p.X p.Y (planPenalty p.alphaSamp p.MSamp p.epsSamp p.klSamp) (planPenalty p.alphaFeat p.MFeat p.epsFeat p.klFeat)

/-- The two inner solvers are exact: they minimise `⟨C, P⟩ + eps * kl P` among the couplings of their weights. -/
def CootExact (p : Coot.Problem R I J A B) : Prop :=
  (∀ C, IsPenOptimal p.wxSamp p.wySamp (fun P => p.epsSamp * p.klSamp P) C (p.solveSamp C)) ∧
  ∀ C, IsPenOptimal p.wxFeat p.wyFeat (fun P => p.epsFeat * p.klFeat P) C (p.solveFeat C)

theorem coot_obj (p : Coot.Problem R I J A B) : p.obj = cootF p := by
  unfold Coot.Problem.obj cootF; rw [coot_penS, coot_penF]

theorem coot_invInit (p : Coot.Problem R I J A B) (w : Option ((I → J → R) × (A → B → R)))
    (hS : IsCoupling p.wxSamp p.wySamp (p.init w).piS) (hF : IsCoupling p.wxFeat p.wyFeat (p.init w).piF) :
    p.Inv (p.init w) (p.init w) := by
  have hd : (p.init w).dist = [] := by cases w <;> rfl
  exact ⟨hS, hF, le_rfl, by simp [hd], by simp [hd]⟩

/-- **C72.** `co_optimal_transport` with exact inner solvers, started from a pair of plans: it returns two couplings of the given weights; their objective is at most that of the start; the recorded distances never increase
(they are stored newest first here), lie between the objective of the result and that of the start, and with at least one iteration the returned feature plan is optimal for the returned sample plan. -/
theorem C72_coot (p : Coot.Problem R I J A B) (hp : CootExact p) (w : Option ((I → J → R) × (A → B → R)))
    (hS : IsCoupling p.wxSamp p.wySamp (p.init w).piS) (hF : IsCoupling p.wxFeat p.wyFeat (p.init w).piF) :
    let r := p.run w
    IsCoupling p.wxSamp p.wySamp r.piS ∧ IsCoupling p.wxFeat p.wyFeat r.piF ∧
    cootF p r.piS r.piF ≤ cootF p (p.init w).piS (p.init w).piF ∧
    r.dist.Pairwise (· ≤ ·) ∧
    (∀ d ∈ r.dist, cootF p r.piS r.piF ≤ d ∧ d ≤ cootF p (p.init w).piS (p.init w).piF) ∧
    (0 < p.nitsBcd → ∀ Q, IsCoupling p.wxFeat p.wyFeat Q → cootF p r.piS r.piF ≤ cootF p r.piS Q) := by
  intro r
  obtain ⟨k, hk, h1, h2, h3⟩ := Coot.loop_iter p p.nitsBcd (p.init w)
  have hr : r = p.iter (p.init w) k := h1
  have hi := Coot.iter_inv p ⟨hp.1, hp.2⟩ (coot_invInit p w hS hF) k
  rw [← hr] at hi
  rw [← coot_obj]
  refine ⟨hi.coupS, hi.coupF, hi.le, hi.sorted, hi.dist, fun hn Q hQ => ?_⟩
  obtain ⟨m, rfl⟩ : ∃ m, k = m + 1 := by
    refine ⟨k - 1, ?_⟩
    by_cases hkn : k < p.nitsBcd
    · have := (h3 hkn).1; omega
    · omega
  have := Coot.feat_step p ⟨hp.1, hp.2⟩ hi.coupS hQ
  rw [hr] at this ⊢
  rw [Coot.Problem.iter, Coot.step_piF]
  exact this

/-- **C72**, without `warmstart`: the start is a pair of couplings when all four weight vectors are probability vectors. -/
theorem C72_coot_default_start (p : Coot.Problem R I J A B) (h1 : ∀ i, 0 ≤ p.wxSamp i) (h2 : ∀ i, 0 ≤ p.wySamp i) (h3 : ∀ i, 0 ≤ p.wxFeat i) (h4 : ∀ i, 0 ≤ p.wyFeat i)
    (s1 : ∑ i, p.wxSamp i = 1) (s2 : ∑ i, p.wySamp i = 1) (s3 : ∑ i, p.wxFeat i = 1) (s4 : ∑ i, p.wyFeat i = 1) :
    IsCoupling p.wxSamp p.wySamp (p.init none).piS ∧ IsCoupling p.wxFeat p.wyFeat (p.init none).piF := by
  refine ⟨⟨fun i j => mul_nonneg (h1 i) (h2 j), fun i => ?_, fun j => ?_⟩, ⟨fun i j => mul_nonneg (h3 i) (h4 j), fun i => ?_, fun j => ?_⟩⟩
  · simp only [Coot.Problem.init, Coot.outer, ← mul_sum, s2, mul_one]
  · simp only [Coot.Problem.init, Coot.outer, ← sum_mul, s1, one_mul]
  · simp only [Coot.Problem.init, Coot.outer, ← mul_sum, s4, mul_one]
  · simp only [Coot.Problem.init, Coot.outer, ← sum_mul, s3, one_mul]

/-- **C72**, the recorded distances: with `eval_bcd = 1` there is one per iteration, and the value returned by `co_optimal_transport2` is the objective of the returned plans.  Before `nits_bcd` iterations the loop is left
only when the sample plan moved by less than `tol_bcd` (from what one iteration fewer returns) or two successive distances differ by less than `early_stopping_tol`. -/
theorem C72_coot_value (p : Coot.Problem R I J A B) (hp : CootExact p) (w : Option ((I → J → R) × (A → B → R)))
    (hS : IsCoupling p.wxSamp p.wySamp (p.init w).piS) (hF : IsCoupling p.wxFeat p.wyFeat (p.init w).piF)
    (he : p.evalBcd = 1) (hn : 0 < p.nitsBcd) :
    let r := p.run w
    p.value2 w = some (cootF p r.piS r.piF) ∧ r.dist.length = r.idx ∧ 0 < r.idx ∧ r.idx ≤ p.nitsBcd ∧
    (r.idx < p.nitsBcd → ∑ i, ∑ j, |r.piS i j - (Coot.Problem.run { p with nitsBcd := r.idx - 1 } w).piS i j| < p.tolBcd ∨
      ∃ d e l, r.dist = d :: e :: l ∧ |e - d| < p.earlyStoppingTol) := by
  intro r
  obtain ⟨k, hk, h1, h2, h3⟩ := Coot.loop_iter p p.nitsBcd (p.init w)
  have hr : r = p.iter (p.init w) k := h1
  obtain ⟨m, rfl⟩ : ∃ m, k = m + 1 := by
    refine ⟨k - 1, ?_⟩
    by_cases hkn : k < p.nitsBcd
    · have := (h3 hkn).1; omega
    · omega
  have hidx : (p.init w).idx = 0 := by cases w <;> rfl
  have hlen : ∀ n, (p.iter (p.init w) n).dist.length = n := by
    intro n
    induction n with
    | zero => cases w <;> rfl
    | succ n ih => rw [Coot.Problem.iter, Coot.step_dist, he, Nat.mod_one, if_pos rfl, List.length_cons, ih]
  have hi := Coot.iter_inv p ⟨hp.1, hp.2⟩ (coot_invInit p w hS hF)
  have hd : r.dist = cootF p r.piS r.piF :: (p.iter (p.init w) m).dist := by
    have hv := Coot.value_eq p (hi (m + 1)).coupS (p.iter (p.init w) (m + 1)).piF
    rw [Coot.Problem.iter] at hv
    rw [← coot_obj, hr, Coot.Problem.iter, Coot.step_dist, he, Nat.mod_one, if_pos rfl, hv]
  have hri : r.idx = m + 1 := by rw [hr, Coot.iter_idx, hidx]; omega
  refine ⟨?_, by rw [hri, hr, hlen], by omega, by omega, fun hlt => ?_⟩
  · unfold Coot.Problem.value2
    rw [show p.run w = r from rfl, hd]; rfl
  · have hst := (h3 (by omega)).2
    have hstep : p.iter (p.init w) (m + 1) = p.step (p.iter (p.init w) m) := rfl
    obtain ⟨s, hs⟩ : ∃ s, s = p.iter (p.init w) m := ⟨_, rfl⟩
    have hcs := (hi m).coupS
    rw [hstep] at hst hr
    rw [← hs] at hst hr hd hcs
    have hpS := Coot.step_piS p s
    have hpF := Coot.step_piF p s
    rw [← coot_obj, hr] at hd
    have hv := Coot.value_eq p (P := (p.step s).piS) (by rw [hpS]; exact (hp.1 _).1) (p.step s).piF
    rw [← hv] at hd
    unfold Coot.Problem.step at hst
    simp only [he, Nat.mod_one, if_true, Bool.or_eq_true, decide_eq_true_eq] at hst
    rcases hst with hst | hst
    · left
      have hprev : Coot.Problem.run { p with nitsBcd := r.idx - 1 } w = s := by
        rw [hri, Nat.add_sub_cancel, hs]
        exact (Coot.loop_nits p m m _).trans (Coot.loop_eq p m _ fun l hl hlm => h2 l hl (by omega))
      rw [hprev, hr, hpS]; exact hst
    · right
      rw [hr, hd]
      cases hsd : s.dist with
      | nil => rw [hsd] at hst; simp at hst
      | cons e l =>
        rw [hsd] at hst
        simp only [decide_eq_true_eq] at hst
        refine ⟨_, e, l, rfl, ?_⟩
        rw [hpF, hpS]; exact hst

/-- **C72**, fixed points: when one more iteration would not change the sample plan, neither plan can be improved alone. -/
theorem C72_coot_fixed_point (p : Coot.Problem R I J A B) (hp : CootExact p) (w : Option ((I → J → R) × (A → B → R)))
    (hS : IsCoupling p.wxSamp p.wySamp (p.init w).piS) (hF : IsCoupling p.wxFeat p.wyFeat (p.init w).piF) (hn : 0 < p.nitsBcd)
    (hfix : (p.step (p.run w)).piS = (p.run w).piS) :
    let r := p.run w
    (∀ P, IsCoupling p.wxSamp p.wySamp P → cootF p r.piS r.piF ≤ cootF p P r.piF) ∧
    (∀ Q, IsCoupling p.wxFeat p.wyFeat Q → cootF p r.piS r.piF ≤ cootF p r.piS Q) := by
  intro r
  obtain ⟨_, h2, _, _, _, h6⟩ := C72_coot p hp w hS hF
  refine ⟨fun P hP => ?_, h6 hn⟩
  have := Coot.samp_step p ⟨hp.1, hp.2⟩ h2 hP
  rw [← Coot.step_piS, hfix, coot_obj] at this
  exact this

/-- **C72**, gradients: for fixed plans (couplings of the weights), the objective is a quadratic function of `X` whose first-order term is the matrix that `co_optimal_transport2` returns as gradient; the same for `Y`. -/
theorem C72_coot_gradients (p : Coot.Problem R I J A B) (P : I → J → R) (Q : A → B → R) (hP : IsCoupling p.wxSamp p.wySamp P) (hQ : IsCoupling p.wxFeat p.wyFeat Q) :
    (∀ H : I → A → R, cootF { p with X := fun i a => p.X i a + H i a } P Q =
      cootF p P Q + ∑ i, ∑ a, p.gradX P Q i a * H i a + ∑ i, ∑ a, H i a ^ 2 * (p.wxSamp i * p.wxFeat a)) ∧
    (∀ H : J → B → R, cootF { p with Y := fun j b => p.Y j b + H j b } P Q =
      cootF p P Q + ∑ j, ∑ b, p.gradY P Q j b * H j b + ∑ j, ∑ b, H j b ^ 2 * (p.wySamp j * p.wyFeat b)) := by
  refine ⟨fun H => ?_, fun H => ?_⟩
  · have := Coot.cootCost_addX p.X H p.Y hP hQ
    unfold cootF coOtObjective Coot.Problem.gradX
    simp only
    rw [this]; ring
  · have := Coot.cootCost_addX p.Y H p.X (Coot.coupling_transpose hP) (Coot.coupling_transpose hQ)
    unfold cootF coOtObjective Coot.Problem.gradY
    simp only
    rw [Coot.cootCost_symm p.X, Coot.cootCost_symm p.X p.Y, this]; ring

/-- The hypothesis on the inner solvers, `eps = 0`: an exact transport solver. -/
theorem C72_inner_emd (a : I → R) (b : J → R) (kl : (I → J → R) → R) (C P : I → J → R) (h : IsOptimal a b C P) :
    IsPenOptimal a b (fun P => 0 * kl P) C P :=
  ⟨h.1, fun P' hP' => by simpa using h.2 P' hP'⟩

/-- The hypothesis on the inner solvers, `eps > 0`: the limit of the Sinkhorn iterations minimises the cost plus `eps` times the divergence from the product of the weights. -/
theorem C72_inner_sinkhorn (a : I → ℝ) (b : J → ℝ) (eps : ℝ) (C P : I → J → ℝ) (h : IsEntropicOptimal a b C eps P) :
    IsPenOptimal a b (fun P => eps * ∑ i, ∑ j, P i j * Real.log (P i j / (a i * b j))) C P := by
  have key : ∀ Q, IsCoupling a b Q → ∑ i, ∑ j, Q i j * Real.log (Q i j / (a i * b j)) =
      ∑ i, ∑ j, Q i j * Real.log (Q i j) - ((∑ i, a i * Real.log (a i)) + ∑ j, b j * Real.log (b j)) := by
    intro Q hQ
    have e1 : ∑ i, a i * Real.log (a i) = ∑ i, ∑ j, Q i j * Real.log (a i) := by
      refine sum_congr rfl fun i _ => ?_; rw [← sum_mul, hQ.row]
    have e2 : ∑ j, b j * Real.log (b j) = ∑ i, ∑ j, Q i j * Real.log (b j) := by
      rw [sum_comm]; refine sum_congr rfl fun j _ => ?_; rw [← sum_mul, hQ.col]
    rw [e1, e2, ← sum_add_distrib, ← sum_sub_distrib]
    refine sum_congr rfl fun i _ => ?_
    rw [← sum_add_distrib, ← sum_sub_distrib]
    refine sum_congr rfl fun j _ => ?_
    by_cases h0 : Q i j = 0
    · simp [h0]
    · have hi : a i ≠ 0 := by
        intro hz
        have := (sum_eq_zero_iff_of_nonneg (fun j _ => hQ.nonneg i j)).1 ((hQ.row i).trans hz) j (mem_univ j)
        exact h0 this
      have hj : b j ≠ 0 := by
        intro hz
        have := (sum_eq_zero_iff_of_nonneg (fun i _ => hQ.nonneg i j)).1 ((hQ.col j).trans hz) i (mem_univ i)
        exact h0 this
      rw [Real.log_div h0 (mul_ne_zero hi hj), Real.log_mul hi hj]; ring
  refine ⟨h.1, fun P' hP' => ?_⟩
  simp only
  rw [key P h.1, key P' hP']
  have := (h.2 P' hP').1
  unfold entropicObjective at this
  linarith

/-! ### A concrete problem -/

/-- exact transport between two pairs of equal weights -/
def emd22 (C : Fin 2 → Fin 2 → ℚ) : Fin 2 → Fin 2 → ℚ :=
  if C 0 0 + C 1 1 < C 0 1 + C 1 0 then ![![1 / 2, 0], ![0, 1 / 2]] else ![![0, 1 / 2], ![1 / 2, 0]]

theorem emd22_optimal (C : Fin 2 → Fin 2 → ℚ) : IsOptimal (fun _ => 1 / 2) (fun _ => 1 / 2) C (emd22 C) := by
  unfold emd22
  split_ifs with h
  · refine ⟨⟨by intro i j; fin_cases i <;> fin_cases j <;> simp, by intro i; fin_cases i <;> simp, by intro i; fin_cases i <;> simp⟩, fun G hG => ?_⟩
    have r0 := hG.row 0; have r1 := hG.row 1; have c0 := hG.col 0
    have n1 := hG.nonneg 0 1
    simp only [Fin.sum_univ_two] at r0 r1 c0
    have e0 : G 0 0 = 1 / 2 - G 0 1 := by linarith
    have e1 : G 1 0 = G 0 1 := by linarith
    have e2 : G 1 1 = 1 / 2 - G 0 1 := by linarith
    simp only [cost, Fin.sum_univ_two, e0, e1, e2, Matrix.cons_val_zero, Matrix.cons_val_one]
    nlinarith [mul_nonneg n1 (sub_nonneg.2 h.le)]
  · refine ⟨⟨by intro i j; fin_cases i <;> fin_cases j <;> simp, by intro i; fin_cases i <;> simp, by intro i; fin_cases i <;> simp⟩, fun G hG => ?_⟩
    have r0 := hG.row 0; have r1 := hG.row 1; have c0 := hG.col 0
    have n0 := hG.nonneg 0 0
    simp only [Fin.sum_univ_two] at r0 r1 c0
    have e0 : G 0 1 = 1 / 2 - G 0 0 := by linarith
    have e1 : G 1 0 = 1 / 2 - G 0 0 := by linarith
    have e2 : G 1 1 = G 0 0 := by linarith
    simp only [cost, Fin.sum_univ_two, e0, e1, e2, Matrix.cons_val_zero, Matrix.cons_val_one]
    nlinarith [mul_nonneg n0 (sub_nonneg.2 (not_lt.1 h))]

/-- a problem whose second iteration improves on the first -/
def cootEx (nits eval : ℕ) : Coot.Problem ℚ (Fin 2) (Fin 2) (Fin 2) (Fin 2) where
  X := ![![1, 0], ![0, 0]]
  Y := ![![1, 0], ![0, 0]]
  wxSamp := fun _ => 1 / 2
  wySamp := fun _ => 1 / 2
  wxFeat := fun _ => 1 / 2
  wyFeat := fun _ => 1 / 2
  epsSamp := 0
  epsFeat := 0
  alphaSamp := 1
  alphaFeat := 1
  MSamp := some ![![3 / 4, 0], ![0, 0]]
  MFeat := some ![![0, 1 / 4], ![0, 0]]
  klSamp := 0
  klFeat := 0
  solveSamp := emd22
  solveFeat := emd22
  nitsBcd := nits
  tolBcd := 1 / 10000000
  evalBcd := eval
  earlyStoppingTol := 1 / 1000000

theorem cootEx_exact (n e : ℕ) : CootExact (cootEx n e) :=
  ⟨fun C => C72_inner_emd _ _ _ _ _ (emd22_optimal C), fun C => C72_inner_emd _ _ _ _ _ (emd22_optimal C)⟩

theorem cootEx_start (n e : ℕ) : IsCoupling (cootEx n e).wxSamp (cootEx n e).wySamp ((cootEx n e).init none).piS ∧
    IsCoupling (cootEx n e).wxFeat (cootEx n e).wyFeat ((cootEx n e).init none).piF := by
  apply C72_coot_default_start <;> first | (intro i; norm_num [cootEx]) | norm_num [cootEx]

/-- C72 applies to it, and the objective strictly decreases along the iterations. -/
example : ((cootEx 5 1).run none).dist.Pairwise (· ≤ ·) := (C72_coot _ (cootEx_exact 5 1) none (cootEx_start 5 1).1 (cootEx_start 5 1).2).2.2.2.1

/-- the plans after one and after two iterations -/
theorem cootEx_iter (n e : ℕ) (s : Coot.State ℚ (Fin 2) (Fin 2) (Fin 2) (Fin 2)) :
    (s.piF = Coot.outer (fun _ => 1 / 2) (fun _ => 1 / 2) → ((cootEx n e).step s).piS = ![![0, 1 / 2], ![1 / 2, 0]] ∧ ((cootEx n e).step s).piF = ![![1 / 2, 0], ![0, 1 / 2]]) ∧
    (s.piF = ![![1 / 2, 0], ![0, 1 / 2]] → ((cootEx n e).step s).piS = ![![1 / 2, 0], ![0, 1 / 2]] ∧ ((cootEx n e).step s).piF = ![![1 / 2, 0], ![0, 1 / 2]]) := by
  have hS : ∀ s', ((cootEx n e).step s').piS = emd22 ((cootEx n e).costSamp s'.piF) := fun s' => Coot.step_piS _ _
  have hF : ∀ s', ((cootEx n e).step s').piF = emd22 ((cootEx n e).costFeat ((cootEx n e).step s').piS) := fun s' => Coot.step_piF _ _
  refine ⟨fun h => ?_, fun h => ?_⟩
  · have h1 : ((cootEx n e).step s).piS = ![![0, 1 / 2], ![1 / 2, 0]] := by
      rw [hS, h, emd22, if_neg]
      norm_num [Coot.Problem.costSamp, Coot.Problem.xySqr, Coot.Problem.aS, Coot.Problem.mS, cootEx, Fin.sum_univ_two, Coot.outer]
    refine ⟨h1, ?_⟩
    rw [hF, h1, emd22, if_pos]
    norm_num [Coot.Problem.costFeat, Coot.Problem.xySqrT, Coot.Problem.aF, Coot.Problem.mF, cootEx, Fin.sum_univ_two, Coot.outer]
  · have h1 : ((cootEx n e).step s).piS = ![![1 / 2, 0], ![0, 1 / 2]] := by
      rw [hS, h, emd22, if_pos]
      norm_num [Coot.Problem.costSamp, Coot.Problem.xySqr, Coot.Problem.aS, Coot.Problem.mS, cootEx, Fin.sum_univ_two, Coot.outer]
    refine ⟨h1, ?_⟩
    rw [hF, h1, emd22, if_pos]
    norm_num [Coot.Problem.costFeat, Coot.Problem.xySqrT, Coot.Problem.aF, Coot.Problem.mF, cootEx, Fin.sum_univ_two, Coot.outer]

/-- Finding: with `eval_bcd > 1` the value returned by `co_optimal_transport2` need not be the objective of the plans that were computed last: the objective of the result is smaller than the returned value. -/
theorem C72_coot_stale_value_refuted : ∃ p : Coot.Problem ℚ (Fin 2) (Fin 2) (Fin 2) (Fin 2), CootExact p ∧
    IsCoupling p.wxSamp p.wySamp (p.init none).piS ∧ IsCoupling p.wxFeat p.wyFeat (p.init none).piF ∧
    ∃ d, p.value2 none = some d ∧ cootF p (p.run none).piS (p.run none).piF < d := by
  refine ⟨cootEx 2 2, cootEx_exact 2 2, (cootEx_start 2 2).1, (cootEx_start 2 2).2, ?_⟩
  obtain ⟨s0, hs0⟩ : ∃ s0, s0 = (cootEx 2 2).init none := ⟨_, rfl⟩
  have a0 := (cootEx_iter 2 2 s0).1 (by rw [hs0]; rfl)
  have a1 := (cootEx_iter 2 2 ((cootEx 2 2).step s0)).2 a0.2
  have d1 : ((cootEx 2 2).step s0).dist = [(cootEx 2 2).value ((cootEx 2 2).step s0).piS ((cootEx 2 2).step s0).piF] := by
    rw [Coot.step_dist, hs0]; rfl
  have d2 : ((cootEx 2 2).step ((cootEx 2 2).step s0)).dist = ((cootEx 2 2).step s0).dist := by
    rw [Coot.step_dist, if_neg]
    rw [Coot.step_idx, hs0]; decide
  have st : ((cootEx 2 2).step s0).stopped = false := by
    have e1 := Coot.step_piS (cootEx 2 2) s0
    rw [a0.1] at e1
    have e2 : s0.idx % (cootEx 2 2).evalBcd = 0 := by rw [hs0]; rfl
    have e3 : s0.dist = [] := by rw [hs0]; rfl
    have e4 : s0.piS = Coot.outer (fun _ => 1 / 2) (fun _ => 1 / 2) := by rw [hs0]; rfl
    unfold Coot.Problem.step
    simp only
    rw [if_pos e2]
    simp only [e3, Bool.or_false, decide_eq_false_iff_not, not_lt, ← e1, e4]
    norm_num [Fin.sum_univ_two, Coot.outer, cootEx]
  have hrun : (cootEx 2 2).run none = (cootEx 2 2).step ((cootEx 2 2).step s0) := by
    have : (cootEx 2 2).run none = if ((cootEx 2 2).step s0).stopped then (cootEx 2 2).step s0 else
        (if ((cootEx 2 2).step ((cootEx 2 2).step s0)).stopped then (cootEx 2 2).step ((cootEx 2 2).step s0) else (cootEx 2 2).step ((cootEx 2 2).step s0)) := by rw [hs0]; rfl
    rw [this, st]; simp
  refine ⟨(cootEx 2 2).value ![![0, 1 / 2], ![1 / 2, 0]] ![![1 / 2, 0], ![0, 1 / 2]], ?_, ?_⟩
  · unfold Coot.Problem.value2; rw [hrun, d2, d1, a0.1, a0.2]; rfl
  · rw [hrun, a1.1, a1.2]
    norm_num [cootF, coOtObjective, cootCost, planPenalty, cost, Coot.Problem.value, Coot.Problem.costFeat, Coot.Problem.xySqrT, Coot.Problem.aF, Coot.Problem.mF, Coot.Problem.aS, Coot.Problem.mS, cootEx, Fin.sum_univ_two]

end POT.Props
