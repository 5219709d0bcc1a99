import Verif.Lemmas.EntBaryConv
import Verif.Lemmas.SinkhornOpt
import Verif.Spec.Debiased
import Mathlib.Data.Fintype.BigOperators

/-! # Existence of diagonal scalings for histograms that may contain zeros -/

set_option linter.unusedSectionVars false

namespace POT.Scaling

open Finset Spec Sinkhorn EntBary

variable {I J : Type*} [Fintype I] [Fintype J]

theorem sum_supp (p : I → Prop) [DecidablePred p] (φ : I → ℝ) (h : ∀ i, ¬ p i → φ i = 0) : ∑ x : {i // p i}, φ x = ∑ i, φ i := by
  rw [← Fintype.sum_subtype_add_sum_subtype p φ]
  rw [show ∑ x : {i // ¬ p i}, φ x = 0 from sum_eq_zero fun x _ => h _ x.2, add_zero]

/-- scalings with a prescribed positive column marginal -/
theorem exists_right {K : I → I → ℝ} (hK : ∀ i j, 0 < K i j) {a b : I → ℝ} (ha : ∀ i, 0 ≤ a i) (hb : ∀ j, 0 < b j) (hS : ∑ i, a i = ∑ j, b j) [Nonempty I] :
    ∃ g : I → ℝ, (∀ j, 0 < g j) ∧ ∀ j, g j * ∑ i, K i j * (a i / ∑ j, K i j * g j) = b j := by
  classical
  have hne : Nonempty {i // 0 < a i} := by
    by_contra h
    have : ∀ i, a i = 0 := fun i => le_antisymm (not_lt.1 fun hi => h ⟨⟨i, hi⟩⟩) (ha i)
    have h2 : 0 < ∑ j, b j := sum_pos (fun j _ => hb j) univ_nonempty
    rw [← hS, sum_eq_zero fun i _ => this i] at h2
    exact lt_irrefl _ h2
  have hz : ∀ i, ¬ 0 < a i → a i = 0 := fun i h => le_antisymm (not_lt.1 h) (ha i)
  obtain ⟨P, h1, h2, ⟨x, y, h3⟩, -⟩ := exists_limit (K := fun (i : {i // 0 < a i}) (j : I) => K i j) (a := fun i : {i // 0 < a i} => a i) (b := b) (fun i j => hK i j) (fun i => i.2) hb
    (by rw [sum_supp (fun i => 0 < a i) a hz]; exact hS) (s := ⟨fun _ => 1, fun _ => 1⟩) ⟨fun _ => one_pos, fun _ => one_pos⟩
  have hP : ∀ (i : {i // 0 < a i}) (j : I), P i j = Real.exp (x i) * K i j * Real.exp (y j) := fun i j => by
    rw [← Real.exp_log (h2 i j), h3, Real.exp_add, Real.exp_add, Real.exp_log (hK i j)]; ring
  refine ⟨fun j => Real.exp (y j), fun j => Real.exp_pos _, fun j => ?_⟩
  have hrow : ∀ i : {i // 0 < a i}, a i / ∑ j, K i j * Real.exp (y j) = Real.exp (x i) := fun i => by
    have : a i = Real.exp (x i) * ∑ j, K i j * Real.exp (y j) := by
      rw [← h1.row i, mul_sum]
      exact sum_congr rfl fun j _ => by rw [hP]; ring
    rw [this, mul_div_assoc, div_self, mul_one]
    exact (sum_pos (fun j _ => mul_pos (hK i j) (Real.exp_pos _)) univ_nonempty).ne'
  rw [← sum_supp (fun i => 0 < a i) (fun i => K i j * (a i / ∑ j, K i j * Real.exp (y j))) (fun i h => by rw [hz i h, zero_div, mul_zero]), mul_sum, ← h1.col j]
  exact sum_congr rfl fun i _ => by rw [hrow, hP]; ring

/-- symmetric scaling of a symmetric kernel -/
theorem exists_sym_pos {K : I → I → ℝ} (hK : ∀ i j, 0 < K i j) (hs : ∀ i j, K i j = K j i) {b : I → ℝ} (hb : ∀ j, 0 < b j) [Nonempty I] :
    ∃ d : I → ℝ, (∀ i, 0 < d i) ∧ ∀ i, d i * ∑ j, K i j * d j = b i := by
  obtain ⟨P, h1, h2, ⟨x, y, h3⟩, -⟩ := exists_limit (K := K) (a := b) (b := b) hK hb hb rfl (s := ⟨fun _ => 1, fun _ => 1⟩) ⟨fun _ => one_pos, fun _ => one_pos⟩
  have o1 : IsEntropicOptimal b b (fun i j => -Real.log (K i j)) 1 P := optimal_of_form one_pos h1 h2 (x := x) (y := y) fun i j => by rw [h3]; ring
  have h1' : IsCoupling b b fun i j => P j i := ⟨fun i j => h1.nonneg j i, h1.col, h1.row⟩
  have o2 : IsEntropicOptimal b b (fun i j => -Real.log (K i j)) 1 fun i j => P j i :=
    optimal_of_form one_pos h1' (fun i j => h2 j i) (x := y) (y := x) fun i j => by rw [h3, hs j i]; ring
  have e : P = fun i j => P j i := (o2.2 P h1).2 (o1.2 _ h1').1
  have e2 : ∀ i j, x i + y j = x j + y i := fun i j => by
    have := congrArg Real.log (congrFun (congrFun e i) j)
    rw [h3, h3, hs j i] at this
    linarith
  refine ⟨fun i => Real.exp ((x i + y i) / 2), fun i => Real.exp_pos _, fun i => ?_⟩
  rw [mul_sum, ← h1.row i]
  refine sum_congr rfl fun j _ => ?_
  rw [← Real.exp_log (h2 i j), h3, Real.exp_add, Real.exp_log (hK i j), show x i + y j = (x i + y i) / 2 + (x j + y j) / 2 by linarith [e2 i j], Real.exp_add]
  ring

/-- symmetric scaling, for a histogram that may contain zeros -/
theorem exists_sym {K : I → I → ℝ} (hK : ∀ i j, 0 < K i j) (hs : ∀ i j, K i j = K j i) {b : I → ℝ} (hb : ∀ j, 0 ≤ b j) (h1 : ∑ j, b j = 1) :
    ∃ d : I → ℝ, (∀ i, 0 ≤ d i) ∧ ∀ i, d i * ∑ j, K i j * d j = b i := by
  classical
  have hz : ∀ i, ¬ 0 < b i → b i = 0 := fun i h => le_antisymm (not_lt.1 h) (hb i)
  have hne : Nonempty {i // 0 < b i} := by
    by_contra h
    have : ∀ i, b i = 0 := fun i => hz i fun hi => h ⟨⟨i, hi⟩⟩
    rw [sum_eq_zero fun i _ => this i] at h1
    exact zero_ne_one h1
  obtain ⟨d, d1, d2⟩ := exists_sym_pos (K := fun i j : {i // 0 < b i} => K i j) (fun i j => hK i j) (fun i j => hs i j) (b := fun i : {i // 0 < b i} => b i) fun i => i.2
  refine ⟨fun i => if h : 0 < b i then d ⟨i, h⟩ else 0, fun i => ?_, fun i => ?_⟩
  · simp only
    split_ifs with h
    · exact (d1 _).le
    · exact le_rfl
  · by_cases h : 0 < b i
    · simp only
      rw [dif_pos h, ← d2 ⟨i, h⟩]
      congr 1
      rw [← sum_supp (fun i => 0 < b i) _ fun j hj => by simp [hj]]
      exact sum_congr rfl fun j _ => by rw [dif_pos j.2]
    · simp only
      rw [dif_neg h, zero_mul, hz i h]

/-- the objective of a plan, relative to a plan of scaling form -/
theorem obj_form {K : I → I → ℝ} (hK : ∀ i j, 0 < K i j) {a b f g : I → ℝ} (hf : ∀ i, 0 ≤ f i) (hg : ∀ j, 0 ≤ g j) (hP : IsCoupling a b fun i j => f i * K i j * g j) {Q : I → I → ℝ} (hQ : IsCoupling a b Q) :
    obj1 K Q = ∑ i, a i * Real.log (f i) + ∑ j, b j * Real.log (g j) + klPlan Q (fun i j => f i * K i j * g j) ∧ (∀ i j, f i * K i j * g j = 0 → Q i j = 0) := by
  have hz : ∀ i j, f i * K i j * g j = 0 → Q i j = 0 := by
    intro i j h
    haveI : Nonempty I := ⟨i⟩
    rcases mul_eq_zero.1 h with h | h
    · rcases mul_eq_zero.1 h with h | h
      · have : a i = 0 := by rw [← hP.row i]; simp [h]
        exact row_zero hQ.nonneg hQ.row this j
      · exact absurd h (hK i j).ne'
    · have : b j = 0 := by rw [← hP.col j]; simp [h]
      exact row_zero (Q := fun j i => Q i j) (fun j i => hQ.nonneg i j) hQ.col this i
  refine ⟨?_, hz⟩
  have e : ∀ i j, Q i j * Real.log (Q i j / K i j) = Q i j * Real.log (f i) + Q i j * Real.log (g j) + (Q i j * Real.log (Q i j / (f i * K i j * g j)) - Q i j + f i * K i j * g j)
      + (Q i j - f i * K i j * g j) := by
    intro i j
    by_cases h : f i * K i j * g j = 0
    · rw [hz i j h, h]; simp
    · have hf : f i ≠ 0 := fun h' => h (by simp [h'])
      have hg : g j ≠ 0 := fun h' => h (by simp [h'])
      by_cases hq : Q i j = 0
      · rw [hq]; simp
      · rw [Real.log_div hq (hK i j).ne', Real.log_div hq h, Real.log_mul (mul_ne_zero hf (hK i j).ne') hg, Real.log_mul hf (hK i j).ne']
        ring
  unfold obj1
  rw [klPlan_eq]
  simp_rw [e, sum_add_distrib]
  have e1 : ∑ i, ∑ j, Q i j * Real.log (f i) = ∑ i, a i * Real.log (f i) := sum_congr rfl fun i _ => by rw [← sum_mul, hQ.row]
  have e2 : ∑ i, ∑ j, Q i j * Real.log (g j) = ∑ j, b j * Real.log (g j) := by
    rw [sum_comm]
    exact sum_congr rfl fun j _ => by rw [← sum_mul, hQ.col]
  have e3 : ∑ i, ∑ j, (Q i j - f i * K i j * g j) = 0 := by
    simp_rw [sum_sub_distrib]
    rw [sum_congr rfl fun i _ => hQ.row i, sum_congr rfl fun i _ => hP.row i, sub_self]
  rw [e1, e2, e3, add_zero]

theorem klPlan_self {P : I → I → ℝ} : klPlan P P = 0 := by
  rw [klPlan_eq]
  refine sum_eq_zero fun i _ => sum_eq_zero fun j _ => ?_
  by_cases h : P i j = 0
  · simp [h]
  · rw [div_self h]; simp

theorem entObj_eq {M : I → I → ℝ} {reg : ℝ} (hreg : 0 < reg) (Q : I → I → ℝ) : entropicObjective M reg Q = reg * obj1 (kernel M reg) Q := by
  unfold entropicObjective obj1 cost
  have e : ∀ i j, Q i j * Real.log (Q i j / kernel M reg i j) = Q i j * Real.log (Q i j) + Q i j * M i j / reg := by
    intro i j
    by_cases hq : Q i j = 0
    · simp [hq]
    · rw [Real.log_div hq (show kernel M reg i j ≠ 0 from (Real.exp_pos _).ne'), log_kernel]; ring
  simp_rw [e, sum_add_distrib, ← sum_div]
  field_simp
  ring

/-- a coupling of scaling form is the unique entropic optimum -/
theorem optimal_form {M : I → I → ℝ} {reg : ℝ} (hreg : 0 < reg) {a b f g : I → ℝ} (hf : ∀ i, 0 ≤ f i) (hg : ∀ j, 0 ≤ g j) (hP : IsCoupling a b fun i j => f i * kernel M reg i j * g j) :
    IsEntropicOptimal a b M reg (fun i j => f i * kernel M reg i j * g j) ∧
    obj1 (kernel M reg) (fun i j => f i * kernel M reg i j * g j) = ∑ i, a i * Real.log (f i) + ∑ j, b j * Real.log (g j) := by
  have hK : ∀ i j, 0 < kernel M reg i j := fun i j => Real.exp_pos _
  have e0 := (obj_form hK hf hg hP hP).1
  rw [klPlan_self, add_zero] at e0
  refine ⟨⟨hP, fun Q hQ => ?_⟩, e0⟩
  obtain ⟨e1, hz⟩ := obj_form hK hf hg hP hQ
  have hn : 0 ≤ klPlan Q (fun i j => f i * kernel M reg i j * g j) :=
    kl_nonneg' (fun x => hQ.nonneg x.1 x.2) (fun x => hP.nonneg x.1 x.2) fun x => hz x.1 x.2
  rw [entObj_eq hreg, entObj_eq hreg, e0, e1]
  refine ⟨mul_le_mul_of_nonneg_left (by linarith) hreg.le, fun h => ?_⟩
  have h2 := le_of_mul_le_mul_left h hreg
  have := kl_eq_zero' (p := fun x : I × I => Q x.1 x.2) (q := fun x : I × I => f x.1 * kernel M reg x.1 x.2 * g x.2) (fun x => hQ.nonneg x.1 x.2) (fun x => hP.nonneg x.1 x.2) (fun x => hz x.1 x.2)
    (by unfold klPlan at h2; linarith)
  funext i j
  exact congrFun this (i, j)

/-- every pair of equal histograms has an entropic cost -/
theorem self_cost {M : I → I → ℝ} (hM : ∀ i j, M i j = M j i) {reg : ℝ} (hreg : 0 < reg) {b : I → ℝ} (hb : ∀ j, 0 ≤ b j) (h1 : ∑ j, b j = 1) :
    ∃ d : I → ℝ, (∀ i, 0 ≤ d i) ∧ (∀ i, d i * ∑ j, kernel M reg i j * d j = b i) ∧ IsEntropicCost b b M reg (reg * (2 * ∑ i, b i * Real.log (d i))) := by
  have hK : ∀ i j, 0 < kernel M reg i j := fun i j => Real.exp_pos _
  have hs : ∀ i j, kernel M reg i j = kernel M reg j i := fun i j => by unfold kernel; rw [hM]
  obtain ⟨d, d0, d1⟩ := exists_sym hK hs hb h1
  have hrow : ∀ i, ∑ j, d i * kernel M reg i j * d j = b i := fun i => by
    rw [← d1 i, mul_sum]; exact sum_congr rfl fun j _ => by ring
  have hP : IsCoupling b b fun i j => d i * kernel M reg i j * d j :=
    ⟨fun i j => mul_nonneg (mul_nonneg (d0 i) (hK i j).le) (d0 j), hrow, fun j => by
      rw [← hrow j]; exact sum_congr rfl fun i _ => by rw [hs i j]; ring⟩
  obtain ⟨o, e⟩ := optimal_form hreg d0 d0 hP
  refine ⟨d, d0, d1, _, o, ?_⟩
  rw [entObj_eq hreg, e]
  ring

end POT.Scaling
