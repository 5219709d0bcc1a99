import Verif.Model.Unbalanced
import Verif.Lemmas.Kl
import Verif.Lemmas.SinkhornLoop
import Mathlib.Topology.MetricSpace.Contracting
import Mathlib.Topology.MetricSpace.Pseudo.Pi
import Mathlib.Topology.Algebra.Monoid
import Mathlib.Analysis.SpecialFunctions.Pow.Continuity
import Mathlib.Tactic.FieldSimp
import Mathlib.Tactic.Positivity

/-! # Unbalanced Sinkhorn: optimality of fixed points, contraction -/

set_option linter.unusedSectionVars false

namespace POT.Unbalanced

open Finset Spec Sinkhorn Filter Topology

section
variable {L : Type*} [Fintype L]

/-- three-point identity of the KL divergence -/
theorem kl_three {p q r : L → ℝ} (hp : ∀ l, 0 < p l) (hq : ∀ l, 0 ≤ q l) (hr : ∀ l, 0 < r l) :
    klDivergence q r - klDivergence p r = klDivergence q p + ∑ l, (q l - p l) * Real.log (p l / r l) := by
  unfold klDivergence
  rw [← sum_sub_distrib, ← sum_add_distrib]
  refine sum_congr rfl fun l _ => ?_
  rcases (hq l).eq_or_lt with h | h
  · rw [← h]; simp; ring
  · have : q l / r l = q l / p l * (p l / r l) := by field_simp [(hp l).ne', (hr l).ne']
    rw [this, Real.log_mul (div_pos h (hp l)).ne' (div_pos (hp l) (hr l)).ne']
    ring

end

variable {I J : Type*} [Fintype I] [Fintype J]

theorem klPlan_three {P Q C : I → J → ℝ} (hP : ∀ i j, 0 < P i j) (hQ : ∀ i j, 0 ≤ Q i j) (hC : ∀ i j, 0 < C i j) :
    klPlan Q C - klPlan P C = klPlan Q P + ∑ i, ∑ j, (Q i j - P i j) * Real.log (P i j / C i j) := by
  unfold klPlan
  rw [kl_three (fun x : I × J => hP x.1 x.2) (fun x => hQ x.1 x.2) (fun x => hC x.1 x.2), Fintype.sum_prod_type]

/-- **Gap identity.** -/
theorem unb_gap {a : I → ℝ} {b : J → ℝ} {M c P Q : I → J → ℝ} {reg : ℝ} {ρ₁ ρ₂ : Option ℝ} {x : I → ℝ} {y : J → ℝ} (hreg : reg ≠ 0)
    (ha : ∀ i, 0 < a i) (hb : ∀ j, 0 < b j) (hc : ∀ i j, 0 < c i j) (hP : ∀ i j, 0 < P i j) [Nonempty I] [Nonempty J]
    (hform : ∀ i j, Real.log (P i j / c i j) = x i + y j - M i j / reg)
    (h1 : match (generalizing := false) ρ₁ with | some r => ∀ i, reg * x i = -(r * Real.log ((∑ j, P i j) / a i)) | none => ∀ i, ∑ j, P i j = a i)
    (h2 : match (generalizing := false) ρ₂ with | some r => ∀ j, reg * y j = -(r * Real.log ((∑ i, P i j) / b j)) | none => ∀ j, ∑ i, P i j = b j)
    (hQ : IsAdmissible a b ρ₁ ρ₂ Q) :
    unbObjective a b M reg c ρ₁ ρ₂ Q - unbObjective a b M reg c ρ₁ ρ₂ P
      = reg * klPlan Q P + marginalTerm ρ₁ (fun i => ∑ j, Q i j) (fun i => ∑ j, P i j) + marginalTerm ρ₂ (fun j => ∑ i, Q i j) (fun j => ∑ i, P i j) := by
  have hp : ∀ i, 0 < ∑ j, P i j := fun i => sum_pos (fun j _ => hP i j) univ_nonempty
  have hq : ∀ j, 0 < ∑ i, P i j := fun j => sum_pos (fun i _ => hP i j) univ_nonempty
  have e1 : marginalTerm ρ₁ (fun i => ∑ j, Q i j) a - marginalTerm ρ₁ (fun i => ∑ j, P i j) a
      = marginalTerm ρ₁ (fun i => ∑ j, Q i j) (fun i => ∑ j, P i j) - reg * ∑ i, x i * (∑ j, Q i j - ∑ j, P i j) := by
    cases ρ₁ with
    | none =>
      have : ∀ i, x i * (∑ j, Q i j - ∑ j, P i j) = 0 := fun i => by rw [hQ.row rfl i, h1 i]; ring
      simp only [marginalTerm, this, sum_const_zero]; ring
    | some r =>
      simp only [marginalTerm]
      rw [← mul_sub, kl_three hp (fun i => sum_nonneg fun j _ => hQ.nonneg i j) ha, mul_add, sub_eq_add_neg, mul_sum, mul_sum, ← sum_neg_distrib]
      congr 1
      refine sum_congr rfl fun i _ => ?_
      have := h1 i
      linear_combination (∑ j, Q i j - ∑ j, P i j) * this
  have e2 : marginalTerm ρ₂ (fun j => ∑ i, Q i j) b - marginalTerm ρ₂ (fun j => ∑ i, P i j) b
      = marginalTerm ρ₂ (fun j => ∑ i, Q i j) (fun j => ∑ i, P i j) - reg * ∑ j, y j * (∑ i, Q i j - ∑ i, P i j) := by
    cases ρ₂ with
    | none =>
      have : ∀ j, y j * (∑ i, Q i j - ∑ i, P i j) = 0 := fun j => by rw [hQ.col rfl j, h2 j]; ring
      simp only [marginalTerm, this, sum_const_zero]; ring
    | some r =>
      simp only [marginalTerm]
      rw [← mul_sub, kl_three hq (fun j => sum_nonneg fun i _ => hQ.nonneg i j) hb, mul_add, sub_eq_add_neg, mul_sum, mul_sum, ← sum_neg_distrib]
      congr 1
      refine sum_congr rfl fun j _ => ?_
      have := h2 j
      linear_combination (∑ i, Q i j - ∑ i, P i j) * this
  have e3 := klPlan_three hP hQ.nonneg hc
  have e4 : reg * ∑ i, ∑ j, (Q i j - P i j) * Real.log (P i j / c i j)
      = reg * (∑ i, x i * (∑ j, Q i j - ∑ j, P i j)) + reg * (∑ j, y j * (∑ i, Q i j - ∑ i, P i j)) - (cost M Q - cost M P) := by
    have t1 : ∑ i, x i * (∑ j, Q i j - ∑ j, P i j) = ∑ i, ∑ j, x i * (Q i j - P i j) :=
      sum_congr rfl fun i _ => by rw [← sum_sub_distrib, mul_sum]
    have t2 : ∑ j, y j * (∑ i, Q i j - ∑ i, P i j) = ∑ i, ∑ j, y j * (Q i j - P i j) := by
      rw [sum_comm]
      exact sum_congr rfl fun j _ => by rw [← sum_sub_distrib, mul_sum]
    unfold cost
    rw [t1, t2, ← mul_add, ← sum_add_distrib, ← sum_sub_distrib, mul_sum, mul_sum, ← sum_sub_distrib]
    refine sum_congr rfl fun i _ => ?_
    rw [← sum_add_distrib, ← sum_sub_distrib, mul_sum, mul_sum, ← sum_sub_distrib]
    refine sum_congr rfl fun j _ => ?_
    rw [hform]
    field_simp
  unfold unbObjective
  linear_combination e1 + e2 + reg * e3 + e4

theorem marginalTerm_nonneg {L : Type*} [Fintype L] {ρ : Option ℝ} (hρ : ∀ r, ρ = some r → 0 ≤ r) {p q : L → ℝ} (hp : ∀ l, 0 ≤ p l) (hq : ∀ l, 0 < q l) :
    0 ≤ marginalTerm ρ p q := by
  cases ρ with
  | none => exact le_refl _
  | some r => exact mul_nonneg (hρ r rfl) (klDivergence_nonneg hp hq)

theorem unb_optimal {a : I → ℝ} {b : J → ℝ} {M c P : I → J → ℝ} {reg : ℝ} {ρ₁ ρ₂ : Option ℝ} {x : I → ℝ} {y : J → ℝ} (hreg : 0 < reg)
    (h01 : ∀ r, ρ₁ = some r → 0 ≤ r) (h02 : ∀ r, ρ₂ = some r → 0 ≤ r)
    (ha : ∀ i, 0 < a i) (hb : ∀ j, 0 < b j) (hc : ∀ i j, 0 < c i j) (hP : ∀ i j, 0 < P i j) [Nonempty I] [Nonempty J]
    (hform : ∀ i j, Real.log (P i j / c i j) = x i + y j - M i j / reg)
    (h1 : match (generalizing := false) ρ₁ with | some r => ∀ i, reg * x i = -(r * Real.log ((∑ j, P i j) / a i)) | none => ∀ i, ∑ j, P i j = a i)
    (h2 : match (generalizing := false) ρ₂ with | some r => ∀ j, reg * y j = -(r * Real.log ((∑ i, P i j) / b j)) | none => ∀ j, ∑ i, P i j = b j) :
    IsUnbOptimal a b M reg c ρ₁ ρ₂ P := by
  refine ⟨⟨fun i j => (hP i j).le, fun h => ?_, fun h => ?_⟩, fun Q hQ => ?_⟩
  · subst h; exact h1
  · subst h; exact h2
  have g := unb_gap hreg.ne' ha hb hc hP hform h1 h2 hQ
  have n1 := marginalTerm_nonneg (p := fun i => ∑ j, Q i j) h01 (fun i => sum_nonneg fun j _ => hQ.nonneg i j) (fun i => sum_pos (fun j _ => hP i j) univ_nonempty)
  have n2 := marginalTerm_nonneg (p := fun j => ∑ i, Q i j) h02 (fun j => sum_nonneg fun i _ => hQ.nonneg i j) (fun j => sum_pos (fun i _ => hP i j) univ_nonempty)
  have n3 := klPlan_nonneg hQ.nonneg hP
  have n4 := mul_nonneg hreg.le n3
  refine ⟨by linarith, fun h => klPlan_eq_zero hQ.nonneg hP ?_⟩
  by_contra hlt
  push Not at hlt
  have := mul_pos hreg hlt
  linarith

/-! ## The scaling equations -/

theorem kv_pos [Nonempty J] {K : I → J → ℝ} (hK : ∀ i j, 0 < K i j) {v : J → ℝ} (hv : ∀ j, 0 < v j) (i : I) : 0 < kv K v i :=
  sum_pos (fun j _ => mul_pos (hK i j) (hv j)) univ_nonempty

theorem ktu_pos [Nonempty I] {K : I → J → ℝ} (hK : ∀ i j, 0 < K i j) {u : I → ℝ} (hu : ∀ i, 0 < u i) (j : J) : 0 < ktu K u j :=
  sum_pos (fun i _ => mul_pos (hK i j) (hu i)) univ_nonempty

theorem unbKernel_pos (M : I → J → ℝ) (reg : ℝ) {c : I → J → ℝ} (hc : ∀ i j, 0 < c i j) (i : I) (j : J) : 0 < unbKernel M reg c i j :=
  mul_pos (Real.exp_pos _) (hc i j)

/-- what `u = (a / Kv)^fi` says about the marginal -/
theorem scaling_row {reg A S u : ℝ} {ρ : Option ℝ} (hreg : 0 < reg) (hρ : ∀ r, ρ = some r → 0 ≤ r) (hA : 0 < A) (hS : 0 < S) (hu : u = (A / S) ^ fi reg ρ) :
    match (generalizing := false) ρ with | some r => reg * Real.log u = -(r * Real.log (u * S / A)) | none => u * S = A := by
  cases ρ with
  | none =>
    simp only [fi, Real.rpow_one] at hu
    dsimp only
    rw [hu]
    field_simp
  | some r =>
    have hr := hρ r rfl
    have hu0 : 0 < u := by rw [hu]; exact Real.rpow_pos_of_pos (div_pos hA hS) _
    have e : Real.log u = r / (r + reg) * (Real.log A - Real.log S) := by
      rw [hu, Real.log_rpow (div_pos hA hS), Real.log_div hA.ne' hS.ne']
      rfl
    dsimp only
    rw [Real.log_div (mul_pos hu0 hS).ne' hA.ne', Real.log_mul hu0.ne' hS.ne']
    have : r + reg ≠ 0 := by positivity
    field_simp at e
    linarith

/-- **A solution of the scaling equations is the unique optimum.** -/
theorem fixed_optimal [Nonempty I] [Nonempty J] {a : I → ℝ} {b : J → ℝ} {M c : I → J → ℝ} {reg : ℝ} {ρ₁ ρ₂ : Option ℝ} (hreg : 0 < reg)
    (h01 : ∀ r, ρ₁ = some r → 0 ≤ r) (h02 : ∀ r, ρ₂ = some r → 0 ≤ r) (ha : ∀ i, 0 < a i) (hb : ∀ j, 0 < b j) (hc : ∀ i j, 0 < c i j)
    {s : UV I J} (hu0 : ∀ i, 0 < s.u i) (hv0 : ∀ j, 0 < s.v j)
    (hu : ∀ i, s.u i = (a i / kv (unbKernel M reg c) s.v i) ^ fi reg ρ₁) (hv : ∀ j, s.v j = (b j / ktu (unbKernel M reg c) s.u j) ^ fi reg ρ₂) :
    IsUnbOptimal a b M reg c ρ₁ ρ₂ (plan (unbKernel M reg c) s) := by
  have hK := unbKernel_pos M reg hc
  have hrow : ∀ i, ∑ j, plan (unbKernel M reg c) s i j = s.u i * kv (unbKernel M reg c) s.v i := fun i => by
    unfold plan kv
    rw [mul_sum]
    exact sum_congr rfl fun j _ => by ring
  have hcol : ∀ j, ∑ i, plan (unbKernel M reg c) s i j = s.v j * ktu (unbKernel M reg c) s.u j := fun j => by
    unfold plan ktu
    rw [mul_sum]
    exact sum_congr rfl fun i _ => by ring
  refine unb_optimal (x := fun i => Real.log (s.u i)) (y := fun j => Real.log (s.v j)) hreg h01 h02 ha hb hc
    (fun i j => mul_pos (mul_pos (hu0 i) (hK i j)) (hv0 j)) ?_ ?_ ?_
  · intro i j
    have : plan (unbKernel M reg c) s i j / c i j = s.u i * Real.exp (-M i j / reg) * s.v j := by
      unfold plan unbKernel
      field_simp [(hc i j).ne']
    rw [this, Real.log_mul (mul_pos (hu0 i) (Real.exp_pos _)).ne' (hv0 j).ne', Real.log_mul (hu0 i).ne' (Real.exp_pos _).ne', Real.log_exp]
    ring
  · cases ρ₁ with
    | none => exact fun i => by rw [hrow]; exact scaling_row hreg h01 (ha i) (kv_pos hK hv0 i) (hu i)
    | some r => exact fun i => by rw [hrow]; exact scaling_row hreg h01 (ha i) (kv_pos hK hv0 i) (hu i)
  · cases ρ₂ with
    | none => exact fun j => by rw [hcol]; exact scaling_row hreg h02 (hb j) (ktu_pos hK hu0 j) (hv j)
    | some r => exact fun j => by rw [hcol]; exact scaling_row hreg h02 (hb j) (ktu_pos hK hu0 j) (hv j)

/-! ## Contraction -/

theorem kv_lip [Nonempty J] {K : I → J → ℝ} (hK : ∀ i j, 0 < K i j) {v w : J → ℝ} (hv : ∀ j, 0 < v j) (hw : ∀ j, 0 < w j) {D : ℝ}
    (h : ∀ j, |Real.log (v j) - Real.log (w j)| ≤ D) (i : I) : |Real.log (kv K v i) - Real.log (kv K w i)| ≤ D := by
  have key : ∀ v w : J → ℝ, (∀ j, 0 < v j) → (∀ j, 0 < w j) → (∀ j, Real.log (v j) - Real.log (w j) ≤ D) → Real.log (kv K v i) - Real.log (kv K w i) ≤ D := by
    intro v w hv hw h
    have h1 : kv K v i ≤ Real.exp D * kv K w i := by
      unfold kv
      rw [mul_sum]
      refine sum_le_sum fun j _ => ?_
      have h2 : v j ≤ Real.exp D * w j := by
        calc v j = Real.exp (Real.log (v j)) := (Real.exp_log (hv j)).symm
          _ ≤ Real.exp (D + Real.log (w j)) := Real.exp_le_exp.2 (by linarith [h j])
          _ = _ := by rw [Real.exp_add, Real.exp_log (hw j)]
      calc K i j * v j ≤ K i j * (Real.exp D * w j) := mul_le_mul_of_nonneg_left h2 (hK i j).le
        _ = _ := by ring
    have h3 := Real.log_le_log (kv_pos hK hv i) h1
    rw [Real.log_mul (Real.exp_pos _).ne' (kv_pos hK hw i).ne', Real.log_exp] at h3
    linarith
  rw [abs_le]
  have h1 := key v w hv hw fun j => (abs_le.1 (h j)).2
  have h2 := key w v hw hv fun j => by linarith [(abs_le.1 (h j)).1]
  constructor <;> linarith

theorem ktu_eq (K : I → J → ℝ) (u : I → ℝ) : ktu K u = kv (fun j i => K i j) u := rfl

theorem log_scal {A S f : ℝ} (hA : 0 < A) (hS : 0 < S) : Real.log ((A / S) ^ f) = f * (Real.log A - Real.log S) := by
  rw [Real.log_rpow (div_pos hA hS), Real.log_div hA.ne' hS.ne']

theorem unbStep_pos [Nonempty I] [Nonempty J] {a : I → ℝ} {b : J → ℝ} {K : I → J → ℝ} (ha : ∀ i, 0 < a i) (hb : ∀ j, 0 < b j) (hK : ∀ i j, 0 < K i j) (f₁ f₂ : ℝ)
    {s : UV I J} (hv : ∀ j, 0 < s.v j) : (∀ i, 0 < (unbStep a b K f₁ f₂ s).u i) ∧ ∀ j, 0 < (unbStep a b K f₁ f₂ s).v j := by
  have h1 : ∀ i, 0 < (unbStep a b K f₁ f₂ s).u i := fun i => Real.rpow_pos_of_pos (div_pos (ha i) (kv_pos hK hv i)) _
  exact ⟨h1, fun j => Real.rpow_pos_of_pos (div_pos (hb j) (ktu_pos hK h1 j)) _⟩

theorem unbIter_pos [Nonempty I] [Nonempty J] {a : I → ℝ} {b : J → ℝ} {K : I → J → ℝ} (ha : ∀ i, 0 < a i) (hb : ∀ j, 0 < b j) (hK : ∀ i j, 0 < K i j) (f₁ f₂ : ℝ)
    {s : UV I J} (hu : ∀ i, 0 < s.u i) (hv : ∀ j, 0 < s.v j) (n : ℕ) :
    (∀ i, 0 < ((unbStep a b K f₁ f₂)^[n] s).u i) ∧ ∀ j, 0 < ((unbStep a b K f₁ f₂)^[n] s).v j := by
  induction n with
  | zero => exact ⟨hu, hv⟩
  | succ n ih =>
    rw [Function.iterate_succ_apply']
    exact unbStep_pos ha hb hK f₁ f₂ ih.2

theorem unbStep_lip [Nonempty I] [Nonempty J] {a : I → ℝ} {b : J → ℝ} {K : I → J → ℝ} (ha : ∀ i, 0 < a i) (hb : ∀ j, 0 < b j) (hK : ∀ i j, 0 < K i j)
    {f₁ f₂ : ℝ} (h1 : 0 ≤ f₁) (h2 : 0 ≤ f₂) {s t : UV I J} (hs : ∀ j, 0 < s.v j) (ht : ∀ j, 0 < t.v j) {D : ℝ}
    (h : ∀ j, |Real.log (s.v j) - Real.log (t.v j)| ≤ D) :
    (∀ i, |Real.log ((unbStep a b K f₁ f₂ s).u i) - Real.log ((unbStep a b K f₁ f₂ t).u i)| ≤ f₁ * D) ∧
    ∀ j, |Real.log ((unbStep a b K f₁ f₂ s).v j) - Real.log ((unbStep a b K f₁ f₂ t).v j)| ≤ f₁ * f₂ * D := by
  have hu : ∀ i, |Real.log ((unbStep a b K f₁ f₂ s).u i) - Real.log ((unbStep a b K f₁ f₂ t).u i)| ≤ f₁ * D := by
    intro i
    have e := kv_lip hK hs ht h i
    simp only [unbStep]
    rw [log_scal (ha i) (kv_pos hK hs i), log_scal (ha i) (kv_pos hK ht i), ← mul_sub, abs_mul, abs_of_nonneg h1]
    refine mul_le_mul_of_nonneg_left ?_ h1
    rw [← abs_neg]
    refine le_trans (le_of_eq ?_) e
    congr 1
    ring
  refine ⟨hu, fun j => ?_⟩
  have p1 := (unbStep_pos ha hb hK f₁ f₂ hs).1
  have p2 := (unbStep_pos ha hb hK f₁ f₂ ht).1
  have e := kv_lip (K := fun j i => K i j) (fun j i => hK i j) p1 p2 hu j
  rw [← ktu_eq, ← ktu_eq] at e
  have hv : ∀ s : UV I J, (unbStep a b K f₁ f₂ s).v j = (b j / ktu K (unbStep a b K f₁ f₂ s).u j) ^ f₂ := fun s => rfl
  rw [hv, hv, log_scal (hb j) (ktu_pos hK p1 j), log_scal (hb j) (ktu_pos hK p2 j), ← mul_sub, abs_mul, abs_of_nonneg h2]
  rw [mul_comm f₁ f₂, mul_assoc]
  refine mul_le_mul_of_nonneg_left ?_ h2
  rw [← abs_neg]
  refine le_trans (le_of_eq ?_) e
  congr 1
  ring

/-- the iteration on `log v` -/
noncomputable def phi (a : I → ℝ) (b : J → ℝ) (K : I → J → ℝ) (f₁ f₂ : ℝ) (g : J → ℝ) : J → ℝ :=
  fun j => Real.log ((unbStep a b K f₁ f₂ ⟨fun _ => 1, fun j => Real.exp (g j)⟩).v j)

/-- **Geometric convergence.** If at least one of the two exponents is smaller than one, the scaling equations have a solution and every sequence of iterates converges to it
at the rate `f₁ f₂` in the logarithms of the scalings. -/
theorem unb_converges [Nonempty I] [Nonempty J] {a : I → ℝ} {b : J → ℝ} {K : I → J → ℝ} (ha : ∀ i, 0 < a i) (hb : ∀ j, 0 < b j) (hK : ∀ i j, 0 < K i j)
    {f₁ f₂ : ℝ} (h1 : 0 ≤ f₁) (h2 : 0 ≤ f₂) (h12 : f₁ * f₂ < 1) :
    ∃ t : UV I J, (∀ i, 0 < t.u i) ∧ (∀ j, 0 < t.v j) ∧ unbStep a b K f₁ f₂ t = t ∧
      ∀ s : UV I J, (∀ j, 0 < s.v j) → ∀ D, (∀ j, |Real.log (s.v j) - Real.log (t.v j)| ≤ D) → ∀ n,
        (∀ i, |Real.log (((unbStep a b K f₁ f₂)^[n + 1] s).u i) - Real.log (t.u i)| ≤ f₁ * (f₁ * f₂) ^ n * D) ∧
        ∀ j, |Real.log (((unbStep a b K f₁ f₂)^[n] s).v j) - Real.log (t.v j)| ≤ (f₁ * f₂) ^ n * D := by
  have hκ : 0 ≤ f₁ * f₂ := mul_nonneg h1 h2
  have hlip : ContractingWith (f₁ * f₂).toNNReal (phi a b K f₁ f₂) := by
    refine ⟨Real.toNNReal_lt_one.2 h12, LipschitzWith.of_dist_le_mul fun g g' => ?_⟩
    rw [Real.coe_toNNReal _ hκ]
    rw [dist_pi_le_iff (mul_nonneg hκ dist_nonneg)]
    intro j
    refine (unbStep_lip ha hb hK h1 h2 (s := ⟨fun _ => 1, fun j => Real.exp (g j)⟩) (t := ⟨fun _ => 1, fun j => Real.exp (g' j)⟩)
      (fun j => Real.exp_pos _) (fun j => Real.exp_pos _) (D := dist g g') fun j => ?_).2 j
    simp only [Real.log_exp]
    exact dist_le_pi_dist g g' j
  obtain ⟨g, hg⟩ : ∃ g, phi a b K f₁ f₂ g = g := ⟨_, hlip.fixedPoint_isFixedPt⟩
  obtain ⟨t0, ht0⟩ : ∃ t0 : UV I J, t0 = ⟨fun _ => 1, fun j => Real.exp (g j)⟩ := ⟨_, rfl⟩
  have hpos0 : ∀ j, 0 < t0.v j := fun j => by rw [ht0]; exact Real.exp_pos _
  have hpos := unbStep_pos ha hb hK f₁ f₂ hpos0
  have hv : (unbStep a b K f₁ f₂ t0).v = t0.v := by
    funext j
    have := congrFun hg j
    unfold phi at this
    rw [← ht0] at this
    rw [← Real.exp_log (hpos.2 j), this, ht0]
  have hfix : unbStep a b K f₁ f₂ (unbStep a b K f₁ f₂ t0) = unbStep a b K f₁ f₂ t0 := by
    have hd : ∀ s t : UV I J, s.v = t.v → unbStep a b K f₁ f₂ s = unbStep a b K f₁ f₂ t := fun s t h => by
      unfold unbStep
      rw [h]
    exact hd _ _ hv
  refine ⟨unbStep a b K f₁ f₂ t0, hpos.1, hpos.2, hfix, fun s hs D hD n => ?_⟩
  have hsp : ∀ n, ∀ j, 0 < ((unbStep a b K f₁ f₂)^[n] s).v j := fun n => by
    induction n with
    | zero => exact hs
    | succ n ih => rw [Function.iterate_succ_apply']; exact (unbStep_pos ha hb hK f₁ f₂ ih).2
  have hvn : ∀ n, ∀ j, |Real.log (((unbStep a b K f₁ f₂)^[n] s).v j) - Real.log ((unbStep a b K f₁ f₂ t0).v j)| ≤ (f₁ * f₂) ^ n * D := by
    intro n
    induction n with
    | zero => simpa using hD
    | succ n ih =>
      intro j
      rw [Function.iterate_succ_apply', pow_succ', mul_assoc]
      have := (unbStep_lip ha hb hK h1 h2 (hsp n) hpos.2 ih).2 j
      rwa [hfix] at this
  refine ⟨fun i => ?_, hvn n⟩
  rw [Function.iterate_succ_apply', mul_assoc]
  have := (unbStep_lip ha hb hK h1 h2 (hsp n) hpos.2 (hvn n)).1 i
  rwa [hfix] at this

theorem tendsto_of_log {x : ℕ → ℝ} {y : ℝ} (hx : ∀ n, 0 < x n) (hy : 0 < y) {r : ℕ → ℝ} (hr : Tendsto r atTop (𝓝 0)) (h : ∀ n, |Real.log (x n) - Real.log y| ≤ r n) :
    Tendsto x atTop (𝓝 y) := by
  have h1 : Tendsto (fun n => Real.log (x n)) atTop (𝓝 (Real.log y)) := by
    rw [tendsto_iff_dist_tendsto_zero]
    exact squeeze_zero (fun n => dist_nonneg) h hr
  have h2 := (Real.continuous_exp.tendsto _).comp h1
  rw [Real.exp_log hy] at h2
  refine h2.congr fun n => ?_
  simp [Real.exp_log (hx n)]

theorem unb_tendsto [Nonempty I] [Nonempty J] {a : I → ℝ} {b : J → ℝ} {K : I → J → ℝ} (ha : ∀ i, 0 < a i) (hb : ∀ j, 0 < b j) (hK : ∀ i j, 0 < K i j)
    {f₁ f₂ : ℝ} (h1 : 0 ≤ f₁) (h2 : 0 ≤ f₂) (h12 : f₁ * f₂ < 1) :
    ∃ t : UV I J, (∀ i, 0 < t.u i) ∧ (∀ j, 0 < t.v j) ∧ unbStep a b K f₁ f₂ t = t ∧
      ∀ s : UV I J, (∀ i, 0 < s.u i) → (∀ j, 0 < s.v j) →
        (∀ i, Tendsto (fun n => ((unbStep a b K f₁ f₂)^[n] s).u i) atTop (𝓝 (t.u i))) ∧
        ∀ j, Tendsto (fun n => ((unbStep a b K f₁ f₂)^[n] s).v j) atTop (𝓝 (t.v j)) := by
  obtain ⟨t, t1, t2, t3, t4⟩ := unb_converges ha hb hK h1 h2 h12
  refine ⟨t, t1, t2, t3, fun s hs1 hs2 => ?_⟩
  obtain ⟨D, hD⟩ : ∃ D, ∀ j, |Real.log (s.v j) - Real.log (t.v j)| ≤ D :=
    ⟨∑ j, |Real.log (s.v j) - Real.log (t.v j)|, fun j => single_le_sum (f := fun j => |Real.log (s.v j) - Real.log (t.v j)|) (fun _ _ => abs_nonneg _) (mem_univ j)⟩
  have h := t4 s hs2 D hD
  have hp := unbIter_pos ha hb hK f₁ f₂ hs1 hs2
  have hκ : 0 ≤ f₁ * f₂ := mul_nonneg h1 h2
  have hz := tendsto_pow_atTop_nhds_zero_of_lt_one hκ h12
  constructor
  · intro i
    rw [← tendsto_add_atTop_iff_nat 1]
    refine tendsto_of_log (r := fun n => f₁ * (f₁ * f₂) ^ n * D) (fun n => (hp (n + 1)).1 i) (t1 i) ?_ fun n => (h n).1 i
    simpa using (hz.const_mul f₁).mul_const D
  · intro j
    refine tendsto_of_log (r := fun n => (f₁ * f₂) ^ n * D) (fun n => (hp n).2 j) (t2 j) ?_ fun n => (h n).2 j
    simpa using hz.mul_const D

/-- `fi` lies between 0 and 1 and is smaller than 1 for finite parameters -/
theorem fi_nonneg {reg : ℝ} (hreg : 0 < reg) {ρ : Option ℝ} (hρ : ∀ r, ρ = some r → 0 ≤ r) : 0 ≤ fi reg ρ := by
  cases ρ with
  | none => exact zero_le_one
  | some r => have := hρ r rfl; exact div_nonneg this (by linarith)

theorem fi_le_one {reg : ℝ} (hreg : 0 < reg) {ρ : Option ℝ} (hρ : ∀ r, ρ = some r → 0 ≤ r) : fi reg ρ ≤ 1 := by
  cases ρ with
  | none => exact le_refl _
  | some r => have := hρ r rfl; exact (div_le_one (by linarith)).2 (by linarith)

theorem fi_lt_one {reg : ℝ} (hreg : 0 < reg) {r : ℝ} (hr : 0 ≤ r) : fi reg (some r) < 1 := (div_lt_one (by linarith)).2 (by linarith)

theorem fi_mul_lt_one {reg : ℝ} (hreg : 0 < reg) {ρ₁ ρ₂ : Option ℝ} (h01 : ∀ r, ρ₁ = some r → 0 ≤ r) (h02 : ∀ r, ρ₂ = some r → 0 ≤ r) (h : ρ₁ ≠ none ∨ ρ₂ ≠ none) :
    fi reg ρ₁ * fi reg ρ₂ < 1 := by
  have a1 := fi_nonneg hreg h01
  have a2 := fi_nonneg hreg h02
  have b1 := fi_le_one hreg h01
  have b2 := fi_le_one hreg h02
  rcases h with h | h
  · obtain ⟨r, rfl⟩ := Option.ne_none_iff_exists'.1 h
    have := fi_lt_one hreg (h01 r rfl)
    nlinarith
  · obtain ⟨r, rfl⟩ := Option.ne_none_iff_exists'.1 h
    have := fi_lt_one hreg (h02 r rfl)
    nlinarith

/-! ## Errors and stopping -/

theorem le_vmax {L : Type*} [Fintype L] [Nonempty L] (x : L → ℝ) (l : L) : x l ≤ vmax x := Finset.le_sup' x (mem_univ l)

theorem vmax_le {L : Type*} [Fintype L] [Nonempty L] {x : L → ℝ} {B : ℝ} (h : ∀ l, x l ≤ B) : vmax x ≤ B := Finset.sup'_le _ _ fun l _ => h l

theorem relErr_nonneg {L : Type*} [Fintype L] [Nonempty L] (x y : L → ℝ) : 0 ≤ relErr x y :=
  div_nonneg ((abs_nonneg _).trans (le_vmax (fun l => |y l - x l|) (Classical.arbitrary L))) (zero_le_one.trans (le_max_right _ _))

theorem relErr_le {L : Type*} [Fintype L] [Nonempty L] (x y : L → ℝ) : relErr x y ≤ ∑ l, |y l - x l| := by
  have h1 : vmax (fun l => |y l - x l|) ≤ ∑ l, |y l - x l| := vmax_le fun l => single_le_sum (f := fun l => |y l - x l|) (fun _ _ => abs_nonneg _) (mem_univ l)
  refine (div_le_self ((abs_nonneg _).trans (le_vmax (fun l => |y l - x l|) (Classical.arbitrary L))) (le_max_right _ _)).trans h1

theorem eq_of_relErr {L : Type*} [Fintype L] [Nonempty L] {x y : L → ℝ} (h : relErr x y ≤ 0) : y = x := by
  have hpos : 0 < max (max (vmax fun l => |y l|) (vmax fun l => |x l|)) 1 := lt_of_lt_of_le one_pos (le_max_right _ _)
  have h1 : vmax (fun l => |y l - x l|) ≤ 0 := by
    by_contra hc
    push Not at hc
    have := div_pos hc hpos
    unfold relErr at h
    linarith
  funext l
  have := (le_vmax (fun l => |y l - x l|) l).trans h1
  have := abs_eq_zero.1 (le_antisymm this (abs_nonneg _))
  linarith

theorem relErr_tendsto {L : Type*} [Fintype L] [Nonempty L] {x : ℕ → L → ℝ} {y : L → ℝ} (h : ∀ l, Tendsto (fun n => x n l) atTop (𝓝 (y l))) :
    Tendsto (fun n => relErr (x n) (x (n + 1))) atTop (𝓝 0) := by
  refine squeeze_zero (fun n => relErr_nonneg _ _) (fun n => relErr_le _ _) ?_
  have : ∀ l, Tendsto (fun n => |x (n + 1) l - x n l|) atTop (𝓝 0) := fun l => by
    have := (((tendsto_add_atTop_iff_nat 1).2 (h l)).sub (h l)).abs
    simpa using this
  simpa using tendsto_finsetSum univ fun l _ => this l

/-- A loop that stops when the change of the state is smaller than the threshold: if the states become good eventually, a state that does not change is good, and the change tends
to zero, then small thresholds give good results. -/
theorem loop_accuracy {S : Type*} {step : S → S} {bad : S → Prop} {err : S → S → ℝ} {s : S} (hbad : ∀ n, ¬ bad (step^[n] s)) {Good : S → Prop}
    (hev : ∀ᶠ n in atTop, Good (step^[n] s)) (h0 : ∀ s t, 0 ≤ err s t) (hfix : ∀ n, err (step^[n] s) (step^[n + 1] s) = 0 → Good (step^[n + 1] s))
    (herr : Tendsto (fun n => err (step^[n] s) (step^[n + 1] s)) atTop (𝓝 0)) :
    ∃ thr₀ > 0, ∀ thr, 0 < thr → thr ≤ thr₀ → ∃ N, ∀ n ≥ N,
      (loop step bad (fun _ s t => err s t < thr) n 0 s).exit = .converged ∧ Good (loop step bad (fun _ s t => err s t < thr) n 0 s).s := by
  obtain ⟨N0, hN0⟩ := eventually_atTop.1 hev
  have hex : ∃ thr₀ > 0, ∀ n < N0, err (step^[n] s) (step^[n + 1] s) = 0 ∨ thr₀ ≤ err (step^[n] s) (step^[n + 1] s) := by
    clear hN0
    induction N0 with
    | zero => exact ⟨1, one_pos, fun n hn => by omega⟩
    | succ N ih =>
      obtain ⟨t, ht, h⟩ := ih
      by_cases hz : err (step^[N] s) (step^[N + 1] s) = 0
      · refine ⟨t, ht, fun n hn => ?_⟩
        rcases Nat.lt_succ_iff_lt_or_eq.1 hn with h1 | rfl
        · exact h n h1
        · exact Or.inl hz
      · refine ⟨min t (err (step^[N] s) (step^[N + 1] s)), lt_min ht (lt_of_le_of_ne (h0 _ _) (Ne.symm hz)), fun n hn => ?_⟩
        rcases Nat.lt_succ_iff_lt_or_eq.1 hn with h1 | rfl
        · exact (h n h1).imp id fun h => (min_le_left _ _).trans h
        · exact Or.inr (min_le_right _ _)
  obtain ⟨thr₀, h1, h2⟩ := hex
  refine ⟨thr₀, h1, fun thr hthr hle => ?_⟩
  obtain ⟨N, hN⟩ := ((tendsto_order.1 herr).2 thr hthr).exists
  refine ⟨N + 1, fun n hn => ?_⟩
  have hconv : (loop step bad (fun _ s t => err s t < thr) n 0 s).exit = .converged :=
    loop_stops (stop := fun _ s t => err s t < thr) n 0 s hbad N (by omega) hN
  refine ⟨hconv, ?_⟩
  obtain ⟨k, hk, e, -, -, -, x2, -⟩ := loop_spec (step := step) (bad := bad) (stop := fun _ s t => err s t < thr) n 0 s
  obtain ⟨l, rfl, -, h4⟩ := x2 hconv
  rw [e]
  by_cases hl : N0 ≤ l + 1
  · exact hN0 _ hl
  · rcases h2 l (by omega) with h5 | h5
    · exact hfix l h5
    · exact absurd h4 (not_lt.2 (hle.trans h5))

end POT.Unbalanced
