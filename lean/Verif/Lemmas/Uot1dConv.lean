import Verif.Lemmas.Uot1d
import Verif.Props.Emd1d
import Mathlib.Analysis.SpecialFunctions.Exp
import Mathlib.Algebra.Order.BigOperators.Group.Finset

/-! # Lemmas: convergence of the Frank-Wolfe iteration of `uot_1d` -/

namespace POT.Uot1d

open Finset POT.Emd1d POT.LpDual POT.Spec

set_option linter.unusedSectionVars false

section General

variable {I J K : Type*} [Fintype I] [Fintype J] [Fintype K]

/-- a pair of potentials with bounded sums -/
def Bdd (C : ℝ) (f : I → ℝ) (g : J → ℝ) : Prop := ∀ i j, |f i + g j| ≤ C

theorem Bdd.translate {C : ℝ} {f : I → ℝ} {g : J → ℝ} (h : Bdd C f g) (t : ℝ) : Bdd C (fun i => f i + t) (fun j => g j - t) := fun i j => by
  rw [show f i + t + (g j - t) = f i + g j by ring]; exact h i j

theorem Bdd.convex {C : ℝ} {f f' : I → ℝ} {g g' : J → ℝ} (h : Bdd C f g) (h' : Bdd C f' g') {t : ℝ} (h0 : 0 ≤ t) (h1 : t ≤ 1) :
    Bdd C (fun i => f i + t * (f' i - f i)) (fun j => g j + t * (g' j - g j)) := fun i j => by
  rw [show f i + t * (f' i - f i) + (g j + t * (g' j - g j)) = (1 - t) * (f i + g j) + t * (f' i + g' j) by ring]
  refine (abs_add_le _ _).trans ?_
  rw [abs_mul, abs_mul, abs_of_nonneg h0, abs_of_nonneg (by linarith : (0 : ℝ) ≤ 1 - t)]
  have a1 := mul_le_mul_of_nonneg_left (h i j) (by linarith : (0 : ℝ) ≤ 1 - t)
  have a2 := mul_le_mul_of_nonneg_left (h' i j) h0
  linarith

theorem feasible_convex {M : I → J → ℝ} {f f' : I → ℝ} {g g' : J → ℝ} (h : DualFeasible M f g) (h' : DualFeasible M f' g') {t : ℝ} (h0 : 0 ≤ t) (h1 : t ≤ 1) :
    DualFeasible M (fun i => f i + t * (f' i - f i)) (fun j => g j + t * (g' j - g j)) := fun i j => by
  have a1 := mul_le_mul_of_nonneg_left (h i j) (by linarith : (0 : ℝ) ≤ 1 - t)
  have a2 := mul_le_mul_of_nonneg_left (h' i j) h0
  show f i + t * (f' i - f i) + (g j + t * (g' j - g j)) ≤ M i j
  linarith

theorem feasible_translate {M : I → J → ℝ} {f : I → ℝ} {g : J → ℝ} (h : DualFeasible M f g) (t : ℝ) : DualFeasible M (fun i => f i + t) (fun j => g j - t) := fun i j => by
  have := h i j
  show f i + t + (g j - t) ≤ M i j
  linarith

theorem coupling_pairing {a : I → ℝ} {b : J → ℝ} {G : I → J → ℝ} (hG : IsCoupling a b G) (f : I → ℝ) (g : J → ℝ) :
    ∑ i, a i * f i + ∑ j, b j * g j = ∑ i, ∑ j, G i j * (f i + g j) := by
  have h1 : ∑ j, b j * g j = ∑ i, ∑ j, G i j * g j := by
    rw [sum_comm]
    exact sum_congr rfl fun j _ => by rw [← hG.col j, sum_mul]
  rw [h1, ← sum_add_distrib]
  refine sum_congr rfl fun i _ => ?_
  rw [← hG.row i, sum_mul, ← sum_add_distrib]
  exact sum_congr rfl fun j _ => by ring

/-- LP weak duality -/
theorem lp_weak {a : I → ℝ} {b : J → ℝ} {G M : I → J → ℝ} (hG : IsCoupling a b G) {f : I → ℝ} {g : J → ℝ} (h : DualFeasible M f g) :
    ∑ i, a i * f i + ∑ j, b j * g j ≤ cost M G := by
  rw [coupling_pairing hG]
  exact sum_le_sum fun i _ => sum_le_sum fun j _ => mul_le_mul_of_nonneg_left (h i j) (hG.nonneg i j)

/-- potentials that attain the transport cost have bounded sums -/
theorem bdd_of_tight {a : I → ℝ} {b : J → ℝ} {G M : I → J → ℝ} {C : ℝ} (hG : IsCoupling a b G) (ha : ∀ i, 0 < a i) (hb : ∀ j, 0 < b j) (hM0 : ∀ i j, 0 ≤ M i j) (hMC : ∀ i j, M i j ≤ C)
    {f : I → ℝ} {g : J → ℝ} (h : DualFeasible M f g) (heq : ∑ i, a i * f i + ∑ j, b j * g j = cost M G) : Bdd C f g := by
  rw [coupling_pairing hG] at heq
  have htight : ∀ i j, G i j * (M i j - (f i + g j)) = 0 := by
    have h0 : ∀ i j, 0 ≤ G i j * (M i j - (f i + g j)) := fun i j => mul_nonneg (hG.nonneg i j) (sub_nonneg.2 (h i j))
    have hs : ∑ i, ∑ j, G i j * (M i j - (f i + g j)) = 0 := by
      simp only [mul_sub, sum_sub_distrib]
      unfold cost at heq
      linarith
    intro i j
    have h1 := (sum_eq_zero_iff_of_nonneg fun i _ => sum_nonneg fun j _ => h0 i j).1 hs i (mem_univ i)
    exact (sum_eq_zero_iff_of_nonneg fun j _ => h0 i j).1 h1 j (mem_univ j)
  have hrow : ∀ i, ∃ j, f i + g j = M i j := fun i => by
    have : 0 < ∑ j, G i j := by rw [hG.row i]; exact ha i
    obtain ⟨j, _, hj⟩ := Finset.exists_lt_of_sum_lt (s := univ) (f := fun _ => (0 : ℝ)) (g := fun j => G i j) (by simpa using this)
    refine ⟨j, ?_⟩
    rcases mul_eq_zero.1 (htight i j) with h0 | h0
    · exact absurd h0 hj.ne'
    · linarith
  have hcol : ∀ j, ∃ i, f i + g j = M i j := fun j => by
    have : 0 < ∑ i, G i j := by rw [hG.col j]; exact hb j
    obtain ⟨i, _, hi⟩ := Finset.exists_lt_of_sum_lt (s := univ) (f := fun _ => (0 : ℝ)) (g := fun i => G i j) (by simpa using this)
    refine ⟨i, ?_⟩
    rcases mul_eq_zero.1 (htight i j) with h0 | h0
    · exact absurd h0 hi.ne'
    · linarith
  intro i j
  obtain ⟨j', hj'⟩ := hrow i
  obtain ⟨i', hi'⟩ := hcol j
  have h1 := h i' j'
  have h2 := h i j
  rw [abs_le]
  have := hM0 i j'
  have := hM0 i' j
  have := hMC i' j'
  have := hMC i j
  constructor <;> linarith

/-- potentials with bounded sums, balanced by weights of mass one, are bounded -/
theorem bdd_centered {u : I → ℝ} {v : J → ℝ} {C : ℝ} [Nonempty J] (hu : ∀ i, 0 ≤ u i) (hsu : ∑ i, u i = 1) (hv : ∀ j, 0 ≤ v j) (hsv : ∑ j, v j = 1)
    {f : I → ℝ} {g : J → ℝ} (h : Bdd C f g) (hbal : ∑ i, u i * f i = ∑ j, v j * g j) (i : I) : |f i| ≤ 3 * C := by
  have hC : 0 ≤ C := (abs_nonneg _).trans (h i (Classical.arbitrary J))
  have h1 : |∑ j, v j * (f i + g j)| ≤ C := by
    refine (abs_sum_le_sum_abs _ _).trans ?_
    calc ∑ j, |v j * (f i + g j)| ≤ ∑ j, v j * C := sum_le_sum fun j _ => by
          rw [abs_mul, abs_of_nonneg (hv j)]; exact mul_le_mul_of_nonneg_left (h i j) (hv j)
      _ = C := by rw [← sum_mul, hsv, one_mul]
  have e1 : ∑ j, v j * (f i + g j) = f i + ∑ j, v j * g j := by
    simp only [mul_add, sum_add_distrib, ← sum_mul, hsv, one_mul]
  have h2 : |∑ k, u k * ∑ j, v j * (f k + g j)| ≤ C := by
    refine (abs_sum_le_sum_abs _ _).trans ?_
    calc ∑ k, |u k * ∑ j, v j * (f k + g j)| ≤ ∑ k, u k * C := sum_le_sum fun k _ => by
          rw [abs_mul, abs_of_nonneg (hu k)]
          refine mul_le_mul_of_nonneg_left ((abs_sum_le_sum_abs _ _).trans ?_) (hu k)
          calc ∑ j, |v j * (f k + g j)| ≤ ∑ j, v j * C := sum_le_sum fun j _ => by
                rw [abs_mul, abs_of_nonneg (hv j)]; exact mul_le_mul_of_nonneg_left (h k j) (hv j)
            _ = C := by rw [← sum_mul, hsv, one_mul]
      _ = C := by rw [← sum_mul, hsu, one_mul]
  have e2 : ∑ k, u k * ∑ j, v j * (f k + g j) = ∑ k, u k * f k + ∑ j, v j * g j := by
    have : ∀ k, ∑ j, v j * (f k + g j) = f k + ∑ j, v j * g j := fun k => by
      simp only [mul_add, sum_add_distrib, ← sum_mul, hsv, one_mul]
    simp only [this]
    simp only [mul_add, sum_add_distrib, ← sum_mul, hsu, one_mul]
  rw [e1] at h1
  rw [e2, hbal] at h2
  rw [abs_le] at h1 h2 ⊢
  constructor <;> linarith

theorem Bdd.swap {C : ℝ} {f : I → ℝ} {g : J → ℝ} (h : Bdd C f g) : Bdd C g f := fun j i => by rw [add_comm]; exact h i j

theorem lse_bound {a : K → ℝ} (ha : ∀ k, 0 ≤ a k) (hs : 0 < ∑ k, a k) {x : K → ℝ} {R : ℝ} (hx : ∀ k, |x k| ≤ R) : |lse x a| ≤ |Real.log (∑ k, a k)| + R := by
  have h1 : Real.exp (-R) * ∑ k, a k ≤ ∑ k, a k * Real.exp (x k) := by
    rw [mul_sum]
    refine sum_le_sum fun k _ => ?_
    rw [mul_comm]
    exact mul_le_mul_of_nonneg_left (Real.exp_le_exp.2 (abs_le.1 (hx k)).1) (ha k)
  have h2 : ∑ k, a k * Real.exp (x k) ≤ Real.exp R * ∑ k, a k := by
    rw [mul_sum]
    refine sum_le_sum fun k _ => ?_
    rw [mul_comm (Real.exp R)]
    exact mul_le_mul_of_nonneg_left (Real.exp_le_exp.2 (abs_le.1 (hx k)).2) (ha k)
  have p1 : 0 < Real.exp (-R) * ∑ k, a k := mul_pos (Real.exp_pos _) hs
  have l1 := Real.log_le_log p1 h1
  have l2 := Real.log_le_log (p1.trans_le h1) h2
  rw [Real.log_mul (Real.exp_pos _).ne' hs.ne', Real.log_exp] at l1 l2
  have := neg_abs_le (Real.log (∑ k, a k))
  have := le_abs_self (Real.log (∑ k, a k))
  unfold lse
  rw [abs_le]
  constructor <;> linarith

theorem lse_translate {r : ℝ} (a f : K → ℝ) (hp : 0 < ∑ k, a k * Real.exp (-f k / r)) (c : ℝ) :
    lse (fun k => -(f k + c) / r) a = lse (fun k => -f k / r) a - c / r := by
  unfold lse
  have : ∑ k, a k * Real.exp (-(f k + c) / r) = Real.exp (-c / r) * ∑ k, a k * Real.exp (-f k / r) := by
    rw [mul_sum]
    refine sum_congr rfl fun k _ => ?_
    rw [show -(f k + c) / r = -c / r + -f k / r by ring, Real.exp_add]; ring
  rw [this, Real.log_mul (Real.exp_pos _).ne' hp.ne', Real.log_exp]
  ring

theorem sum_exp_pos {a : K → ℝ} (ha : ∀ k, 0 ≤ a k) (hs : 0 < ∑ k, a k) (x : K → ℝ) : 0 < ∑ k, a k * Real.exp (x k) := by
  obtain ⟨k, _, hk⟩ := Finset.exists_lt_of_sum_lt (s := univ) (f := fun _ => (0 : ℝ)) (g := a) (by simpa using hs)
  exact Finset.sum_pos' (fun k _ => mul_nonneg (ha k) (Real.exp_pos _).le) ⟨k, mem_univ k, mul_pos hk (Real.exp_pos _)⟩

/-- the translation found by `rescale_potentials` does not depend on the representative -/
theorem rescaleTransl_translate {a : I → ℝ} {b : J → ℝ} {ρ₁ ρ₂ : Option ℝ} (h₁ : PosParam ρ₁) (h₂ : PosParam ρ₂) (ha : ∀ i, 0 ≤ a i) (hb : ∀ j, 0 ≤ b j)
    (hsa : 0 < ∑ i, a i) (hsb : 0 < ∑ j, b j) (hρ : ρ₁ ≠ none ∨ ρ₂ ≠ none) (f : I → ℝ) (g : J → ℝ) (c : ℝ) :
    rescaleTransl (fun i => f i + c) (fun j => g j - c) a b ρ₁ ρ₂ = rescaleTransl f g a b ρ₁ ρ₂ - c := by
  have hg : ∀ r : ℝ, lse (fun j => -(g j - c) / r) b = lse (fun j => -g j / r) b + c / r := fun r => by
    have := lse_translate (r := r) b g (sum_exp_pos hb hsb _) (-c)
    simp only [← sub_eq_add_neg] at this
    rw [this]; ring
  cases ρ₁ with
  | none =>
    cases ρ₂ with
    | none => simp at hρ
    | some r₂ =>
      have hr := h₂ r₂ rfl
      simp only [rescaleTransl]
      rw [hg]; field_simp; ring
  | some r₁ =>
    have hr₁ := h₁ r₁ rfl
    cases ρ₂ with
    | none =>
      simp only [rescaleTransl]
      rw [lse_translate a f (sum_exp_pos ha hsa _)]; field_simp; ring
    | some r₂ =>
      have hr₂ := h₂ r₂ rfl
      simp only [rescaleTransl]
      rw [lse_translate a f (sum_exp_pos ha hsa _), hg]; field_simp; ring

/-- after the translation, potentials with bounded sums are bounded -/
theorem bdd_translated {a : I → ℝ} {b : J → ℝ} {ρ₁ ρ₂ : Option ℝ} (h₁ : PosParam ρ₁) (h₂ : PosParam ρ₂) (ha : ∀ i, 0 ≤ a i) (hb : ∀ j, 0 ≤ b j)
    (hsa : 0 < ∑ i, a i) (hsb : 0 < ∑ j, b j) (hρ : ρ₁ ≠ none ∨ ρ₂ ≠ none) (C : ℝ) :
    ∃ R, ∀ (f : I → ℝ) (g : J → ℝ), Bdd C f g → (∀ i, |f i + rescaleTransl f g a b ρ₁ ρ₂| ≤ R) ∧ ∀ j, |g j - rescaleTransl f g a b ρ₁ ρ₂| ≤ R := by
  obtain ⟨i₀, _, _⟩ := Finset.exists_lt_of_sum_lt (s := univ) (f := fun _ => (0 : ℝ)) (g := a) (by simpa using hsa)
  obtain ⟨j₀, _, _⟩ := Finset.exists_lt_of_sum_lt (s := univ) (f := fun _ => (0 : ℝ)) (g := b) (by simpa using hsb)
  -- the translation of a bounded pair is bounded
  have hT : ∃ T, ∀ (f : I → ℝ) (g : J → ℝ), (∀ i, |f i| ≤ 2 * C) → (∀ j, |g j| ≤ 2 * C) → |rescaleTransl f g a b ρ₁ ρ₂| ≤ T := by
    have hf : ∀ (r : ℝ), 0 < r → ∀ f : I → ℝ, (∀ i, |f i| ≤ 2 * C) → |lse (fun i => -f i / r) a| ≤ |Real.log (∑ i, a i)| + 2 * C / r := fun r hr f h => by
      refine lse_bound ha hsa fun i => ?_
      rw [abs_div, abs_neg, abs_of_pos hr]
      exact div_le_div_of_nonneg_right (h i) hr.le
    have hg : ∀ (r : ℝ), 0 < r → ∀ g : J → ℝ, (∀ j, |g j| ≤ 2 * C) → |lse (fun j => -g j / r) b| ≤ |Real.log (∑ j, b j)| + 2 * C / r := fun r hr g h => by
      refine lse_bound hb hsb fun i => ?_
      rw [abs_div, abs_neg, abs_of_pos hr]
      exact div_le_div_of_nonneg_right (h i) hr.le
    cases ρ₁ with
    | none =>
      cases ρ₂ with
      | none => simp at hρ
      | some r₂ =>
        have hr := h₂ r₂ rfl
        refine ⟨r₂ * (|Real.log (∑ i, a i)| + (|Real.log (∑ j, b j)| + 2 * C / r₂)), fun f g _ hg' => ?_⟩
        simp only [rescaleTransl]
        rw [abs_mul, abs_of_pos hr]
        refine mul_le_mul_of_nonneg_left ((abs_sub _ _).trans ?_) hr.le
        have := hg r₂ hr g hg'
        linarith
    | some r₁ =>
      have hr₁ := h₁ r₁ rfl
      cases ρ₂ with
      | none =>
        refine ⟨r₁ * ((|Real.log (∑ i, a i)| + 2 * C / r₁) + |Real.log (∑ j, b j)|), fun f g hf' _ => ?_⟩
        simp only [rescaleTransl]
        rw [abs_mul, abs_of_pos hr₁]
        refine mul_le_mul_of_nonneg_left ((abs_sub _ _).trans ?_) hr₁.le
        have := hf r₁ hr₁ f hf'
        linarith
      | some r₂ =>
        have hr₂ := h₂ r₂ rfl
        have hτ : 0 ≤ r₁ * r₂ / (r₁ + r₂) := by positivity
        refine ⟨r₁ * r₂ / (r₁ + r₂) * ((|Real.log (∑ i, a i)| + 2 * C / r₁) + (|Real.log (∑ j, b j)| + 2 * C / r₂)), fun f g hf' hg' => ?_⟩
        simp only [rescaleTransl]
        rw [abs_mul, abs_of_nonneg hτ]
        refine mul_le_mul_of_nonneg_left ((abs_sub _ _).trans ?_) hτ
        have := hf r₁ hr₁ f hf'
        have := hg r₂ hr₂ g hg'
        linarith
  obtain ⟨T, hT⟩ := hT
  refine ⟨2 * C + T, fun f g h => ?_⟩
  have hC : 0 ≤ C := (abs_nonneg _).trans (h i₀ j₀)
  have e := rescaleTransl_translate (a := a) (b := b) h₁ h₂ ha hb hsa hsb hρ f g (-f i₀)
  have b1 : ∀ i, |f i + -f i₀| ≤ 2 * C := fun i => by
    have h1 := abs_le.1 (h i j₀)
    have h2 := abs_le.1 (h i₀ j₀)
    rw [abs_le]; constructor <;> linarith
  have b2 : ∀ j, |g j - -f i₀| ≤ 2 * C := fun j => by
    have h1 := abs_le.1 (h i₀ j)
    rw [abs_le]; constructor <;> linarith
  have b3 := hT _ _ b1 b2
  rw [e] at b3
  constructor
  · intro i
    rw [show f i + rescaleTransl f g a b ρ₁ ρ₂ = (f i + -f i₀) + (rescaleTransl f g a b ρ₁ ρ₂ - -f i₀) by ring]
    exact (abs_add_le _ _).trans (add_le_add (b1 i) b3)
  · intro j
    rw [show g j - rescaleTransl f g a b ρ₁ ρ₂ = (g j - -f i₀) - (rescaleTransl f g a b ρ₁ ρ₂ - -f i₀) by ring]
    exact (abs_sub _ _).trans (add_le_add (b2 j) b3)

theorem exp_quad (z : ℝ) : Real.exp z - 1 - z ≤ z ^ 2 * Real.exp |z| := by
  have h1 : Real.exp z * (1 - z) ≤ 1 := by
    have := Real.add_one_le_exp (-z)
    have := mul_le_mul_of_nonneg_left this (Real.exp_pos z).le
    rw [← Real.exp_add] at this
    simp at this
    linarith
  rcases le_or_gt 0 z with hz | hz
  · rw [abs_of_nonneg hz]
    have h2 : Real.exp z - 1 ≤ z * Real.exp z := by linarith
    have h3 := mul_le_mul_of_nonneg_left h2 hz
    nlinarith
  · have h2 := Real.add_one_le_exp z
    have h3 : (1 : ℝ) ≤ Real.exp |z| := Real.one_le_exp (abs_nonneg z)
    have h4 : z ^ 2 ≤ z ^ 2 * Real.exp |z| := le_mul_of_one_le_right (sq_nonneg z) h3
    nlinarith

/-- curvature bound of one dual term -/
theorem dualTerm_curv {ρ : Option ℝ} (h : PosParam ρ) {a : K → ℝ} (ha : ∀ k, 0 ≤ a k) (R R' : ℝ) :
    ∃ B, 0 ≤ B ∧ ∀ (f d : K → ℝ) (t : ℝ), (ρ ≠ none → (∀ k, |f k| ≤ R) ∧ ∀ k, |d k| ≤ R') → 0 ≤ t → t ≤ 1 →
      dualTerm ρ a f + t * ∑ k, reweight ρ a f k * d k - t ^ 2 * B ≤ dualTerm ρ a fun k => f k + t * d k := by
  cases ρ with
  | none =>
    refine ⟨0, le_rfl, fun f d t _ _ _ => ?_⟩
    simp only [dualTerm, reweight]
    simp only [mul_sum, mul_add, sum_add_distrib, mul_zero, sub_zero]
    refine le_of_eq ?_
    congr 1
    exact sum_congr rfl fun k _ => by ring
  | some r =>
    have hr := h r rfl
    refine ⟨∑ k, a k * (Real.exp (R / r) * (R' ^ 2 / r * Real.exp (R' / r))), sum_nonneg fun k _ => mul_nonneg (ha k) (by positivity), ?_⟩
    intro f d t hb h0 h1
    obtain ⟨hf, hd⟩ := hb (by simp)
    simp only [dualTerm, reweight]
    simp only [mul_sum]
    rw [← sum_add_distrib, ← sum_sub_distrib]
    refine sum_le_sum fun k _ => ?_
    have hR' : 0 ≤ R' := (abs_nonneg _).trans (hd k)
    have q := exp_quad (-(t * d k) / r)
    have q1 : |(-(t * d k) / r)| ≤ R' / r := by
      rw [abs_div, abs_neg, abs_of_pos hr, abs_mul, abs_of_nonneg h0]
      refine div_le_div_of_nonneg_right ?_ hr.le
      calc t * |d k| ≤ 1 * |d k| := mul_le_mul_of_nonneg_right h1 (abs_nonneg _)
        _ ≤ R' := by rw [one_mul]; exact hd k
    have q2 : (-(t * d k) / r) ^ 2 * Real.exp |(-(t * d k) / r)| ≤ t ^ 2 * (R' ^ 2 / r ^ 2) * Real.exp (R' / r) := by
      refine mul_le_mul ?_ (Real.exp_le_exp.2 q1) (Real.exp_pos _).le (by positivity)
      rw [show (-(t * d k) / r) ^ 2 = t ^ 2 * ((d k) ^ 2 / r ^ 2) by ring]
      refine mul_le_mul_of_nonneg_left (div_le_div_of_nonneg_right ?_ (by positivity)) (sq_nonneg t)
      rw [← sq_abs (d k)]
      exact pow_le_pow_left₀ (abs_nonneg _) (hd k) 2
    have q3 : Real.exp (-f k / r) ≤ Real.exp (R / r) := by
      refine Real.exp_le_exp.2 (div_le_div_of_nonneg_right ?_ hr.le)
      have := (abs_le.1 (hf k)).1
      linarith
    rw [show -(f k + t * d k) / r = -f k / r + -(t * d k) / r by ring, Real.exp_add]
    have q4 : r * (Real.exp (-(t * d k) / r) - 1 - -(t * d k) / r) ≤ t ^ 2 * (R' ^ 2 / r * Real.exp (R' / r)) := by
      have := mul_le_mul_of_nonneg_left (q.trans q2) hr.le
      refine this.trans (le_of_eq ?_)
      field_simp
    have q5 : r * (Real.exp (-(t * d k) / r) - 1 - -(t * d k) / r) = r * Real.exp (-(t * d k) / r) - r + t * d k := by field_simp; ring
    rw [q5] at q4
    have q6 := mul_le_mul_of_nonneg_left q4 (mul_nonneg (ha k) (Real.exp_pos (-f k / r)).le)
    have q7 : a k * Real.exp (-f k / r) * (t ^ 2 * (R' ^ 2 / r * Real.exp (R' / r))) ≤ t ^ 2 * (a k * (Real.exp (R / r) * (R' ^ 2 / r * Real.exp (R' / r)))) := by
      have hx : 0 ≤ R' ^ 2 / r * Real.exp (R' / r) := by positivity
      have h2 := mul_le_mul_of_nonneg_right (mul_le_mul_of_nonneg_left q3 (ha k)) (mul_nonneg (sq_nonneg t) hx)
      refine h2.trans (le_of_eq (by ring))
    have q8 := q6.trans q7
    nlinarith

/-- the translation maximises the dual objective -/
theorem uotDual_translate_le {a : I → ℝ} {b : J → ℝ} {ρ₁ ρ₂ : Option ℝ} (h₁ : PosParam ρ₁) (h₂ : PosParam ρ₂) (ha : ∀ i, 0 ≤ a i) (hb : ∀ j, 0 ≤ b j)
    (hsa : 0 < ∑ i, a i) (hsb : 0 < ∑ j, b j) (hm : ρ₁ = none → ρ₂ = none → ∑ i, a i = ∑ j, b j) (f : I → ℝ) (g : J → ℝ) (t : ℝ) :
    uotDual a b ρ₁ ρ₂ (fun i => f i + t) (fun j => g j - t) ≤
      uotDual a b ρ₁ ρ₂ (fun i => f i + rescaleTransl f g a b ρ₁ ρ₂) (fun j => g j - rescaleTransl f g a b ρ₁ ρ₂) := by
  obtain ⟨s, hs⟩ : ∃ s, s = rescaleTransl f g a b ρ₁ ρ₂ := ⟨_, rfl⟩
  have hmass := mass_eq (f := f) (g := g) h₁ h₂ ha hb hsa hsb hm
  rw [← hs] at hmass ⊢
  have e1 := dualTerm_add_le h₁ ha (fun i => f i + s) (fun _ => t - s)
  have e2 := dualTerm_add_le h₂ hb (fun j => g j - s) (fun _ => s - t)
  rw [← sum_mul] at e1 e2
  rw [show (fun i => f i + s + (t - s)) = fun i => f i + t from funext fun i => by ring] at e1
  rw [show (fun j => g j - s + (s - t)) = fun j => g j - t from funext fun j => by ring] at e2
  rw [hmass] at e1
  unfold uotDual
  nlinarith

/-- strictly, unless both parameters are infinite -/
theorem uotDual_translate_lt {a : I → ℝ} {b : J → ℝ} {ρ₁ ρ₂ : Option ℝ} (h₁ : PosParam ρ₁) (h₂ : PosParam ρ₂) (ha : ∀ i, 0 ≤ a i) (hb : ∀ j, 0 ≤ b j)
    (hsa : 0 < ∑ i, a i) (hsb : 0 < ∑ j, b j) (hρ : ρ₁ ≠ none ∨ ρ₂ ≠ none) (f : I → ℝ) (g : J → ℝ) {t : ℝ} (ht : t ≠ rescaleTransl f g a b ρ₁ ρ₂) :
    uotDual a b ρ₁ ρ₂ (fun i => f i + t) (fun j => g j - t) <
      uotDual a b ρ₁ ρ₂ (fun i => f i + rescaleTransl f g a b ρ₁ ρ₂) (fun j => g j - rescaleTransl f g a b ρ₁ ρ₂) := by
  obtain ⟨s, hs⟩ : ∃ s, s = rescaleTransl f g a b ρ₁ ρ₂ := ⟨_, rfl⟩
  have hmass := mass_eq (f := f) (g := g) h₁ h₂ ha hb hsa hsb (fun x y => absurd hρ (by simp [x, y]))
  rw [← hs] at hmass ht ⊢
  have e1 := dualTerm_add_le h₁ ha (fun i => f i + s) (fun _ => t - s)
  have e2 := dualTerm_add_le h₂ hb (fun j => g j - s) (fun _ => s - t)
  have s1 : ∀ r, ρ₁ = some r → dualTerm ρ₁ a (fun i => f i + s + (t - s)) < dualTerm ρ₁ a (fun i => f i + s) + (t - s) * ∑ i, reweight ρ₁ a (fun i => f i + s) i := fun r hr => by
    subst hr
    exact dualTerm_add_lt (h₁ r rfl) _ (sum_reweight_pos _ _ ha hsa) (sub_ne_zero.2 ht)
  have s2 : ∀ r, ρ₂ = some r → dualTerm ρ₂ b (fun j => g j - s + (s - t)) < dualTerm ρ₂ b (fun j => g j - s) + (s - t) * ∑ j, reweight ρ₂ b (fun j => g j - s) j := fun r hr => by
    subst hr
    exact dualTerm_add_lt (h₂ r rfl) _ (sum_reweight_pos _ _ hb hsb) (sub_ne_zero.2 (Ne.symm ht))
  rw [← sum_mul] at e1 e2
  rw [show (fun i => f i + s + (t - s)) = fun i => f i + t from funext fun i => by ring] at e1 s1
  rw [show (fun j => g j - s + (s - t)) = fun j => g j - t from funext fun j => by ring] at e2 s2
  rw [hmass] at e1 s1
  unfold uotDual
  rcases hρ with h | h
  · obtain ⟨r, hr⟩ := Option.ne_none_iff_exists'.1 h
    have := s1 r hr
    nlinarith
  · obtain ⟨r, hr⟩ := Option.ne_none_iff_exists'.1 h
    have := s2 r hr
    nlinarith

/-- what `get_reweighted_marginal_uot` returns -/
theorem getReweighted_spec {a : I → ℝ} {b : J → ℝ} {ρ₁ ρ₂ : Option ℝ} (h₁ : PosParam ρ₁) (h₂ : PosParam ρ₂) (ha : ∀ i, 0 < a i) (hb : ∀ j, 0 < b j)
    (hsa : 0 < ∑ i, a i) (hsb : 0 < ∑ j, b j) (hm : ρ₁ = none → ρ₂ = none → ∑ i, a i = ∑ j, b j) (f : I → ℝ) (g : J → ℝ) :
    let r := getReweighted f g a b ρ₁ ρ₂
    (∀ i, 0 < r.u i) ∧ (∀ j, 0 < r.v j) ∧ ∑ i, r.u i = 1 ∧ ∑ j, r.v j = 1 ∧ 0 < r.mass ∧
      (∀ i, r.u i * r.mass = reweight ρ₁ a r.f i) ∧ ∀ j, r.v j * r.mass = reweight ρ₂ b r.g j := by
  have hmass := mass_eq (f := f) (g := g) h₁ h₂ (fun i => (ha i).le) (fun j => (hb j).le) hsa hsb hm
  have pu := sum_reweight_pos ρ₁ (fun i => f i + rescaleTransl f g a b ρ₁ ρ₂) (fun i => (ha i).le) hsa
  have pv := sum_reweight_pos ρ₂ (fun j => g j - rescaleTransl f g a b ρ₁ ρ₂) (fun j => (hb j).le) hsb
  simp only [getReweighted]
  refine ⟨fun i => div_pos (reweight_pos _ (ha i)) pu, fun j => div_pos (reweight_pos _ (hb j)) pv, ?_, ?_, pu, ?_, ?_⟩
  · rw [← sum_div, div_self pu.ne']
  · rw [← sum_div, div_self pv.ne']
  · intro i; rw [div_mul_cancel₀ _ pu.ne']
  · intro j; rw [hmass, div_mul_cancel₀ _ pv.ne']

end General

section Loop

variable {n m : ℕ} {srt : Sorter n m} {p : ℝ} {xs : Fin n → ℝ} {ys : Fin m → ℝ} {ρ₁ ρ₂ : Option ℝ} {a : Fin n → ℝ} {b : Fin m → ℝ}

/-- the distances on the sorted supports -/
noncomputable def dist1d (p : ℝ) (xs : Fin n → ℝ) (ys : Fin m → ℝ) (i : Fin n) (j : Fin m) : ℝ := |xs i - ys j| ^ p

/-- the reweighted marginals before step `k` -/
noncomputable def rwAt (srt : Sorter n m) (p : ℝ) (xs : Fin n → ℝ) (ys : Fin m → ℝ) (ρ₁ ρ₂ : Option ℝ) (a : Fin n → ℝ) (b : Fin m → ℝ) (k : ℕ) : Rw (Fin n) (Fin m) :=
  getReweighted (fwLoop srt (cost1d p xs ys) ρ₁ ρ₂ a b k).1 (fwLoop srt (cost1d p xs ys) ρ₁ ρ₂ a b k).2 a b ρ₁ ρ₂

theorem cost1d_eq (i : Fin n) (j : Fin m) : cost1d p xs ys i j = dist1d p xs ys i j := by
  unfold cost1d dist1d
  rw [pad_eq xs i.2, pad_eq ys j.2]

theorem centerOtDual_value {I J : Type*} [Fintype I] [Fintype J] (f : I → ℝ) (g : J → ℝ) {u : I → ℝ} {v : J → ℝ} (hs : ∑ i, u i = ∑ j, v j) :
    ∑ i, u i * (centerOtDual f g u v).1 i + ∑ j, v j * (centerOtDual f g u v).2 j = ∑ i, u i * f i + ∑ j, v j * g j := by
  simp only [centerOtDual, mul_add, mul_sub, sum_add_distrib, sum_sub_distrib, ← sum_mul]
  rw [hs]; ring

theorem centerOtDual_balance {I J : Type*} [Fintype I] [Fintype J] (f : I → ℝ) (g : J → ℝ) {u : I → ℝ} {v : J → ℝ} (hs : ∑ i, u i + ∑ j, v j ≠ 0) :
    ∑ i, u i * (centerOtDual f g u v).1 i = ∑ j, v j * (centerOtDual f g u v).2 j := by
  simp only [centerOtDual, mul_add, mul_sub, sum_add_distrib, sum_sub_distrib, ← sum_mul]
  have : (∑ i, u i + ∑ j, v j) * ((∑ j, v j * g j - ∑ i, u i * f i) / (∑ i, u i + ∑ j, v j)) = ∑ j, v j * g j - ∑ i, u i * f i := mul_div_cancel₀ _ hs
  linarith

/-- `emd_1d_dual_backprop`: the potentials reproduce the loss, are balanced, and without ties they are dual feasible -/
theorem dualBackprop_spec {σ : Fin (n + m) ≃ Fin n ⊕ Fin m} {u : Fin n → ℝ} {v : Fin m → ℝ} (hσ : Monotone (keys u v ∘ σ)) (hn : 0 < n) (hm : 0 < m) (hp : 1 ≤ p)
    (hx : Monotone xs) (hy : Monotone ys) (hu : ∀ k, 0 < u k) (hv : ∀ k, 0 < v k) (hs : ∑ k, u k = ∑ k, v k) :
    let d := dualBackprop σ (cost1d p xs ys) u v
    (NoTies u v → DualFeasible (dist1d p xs ys) d.1 d.2) ∧
      ∑ i, u i * d.1 i + ∑ j, v j * d.2 j = (wasserstein1d p xs ys u v (Equiv.refl _) (Equiv.refl _)).2 ∧ ∑ i, u i * d.1 i = ∑ j, v j * d.2 j := by
  refine ⟨fun hnt i j => ?_, ?_, ?_⟩
  · have h := grad_feasible (M := cost1d p xs ys) hσ hn hm hu hv hs hnt (fun i i' j j' hi hi' hj hj' => by
      unfold cost1d
      refine monge_of_convex (convex_abs_rpow hp) ?_ ?_
      · rw [pad_eq xs (show i < n by omega), pad_eq xs hi']; exact hx hi
      · rw [pad_eq ys (show j < m by omega), pad_eq ys hj']; exact hy hj) i j
    rw [cost1d_eq] at h
    simp only [dualBackprop, centerOtDual]
    linarith
  · simp only [dualBackprop]
    rw [centerOtDual_value _ _ hs, grad_value hσ]
    rfl
  · have : 0 < ∑ k, u k := sum_pos (fun k _ => hu k) ⟨⟨0, hn⟩, mem_univ _⟩
    exact centerOtDual_balance _ _ (by rw [← hs]; positivity)

/-- hypotheses of a call on sorted supports -/
structure Call (srt : Sorter n m) (p : ℝ) (xs : Fin n → ℝ) (ys : Fin m → ℝ) (ρ₁ ρ₂ : Option ℝ) (a : Fin n → ℝ) (b : Fin m → ℝ) : Prop where
  sorts : ∀ q, Monotone (q ∘ srt q)
  hn : 0 < n
  hm : 0 < m
  hp : 1 ≤ p
  hx : Monotone xs
  hy : Monotone ys
  h₁ : PosParam ρ₁
  h₂ : PosParam ρ₂
  ha : ∀ i, 0 < a i
  hb : ∀ j, 0 < b j
  hmass : ρ₁ = none → ρ₂ = none → ∑ i, a i = ∑ j, b j

theorem Call.hsa (h : Call srt p xs ys ρ₁ ρ₂ a b) : 0 < ∑ i, a i := sum_pos (fun k _ => h.ha k) ⟨⟨0, h.hn⟩, mem_univ _⟩
theorem Call.hsb (h : Call srt p xs ys ρ₁ ρ₂ a b) : 0 < ∑ i, b i := sum_pos (fun k _ => h.hb k) ⟨⟨0, h.hm⟩, mem_univ _⟩

theorem Call.rw (h : Call srt p xs ys ρ₁ ρ₂ a b) (k : ℕ) :
    let r := rwAt srt p xs ys ρ₁ ρ₂ a b k
    (∀ i, 0 < r.u i) ∧ (∀ j, 0 < r.v j) ∧ ∑ i, r.u i = 1 ∧ ∑ j, r.v j = 1 ∧ 0 < r.mass ∧
      (∀ i, r.u i * r.mass = reweight ρ₁ a r.f i) ∧ ∀ j, r.v j * r.mass = reweight ρ₂ b r.g j :=
  getReweighted_spec h.h₁ h.h₂ h.ha h.hb h.hsa h.hsb h.hmass _ _

/-- the direction of step `k` -/
noncomputable def dirAt (srt : Sorter n m) (p : ℝ) (xs : Fin n → ℝ) (ys : Fin m → ℝ) (ρ₁ ρ₂ : Option ℝ) (a : Fin n → ℝ) (b : Fin m → ℝ) (k : ℕ) :
    (Fin n → ℝ) × (Fin m → ℝ) :=
  dualBackprop (srt (keys (rwAt srt p xs ys ρ₁ ρ₂ a b k).u (rwAt srt p xs ys ρ₁ ρ₂ a b k).v)) (cost1d p xs ys)
    (rwAt srt p xs ys ρ₁ ρ₂ a b k).u (rwAt srt p xs ys ρ₁ ρ₂ a b k).v

theorem Call.dir (h : Call srt p xs ys ρ₁ ρ₂ a b) (k : ℕ) :
    let r := rwAt srt p xs ys ρ₁ ρ₂ a b k
    let d := dirAt srt p xs ys ρ₁ ρ₂ a b k
    (NoTies r.u r.v → DualFeasible (dist1d p xs ys) d.1 d.2) ∧
      ∑ i, r.u i * d.1 i + ∑ j, r.v j * d.2 j = (wasserstein1d p xs ys r.u r.v (Equiv.refl _) (Equiv.refl _)).2 ∧ ∑ i, r.u i * d.1 i = ∑ j, r.v j * d.2 j := by
  obtain ⟨hu, hv, hsu, hsv, _, _, _⟩ := h.rw k
  exact dualBackprop_spec (h.sorts _) h.hn h.hm h.hp h.hx h.hy hu hv (hsu.trans hsv.symm)

theorem Call.wass (h : Call srt p xs ys ρ₁ ρ₂ a b) (k : ℕ) :
    let r := rwAt srt p xs ys ρ₁ ρ₂ a b k
    IsOptimal r.u r.v (dist1d p xs ys) (wasserstein1d p xs ys r.u r.v (Equiv.refl _) (Equiv.refl _)).1 ∧
      (wasserstein1d p xs ys r.u r.v (Equiv.refl _) (Equiv.refl _)).2 = cost (dist1d p xs ys) (wasserstein1d p xs ys r.u r.v (Equiv.refl _) (Equiv.refl _)).1 := by
  obtain ⟨hu, hv, hsu, hsv, _, _, _⟩ := h.rw k
  exact Props.C04_wasserstein1d_optimal h.hn h.hm p h.hp xs ys _ _ (Equiv.refl _) (Equiv.refl _) h.hx h.hy (fun i => (hu i).le) (fun j => (hv j).le) (hsu.trans hsv.symm)

theorem step_size (k : ℕ) : 0 ≤ (2 : ℝ) / (2 + k) ∧ (2 : ℝ) / (2 + k) ≤ 1 := by
  have hk : (0 : ℝ) ≤ k := Nat.cast_nonneg k
  refine ⟨by positivity, ?_⟩
  rw [div_le_one (by positivity)]
  linarith

theorem dist_bound (p : ℝ) (xs : Fin n → ℝ) (ys : Fin m → ℝ) : ∃ C, 0 ≤ C ∧ ∀ i j, 0 ≤ dist1d p xs ys i j ∧ dist1d p xs ys i j ≤ C := by
  refine ⟨∑ i, ∑ j, dist1d p xs ys i j, ?_, fun i j => ⟨?_, ?_⟩⟩
  · exact sum_nonneg fun i _ => sum_nonneg fun j _ => Real.rpow_nonneg (abs_nonneg _) _
  · exact Real.rpow_nonneg (abs_nonneg _) _
  · have h0 : ∀ i j, 0 ≤ dist1d p xs ys i j := fun i j => Real.rpow_nonneg (abs_nonneg _) _
    exact (single_le_sum (fun j _ => h0 i j) (mem_univ j)).trans (single_le_sum (f := fun i => ∑ j, dist1d p xs ys i j) (fun i _ => sum_nonneg fun j _ => h0 i j) (mem_univ i))

/-- invariants of the iteration -/
theorem Call.inv (h : Call srt p xs ys ρ₁ ρ₂ a b) {C : ℝ} (hC : ∀ i j, 0 ≤ dist1d p xs ys i j ∧ dist1d p xs ys i j ≤ C) (hC0 : 0 ≤ C) : ∀ k,
    (∀ l < k, NoTies (rwAt srt p xs ys ρ₁ ρ₂ a b l).u (rwAt srt p xs ys ρ₁ ρ₂ a b l).v) →
    DualFeasible (dist1d p xs ys) (fwLoop srt (cost1d p xs ys) ρ₁ ρ₂ a b k).1 (fwLoop srt (cost1d p xs ys) ρ₁ ρ₂ a b k).2 ∧
      Bdd C (fwLoop srt (cost1d p xs ys) ρ₁ ρ₂ a b k).1 (fwLoop srt (cost1d p xs ys) ρ₁ ρ₂ a b k).2
  | 0, _ => by
    constructor
    · intro i j
      have := (hC i j).1
      simpa [fwLoop] using this
    · intro i j
      simpa [fwLoop] using hC0
  | k + 1, hnt => by
    obtain ⟨ih1, ih2⟩ := h.inv hC hC0 k fun l hl => hnt l (by omega)
    obtain ⟨hu, hv, hsu, hsv, _, _, _⟩ := h.rw k
    obtain ⟨d1, d2, _⟩ := h.dir k
    have d1 := d1 (hnt k (by omega))
    obtain ⟨w1, w2⟩ := h.wass k
    have db := bdd_of_tight w1.1 hu hv (fun i j => (hC i j).1) (fun i j => (hC i j).2) d1 (d2.trans w2)
    have ht := step_size k
    exact ⟨feasible_convex (feasible_translate ih1 _) d1 ht.1 ht.2, (ih2.translate _).convex db ht.1 ht.2⟩

/-- Frank-Wolfe: curvature and gap -/
theorem Call.gap (h : Call srt p xs ys ρ₁ ρ₂ a b) : ∃ B, 0 ≤ B ∧ ∀ k, (∀ l ≤ k, NoTies (rwAt srt p xs ys ρ₁ ρ₂ a b l).u (rwAt srt p xs ys ρ₁ ρ₂ a b l).v) →
    let r := rwAt srt p xs ys ρ₁ ρ₂ a b k
    let d := dirAt srt p xs ys ρ₁ ρ₂ a b k
    let W := (wasserstein1d p xs ys r.u r.v (Equiv.refl _) (Equiv.refl _)).2
    let gap := W * r.mass - ∑ i, reweight ρ₁ a r.f i * r.f i - ∑ j, reweight ρ₂ b r.g j * r.g j
    (∀ t, 0 ≤ t → t ≤ 1 → uotDual a b ρ₁ ρ₂ r.f r.g + t * gap - t ^ 2 * B ≤
        uotDual a b ρ₁ ρ₂ (fun i => r.f i + t * (d.1 i - r.f i)) (fun j => r.g j + t * (d.2 j - r.g j))) ∧
      ∀ f g, DualFeasible (dist1d p xs ys) f g → uotDual a b ρ₁ ρ₂ f g ≤ uotDual a b ρ₁ ρ₂ r.f r.g + gap := by
  obtain ⟨C, hC0, hC⟩ := dist_bound p xs ys
  have hR : ∃ R, ∀ (f : Fin n → ℝ) (g : Fin m → ℝ), Bdd C f g →
      (ρ₁ ≠ none → ∀ i, |f i + rescaleTransl f g a b ρ₁ ρ₂| ≤ R) ∧ (ρ₂ ≠ none → ∀ j, |g j - rescaleTransl f g a b ρ₁ ρ₂| ≤ R) := by
    by_cases hρ : ρ₁ ≠ none ∨ ρ₂ ≠ none
    · obtain ⟨R, hR⟩ := bdd_translated h.h₁ h.h₂ (fun i => (h.ha i).le) (fun j => (h.hb j).le) h.hsa h.hsb hρ C
      exact ⟨R, fun f g hb => ⟨fun _ => (hR f g hb).1, fun _ => (hR f g hb).2⟩⟩
    · push Not at hρ
      exact ⟨0, fun f g _ => ⟨fun h => absurd hρ.1 h, fun h => absurd hρ.2 h⟩⟩
  obtain ⟨R, hR⟩ := hR
  obtain ⟨B₁, hB₁, c1⟩ := dualTerm_curv h.h₁ (fun i => (h.ha i).le) R (3 * C + R)
  obtain ⟨B₂, hB₂, c2⟩ := dualTerm_curv h.h₂ (fun i => (h.hb i).le) R (3 * C + R)
  refine ⟨B₁ + B₂, add_nonneg hB₁ hB₂, fun k hnt => ?_⟩
  obtain ⟨ih1, ih2⟩ := h.inv hC hC0 k fun l hl => hnt l hl.le
  obtain ⟨hu, hv, hsu, hsv, hmp, hum, hvm⟩ := h.rw k
  obtain ⟨d1, d2, d3⟩ := h.dir k
  have d1 := d1 (hnt k le_rfl)
  obtain ⟨w1, w2⟩ := h.wass k
  have db := bdd_of_tight w1.1 hu hv (fun i j => (hC i j).1) (fun i j => (hC i j).2) d1 (d2.trans w2)
  have : Nonempty (Fin m) := ⟨⟨0, h.hm⟩⟩
  have : Nonempty (Fin n) := ⟨⟨0, h.hn⟩⟩
  have s1 := bdd_centered (fun i => (hu i).le) hsu (fun j => (hv j).le) hsv db d3
  have s2 := bdd_centered (fun i => (hv i).le) hsv (fun j => (hu j).le) hsu db.swap d3.symm
  have hr := hR _ _ ih2
  obtain ⟨r, er⟩ : ∃ r, r = rwAt srt p xs ys ρ₁ ρ₂ a b k := ⟨_, rfl⟩
  obtain ⟨d, ed⟩ : ∃ d, d = dirAt srt p xs ys ρ₁ ρ₂ a b k := ⟨_, rfl⟩
  have hr1 : ρ₁ ≠ none → ∀ i, |r.f i| ≤ R := fun hne i => by rw [er]; exact hr.1 hne i
  have hr2 : ρ₂ ≠ none → ∀ j, |r.g j| ≤ R := fun hne j => by rw [er]; exact hr.2 hne j
  rw [← er] at hum hvm hu hv hmp d2 w1 w2 d3
  rw [← ed] at d1 d2 d3 s1 s2
  simp only [← er, ← ed]
  have hW : ∑ i, reweight ρ₁ a r.f i * d.1 i + ∑ j, reweight ρ₂ b r.g j * d.2 j =
      (wasserstein1d p xs ys r.u r.v (Equiv.refl _) (Equiv.refl _)).2 * r.mass := by
    rw [← d2, add_mul, sum_mul, sum_mul]
    congr 1
    · exact sum_congr rfl fun i _ => by rw [← hum i]; ring
    · exact sum_congr rfl fun j _ => by rw [← hvm j]; ring
  refine ⟨fun t h0 h1 => ?_, fun f g hfg => ?_⟩
  · have e1 := c1 r.f (fun i => d.1 i - r.f i) t (fun hne => ⟨hr1 hne, fun i => (abs_sub _ _).trans (add_le_add (s1 i) (hr1 hne i))⟩) h0 h1
    have e2 := c2 r.g (fun j => d.2 j - r.g j) t (fun hne => ⟨hr2 hne, fun j => (abs_sub _ _).trans (add_le_add (s2 j) (hr2 hne j))⟩) h0 h1
    simp only [mul_sub, sum_sub_distrib] at e1 e2
    unfold uotDual
    simp only [mul_sub]
    rw [← hW]
    linarith
  · have e1 := dualTerm_add_le h.h₁ (fun i => (h.ha i).le) r.f (fun i => f i - r.f i)
    have e2 := dualTerm_add_le h.h₂ (fun i => (h.hb i).le) r.g (fun j => g j - r.g j)
    rw [show (fun i => r.f i + (f i - r.f i)) = f from funext fun i => by ring] at e1
    rw [show (fun i => r.g i + (g i - r.g i)) = g from funext fun i => by ring] at e2
    simp only [mul_sub, sum_sub_distrib] at e1 e2
    have hwk : ∑ i, reweight ρ₁ a r.f i * f i + ∑ j, reweight ρ₂ b r.g j * g j ≤ (wasserstein1d p xs ys r.u r.v (Equiv.refl _) (Equiv.refl _)).2 * r.mass := by
      rw [w2]
      have := mul_le_mul_of_nonneg_right (lp_weak w1.1 hfg) hmp.le
      refine le_trans (le_of_eq ?_) this
      rw [add_mul, sum_mul, sum_mul]
      congr 1
      · exact sum_congr rfl fun i _ => by rw [← hum i]; ring
      · exact sum_congr rfl fun j _ => by rw [← hvm j]; ring
    unfold uotDual
    linarith

/-- rate of the dual objective -/
theorem Call.rate (h : Call srt p xs ys ρ₁ ρ₂ a b) : ∃ B, 0 ≤ B ∧ ∀ k, (∀ l ≤ k, NoTies (rwAt srt p xs ys ρ₁ ρ₂ a b l).u (rwAt srt p xs ys ρ₁ ρ₂ a b l).v) → 1 ≤ k →
    let r := rwAt srt p xs ys ρ₁ ρ₂ a b k
    let W := (wasserstein1d p xs ys r.u r.v (Equiv.refl _) (Equiv.refl _)).2
    let gap := W * r.mass - ∑ i, reweight ρ₁ a r.f i * r.f i - ∑ j, reweight ρ₂ b r.g j * r.g j
    (∀ f g, DualFeasible (dist1d p xs ys) f g → uotDual a b ρ₁ ρ₂ f g ≤ uotDual a b ρ₁ ρ₂ r.f r.g + 4 * B / (k + 2)) ∧ gap ≤ 5 * B / Real.sqrt (k + 2) := by
  obtain ⟨B, hB, hg⟩ := h.gap
  have hrate : ∀ k, (∀ l ≤ k, NoTies (rwAt srt p xs ys ρ₁ ρ₂ a b l).u (rwAt srt p xs ys ρ₁ ρ₂ a b l).v) → 1 ≤ k →
      ∀ f g, DualFeasible (dist1d p xs ys) f g → uotDual a b ρ₁ ρ₂ f g ≤ uotDual a b ρ₁ ρ₂ (rwAt srt p xs ys ρ₁ ρ₂ a b k).f (rwAt srt p xs ys ρ₁ ρ₂ a b k).g + 4 * B / (k + 2) := by
    -- one step
    have step : ∀ k, (∀ l ≤ k, NoTies (rwAt srt p xs ys ρ₁ ρ₂ a b l).u (rwAt srt p xs ys ρ₁ ρ₂ a b l).v) →
        ∀ f g, DualFeasible (dist1d p xs ys) f g →
          uotDual a b ρ₁ ρ₂ f g - uotDual a b ρ₁ ρ₂ (rwAt srt p xs ys ρ₁ ρ₂ a b (k + 1)).f (rwAt srt p xs ys ρ₁ ρ₂ a b (k + 1)).g ≤
            (1 - 2 / (2 + (k : ℝ))) * (uotDual a b ρ₁ ρ₂ f g - uotDual a b ρ₁ ρ₂ (rwAt srt p xs ys ρ₁ ρ₂ a b k).f (rwAt srt p xs ys ρ₁ ρ₂ a b k).g) + (2 / (2 + (k : ℝ))) ^ 2 * B := by
      intro k hnt f g hfg
      obtain ⟨g1, g2⟩ := hg k hnt
      have ht := step_size k
      have e1 := g1 _ ht.1 ht.2
      have e2 := g2 f g hfg
      have e3 := uotDual_translate_le h.h₁ h.h₂ (fun i => (h.ha i).le) (fun j => (h.hb j).le) h.hsa h.hsb h.hmass
        (fwLoop srt (cost1d p xs ys) ρ₁ ρ₂ a b (k + 1)).1 (fwLoop srt (cost1d p xs ys) ρ₁ ρ₂ a b (k + 1)).2 0
      simp only [add_zero, sub_zero] at e3
      have e4 : uotDual a b ρ₁ ρ₂ (fun i => (rwAt srt p xs ys ρ₁ ρ₂ a b k).f i + 2 / (2 + (k : ℝ)) * ((dirAt srt p xs ys ρ₁ ρ₂ a b k).1 i - (rwAt srt p xs ys ρ₁ ρ₂ a b k).f i))
          (fun j => (rwAt srt p xs ys ρ₁ ρ₂ a b k).g j + 2 / (2 + (k : ℝ)) * ((dirAt srt p xs ys ρ₁ ρ₂ a b k).2 j - (rwAt srt p xs ys ρ₁ ρ₂ a b k).g j)) ≤
            uotDual a b ρ₁ ρ₂ (rwAt srt p xs ys ρ₁ ρ₂ a b (k + 1)).f (rwAt srt p xs ys ρ₁ ρ₂ a b (k + 1)).g := e3
      have e5 := mul_le_mul_of_nonneg_left e2 ht.1
      nlinarith
    intro k
    induction k with
    | zero => intro _ h0; omega
    | succ k ih =>
      intro hnt _ f g hfg
      have hs := step k (fun l hl => hnt l (by omega)) f g hfg
      have hk0 : (0 : ℝ) ≤ k := Nat.cast_nonneg k
      rcases Nat.eq_zero_or_pos k with h0 | h0
      · subst h0
        norm_num at hs ⊢
        linarith
      · have ihk := ih (fun l hl => hnt l (by omega)) h0 f g hfg
        have h1 : (0 : ℝ) ≤ 1 - 2 / (2 + (k : ℝ)) := by linarith [(step_size k).2]
        have h2 := mul_le_mul_of_nonneg_left (show uotDual a b ρ₁ ρ₂ f g - uotDual a b ρ₁ ρ₂ (rwAt srt p xs ys ρ₁ ρ₂ a b k).f (rwAt srt p xs ys ρ₁ ρ₂ a b k).g ≤ 4 * B / (k + 2) by linarith) h1
        have h3 : (1 - 2 / (2 + (k : ℝ))) * (4 * B / (k + 2)) + (2 / (2 + (k : ℝ))) ^ 2 * B ≤ 4 * B / ((k : ℝ) + 1 + 2) := by
          have e : (1 - 2 / (2 + (k : ℝ))) * (4 * B / (k + 2)) + (2 / (2 + (k : ℝ))) ^ 2 * B = 4 * B * ((k : ℝ) + 1) / (k + 2) ^ 2 := by field_simp; ring
          rw [e, div_le_div_iff₀ (by positivity) (by positivity)]
          nlinarith
        push_cast
        linarith
  refine ⟨B, hB, fun k hnt hk => ⟨hrate k hnt hk, ?_⟩⟩
  obtain ⟨g1, g2⟩ := hg k hnt
  obtain ⟨C, hC0, hC⟩ := dist_bound p xs ys
  obtain ⟨ih1, _⟩ := h.inv hC hC0 k fun l hl => hnt l hl.le
  have d1 := (h.dir k).1 (hnt k le_rfl)
  have hsq : 0 < Real.sqrt ((k : ℝ) + 2) := Real.sqrt_pos.2 (by positivity)
  obtain ⟨t, ht⟩ : ∃ t, t = 1 / Real.sqrt ((k : ℝ) + 2) := ⟨_, rfl⟩
  have t0 : 0 < t := by rw [ht]; positivity
  have t1 : t ≤ 1 := by
    rw [ht, div_le_one hsq]
    exact Real.le_sqrt_of_sq_le (by have : (0 : ℝ) ≤ k := Nat.cast_nonneg k; linarith)
  have t2 : t ^ 2 = 1 / ((k : ℝ) + 2) := by rw [ht, div_pow, one_pow, Real.sq_sqrt (by positivity)]
  have e1 := g1 t t0.le t1
  have e2 := hrate k hnt hk _ _ (feasible_convex (feasible_translate ih1 (rescaleTransl (fwLoop srt (cost1d p xs ys) ρ₁ ρ₂ a b k).1 (fwLoop srt (cost1d p xs ys) ρ₁ ρ₂ a b k).2 a b ρ₁ ρ₂)) d1 t0.le t1)
  have e3 := e1.trans e2
  have e4 : 4 * B / ((k : ℝ) + 2) = 4 * B * t ^ 2 := by rw [t2]; ring
  rw [e4] at e3
  have e5 : 5 * B / Real.sqrt ((k : ℝ) + 2) = 5 * B * t := by rw [ht]; ring
  rw [e5]
  refine le_of_mul_le_mul_left ?_ t0
  nlinarith

end Loop

end POT.Uot1d
