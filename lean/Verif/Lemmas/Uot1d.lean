import Verif.Model.Uot1d
import Verif.Spec.Uot1d
import Verif.Lemmas.Emd1d
import Verif.Lemmas.Kl
import Mathlib.Tactic.Linarith
import Mathlib.Tactic.Ring
import Mathlib.Tactic.Positivity
import Mathlib.Tactic.FieldSimp

/-! # Lemmas: one-dimensional unbalanced transport -/

namespace POT.Uot1d

open Finset POT.Emd1d POT.LpDual POT.Spec

set_option linter.unusedSectionVars false

section Potentials

variable {I J K : Type*} [Fintype I] [Fintype J] [Fintype K]

theorem reweight_nonneg {ρ : Option ℝ} {a : K → ℝ} (f : K → ℝ) (ha : ∀ k, 0 ≤ a k) (k : K) : 0 ≤ reweight ρ a f k := by
  cases ρ with
  | none => exact ha k
  | some r => exact mul_nonneg (ha k) (Real.exp_pos _).le

theorem reweight_pos {ρ : Option ℝ} {a : K → ℝ} (f : K → ℝ) {k : K} (ha : 0 < a k) : 0 < reweight ρ a f k := by
  cases ρ with
  | none => exact ha
  | some r => exact mul_pos ha (Real.exp_pos _)

theorem sum_reweight_pos (ρ : Option ℝ) {a : K → ℝ} (f : K → ℝ) (ha : ∀ k, 0 ≤ a k) (hs : 0 < ∑ k, a k) : 0 < ∑ k, reweight ρ a f k := by
  obtain ⟨k, _, hk⟩ := Finset.exists_lt_of_sum_lt (s := univ) (f := fun _ => (0 : ℝ)) (g := a) (by simpa using hs)
  exact Finset.sum_pos' (fun k _ => reweight_nonneg f ha k) ⟨k, mem_univ k, reweight_pos f hk⟩

/-- translating a potential multiplies the reweighted mass -/
theorem sum_reweight_add (r : ℝ) (a f : K → ℝ) (t : ℝ) :
    ∑ k, reweight (some r) a (fun k => f k + t) k = Real.exp (-t / r) * ∑ k, reweight (some r) a f k := by
  rw [mul_sum]
  refine sum_congr rfl fun k _ => ?_
  simp only [reweight]
  rw [show -(f k + t) / r = -t / r + -f k / r by ring, Real.exp_add]; ring

theorem exp_lse (r : ℝ) (a f : K → ℝ) (h : 0 < ∑ k, reweight (some r) a f k) :
    Real.exp (lse (fun k => -f k / r) a) = ∑ k, reweight (some r) a f k := by
  unfold lse
  exact Real.exp_log h

/-- the two reweighted masses agree after the translation -/
theorem mass_eq {f : I → ℝ} {g : J → ℝ} {a : I → ℝ} {b : J → ℝ} {ρ₁ ρ₂ : Option ℝ} (h₁ : PosParam ρ₁) (h₂ : PosParam ρ₂) (ha : ∀ i, 0 ≤ a i) (hb : ∀ j, 0 ≤ b j)
    (hsa : 0 < ∑ i, a i) (hsb : 0 < ∑ j, b j) (hm : ρ₁ = none → ρ₂ = none → ∑ i, a i = ∑ j, b j) :
    ∑ i, reweight ρ₁ a (fun i => f i + rescaleTransl f g a b ρ₁ ρ₂) i = ∑ j, reweight ρ₂ b (fun j => g j - rescaleTransl f g a b ρ₁ ρ₂) j := by
  have key : ∀ (r t : ℝ), ∑ k, reweight (some r) b (fun k => g k - t) k = Real.exp (t / r) * ∑ k, reweight (some r) b g k := fun r t => by
    have := sum_reweight_add r b g (-t)
    simpa [sub_eq_add_neg] using this
  cases ρ₁ with
  | none =>
    cases ρ₂ with
    | none => exact hm rfl rfl
    | some r₂ =>
      have hr := h₂ r₂ rfl
      have hp := sum_reweight_pos (some r₂) g hb hsb
      rw [key]
      simp only [rescaleTransl]
      rw [mul_div_cancel_left₀ _ hr.ne', Real.exp_sub, exp_lse r₂ b g hp, Real.exp_log hsa]
      rw [div_mul_cancel₀ _ hp.ne']
      rfl
  | some r₁ =>
    have hr₁ := h₁ r₁ rfl
    have hp₁ := sum_reweight_pos (some r₁) f ha hsa
    cases ρ₂ with
    | none =>
      rw [sum_reweight_add]
      simp only [rescaleTransl]
      rw [show -(r₁ * (lse (fun i => -f i / r₁) a - Real.log (∑ j, b j))) / r₁ = Real.log (∑ j, b j) - lse (fun i => -f i / r₁) a by
        field_simp; ring, Real.exp_sub, exp_lse r₁ a f hp₁, Real.exp_log hsb]
      rw [div_mul_cancel₀ _ hp₁.ne']
      rfl
    | some r₂ =>
      have hr₂ := h₂ r₂ rfl
      have hp₂ := sum_reweight_pos (some r₂) g hb hsb
      rw [sum_reweight_add, key]
      simp only [rescaleTransl]
      rw [← exp_lse r₁ a f hp₁, ← exp_lse r₂ b g hp₂, ← Real.exp_add, ← Real.exp_add]
      congr 1
      field_simp
      ring

/-- derivative bound of one dual term -/
theorem dualTerm_add_le {ρ : Option ℝ} (h : PosParam ρ) {a : K → ℝ} (ha : ∀ k, 0 ≤ a k) (f : K → ℝ) (d : K → ℝ) :
    dualTerm ρ a (fun k => f k + d k) ≤ dualTerm ρ a f + ∑ k, reweight ρ a f k * d k := by
  cases ρ with
  | none => simp only [dualTerm, reweight, mul_add, sum_add_distrib]; exact le_rfl
  | some r =>
    have hr := h r rfl
    simp only [dualTerm, reweight]
    rw [← sum_add_distrib]
    refine sum_le_sum fun k _ => ?_
    have h1 := Real.add_one_le_exp (-d k / r)
    have h2 : 0 ≤ a k * Real.exp (-f k / r) := mul_nonneg (ha k) (Real.exp_pos _).le
    rw [show -(f k + d k) / r = -f k / r + -d k / r by ring, Real.exp_add]
    have h3 : r * (-d k / r + 1) ≤ r * Real.exp (-d k / r) := mul_le_mul_of_nonneg_left h1 hr.le
    have h4 : r * (-d k / r + 1) = r - d k := by field_simp; ring
    have h5 := mul_le_mul_of_nonneg_left (h4 ▸ h3) h2
    nlinarith

/-- strict version for a constant shift -/
theorem dualTerm_add_lt {r : ℝ} (hr : 0 < r) {a : K → ℝ} (f : K → ℝ) (hp : 0 < ∑ k, reweight (some r) a f k) {d : ℝ} (hd : d ≠ 0) :
    dualTerm (some r) a (fun k => f k + d) < dualTerm (some r) a f + d * ∑ k, reweight (some r) a f k := by
  have h1 : -d / r + 1 < Real.exp (-d / r) := Real.add_one_lt_exp (div_ne_zero (neg_ne_zero.2 hd) hr.ne')
  have e1 : dualTerm (some r) a (fun k => f k + d) = r * ∑ k, a k - r * Real.exp (-d / r) * ∑ k, reweight (some r) a f k := by
    simp only [dualTerm, reweight, mul_sum, ← sum_sub_distrib]
    refine sum_congr rfl fun k _ => ?_
    rw [show -(f k + d) / r = -f k / r + -d / r by ring, Real.exp_add]; ring
  have e2 : dualTerm (some r) a f = r * ∑ k, a k - r * ∑ k, reweight (some r) a f k := by
    simp only [dualTerm, reweight, mul_sum, ← sum_sub_distrib]
    exact sum_congr rfl fun k _ => by ring
  rw [e1, e2]
  have h3 : r * (-d / r + 1) < r * Real.exp (-d / r) := mul_lt_mul_of_pos_left h1 hr
  have h4 : r * (-d / r + 1) = r - d := by field_simp; ring
  have h5 := mul_lt_mul_of_pos_right (h4 ▸ h3) hp
  nlinarith

/-- Fenchel-Young for one marginal -/
theorem dualTerm_le {ρ : Option ℝ} (h : PosParam ρ) {a : K → ℝ} (ha : ∀ k, 0 < a k) (f : K → ℝ) {x : K → ℝ} (hx : ∀ k, 0 ≤ x k) (hc : ρ = none → x = a) :
    dualTerm ρ a f ≤ marginalTerm ρ x a + ∑ k, f k * x k := by
  cases ρ with
  | none =>
    rw [hc rfl]
    simp only [dualTerm, marginalTerm, zero_add]
    exact le_of_eq (sum_congr rfl fun k _ => by ring)
  | some r =>
    have hr := h r rfl
    simp only [dualTerm, marginalTerm, klDivergence]
    rw [mul_sum, ← sum_add_distrib]
    refine sum_le_sum fun k _ => ?_
    have hq : 0 < a k * Real.exp (-f k / r) := mul_pos (ha k) (Real.exp_pos _)
    have h1 : 0 ≤ x k * Real.log (x k / (a k * Real.exp (-f k / r))) - x k + a k * Real.exp (-f k / r) := kl1_nonneg (hx k) hq
    rcases (hx k).eq_or_lt with h0 | h0
    · rw [← h0] at h1 ⊢
      have h2 := mul_pos hr hq
      simp only [zero_div, Real.log_zero, sub_zero, mul_zero, zero_add, add_zero] at *
      nlinarith
    · rw [Real.log_div h0.ne' hq.ne', Real.log_mul (ha k).ne' (Real.exp_pos _).ne', Real.log_exp] at h1
      rw [Real.log_div h0.ne' (ha k).ne']
      have h2 := mul_nonneg hr.le h1
      have h3 : r * (-f k / r) = -f k := by field_simp
      have h4 : r * (x k * (Real.log (x k) - (Real.log (a k) + -f k / r)) - x k + a k * Real.exp (-f k / r)) =
        r * (x k * (Real.log (x k) - Real.log (a k)) - x k) - x k * (r * (-f k / r)) + r * (a k * Real.exp (-f k / r)) := by ring
      rw [h4, h3] at h2
      nlinarith

/-- equality at the reweighted marginal -/
theorem dualTerm_eq {ρ : Option ℝ} (h : PosParam ρ) {a : K → ℝ} (ha : ∀ k, 0 < a k) (f : K → ℝ) :
    dualTerm ρ a f = marginalTerm ρ (reweight ρ a f) a + ∑ k, f k * reweight ρ a f k := by
  cases ρ with
  | none =>
    simp only [dualTerm, marginalTerm, zero_add, reweight]
    exact sum_congr rfl fun k _ => by ring
  | some r =>
    have hr := h r rfl
    simp only [dualTerm, marginalTerm, klDivergence, reweight]
    rw [mul_sum, ← sum_add_distrib]
    refine sum_congr rfl fun k _ => ?_
    rw [mul_div_cancel_left₀ _ (ha k).ne', Real.log_exp]
    field_simp
    ring

/-- weak duality -/
theorem uot_weak_duality {a : I → ℝ} {b : J → ℝ} {M : I → J → ℝ} {ρ₁ ρ₂ : Option ℝ} (h₁ : PosParam ρ₁) (h₂ : PosParam ρ₂) (ha : ∀ i, 0 < a i) (hb : ∀ j, 0 < b j)
    (c : I → J → ℝ) {f : I → ℝ} {g : J → ℝ} (hfg : ∀ i j, f i + g j ≤ M i j) {P : I → J → ℝ} (hP : IsAdmissible a b ρ₁ ρ₂ P) :
    uotDual a b ρ₁ ρ₂ f g ≤ unbObjective a b M 0 c ρ₁ ρ₂ P := by
  have e1 := dualTerm_le h₁ ha f (x := fun i => ∑ j, P i j) (fun i => sum_nonneg fun j _ => hP.nonneg i j) (fun h => funext (hP.row h))
  have e2 := dualTerm_le h₂ hb g (x := fun j => ∑ i, P i j) (fun j => sum_nonneg fun i _ => hP.nonneg i j) (fun h => funext (hP.col h))
  have e3 : ∑ i, f i * ∑ j, P i j + ∑ j, g j * ∑ i, P i j ≤ cost M P := by
    have hc : ∑ j, g j * ∑ i, P i j = ∑ i, ∑ j, g j * P i j := by simp only [mul_sum]; exact sum_comm
    rw [hc]
    simp only [mul_sum]
    rw [← sum_add_distrib]
    unfold cost
    refine sum_le_sum fun i _ => ?_
    rw [← sum_add_distrib]
    refine sum_le_sum fun j _ => ?_
    have := mul_le_mul_of_nonneg_right (hfg i j) (hP.nonneg i j)
    nlinarith
  unfold uotDual unbObjective
  linarith

end Potentials

section Path

variable {n m : ℕ} {U V : ℕ → ℝ} {M : ℕ → ℕ → ℝ} {f g : ℕ → ℝ} {Ju Iv : ℕ → ℕ}

/-- equality along the north-west path -/
theorem path_eq (hn : 0 < n)
    (hU : ∀ i, i + 1 < n → U i < U (i + 1)) (hend : ∀ t, t + 1 < m → V t < U (n - 1))
    (hnt : ∀ i j, i + 1 < n → j + 1 < m → U i ≠ V j)
    (hJ : ∀ i < n, Ju i < m ∧ ∀ t, t + 1 < m → (t < Ju i ↔ V t < U i))
    (hI : ∀ j < m, Iv j < n ∧ ∀ t, t + 1 < n → (t < Iv j ↔ U t < V j))
    (hf : ∀ i, i + 1 < n → f i - f (i + 1) = M i (Ju i) - M (i + 1) (Ju i))
    (hg : ∀ j, j + 1 < m → g j - g (j + 1) = M (Iv j) j - M (Iv j) (j + 1))
    (hlast : f (n - 1) + g (m - 1) = M (n - 1) (m - 1)) :
    ∀ i < n, f i + g (Ju i) = M i (Ju i) := by
  have aux : ∀ d, d < n → f (n - 1 - d) + g (Ju (n - 1 - d)) = M (n - 1 - d) (Ju (n - 1 - d)) := by
    intro d
    induction d with
    | zero =>
      intro _
      have h1 := hJ (n - 1) (by omega)
      have h2 : Ju (n - 1) = m - 1 := by
        by_contra hne
        have h3 : Ju (n - 1) + 1 < m := by omega
        exact lt_irrefl _ ((h1.2 _ h3).2 (hend _ h3))
      simpa [h2] using hlast
    | succ d ih =>
      intro hd
      have ih := ih (by omega)
      obtain ⟨i, hi⟩ : ∃ i, i = n - 1 - (d + 1) := ⟨_, rfl⟩
      have hi1 : n - 1 - d = i + 1 := by omega
      rw [hi1] at ih
      rw [← hi]
      have hin : i + 1 < n := by omega
      have j1 := hJ i (by omega)
      have j2 := hJ (i + 1) hin
      have hle : Ju i ≤ Ju (i + 1) := by
        by_contra hlt
        push Not at hlt
        have h3 : Ju (i + 1) + 1 < m := by omega
        exact lt_irrefl _ ((j2.2 _ h3).2 (((j1.2 _ h3).1 hlt).trans (hU i hin)))
      have hw : ∀ e, e ≤ Ju (i + 1) - Ju i → f (i + 1) + g (Ju (i + 1) - e) = M (i + 1) (Ju (i + 1) - e) := by
        intro e
        induction e with
        | zero => intro _; simpa using ih
        | succ e ihe =>
          intro he
          have ihe := ihe (by omega)
          obtain ⟨j, hj⟩ : ∃ j, j = Ju (i + 1) - (e + 1) := ⟨_, rfl⟩
          have hj1 : Ju (i + 1) - e = j + 1 := by omega
          rw [hj1] at ihe
          rw [← hj]
          have hjm : j + 1 < m := by omega
          have a1 : V j < U (i + 1) := (j2.2 j hjm).1 (by omega)
          have a2 : ¬ V j < U i := fun h => absurd ((j1.2 j hjm).2 h) (by omega)
          have a3 : U i < V j := lt_of_le_of_ne (not_lt.1 a2) (hnt i j hin hjm)
          have k := hI j (by omega)
          have k1 : i < Iv j := (k.2 i hin).2 a3
          have k2 : Iv j = i + 1 := by
            by_contra hne
            have : i + 1 < Iv j := by omega
            exact lt_asymm a1 ((k.2 (i + 1) (by omega)).1 this)
          have := hg j hjm
          rw [k2] at this
          linarith
      have h1 := hw (Ju (i + 1) - Ju i) le_rfl
      rw [show Ju (i + 1) - (Ju (i + 1) - Ju i) = Ju i by omega] at h1
      have h2 := hf i hin
      linarith
  intro i hi
  have := aux (n - 1 - i) (by omega)
  rwa [show n - 1 - (n - 1 - i) = i by omega] at this

/-- potentials integrated along the north-west path of a Monge cost are dual feasible -/
theorem path_feasible (hn : 0 < n)
    (hU : ∀ i, i + 1 < n → U i < U (i + 1)) (hend : ∀ t, t + 1 < m → V t < U (n - 1))
    (hnt : ∀ i j, i + 1 < n → j + 1 < m → U i ≠ V j)
    (hJ : ∀ i < n, Ju i < m ∧ ∀ t, t + 1 < m → (t < Ju i ↔ V t < U i))
    (hI : ∀ j < m, Iv j < n ∧ ∀ t, t + 1 < n → (t < Iv j ↔ U t < V j))
    (hf : ∀ i, i + 1 < n → f i - f (i + 1) = M i (Ju i) - M (i + 1) (Ju i))
    (hg : ∀ j, j + 1 < m → g j - g (j + 1) = M (Iv j) j - M (Iv j) (j + 1))
    (hlast : f (n - 1) + g (m - 1) = M (n - 1) (m - 1))
    (hM : ∀ i i' j j', i ≤ i' → i' < n → j ≤ j' → j' < m → M i j + M i' j' ≤ M i j' + M i' j) :
    ∀ i < n, ∀ j < m, f i + g j ≤ M i j := by
  intro i hi j hj
  have h0 := path_eq hn hU hend hnt hJ hI hf hg hlast i hi
  have ji := hJ i hi
  rcases le_or_gt (Ju i) j with hle | hlt
  · induction j, hle using Nat.le_induction with
    | base => exact h0.le
    | succ j hle ih =>
      have ih := ih (by omega)
      have hjm : j + 1 < m := hj
      have k := hI j (by omega)
      have hk : i ≤ Iv j := by
        by_contra hlt
        push Not at hlt
        have a1 : ¬ U (Iv j) < V j := fun h => lt_irrefl _ ((k.2 (Iv j) (by omega)).2 h)
        have a2 : ¬ V j < U i := fun h => absurd ((ji.2 j hjm).2 h) (by omega)
        have a3 : U (Iv j) < U i := by
          have : ∀ d, Iv j + 1 + d < n → U (Iv j) < U (Iv j + 1 + d) := by
            intro d
            induction d with
            | zero => intro h; exact hU _ h
            | succ d ihd => intro h; exact (ihd (by omega)).trans (hU _ (by omega))
          have := this (i - (Iv j + 1)) (by omega)
          rwa [show Iv j + 1 + (i - (Iv j + 1)) = i by omega] at this
        linarith [not_lt.1 a1, not_lt.1 a2]
      have h1 := hg j hjm
      have h2 := hM i (Iv j) j (j + 1) hk k.1 (by omega) hjm
      linarith
  · obtain ⟨e, he⟩ : ∃ e, j + e = Ju i := ⟨Ju i - j, by omega⟩
    have hw : ∀ e j, j + e = Ju i → f i + g j ≤ M i j := by
      intro e
      induction e with
      | zero => intro j h; rw [show j = Ju i by omega]; exact h0.le
      | succ e ih =>
        intro j h
        have ih := ih (j + 1) (by omega)
        have hjm : j + 1 < m := by omega
        have k := hI j (by omega)
        have hVU : V j < U i := (ji.2 j hjm).1 (by omega)
        have hk : Iv j ≤ i := by
          by_contra hlt
          push Not at hlt
          exact lt_asymm hVU ((k.2 i (by omega)).1 hlt)
        have h1 := hg j hjm
        have h2 := hM (Iv j) i j (j + 1) hk hi (by omega) hjm
        linarith
    exact hw e j he

end Path

section Backprop

variable {n m : ℕ} {σ : Fin (n + m) ≃ Fin n ⊕ Fin m} {M : ℕ → ℕ → ℝ} {u : Fin n → ℝ} {v : Fin m → ℝ}

theorem sum_pad_le {n : ℕ} (w : Fin n → ℝ) (i : Fin n) : ∑ k ∈ range (i + 1), pad w k = cum w i := by
  unfold cum
  have h1 : ∑ k ∈ range n with k < (i : ℕ) + 1, pad w k = ∑ k with k ≤ i, w k := by
    rw [Finset.sum_filter, Finset.sum_range, Finset.sum_filter]
    refine sum_congr rfl fun k _ => ?_
    have : ((k : ℕ) < (i : ℕ) + 1) ↔ k ≤ i := by rw [Fin.le_def]; omega
    simp [this, pad]
  rw [← h1]
  refine sum_congr ?_ fun _ _ => rfl
  ext k
  simp only [mem_range, mem_filter]
  have := i.2
  omega

theorem gridQ_pos (e : Fin n ⊕ Fin m) : gridQ σ u v (σ.symm e) = keys u v e := by
  unfold gridQ
  rw [dif_pos (σ.symm e).2]
  simp

theorem gridC_pos (e : Fin n ⊕ Fin m) : gridC σ M u v (σ.symm e) =
    M (quantileIdx (keys u v e) (cumsum (pad u) n) n) (quantileIdx (keys u v e) (cumsum (pad v) m) m) := by
  unfold gridC
  rw [if_pos (σ.symm e).2, gridQ_pos]

theorem keys_le_of_pos (hσ : Monotone (keys u v ∘ σ)) {e e' : Fin n ⊕ Fin m} (h : σ.symm e ≤ σ.symm e') : keys u v e ≤ keys u v e' := by
  have := hσ h
  simpa using this

/-- an element whose key is not maximal is followed by another one -/
theorem exists_next (hσ : Monotone (keys u v ∘ σ)) {e e' : Fin n ⊕ Fin m} (h : keys u v e < keys u v e')
    (hne : ∀ e'', keys u v e'' = keys u v e → e'' = e) :
    ∃ e₁, (σ.symm e₁ : ℕ) = σ.symm e + 1 ∧ ∀ e'', keys u v e'' < keys u v e₁ ↔ keys u v e'' ≤ keys u v e := by
  have hlt : σ.symm e < σ.symm e' := by
    by_contra hge
    exact absurd (keys_le_of_pos hσ (not_lt.1 hge)) (not_le.2 h)
  have hk : (σ.symm e : ℕ) + 1 < n + m := lt_of_le_of_lt (Nat.succ_le_of_lt hlt) (σ.symm e').2
  refine ⟨σ ⟨σ.symm e + 1, hk⟩, by simp, ?_⟩
  intro e''
  constructor
  · intro h1
    have h2 : σ.symm e'' < ⟨σ.symm e + 1, hk⟩ := by
      by_contra hge
      have := keys_le_of_pos (e := σ ⟨σ.symm e + 1, hk⟩) (e' := e'') hσ (by simpa using not_lt.1 hge)
      linarith
    exact keys_le_of_pos hσ (by rw [Fin.lt_def] at h2; rw [Fin.le_def]; simp at h2; omega)
  · intro h1
    refine lt_of_le_of_lt h1 (lt_of_le_of_ne ?_ ?_)
    · exact keys_le_of_pos hσ (by rw [Fin.le_def]; simp)
    · intro h2
      have h3 := hne _ h2.symm
      have h4 := congrArg σ.symm h3
      rw [Equiv.symm_apply_apply] at h4
      have := congrArg Fin.val h4
      simp at this

theorem last_two_aux (hσ : Monotone (keys u v ∘ σ)) {e₁ e₂ : Fin n ⊕ Fin m} {S : ℝ} (h₁ : keys u v e₁ = S) 
    (hall : ∀ e, S ≤ keys u v e → e = e₁ ∨ e = e₂) (hlt : σ.symm e₁ < σ.symm e₂) :
    gradQ σ M u v (σ.symm e₁) + gradQ σ M u v (σ.symm e₂) =
      M (quantileIdx S (cumsum (pad u) n) n) (quantileIdx S (cumsum (pad v) m) m) := by
  have hstep : ∀ (k : Fin (n + m)), σ.symm e₁ ≤ k → k = σ.symm e₁ ∨ k = σ.symm e₂ := by
    intro k hk
    have h3 : S ≤ keys u v (σ k) := by rw [← h₁]; exact keys_le_of_pos hσ (by simpa using hk)
    rcases hall _ h3 with h | h
    · left; rw [← h]; simp
    · right; rw [← h]; simp
  have hk1 : (σ.symm e₁ : ℕ) + 1 = σ.symm e₂ := by
    have hb : (σ.symm e₁ : ℕ) + 1 < n + m := lt_of_le_of_lt (Nat.succ_le_of_lt hlt) (σ.symm e₂).2
    rcases hstep ⟨σ.symm e₁ + 1, hb⟩ (by rw [Fin.le_def]; simp) with h | h
    · have := congrArg Fin.val h; simp at this
    · exact congrArg Fin.val h
  have hk2 : ¬ (σ.symm e₂ : ℕ) + 1 < n + m := by
    intro hb
    rcases hstep ⟨σ.symm e₂ + 1, hb⟩ (by rw [Fin.le_def]; simp; rw [Fin.lt_def] at hlt; omega) with h | h
    · have := congrArg Fin.val h; rw [Fin.lt_def] at hlt; simp at this; omega
    · have := congrArg Fin.val h; simp at this
  have hz : gridC σ M u v ((σ.symm e₂ : ℕ) + 1) = 0 := by unfold gridC; rw [if_neg hk2]
  unfold gradQ
  rw [hz, hk1, gridC_pos e₁, h₁]
  ring

theorem last_two (hσ : Monotone (keys u v ∘ σ)) {e₁ e₂ : Fin n ⊕ Fin m} (hne : e₁ ≠ e₂) {S : ℝ} (h₁ : keys u v e₁ = S) (h₂ : keys u v e₂ = S)
    (hall : ∀ e, S ≤ keys u v e → e = e₁ ∨ e = e₂) :
    gradQ σ M u v (σ.symm e₁) + gradQ σ M u v (σ.symm e₂) =
      M (quantileIdx S (cumsum (pad u) n) n) (quantileIdx S (cumsum (pad v) m) m) := by
  rcases lt_trichotomy (σ.symm e₁) (σ.symm e₂) with h | h | h
  · exact last_two_aux hσ h₁ hall h
  · exact absurd (σ.symm.injective h) hne
  · rw [add_comm]; exact last_two_aux hσ h₂ (fun e he => (hall e he).symm) h

theorem gradU_sub (i : ℕ) (hi : i + 1 < n) :
    gradU σ M u v ⟨i, by omega⟩ - gradU σ M u v ⟨i + 1, hi⟩ = gradQ σ M u v (σ.symm (Sum.inl ⟨i, by omega⟩)) := by
  unfold gradU
  rw [show (univ.filter fun i' : Fin n => (⟨i, by omega⟩ : Fin n) ≤ i') = insert (⟨i, by omega⟩ : Fin n) (univ.filter fun i' : Fin n => (⟨i + 1, hi⟩ : Fin n) ≤ i') by
    ext k
    simp only [mem_filter, mem_univ, true_and, mem_insert, Fin.le_def, Fin.ext_iff]
    omega, sum_insert (by simp [Fin.le_def])]
  ring

theorem gradV_sub (j : ℕ) (hj : j + 1 < m) :
    gradV σ M u v ⟨j, by omega⟩ - gradV σ M u v ⟨j + 1, hj⟩ = gradQ σ M u v (σ.symm (Sum.inr ⟨j, by omega⟩)) := by
  unfold gradV
  rw [show (univ.filter fun i' : Fin m => (⟨j, by omega⟩ : Fin m) ≤ i') = insert (⟨j, by omega⟩ : Fin m) (univ.filter fun i' : Fin m => (⟨j + 1, hj⟩ : Fin m) ≤ i') by
    ext k
    simp only [mem_filter, mem_univ, true_and, mem_insert, Fin.le_def, Fin.ext_iff]
    omega, sum_insert (by simp [Fin.le_def])]
  ring

/-- summation by parts along a grid -/
theorem teles_abel (φ : ℝ → ℝ) : ∀ (l : List ℝ) (b : ℝ), teles φ b l =
    ∑ k ∈ range l.length, l.getD k 0 * ((if k < l.length then φ (l.getD k 0) else 0) - if k + 1 < l.length then φ (l.getD (k + 1) 0) else 0)
      - b * if 0 < l.length then φ (l.getD 0 0) else 0
  | [], b => by simp [teles]
  | q :: qs, b => by
    rw [teles, teles_abel φ qs q, List.length_cons, sum_range_succ']
    simp only [List.getD_cons_succ, List.getD_cons_zero, add_lt_add_iff_right]
    have h0 : (0 : ℕ) < qs.length + 1 := by omega
    simp only [h0, if_true]
    ring

theorem sum_cum {n : ℕ} (w h : Fin n → ℝ) : ∑ i, w i * ∑ i' with i ≤ i', h i' = ∑ i, cum w i * h i := by
  unfold cum
  simp only [mul_sum, sum_mul]
  simp only [sum_filter]
  rw [sum_comm]

theorem grid_list (hσ : Monotone (keys u v ∘ σ)) :
    (cumsum (pad u) n ++ cumsum (pad v) m).mergeSort (· ≤ ·) = List.ofFn (keys u v ∘ σ) := by
  have hc : ∀ {k : ℕ} (w : Fin k → ℝ), cumsum (pad w) k = List.ofFn (cum w) := fun {k} w => by
    unfold cumsum
    rw [← List.map_coe_finRange_eq_range, List.map_map, List.ofFn_eq_map]
    exact List.map_congr_left fun i _ => sum_pad_le w i
  rw [hc, hc]
  refine List.Perm.eq_of_pairwise (le := (· ≤ ·)) (fun a b _ _ h1 h2 => le_antisymm h1 h2) (mergeSort_pairwise _) ?_ ((List.mergeSort_perm _ _).trans ?_)
  · exact List.pairwise_ofFn.2 fun i j h => hσ h.le
  · rw [← Multiset.coe_eq_coe, ← Multiset.coe_add, ← Fin.univ_val_map, ← Fin.univ_val_map, ← Fin.univ_val_map, ← Multiset.map_map, Multiset.map_univ_val_equiv,
      ← Finset.univ_disjSum_univ, Finset.val_disjSum, Multiset.disjSum, Multiset.map_add, Multiset.map_map, Multiset.map_map]
    rfl

/-- the back-propagated derivatives reproduce the value -/
theorem grad_value (hσ : Monotone (keys u v ∘ σ)) :
    ∑ i, u i * gradU σ M u v i + ∑ j, v j * gradV σ M u v j = (wasserstein1dSorted n m (pad u) (pad v) M).2 := by
  have h1 : (wasserstein1dSorted n m (pad u) (pad v) M).2 =
      teles (fun q => M (quantileIdx q (cumsum (pad u) n) n) (quantileIdx q (cumsum (pad v) m) m)) 0 (List.ofFn (keys u v ∘ σ)) := by
    rw [← pair_zip, ← grid_list hσ]
    rfl
  rw [h1, teles_abel]
  simp only [zero_mul, sub_zero, List.length_ofFn]
  unfold gradU gradV
  rw [sum_cum u, sum_cum v]
  have h2 : ∑ i, cum u i * gradQ σ M u v (σ.symm (Sum.inl i)) + ∑ j, cum v j * gradQ σ M u v (σ.symm (Sum.inr j)) =
      ∑ e : Fin n ⊕ Fin m, keys u v e * gradQ σ M u v (σ.symm e) := by
    rw [Fintype.sum_sum_type]; rfl
  rw [h2, ← Equiv.sum_comp σ, Finset.sum_range]
  refine sum_congr rfl fun k _ => ?_
  have hg : ∀ k : ℕ, k < n + m → (List.ofFn (keys u v ∘ σ)).getD k 0 = gridQ σ u v k := fun k hk => by
    unfold gridQ
    rw [List.getD_eq_getElem?_getD, dif_pos hk]
    simp [hk]
  have hC : ∀ k : ℕ, (if k < n + m then M (quantileIdx ((List.ofFn (keys u v ∘ σ)).getD k 0) (cumsum (pad u) n) n)
      (quantileIdx ((List.ofFn (keys u v ∘ σ)).getD k 0) (cumsum (pad v) m) m) else 0) = gridC σ M u v k := fun k => by
    unfold gridC
    split_ifs with h
    · rw [hg k h]
    · rfl
  rw [hC, hC, hg k k.2, Equiv.symm_apply_apply]
  unfold gradQ gridQ
  rw [dif_pos k.2]

theorem cum_strict {n : ℕ} {w : Fin n → ℝ} (hw : ∀ k, 0 < w k) {i i' : Fin n} (h : i < i') : cum w i < cum w i' := by
  unfold cum
  refine sum_lt_sum_of_subset (i := i') ?_ ?_ ?_ (hw i') fun j _ _ => (hw j).le
  · intro k hk
    simp only [mem_filter, mem_univ, true_and] at hk ⊢
    exact hk.trans h.le
  · simp
  · simpa using h

theorem cum_last {n : ℕ} {w : Fin n → ℝ} {i : Fin n} (hi : (i : ℕ) + 1 = n) : cum w i = ∑ k, w k := by
  unfold cum
  refine sum_congr ?_ fun _ _ => rfl
  ext k
  simp only [mem_filter, mem_univ, true_and, iff_true, Fin.le_def]
  have := k.2
  omega

theorem cum_inj {n : ℕ} {w : Fin n → ℝ} (hw : ∀ k, 0 < w k) {i i' : Fin n} (h : cum w i = cum w i') : i = i' := by
  rcases lt_trichotomy i i' with h1 | h1 | h1
  · exact absurd h (cum_strict hw h1).ne
  · exact h1
  · exact absurd h (cum_strict hw h1).ne'

theorem quantileIdx_eq {w : ℕ → ℝ} {n : ℕ} (hw : ∀ k < n, 0 ≤ w k) {q : ℝ} {r : ℕ} (hr : r < n)
    (h : ∀ t, t + 1 < n → (t < r ↔ ∑ k ∈ range (t + 1), w k < q)) : quantileIdx q (cumsum w n) n = r := by
  have h0 := quantileIdx_lt (q := q) (cws := cumsum w n) (n := n) (by omega)
  rcases lt_trichotomy (quantileIdx q (cumsum w n) n) r with h1 | h1 | h1
  · have := (h _ (by omega)).1 h1
    exact absurd ((lt_quantileIdx hw (by omega) q).2 this) (lt_irrefl _)
  · exact h1
  · have := (lt_quantileIdx hw (by omega) q).1 h1
    exact absurd ((h _ (by omega)).2 this) (lt_irrefl _)

theorem pad_nonneg {n : ℕ} {w : Fin n → ℝ} (hw : ∀ k, 0 < w k) : ∀ k < n, 0 ≤ pad w k := fun k hk => by
  simp only [pad, hk, dif_pos]; exact (hw _).le

theorem pad_eq {n : ℕ} (w : Fin n → ℝ) {k : ℕ} (hk : k < n) : pad w k = w ⟨k, hk⟩ := by simp [pad, hk]

/-- without ties the derivative along the first cumulative weights is a difference along a row of the north-west path -/
theorem gradQ_inl (hσ : Monotone (keys u v ∘ σ)) (hu : ∀ k, 0 < u k) (hv : ∀ k, 0 < v k) (hs : ∑ k, u k = ∑ k, v k) (hm : 0 < m) (hnt : NoTies u v)
    (i : ℕ) (hi : i + 1 < n) : gradQ σ M u v (σ.symm (Sum.inl ⟨i, by omega⟩)) =
      M i (quantileIdx (cum u ⟨i, by omega⟩) (cumsum (pad v) m) m) - M (i + 1) (quantileIdx (cum u ⟨i, by omega⟩) (cumsum (pad v) m) m) := by
  obtain ⟨i₀, hi₀⟩ : ∃ i₀ : Fin n, i₀ = ⟨i, by omega⟩ := ⟨_, rfl⟩
  have hiv : (i₀ : ℕ) = i := by rw [hi₀]
  rw [← hi₀]
  have hcl : cum u i₀ < ∑ k, u k := by
    rw [← cum_last (w := u) (i := ⟨n - 1, by omega⟩) (by simp; omega)]
    exact cum_strict hu (by rw [Fin.lt_def]; simp; omega)
  have hne : ∀ e'', keys u v e'' = keys u v (Sum.inl i₀) → e'' = Sum.inl i₀ := by
    intro e'' h
    cases e'' with
    | inl k => rw [cum_inj hu (show cum u k = cum u i₀ from h)]
    | inr j =>
      exfalso
      have h' : cum v j = cum u i₀ := h
      by_cases hj : (j : ℕ) + 1 < m
      · exact hnt i₀ j (by omega) hj h'.symm
      · rw [cum_last (by have := j.2; omega), ← hs] at h'
        linarith
  obtain ⟨e₁, hp, hchar⟩ := exists_next hσ (e := Sum.inl i₀) (e' := Sum.inl ⟨n - 1, by omega⟩)
    (show cum u i₀ < cum u ⟨n - 1, by omega⟩ from cum_strict hu (by rw [Fin.lt_def]; simp; omega)) hne
  unfold gradQ
  rw [← hp, gridC_pos, gridC_pos]
  have q1 : quantileIdx (keys u v (Sum.inl i₀)) (cumsum (pad u) n) n = i := by
    refine quantileIdx_eq (pad_nonneg hu) (by omega) fun t ht => ?_
    rw [sum_pad_le u ⟨t, by omega⟩]
    change _ ↔ cum u _ < cum u i₀
    constructor
    · intro h; exact cum_strict hu (by rw [Fin.lt_def]; simp; omega)
    · intro h
      by_contra hge
      rcases (not_lt.1 hge).lt_or_eq with h1 | h1
      · exact lt_asymm h (cum_strict hu (by rw [Fin.lt_def]; simp; omega))
      · exact absurd h (by rw [show (⟨t, by omega⟩ : Fin n) = i₀ from Fin.ext (by simp; omega)]; exact lt_irrefl _)
  have q2 : quantileIdx (keys u v e₁) (cumsum (pad u) n) n = i + 1 := by
    refine quantileIdx_eq (pad_nonneg hu) hi fun t ht => ?_
    rw [sum_pad_le u ⟨t, by omega⟩]
    have := hchar (Sum.inl ⟨t, by omega⟩)
    change cum u _ < _ ↔ cum u _ ≤ cum u i₀ at this
    rw [this]
    constructor
    · intro h
      rcases (Nat.le_of_lt_succ h).lt_or_eq with h1 | h1
      · exact (cum_strict hu (by rw [Fin.lt_def]; simp; omega)).le
      · rw [show (⟨t, by omega⟩ : Fin n) = i₀ from Fin.ext (by simp; omega)]
    · intro h
      by_contra hge
      exact absurd h (not_le.2 (cum_strict hu (by rw [Fin.lt_def]; simp; omega)))
  have q3 : quantileIdx (keys u v e₁) (cumsum (pad v) m) m = quantileIdx (cum u i₀) (cumsum (pad v) m) m := by
    refine quantileIdx_eq (pad_nonneg hv) (quantileIdx_lt hm) fun t ht => ?_
    rw [lt_quantileIdx (pad_nonneg hv) ht, sum_pad_le v ⟨t, by omega⟩]
    have h1 := hchar (Sum.inr ⟨t, by omega⟩)
    change cum v _ < _ ↔ cum v _ ≤ cum u i₀ at h1
    rw [h1]
    have h2 := hnt i₀ ⟨t, by omega⟩ (by omega) ht
    exact ⟨le_of_lt, fun h => lt_of_le_of_ne h (Ne.symm h2)⟩
  rw [q1, q2, q3]
  rfl

/-- the same for the second cumulative weights -/
theorem gradQ_inr (hσ : Monotone (keys u v ∘ σ)) (hu : ∀ k, 0 < u k) (hv : ∀ k, 0 < v k) (hs : ∑ k, u k = ∑ k, v k) (hn : 0 < n) (hnt : NoTies u v)
    (j : ℕ) (hj : j + 1 < m) : gradQ σ M u v (σ.symm (Sum.inr ⟨j, by omega⟩)) =
      M (quantileIdx (cum v ⟨j, by omega⟩) (cumsum (pad u) n) n) j - M (quantileIdx (cum v ⟨j, by omega⟩) (cumsum (pad u) n) n) (j + 1) := by
  obtain ⟨j₀, hj₀⟩ : ∃ j₀ : Fin m, j₀ = ⟨j, by omega⟩ := ⟨_, rfl⟩
  have hjv : (j₀ : ℕ) = j := by rw [hj₀]
  rw [← hj₀]
  have hcl : cum v j₀ < ∑ k, v k := by
    rw [← cum_last (w := v) (i := ⟨m - 1, by omega⟩) (by simp; omega)]
    exact cum_strict hv (by rw [Fin.lt_def]; simp; omega)
  have hne : ∀ e'', keys u v e'' = keys u v (Sum.inr j₀) → e'' = Sum.inr j₀ := by
    intro e'' h
    cases e'' with
    | inr k => rw [cum_inj hv (show cum v k = cum v j₀ from h)]
    | inl i =>
      exfalso
      have h' : cum u i = cum v j₀ := h
      by_cases hi : (i : ℕ) + 1 < n
      · exact hnt i j₀ hi (by omega) h'
      · rw [cum_last (by have := i.2; omega), hs] at h'
        linarith
  obtain ⟨e₁, hp, hchar⟩ := exists_next hσ (e := Sum.inr j₀) (e' := Sum.inr ⟨m - 1, by omega⟩)
    (show cum v j₀ < cum v ⟨m - 1, by omega⟩ from cum_strict hv (by rw [Fin.lt_def]; simp; omega)) hne
  unfold gradQ
  rw [← hp, gridC_pos, gridC_pos]
  have q1 : quantileIdx (keys u v (Sum.inr j₀)) (cumsum (pad v) m) m = j := by
    refine quantileIdx_eq (pad_nonneg hv) (by omega) fun t ht => ?_
    rw [sum_pad_le v ⟨t, by omega⟩]
    change _ ↔ cum v _ < cum v j₀
    constructor
    · intro h; exact cum_strict hv (by rw [Fin.lt_def]; simp; omega)
    · intro h
      by_contra hge
      rcases (not_lt.1 hge).lt_or_eq with h1 | h1
      · exact lt_asymm h (cum_strict hv (by rw [Fin.lt_def]; simp; omega))
      · exact absurd h (by rw [show (⟨t, by omega⟩ : Fin m) = j₀ from Fin.ext (by simp; omega)]; exact lt_irrefl _)
  have q2 : quantileIdx (keys u v e₁) (cumsum (pad v) m) m = j + 1 := by
    refine quantileIdx_eq (pad_nonneg hv) hj fun t ht => ?_
    rw [sum_pad_le v ⟨t, by omega⟩]
    have := hchar (Sum.inr ⟨t, by omega⟩)
    change cum v _ < _ ↔ cum v _ ≤ cum v j₀ at this
    rw [this]
    constructor
    · intro h
      rcases (Nat.le_of_lt_succ h).lt_or_eq with h1 | h1
      · exact (cum_strict hv (by rw [Fin.lt_def]; simp; omega)).le
      · rw [show (⟨t, by omega⟩ : Fin m) = j₀ from Fin.ext (by simp; omega)]
    · intro h
      by_contra hge
      exact absurd h (not_le.2 (cum_strict hv (by rw [Fin.lt_def]; simp; omega)))
  have q3 : quantileIdx (keys u v e₁) (cumsum (pad u) n) n = quantileIdx (cum v j₀) (cumsum (pad u) n) n := by
    refine quantileIdx_eq (pad_nonneg hu) (quantileIdx_lt hn) fun t ht => ?_
    rw [lt_quantileIdx (pad_nonneg hu) ht, sum_pad_le u ⟨t, by omega⟩]
    have h1 := hchar (Sum.inl ⟨t, by omega⟩)
    change cum u _ < _ ↔ cum u _ ≤ cum v j₀ at h1
    rw [h1]
    have h2 := hnt ⟨t, by omega⟩ j₀ ht (by omega)
    exact ⟨le_of_lt, fun h => lt_of_le_of_ne h h2⟩
  rw [q1, q2, q3]
  rfl

/-- without ties the back-propagated derivatives are dual feasible for a Monge cost -/
theorem grad_feasible (hσ : Monotone (keys u v ∘ σ)) (hn : 0 < n) (hm : 0 < m) (hu : ∀ k, 0 < u k) (hv : ∀ k, 0 < v k) (hs : ∑ k, u k = ∑ k, v k) (hnt : NoTies u v)
    (hM : ∀ i i' j j', i ≤ i' → i' < n → j ≤ j' → j' < m → M i j + M i' j' ≤ M i j' + M i' j) (i : Fin n) (j : Fin m) :
    gradU σ M u v i + gradV σ M u v j ≤ M i j := by
  have hcN : ∀ {k : ℕ} (w : Fin k → ℝ) (t : ℕ) (ht : t < k), pad (cum w) t = cum w ⟨t, ht⟩ := fun w t ht => pad_eq (cum w) ht
  have key := path_feasible (n := n) (m := m) (U := pad (cum u)) (V := pad (cum v)) (M := M) (f := pad (gradU σ M u v)) (g := pad (gradV σ M u v))
    (Ju := fun i => quantileIdx (pad (cum u) i) (cumsum (pad v) m) m) (Iv := fun j => quantileIdx (pad (cum v) j) (cumsum (pad u) n) n) hn
    (fun i hi => by
      rw [hcN u i (by omega), hcN u (i + 1) hi]
      exact cum_strict hu (by rw [Fin.lt_def]; simp))
    (fun t ht => by
      rw [hcN v t (by omega), hcN u (n - 1) (by omega), cum_last (i := ⟨n - 1, by omega⟩) (by simp; omega), hs, ← cum_last (w := v) (i := ⟨m - 1, by omega⟩) (by simp; omega)]
      exact cum_strict hv (by rw [Fin.lt_def]; simp; omega))
    (fun i j hi hj => by
      rw [hcN u i (by omega), hcN v j (by omega)]
      exact hnt ⟨i, by omega⟩ ⟨j, by omega⟩ hi hj)
    (fun i hi => ⟨quantileIdx_lt hm, fun t ht => by
      rw [lt_quantileIdx (pad_nonneg hv) ht, sum_pad_le v ⟨t, by omega⟩, hcN v t (by omega)]⟩)
    (fun j hj => ⟨quantileIdx_lt hn, fun t ht => by
      rw [lt_quantileIdx (pad_nonneg hu) ht, sum_pad_le u ⟨t, by omega⟩, hcN u t (by omega)]⟩)
    (fun i hi => by
      rw [pad_eq _ (show i < n by omega), pad_eq _ hi, gradU_sub i hi, gradQ_inl hσ hu hv hs hm hnt i hi, hcN u i (by omega)])
    (fun j hj => by
      rw [pad_eq _ (show j < m by omega), pad_eq _ hj, gradV_sub j hj, gradQ_inr hσ hu hv hs hn hnt j hj, hcN v j (by omega)])
    (by
      have l1 : ∀ (e : Fin n ⊕ Fin m), ∑ k, u k ≤ keys u v e → e = Sum.inl ⟨n - 1, by omega⟩ ∨ e = Sum.inr ⟨m - 1, by omega⟩ := by
        intro e he
        cases e with
        | inl k =>
          left
          by_contra hne
          have hk : (k : ℕ) < n - 1 := by
            have h1 := k.2
            have h2 : (k : ℕ) ≠ n - 1 := fun h => hne (by rw [show k = ⟨n - 1, by omega⟩ from Fin.ext h])
            omega
          have := cum_strict hu (i := k) (i' := ⟨n - 1, by omega⟩) (by rw [Fin.lt_def]; exact hk)
          rw [cum_last (i := ⟨n - 1, by omega⟩) (by simp; omega)] at this
          exact absurd he (not_le.2 this)
        | inr k =>
          right
          by_contra hne
          have hk : (k : ℕ) < m - 1 := by
            have h1 := k.2
            have h2 : (k : ℕ) ≠ m - 1 := fun h => hne (by rw [show k = ⟨m - 1, by omega⟩ from Fin.ext h])
            omega
          have := cum_strict hv (i := k) (i' := ⟨m - 1, by omega⟩) (by rw [Fin.lt_def]; exact hk)
          rw [cum_last (i := ⟨m - 1, by omega⟩) (by simp; omega), ← hs] at this
          exact absurd he (not_le.2 this)
      have l2 := last_two (M := M) hσ (e₁ := Sum.inl ⟨n - 1, by omega⟩) (e₂ := Sum.inr ⟨m - 1, by omega⟩) (by simp) (S := ∑ k, u k)
        (show cum u _ = _ from cum_last (by simp; omega)) (show cum v _ = _ by rw [hs]; exact cum_last (by simp; omega)) l1
      have g1 : gradU σ M u v ⟨n - 1, by omega⟩ = gradQ σ M u v (σ.symm (Sum.inl ⟨n - 1, by omega⟩)) := by
        unfold gradU
        rw [show (univ.filter fun i' : Fin n => (⟨n - 1, by omega⟩ : Fin n) ≤ i') = {⟨n - 1, by omega⟩} by
          ext k; simp only [mem_filter, mem_univ, true_and, mem_singleton, Fin.le_def, Fin.ext_iff]; have := k.2; omega, sum_singleton]
      have g2 : gradV σ M u v ⟨m - 1, by omega⟩ = gradQ σ M u v (σ.symm (Sum.inr ⟨m - 1, by omega⟩)) := by
        unfold gradV
        rw [show (univ.filter fun i' : Fin m => (⟨m - 1, by omega⟩ : Fin m) ≤ i') = {⟨m - 1, by omega⟩} by
          ext k; simp only [mem_filter, mem_univ, true_and, mem_singleton, Fin.le_def, Fin.ext_iff]; have := k.2; omega, sum_singleton]
      rw [pad_eq _ (show n - 1 < n by omega), pad_eq _ (show m - 1 < m by omega), g1, g2, l2]
      congr 1
      · refine quantileIdx_eq (pad_nonneg hu) (by omega) fun t ht => ?_
        rw [sum_pad_le u ⟨t, by omega⟩, ← cum_last (w := u) (i := ⟨n - 1, by omega⟩) (by simp; omega)]
        exact ⟨fun h => cum_strict hu (by rw [Fin.lt_def]; exact h), fun _ => by omega⟩
      · refine quantileIdx_eq (pad_nonneg hv) (by omega) fun t ht => ?_
        rw [sum_pad_le v ⟨t, by omega⟩, hs, ← cum_last (w := v) (i := ⟨m - 1, by omega⟩) (by simp; omega)]
        exact ⟨fun h => cum_strict hv (by rw [Fin.lt_def]; exact h), fun _ => by omega⟩)
    hM i i.2 j j.2
  rwa [pad_eq _ i.2, pad_eq _ j.2] at key

end Backprop

end POT.Uot1d
