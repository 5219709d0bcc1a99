import Verif.Model.Bapg
import Verif.Lemmas.GwEntropic

/-! # Lemmas: alternated projected gradient -/

set_option linter.unusedSectionVars false

namespace POT.Bapg

open Finset Spec Gromov GwEntropic

variable {I J : Type*} [Fintype I] [Fintype J]

/-- The decomposition without the two marginal terms. -/
def cross (D : Decomp ℝ) : Decomp ℝ := { f1 := fun _ => 0, f2 := fun _ => 0, h1 := D.h1, h2 := D.h2 }

theorem cross_loss (D : Decomp ℝ) : (cross D).loss = fun a b => -(D.h1 a * D.h2 b) := by
  funext a b; simp [cross, Decomp.loss]

theorem df_true (symmetric : Bool) (D : Decomp ℝ) (C1 : I → I → ℝ) (C2 : J → J → ℝ) (p : I → ℝ) (q : J → ℝ) (M : I → J → ℝ) (α : ℝ) (T : I → J → ℝ) :
    bapgDf true symmetric D C1 C2 p q M α T = fgwGrad symmetric D C1 C2 p q M α T := by
  cases symmetric
  · funext i j; simp only [bapgDf, fgwGrad, gwDf, Bool.false_eq_true, if_false, if_true]; ring
  · rfl

theorem df_false (symmetric : Bool) (D : Decomp ℝ) (C1 : I → I → ℝ) (C2 : J → J → ℝ) (p p' : I → ℝ) (q q' : J → ℝ) (M : I → J → ℝ) (α : ℝ) (T : I → J → ℝ) :
    bapgDf false symmetric D C1 C2 p q M α T = fgwGrad symmetric (cross D) C1 C2 p' q' M α T := by
  cases symmetric
  · funext i j
    simp only [bapgDf, fgwGrad, gwDf, Bool.false_eq_true, if_false, gwggrad, tensorProduct, constC, dot3, dotR, mapM, tr, cross, zero_mul, mul_zero,
      sum_const_zero, add_zero, zero_add]
    ring
  · funext i j
    simp only [bapgDf, fgwGrad, gwDf, Bool.false_eq_true, if_false, if_true, gwggrad, tensorProduct, constC, dot3, dotR, mapM, tr, cross, zero_mul, mul_zero,
      sum_const_zero, add_zero, zero_add]
    ring

theorem dot3_mid (A : I → I → ℝ) (T S : I → J → ℝ) (B : J → J → ℝ) (i : I) (j : J) :
    dot3 A (fun i j => (T i j + S i j) / 2) B i j = (dot3 A T B i j + dot3 A S B i j) / 2 := by
  simp only [dot3, sum_mul, ← sum_add_distrib, sum_div]
  exact sum_congr rfl fun l _ => sum_congr rfl fun k _ => by ring

theorem fgwGrad_mid (symmetric : Bool) (D : Decomp ℝ) (C1 : I → I → ℝ) (C2 : J → J → ℝ) (p : I → ℝ) (q : J → ℝ) (M : I → J → ℝ) (α : ℝ) (T S : I → J → ℝ)
    (i : I) (j : J) : fgwGrad symmetric D C1 C2 p q M α (fun i j => (T i j + S i j) / 2) i j
      = (fgwGrad symmetric D C1 C2 p q M α T i j + fgwGrad symmetric D C1 C2 p q M α S i j) / 2 := by
  cases symmetric <;>
    simp only [fgwGrad, gwDf, Bool.false_eq_true, if_false, if_true, gwggrad, tensorProduct, dot3_mid] <;> ring

theorem df_mid (marginal symmetric : Bool) (D : Decomp ℝ) (C1 : I → I → ℝ) (C2 : J → J → ℝ) (p : I → ℝ) (q : J → ℝ) (M : I → J → ℝ) (α : ℝ) (T S : I → J → ℝ)
    (i : I) (j : J) : bapgDf marginal symmetric D C1 C2 p q M α (fun i j => (T i j + S i j) / 2) i j
      = (bapgDf marginal symmetric D C1 C2 p q M α T i j + bapgDf marginal symmetric D C1 C2 p q M α S i j) / 2 := by
  cases marginal
  · rw [df_false symmetric D C1 C2 p p q q, df_false symmetric D C1 C2 p p q q, df_false symmetric D C1 C2 p p q q, fgwGrad_mid]
  · rw [df_true, df_true, df_true, fgwGrad_mid]

/-- Two gradients with different marginal terms differ by a function of the row plus a function of the column. -/
theorem grad_split (symmetric : Bool) (D : Decomp ℝ) (C1 : I → I → ℝ) (C2 : J → J → ℝ) (p p' : I → ℝ) (q q' : J → ℝ) (M : I → J → ℝ) (α : ℝ) (T : I → J → ℝ) :
    ∃ (u : I → ℝ) (v : J → ℝ), ∀ i j, fgwGrad symmetric D C1 C2 p q M α T i j = fgwGrad symmetric D C1 C2 p' q' M α T i j + u i + v j := by
  cases symmetric
  · refine ⟨fun i => α * (∑ k, D.f1 (C1 i k) * p k + ∑ k, D.f1 (C1 k i) * p k - ∑ k, D.f1 (C1 i k) * p' k - ∑ k, D.f1 (C1 k i) * p' k),
      fun j => α * (∑ l, q l * D.f2 (C2 j l) + ∑ l, q l * D.f2 (C2 l j) - ∑ l, q' l * D.f2 (C2 j l) - ∑ l, q' l * D.f2 (C2 l j)), fun i j => ?_⟩
    simp only [fgwGrad, gwDf, Bool.false_eq_true, if_false, gwggrad, tensorProduct, constC, mapM, tr]
    ring
  · refine ⟨fun i => 2 * α * (∑ k, D.f1 (C1 i k) * p k - ∑ k, D.f1 (C1 i k) * p' k),
      fun j => 2 * α * (∑ l, q l * D.f2 (C2 j l) - ∑ l, q' l * D.f2 (C2 j l)), fun i j => ?_⟩
    simp only [fgwGrad, gwDf, if_true, gwggrad, tensorProduct, constC, mapM]
    ring

theorem df_split (symmetric : Bool) (D : Decomp ℝ) (C1 : I → I → ℝ) (C2 : J → J → ℝ) (p : I → ℝ) (q : J → ℝ) (M : I → J → ℝ) (α : ℝ) (T : I → J → ℝ) :
    ∃ (u : I → ℝ) (v : J → ℝ), ∀ i j, bapgDf true symmetric D C1 C2 p q M α T i j = bapgDf false symmetric D C1 C2 p q M α T i j + u i + v j := by
  rw [df_true, df_false symmetric D C1 C2 p p q q]
  cases symmetric
  · refine ⟨fun i => α * (∑ k, D.f1 (C1 i k) * p k + ∑ k, D.f1 (C1 k i) * p k),
      fun j => α * (∑ l, q l * D.f2 (C2 j l) + ∑ l, q l * D.f2 (C2 l j)), fun i j => ?_⟩
    simp only [fgwGrad, gwDf, Bool.false_eq_true, if_false, gwggrad, tensorProduct, constC, mapM, tr, cross, dot3, zero_mul, mul_zero, sum_const_zero]
    ring
  · refine ⟨fun i => 2 * α * (∑ k, D.f1 (C1 i k) * p k), fun j => 2 * α * (∑ l, q l * D.f2 (C2 j l)), fun i j => ?_⟩
    simp only [fgwGrad, gwDf, if_true, gwggrad, tensorProduct, constC, mapM, cross, dot3, zero_mul, mul_zero, sum_const_zero]
    ring

theorem inner_split {N N' : I → J → ℝ} {u : I → ℝ} {v : J → ℝ} (h : ∀ i j, N i j = N' i j + u i + v j) {Δ : I → J → ℝ} (hr : ZeroRows Δ) (hc : ZeroCols Δ) :
    Spec.inner N Δ = Spec.inner N' Δ := by
  have e : Spec.inner N Δ = Spec.inner N' Δ + ∑ i, ∑ j, (u i + v j) * Δ i j := by
    simp only [Spec.inner, ← sum_add_distrib]
    exact sum_congr rfl fun i _ => sum_congr rfl fun j _ => by rw [h]; ring
  have e2 : ∑ i, ∑ j, (u i + v j) * Δ i j = 0 := by
    have a1 : ∑ i, ∑ j, u i * Δ i j = 0 := sum_eq_zero fun i _ => by rw [← mul_sum, hr i, mul_zero]
    have a2 : ∑ i, ∑ j, v j * Δ i j = 0 := by
      rw [sum_comm]; exact sum_eq_zero fun j _ => by rw [← mul_sum, hc j, mul_zero]
    simp only [add_mul, sum_add_distrib, a1, a2, add_zero]
  rw [e, e2, add_zero]

/-! ## The half steps -/

section Half

variable {df : (I → J → ℝ) → I → J → ℝ} {ε : ℝ} {p : I → ℝ} {q : J → ℝ}

theorem rowHalf_pos [Nonempty J] (hp : ∀ i, 0 < p i) {T : I → J → ℝ} (hT : ∀ i j, 0 < T i j) (i : I) (j : J) : 0 < rowHalf df ε p T i j :=
  mul_pos (div_pos (hp i) (sum_pos (fun _ _ => mul_pos (hT _ _) (Real.exp_pos _)) univ_nonempty)) (mul_pos (hT _ _) (Real.exp_pos _))

theorem colHalf_pos [Nonempty I] (hq : ∀ j, 0 < q j) {T : I → J → ℝ} (hT : ∀ i j, 0 < T i j) (i : I) (j : J) : 0 < colHalf df ε q T i j :=
  mul_pos (div_pos (hq j) (sum_pos (fun _ _ => mul_pos (hT _ _) (Real.exp_pos _)) univ_nonempty)) (mul_pos (hT _ _) (Real.exp_pos _))

theorem rowHalf_rows [Nonempty J] {T : I → J → ℝ} (hT : ∀ i j, 0 < T i j) (i : I) : ∑ j, rowHalf df ε p T i j = p i := by
  unfold rowHalf
  simp only
  rw [← mul_sum, div_mul_cancel₀]
  exact (sum_pos (fun _ _ => mul_pos (hT _ _) (Real.exp_pos _)) univ_nonempty).ne'

theorem colHalf_cols [Nonempty I] {T : I → J → ℝ} (hT : ∀ i j, 0 < T i j) (j : J) : ∑ i, colHalf df ε q T i j = q j := by
  unfold colHalf
  simp only
  rw [← mul_sum, div_mul_cancel₀]
  exact (sum_pos (fun _ _ => mul_pos (hT _ _) (Real.exp_pos _)) univ_nonempty).ne'

theorem rowHalf_log [Nonempty J] (hp : ∀ i, 0 < p i) {T : I → J → ℝ} (hT : ∀ i j, 0 < T i j) : ∃ x : I → ℝ, ∀ i j,
    Real.log (rowHalf df ε p T i j) = Real.log (T i j) - df T i j / ε + x i := by
  refine ⟨fun i => Real.log (p i / ∑ j, T i j * Real.exp (-df T i j / ε)), fun i j => ?_⟩
  have hs : 0 < ∑ j, T i j * Real.exp (-df T i j / ε) := sum_pos (fun _ _ => mul_pos (hT _ _) (Real.exp_pos _)) univ_nonempty
  unfold rowHalf
  simp only
  rw [Real.log_mul (div_pos (hp i) hs).ne' (mul_pos (hT i j) (Real.exp_pos _)).ne', Real.log_mul (hT i j).ne' (Real.exp_pos _).ne', Real.log_exp]
  ring

theorem colHalf_log [Nonempty I] (hq : ∀ j, 0 < q j) {T : I → J → ℝ} (hT : ∀ i j, 0 < T i j) : ∃ y : J → ℝ, ∀ i j,
    Real.log (colHalf df ε q T i j) = Real.log (T i j) - df T i j / ε + y j := by
  refine ⟨fun j => Real.log (q j / ∑ i, T i j * Real.exp (-df T i j / ε)), fun i j => ?_⟩
  have hs : 0 < ∑ i, T i j * Real.exp (-df T i j / ε) := sum_pos (fun _ _ => mul_pos (hT _ _) (Real.exp_pos _)) univ_nonempty
  unfold colHalf
  simp only
  rw [Real.log_mul (div_pos (hq j) hs).ne' (mul_pos (hT i j) (Real.exp_pos _)).ne', Real.log_mul (hT i j).ne' (Real.exp_pos _).ne', Real.log_exp]
  ring

/-- Any plan `P` with `log P = log T - N / ε + x ⊕ y`: comparison with a plan `Q` on which the row and column terms pair equally. -/
theorem prox_gap {N T P Q : I → J → ℝ} {x : I → ℝ} {y : J → ℝ} (hε : ε ≠ 0) (hT : ∀ i j, 0 < T i j) (hP : ∀ i j, 0 < P i j)
    (hl : ∀ i j, Real.log (P i j) = Real.log (T i j) - N i j / ε + (x i + y j))
    (hb : ∑ i, ∑ j, (x i + y j) * Q i j = ∑ i, ∑ j, (x i + y j) * P i j) :
    Spec.inner N Q + ε * klPlan Q T - (Spec.inner N P + ε * klPlan P T) = ε * klPlan Q P := by
  have e : Spec.inner N Q + ε * klPlan Q T - (Spec.inner N P + ε * klPlan P T) - ε * klPlan Q P
      = ε * (∑ i, ∑ j, (x i + y j) * Q i j - ∑ i, ∑ j, (x i + y j) * P i j) := by
    rw [klPlan_eq, klPlan_eq, klPlan_eq]
    simp only [Spec.inner, mul_sum, ← sum_add_distrib, ← sum_sub_distrib]
    refine sum_congr rfl fun i _ => sum_congr rfl fun j _ => ?_
    have hN : N i j = ε * (Real.log (T i j) - Real.log (P i j) + (x i + y j)) := by
      rw [hl]; field_simp; ring
    rw [hN, Real.log_div (hP i j).ne' (hT i j).ne']
    rcases eq_or_ne (Q i j) 0 with h0 | h0
    · rw [h0]; ring
    · rw [Real.log_div h0 (hT i j).ne', Real.log_div h0 (hP i j).ne']; ring
  rw [hb, sub_self, mul_zero] at e
  linarith

end Half

/-- A positive weighted comparison: two positive arrays of equal mass with ratio of logarithms oscillating at most `s` are within a factor `exp s`. -/
theorem ratio_bound [Nonempty I] [Nonempty J] {T P : I → J → ℝ} {s : ℝ} (hT : ∀ i j, 0 < T i j) (hP : ∀ i j, 0 < P i j) (hm : ∑ i, ∑ j, T i j = ∑ i, ∑ j, P i j)
    (ho : ∀ i j k l, (Real.log (P i j) - Real.log (T i j)) - (Real.log (P k l) - Real.log (T k l)) ≤ s) (i : I) (j : J) :
    |Real.log (P i j) - Real.log (T i j)| ≤ s := by
  have hex : ∃ k l, P k l ≤ T k l := by
    by_contra h
    push Not at h
    have : ∑ i, ∑ j, T i j < ∑ i, ∑ j, P i j := sum_lt_sum_of_nonempty univ_nonempty fun i _ => sum_lt_sum_of_nonempty univ_nonempty fun j _ => h i j
    exact absurd hm this.ne
  have hex' : ∃ k l, T k l ≤ P k l := by
    by_contra h
    push Not at h
    have : ∑ i, ∑ j, P i j < ∑ i, ∑ j, T i j := sum_lt_sum_of_nonempty univ_nonempty fun i _ => sum_lt_sum_of_nonempty univ_nonempty fun j _ => h i j
    exact absurd hm.symm this.ne
  obtain ⟨k, l, h1⟩ := hex
  obtain ⟨k', l', h2⟩ := hex'
  have a1 := ho i j k l
  have a2 := ho k' l' i j
  have b1 := Real.log_le_log (hP k l) h1
  have b2 := Real.log_le_log (hT k' l') h2
  rw [abs_le]
  constructor <;> linarith

theorem le_exp_mul {x y s : ℝ} (hx : 0 < x) (hy : 0 < y) (h : Real.log x - Real.log y ≤ s) : x ≤ Real.exp s * y := by
  have : Real.log x ≤ Real.log (Real.exp s * y) := by
    rw [Real.log_mul (Real.exp_pos _).ne' hy.ne', Real.log_exp]; linarith
  exact (Real.log_le_log_iff hx (mul_pos (Real.exp_pos _) hy)).1 this

end POT.Bapg
