import Verif.Model.EntBary
import Verif.Spec.EntBary
import Verif.Lemmas.Kl
import Verif.Lemmas.SinkhornLoop
import Mathlib.Algebra.Order.BigOperators.Group.Finset
import Mathlib.Analysis.SpecialFunctions.Log.Basic

/-! # Iterative Bregman projections for entropic barycenters -/

set_option linter.unusedSectionVars false

namespace POT.EntBary

open Finset Spec Sinkhorn

variable {I S : Type*} [Fintype I] [Fintype S] [Nonempty I] [Nonempty S]

/-- positive kernel, histograms, weights -/
structure Ok (K : I → I → ℝ) (A : I → S → ℝ) (w : S → ℝ) : Prop where
  kpos : ∀ i j, 0 < K i j
  anon : ∀ i s, 0 ≤ A i s
  mass : ∀ s, ∑ i, A i s = 1
  wpos : ∀ s, 0 < w s
  wsum : ∑ s, w s = 1

/-- the plan of histogram `s` attached to the scaling `u` -/
noncomputable def planU (K : I → I → ℝ) (A : I → S → ℝ) (u : I → S → ℝ) (s : S) : I → I → ℝ := fun i j => A i s / dotK K u i s * K i j * u j s

/-- the update of `u` -/
noncomputable def upd (K : I → I → ℝ) (A : I → S → ℝ) (w : S → ℝ) (u : I → S → ℝ) : I → S → ℝ := newU w u (ukv K A u)

/-- the barycenter read off `u` -/
noncomputable def bar (K : I → I → ℝ) (A : I → S → ℝ) (w : S → ℝ) (u : I → S → ℝ) : I → ℝ := geometricBar w (ukv K A u)

/-- semi-dual objective -/
noncomputable def dual (K : I → I → ℝ) (A : I → S → ℝ) (w : S → ℝ) (u : I → S → ℝ) : ℝ := -∑ s, w s * ∑ i, A i s * Real.log (dotK K u i s)

variable {K : I → I → ℝ} {A : I → S → ℝ} {w : S → ℝ} {u : I → S → ℝ}

theorem dotK_pos (hK : ∀ i j, 0 < K i j) (hu : ∀ j s, 0 < u j s) (i : I) (s : S) : 0 < dotK K u i s :=
  sum_pos (fun j _ => mul_pos (hK i j) (hu j s)) univ_nonempty

theorem dotKT_pos (h : Ok K A w) (hu : ∀ j s, 0 < u j s) (j : I) (s : S) : 0 < dotKT K (fun i s => A i s / dotK K u i s) j s := by
  obtain ⟨i, -, hi⟩ : ∃ i ∈ univ, 0 < A i s := by
    by_contra hc
    push Not at hc
    have := sum_nonpos hc
    rw [h.mass] at this
    linarith
  refine sum_pos' (fun i _ => mul_nonneg (h.kpos i j).le (div_nonneg (h.anon i s) (dotK_pos h.kpos hu i s).le)) ⟨i, mem_univ i, ?_⟩
  exact mul_pos (h.kpos i j) (div_pos hi (dotK_pos h.kpos hu i s))

theorem ukv_pos (h : Ok K A w) (hu : ∀ j s, 0 < u j s) (j : I) (s : S) : 0 < ukv K A u j s := mul_pos (hu j s) (dotKT_pos h hu j s)

theorem bar_pos (j : I) : 0 < bar K A w u j := Real.exp_pos _

theorem upd_pos (h : Ok K A w) (hu : ∀ j s, 0 < u j s) (j : I) (s : S) : 0 < upd K A w u j s :=
  div_pos (mul_pos (hu j s) (bar_pos j)) (ukv_pos h hu j s)

theorem plan_col (j : I) (s : S) : ∑ i, planU K A u s i j = ukv K A u j s := by
  unfold planU ukv dotKT
  rw [mul_sum]
  exact sum_congr rfl fun i _ => by ring

theorem plan_row (h : Ok K A w) (hu : ∀ j s, 0 < u j s) (i : I) (s : S) : ∑ j, planU K A u s i j = A i s := by
  have := (dotK_pos h.kpos hu i s).ne'
  unfold planU
  have e : ∀ j, A i s / dotK K u i s * K i j * u j s = A i s / dotK K u i s * (K i j * u j s) := fun j => by ring
  rw [sum_congr rfl fun j _ => e j, ← mul_sum]
  exact div_mul_cancel₀ _ this

theorem plan_nonneg (h : Ok K A w) (hu : ∀ j s, 0 < u j s) (s : S) (i j : I) : 0 ≤ planU K A u s i j :=
  mul_nonneg (mul_nonneg (div_nonneg (h.anon i s) (dotK_pos h.kpos hu i s).le) (h.kpos i j).le) (hu j s).le

theorem ukv_sum (h : Ok K A w) (hu : ∀ j s, 0 < u j s) (s : S) : ∑ j, ukv K A u j s = 1 := by
  rw [← sum_congr rfl fun j _ => plan_col (K := K) (A := A) (u := u) j s, sum_comm, sum_congr rfl fun i _ => plan_row h hu i s, h.mass]

theorem log_bar (j : I) : Real.log (bar K A w u j) = ∑ s, w s * Real.log (ukv K A u j s) := by
  unfold bar geometricBar
  rw [Real.log_exp]
  exact sum_congr rfl fun s _ => mul_comm _ _

theorem bar_le (h : Ok K A w) (hu : ∀ j s, 0 < u j s) (j : I) : bar K A w u j ≤ ∑ s, w s * ukv K A u j s := by
  have h0 : ∀ s, w s * (bar K A w u j * (1 + Real.log (ukv K A u j s / bar K A w u j))) ≤ w s * ukv K A u j s := by
    intro s
    refine mul_le_mul_of_nonneg_left ?_ (h.wpos s).le
    have := Real.log_le_sub_one_of_pos (div_pos (ukv_pos h hu j s) (bar_pos (K := K) (A := A) (w := w) (u := u) j))
    have h2 := mul_le_mul_of_nonneg_left this (bar_pos (K := K) (A := A) (w := w) (u := u) j).le
    have h3 : bar K A w u j * (ukv K A u j s / bar K A w u j - 1) = ukv K A u j s - bar K A w u j := by
      have := (bar_pos (K := K) (A := A) (w := w) (u := u) j).ne'
      field_simp
    rw [h3] at h2
    linarith
  refine le_trans (le_of_eq ?_) (sum_le_sum fun s _ => h0 s)
  have e : ∀ s, w s * (bar K A w u j * (1 + Real.log (ukv K A u j s / bar K A w u j)))
      = bar K A w u j * w s + bar K A w u j * (w s * Real.log (ukv K A u j s)) - bar K A w u j * (Real.log (bar K A w u j)) * w s := by
    intro s
    rw [Real.log_div (ukv_pos h hu j s).ne' (bar_pos j).ne']
    ring
  rw [sum_congr rfl fun s _ => e s, sum_sub_distrib, sum_add_distrib, ← mul_sum, ← mul_sum, ← mul_sum, h.wsum, ← log_bar]
  ring

theorem bar_sum_le (h : Ok K A w) (hu : ∀ j s, 0 < u j s) : ∑ j, bar K A w u j ≤ 1 := by
  refine (sum_le_sum fun j _ => bar_le h hu j).trans (le_of_eq ?_)
  rw [sum_comm]
  simp_rw [← mul_sum]
  rw [sum_congr rfl fun s _ => by rw [ukv_sum h hu s], sum_congr rfl fun s _ => mul_one _, h.wsum]

/-- the weighted divergences of the column marginals from their geometric mean add up to the missing mass -/
theorem kl_bar (h : Ok K A w) (hu : ∀ j s, 0 < u j s) :
    ∑ s, w s * klDivergence (bar K A w u) (fun j => ukv K A u j s) = 1 - ∑ j, bar K A w u j := by
  unfold klDivergence
  have e : ∀ s, w s * ∑ j, (bar K A w u j * Real.log (bar K A w u j / ukv K A u j s) - bar K A w u j + ukv K A u j s)
      = (∑ j, (bar K A w u j * Real.log (bar K A w u j) * w s - bar K A w u j * (w s * Real.log (ukv K A u j s)))) - w s * ∑ j, bar K A w u j + w s := by
    intro s
    rw [sum_add_distrib, sum_sub_distrib, ukv_sum h hu, mul_add, mul_sub, mul_one, mul_sum]
    congr 2
    refine sum_congr rfl fun j _ => ?_
    rw [Real.log_div (bar_pos j).ne' (ukv_pos h hu j s).ne']
    ring
  rw [sum_congr rfl fun s _ => e s, sum_add_distrib, sum_sub_distrib, ← sum_mul, h.wsum, sum_comm]
  have e2 : ∀ j, ∑ s, (bar K A w u j * Real.log (bar K A w u j) * w s - bar K A w u j * (w s * Real.log (ukv K A u j s))) = 0 := by
    intro j
    rw [sum_sub_distrib, ← mul_sum, ← mul_sum, h.wsum, ← log_bar]
    ring
  rw [sum_congr rfl fun j _ => e2 j]
  simp
  ring

/-- an iteration increases the semi-dual objective by at least the missing mass -/
theorem dual_step (h : Ok K A w) (hu : ∀ j s, 0 < u j s) : dual K A w u + (1 - ∑ j, bar K A w u j) ≤ dual K A w (upd K A w u) := by
  have hu' := upd_pos h hu
  have key : ∀ s, ∑ i, A i s * Real.log (dotK K (upd K A w u) i s) ≤ ∑ i, A i s * Real.log (dotK K u i s) + (∑ j, bar K A w u j - 1) := by
    intro s
    have h1 : ∀ i, A i s * Real.log (dotK K (upd K A w u) i s) ≤ A i s * Real.log (dotK K u i s) + (∑ j, planU K A u s i j * (bar K A w u j / ukv K A u j s) - A i s) := by
      intro i
      have p1 := dotK_pos h.kpos hu i s
      have p2 := dotK_pos h.kpos hu' i s
      have h2 := Real.log_le_sub_one_of_pos (div_pos p2 p1)
      rw [Real.log_div p2.ne' p1.ne'] at h2
      have h3 := mul_le_mul_of_nonneg_left h2 (h.anon i s)
      have h4 : ∑ j, planU K A u s i j * (bar K A w u j / ukv K A u j s) = A i s * (dotK K (upd K A w u) i s / dotK K u i s) := by
        have : dotK K (upd K A w u) i s = ∑ j, K i j * upd K A w u j s := rfl
        rw [this, sum_div, mul_sum]
        refine sum_congr rfl fun j _ => ?_
        unfold planU upd newU bar
        ring
      rw [h4]
      linarith
    refine (sum_le_sum fun i _ => h1 i).trans (le_of_eq ?_)
    rw [sum_add_distrib, sum_sub_distrib, h.mass, sum_comm]
    congr 2
    refine sum_congr rfl fun j _ => ?_
    rw [← sum_mul, plan_col]
    exact mul_div_cancel₀ _ (ukv_pos h hu j s).ne'
  have h5 := sum_le_sum fun s (_ : s ∈ univ) => mul_le_mul_of_nonneg_left (key s) (h.wpos s).le
  simp_rw [mul_add] at h5
  rw [sum_add_distrib, ← sum_mul, h.wsum] at h5
  unfold dual
  linarith

/-- the weighted geometric mean of the scalings does not change -/
theorem upd_inv (h : Ok K A w) (hu : ∀ j s, 0 < u j s) (j : I) : ∑ s, w s * Real.log (upd K A w u j s) = ∑ s, w s * Real.log (u j s) := by
  have e : ∀ s, w s * Real.log (upd K A w u j s) = w s * Real.log (u j s) + (w s * Real.log (bar K A w u j) - w s * Real.log (ukv K A u j s)) := by
    intro s
    have : upd K A w u j s = u j s * bar K A w u j / ukv K A u j s := rfl
    rw [this, Real.log_div (mul_pos (hu j s) (bar_pos j)).ne' (ukv_pos h hu j s).ne', Real.log_mul (hu j s).ne' (bar_pos j).ne']
    ring
  rw [sum_congr rfl fun s _ => e s, sum_add_distrib, sum_sub_distrib, ← sum_mul, h.wsum, ← log_bar]
  ring

/-- balanced scalings: weighted geometric mean one -/
def Bal (w : S → ℝ) (u : I → S → ℝ) : Prop := ∀ j, ∑ s, w s * Real.log (u j s) = 0

theorem dual_le (h : Ok K A w) (hu : ∀ j s, 0 < u j s) (hb : Bal w u) (j : I) : dual K A w u ≤ -∑ s, w s * ∑ i, A i s * Real.log (K i j) := by
  unfold dual
  rw [neg_le_neg_iff]
  have h1 : ∀ s, w s * (∑ i, A i s * Real.log (K i j) + Real.log (u j s)) ≤ w s * ∑ i, A i s * Real.log (dotK K u i s) := by
    intro s
    refine mul_le_mul_of_nonneg_left ?_ (h.wpos s).le
    have h2 : Real.log (u j s) = ∑ i, A i s * Real.log (u j s) := by rw [← sum_mul, h.mass, one_mul]
    rw [h2, ← sum_add_distrib]
    refine sum_le_sum fun i _ => ?_
    rw [← mul_add, ← Real.log_mul (h.kpos i j).ne' (hu j s).ne']
    refine mul_le_mul_of_nonneg_left (Real.log_le_log (mul_pos (h.kpos i j) (hu j s)) ?_) (h.anon i s)
    exact single_le_sum (f := fun j => K i j * u j s) (fun j _ => (mul_pos (h.kpos i j) (hu j s)).le) (mem_univ j)
  have h3 := sum_le_sum fun s (_ : s ∈ univ) => h1 s
  simp_rw [mul_add] at h3
  rw [sum_add_distrib, hb j, add_zero] at h3
  simpa [mul_add] using h3

theorem iter_pos (h : Ok K A w) (hu : ∀ j s, 0 < u j s) (n : ℕ) : ∀ j s, 0 < ((upd K A w)^[n] u) j s := by
  induction n generalizing u with
  | zero => exact hu
  | succ n ih => exact ih (upd_pos h hu)

theorem iter_bal (h : Ok K A w) (hu : ∀ j s, 0 < u j s) (hb : Bal w u) (n : ℕ) : Bal w ((upd K A w)^[n] u) := by
  induction n generalizing u with
  | zero => exact hb
  | succ n ih => exact ih (upd_pos h hu) fun j => by rw [upd_inv h hu, hb j]

/-- the missing masses are summable -/
theorem deficit_sum (h : Ok K A w) (hu : ∀ j s, 0 < u j s) (n : ℕ) :
    dual K A w u + ∑ k ∈ range n, (1 - ∑ j, bar K A w ((upd K A w)^[k] u) j) ≤ dual K A w ((upd K A w)^[n] u) := by
  induction n with
  | zero => simp
  | succ n ih =>
    rw [sum_range_succ, Function.iterate_succ_apply', ← add_assoc]
    exact (add_le_add_left ih _).trans (dual_step h (iter_pos h hu n))

end POT.EntBary
