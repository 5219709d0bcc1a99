import Verif.Model.UnbBary
import Verif.Lemmas.Unbalanced
import Verif.Lemmas.EntBaryConv
import Mathlib.Tactic.Linarith
import Mathlib.Tactic.Ring
import Mathlib.Tactic.FieldSimp
import Mathlib.Tactic.Positivity
import Mathlib.Analysis.Convex.SpecificFunctions.Basic
import Mathlib.Algebra.BigOperators.Field
import Mathlib.Topology.Order.Compact
import Mathlib.Topology.Sequences
import Mathlib.Topology.Order.MonotoneConvergence

/-! # Lemmas on unbalanced barycenters: optimality of fixed points, descent, convergence -/

set_option linter.unusedSectionVars false

namespace POT.UnbBary

open Finset Spec Sinkhorn Unbalanced Filter Topology

section gap

variable {L : Type*} [Fintype L]

theorem kl_three' {p q r : L → ℝ} (hp : ∀ l, 0 ≤ p l) (hq : ∀ l, 0 ≤ q l) (hr : ∀ l, 0 ≤ r l) (hpq : ∀ l, p l = 0 → q l = 0) (hrp : ∀ l, r l = 0 → p l = 0) :
    klDivergence q r - klDivergence p r = klDivergence q p + ∑ l, (q l - p l) * Real.log (p l / r l) := by
  unfold klDivergence
  rw [← sum_sub_distrib, ← sum_add_distrib]
  refine sum_congr rfl fun l _ => ?_
  rcases (hp l).eq_or_lt with h0 | h0
  · rw [hpq l h0.symm, ← h0]; simp
  · have hr0 : 0 < r l := lt_of_le_of_ne (hr l) fun e => h0.ne' (hrp l e.symm)
    rcases (hq l).eq_or_lt with h | h
    · rw [← h]; simp; ring
    · have : q l / r l = q l / p l * (p l / r l) := by field_simp [h0.ne', hr0.ne']
      rw [this, Real.log_mul (div_pos h h0).ne' (div_pos h0 hr0).ne']
      ring

/-- changing the reference of a divergence -/
theorem kl_shift {p p' q q' : L → ℝ} (hp : ∀ l, 0 < p l) (hp' : ∀ l, 0 ≤ p' l) (hq : ∀ l, 0 < q l) (hq' : ∀ l, 0 ≤ q' l) (h : ∀ l, q' l = 0 → p' l = 0) :
    klDivergence p' q' - klDivergence p' q + klDivergence p' p = klDivergence p' (fun l => q' l * (p l / q l)) + ∑ l, (q' l - q l) * (1 - p l / q l) := by
  unfold klDivergence
  rw [← sum_sub_distrib, ← sum_add_distrib, ← sum_add_distrib]
  refine sum_congr rfl fun l _ => ?_
  have hpl := hp l
  have hql := hq l
  rcases (hp' l).eq_or_lt with h0 | h0
  · rw [← h0]; simp; field_simp; ring
  · have hq0 : 0 < q' l := lt_of_le_of_ne (hq' l) fun e => h0.ne' (h l e.symm)
    rw [Real.log_div h0.ne' hq0.ne', Real.log_div h0.ne' hql.ne', Real.log_div h0.ne' hpl.ne',
      Real.log_div h0.ne' (mul_pos hq0 (div_pos hpl hql)).ne', Real.log_mul hq0.ne' (div_pos hpl hql).ne', Real.log_div hpl.ne' hql.ne']
    field_simp
    ring

variable {I J : Type*} [Fintype I] [Fintype J]

/-- exact gap for one histogram and a moving second marginal -/
theorem one_gap {a : I → ℝ} {q q' : J → ℝ} {M : I → J → ℝ} {reg ρ : ℝ} {u : I → ℝ} {v : J → ℝ} {P P' : I → J → ℝ} (hreg : 0 < reg)
    (hP : ∀ i j, P i j = u i * Real.exp (-M i j / reg) * v j) (ha : ∀ i, 0 ≤ a i) (hu : ∀ i, 0 ≤ u i) (hua : ∀ i, u i = 0 ↔ a i = 0) (hv : ∀ j, 0 < v j)
    (hq : ∀ j, 0 < q j) (hq' : ∀ j, 0 ≤ q' j) (hp : ∀ j, 0 < ∑ i, P i j)
    (h1 : ∀ i, a i ≠ 0 → reg * Real.log (u i) = -ρ * Real.log ((∑ j, P i j) / a i))
    (h2 : ∀ j, reg * Real.log (v j) = -ρ * Real.log ((∑ i, P i j) / q j))
    (hP' : ∀ i j, 0 ≤ P' i j) (hr' : ∀ i, a i = 0 → ∀ j, P' i j = 0) (hc' : ∀ j, q' j = 0 → ∀ i, P' i j = 0) :
    unbObjective a q' M reg (fun _ _ => 1) (some ρ) (some ρ) P' = unbObjective a q M reg (fun _ _ => 1) (some ρ) (some ρ) P + reg * klPlan P' P
      + ρ * klDivergence (fun i => ∑ j, P' i j) (fun i => ∑ j, P i j)
      + ρ * klDivergence (fun j => ∑ i, P' i j) (fun j => q' j * ((∑ i, P i j) / q j)) + ρ * ∑ j, (q' j - q j) * (1 - (∑ i, P i j) / q j) := by
  have hP0 : ∀ i j, 0 ≤ P i j := fun i j => by rw [hP]; exact mul_nonneg (mul_nonneg (hu i) (Real.exp_pos _).le) (hv j).le
  have hPz : ∀ i j, P i j = 0 → a i = 0 := fun i j e => by
    rw [hP] at e
    rcases mul_eq_zero.1 e with e | e
    · rcases mul_eq_zero.1 e with e | e
      · exact (hua i).1 e
      · exact absurd e (Real.exp_pos _).ne'
    · exact absurd e (hv j).ne'
  have hPz' : ∀ i, a i = 0 → ∀ j, P i j = 0 := fun i e j => by rw [hP, (hua i).2 e]; ring
  have e1 := kl_three' (p := fun x : I × J => P x.1 x.2) (q := fun x : I × J => P' x.1 x.2) (r := fun _ => 1) (fun x => hP0 _ _) (fun x => hP' _ _) (fun _ => zero_le_one)
    (fun x e => hr' _ (hPz _ _ e) _) (fun x e => absurd e one_ne_zero)
  have hJ : ∀ i, a i ≠ 0 → ∀ j, 0 < P i j := fun i h j => lt_of_le_of_ne (hP0 i j) fun e => h (hPz i j e.symm)
  have e2 := kl_three' (p := fun i => ∑ j, P i j) (q := fun i => ∑ j, P' i j) (r := a) (fun i => sum_nonneg fun j _ => hP0 _ _) (fun i => sum_nonneg fun j _ => hP' _ _) ha
    (fun i e => by
      refine sum_eq_zero fun j _ => ?_
      exact hr' i (hPz i j ((sum_eq_zero_iff_of_nonneg (fun j _ => hP0 i j)).1 e j (mem_univ j))) j)
    (fun i e => sum_eq_zero fun j _ => hPz' i e j)
  have e3 := kl_three' (p := fun j => ∑ i, P i j) (q := fun j => ∑ i, P' i j) (r := q) (fun j => (hp j).le) (fun j => sum_nonneg fun i _ => hP' _ _) (fun j => (hq j).le)
    (fun j e => absurd e (hp j).ne') (fun j e => absurd e (hq j).ne')
  have e4 := kl_shift (p := fun j => ∑ i, P i j) (p' := fun j => ∑ i, P' i j) (q := q) (q' := q') hp (fun j => sum_nonneg fun i _ => hP' _ _) hq hq'
    (fun j e => sum_eq_zero fun i _ => hc' j e i)
  have e5 : (cost M P' - cost M P) + reg * ∑ x : I × J, (P' x.1 x.2 - P x.1 x.2) * Real.log (P x.1 x.2 / 1)
      + ρ * ∑ i, ((∑ j, P' i j) - ∑ j, P i j) * Real.log ((∑ j, P i j) / a i) + ρ * ∑ j, ((∑ i, P' i j) - ∑ i, P i j) * Real.log ((∑ i, P i j) / q j) = 0 := by
    have s1 : cost M P' - cost M P = ∑ i, ∑ j, (P' i j - P i j) * M i j := by
      unfold cost
      rw [← sum_sub_distrib]
      refine sum_congr rfl fun i _ => ?_
      rw [← sum_sub_distrib]
      exact sum_congr rfl fun j _ => by ring
    have s2 : ∑ x : I × J, (P' x.1 x.2 - P x.1 x.2) * Real.log (P x.1 x.2 / 1) = ∑ i, ∑ j, (P' i j - P i j) * Real.log (P i j) := by
      rw [Fintype.sum_prod_type]; simp
    have s3 : ∑ i, ((∑ j, P' i j) - ∑ j, P i j) * Real.log ((∑ j, P i j) / a i) = ∑ i, ∑ j, (P' i j - P i j) * Real.log ((∑ j, P i j) / a i) :=
      sum_congr rfl fun i _ => by rw [← sum_sub_distrib, sum_mul]
    have s4 : ∑ j, ((∑ i, P' i j) - ∑ i, P i j) * Real.log ((∑ i, P i j) / q j) = ∑ i, ∑ j, (P' i j - P i j) * Real.log ((∑ i, P i j) / q j) := by
      rw [sum_comm]
      exact sum_congr rfl fun j _ => by rw [← sum_sub_distrib, sum_mul]
    rw [s1, s2, s3, s4, mul_sum, mul_sum, mul_sum, ← sum_add_distrib, ← sum_add_distrib, ← sum_add_distrib]
    refine sum_eq_zero fun i _ => ?_
    rw [mul_sum, mul_sum, mul_sum, ← sum_add_distrib, ← sum_add_distrib, ← sum_add_distrib]
    refine sum_eq_zero fun j _ => ?_
    by_cases h : a i = 0
    · rw [hr' i h j, hPz' i h j]; ring
    · have hui : 0 < u i := lt_of_le_of_ne (hu i) fun e => h ((hua i).1 e.symm)
      have hl : Real.log (P i j) = Real.log (u i) + -M i j / reg + Real.log (v j) := by
        rw [hP, Real.log_mul (mul_pos hui (Real.exp_pos _)).ne' (hv j).ne', Real.log_mul hui.ne' (Real.exp_pos _).ne', Real.log_exp]
      have h1' := h1 i h
      have h2' := h2 j
      have : M i j + reg * Real.log (P i j) + ρ * Real.log ((∑ j, P i j) / a i) + ρ * Real.log ((∑ i, P i j) / q j) = 0 := by
        rw [hl]
        have : reg * (Real.log (u i) + -M i j / reg + Real.log (v j)) = reg * Real.log (u i) - M i j + reg * Real.log (v j) := by field_simp; ring
        rw [this]
        linarith
      calc _ = (P' i j - P i j) * (M i j + reg * Real.log (P i j) + ρ * Real.log ((∑ j, P i j) / a i) + ρ * Real.log ((∑ i, P i j) / q j)) := by ring
        _ = 0 := by rw [this, mul_zero]
  simp only [unbObjective, marginalTerm, klPlan] at *
  linear_combination reg * e1 + ρ * e2 + ρ * e3 + ρ * e4 + e5

end gap

section iter

variable {I J H : Type*} [Fintype I] [Fintype J] [Fintype H]

/-- what the input must satisfy: positive kernel, non-negative histograms none of which is zero, positive weights, an exponent strictly between 0 and 1 -/
structure Good (A : I → H → ℝ) (w : H → ℝ) (K : I → J → ℝ) (f : ℝ) : Prop where
  hK : ∀ i j, 0 < K i j
  hA : ∀ i h, 0 ≤ A i h
  mass : ∀ h, ∃ i, 0 < A i h
  hw : ∀ h, 0 < w h
  f0 : 0 < f
  f1 : f < 1

/-- `Ktu` as a function of `v` -/
noncomputable def kap (A : I → H → ℝ) (K : I → J → ℝ) (f : ℝ) (v : J → H → ℝ) : J → H → ℝ := ktuB K (updU A K f v)

/-- the barycenter as a function of `v` -/
noncomputable def baryQ (A : I → H → ℝ) (w : H → ℝ) (K : I → J → ℝ) (f : ℝ) (v : J → H → ℝ) : J → ℝ := updQ w f (kap A K f v)

/-- the map iterated by the loop -/
noncomputable def next (A : I → H → ℝ) (w : H → ℝ) (K : I → J → ℝ) (f : ℝ) (v : J → H → ℝ) : J → H → ℝ := updV f (kap A K f v) (baryQ A w K f v)

theorem stepB_eq (A : I → H → ℝ) (w : H → ℝ) (K : I → J → ℝ) (f : ℝ) (s : StB I J H) :
    stepB A w K f s = { u := updU A K f s.v, v := next A w K f s.v, q := baryQ A w K f s.v } := rfl

variable {A : I → H → ℝ} {w : H → ℝ} {K : I → J → ℝ} {f : ℝ}

theorem kv_pos [Nonempty J] (g : Good A w K f) {v : J → H → ℝ} (hv : ∀ j h, 0 < v j h) (i : I) (h : H) : 0 < kvB K v i h :=
  sum_pos (fun j _ => mul_pos (g.hK i j) (hv j h)) univ_nonempty

theorem u_nonneg [Nonempty J] (g : Good A w K f) {v : J → H → ℝ} (hv : ∀ j h, 0 < v j h) (i : I) (h : H) : 0 ≤ updU A K f v i h :=
  Real.rpow_nonneg (div_nonneg (g.hA i h) (kv_pos g hv i h).le) _

theorem u_zero [Nonempty J] (g : Good A w K f) {v : J → H → ℝ} (hv : ∀ j h, 0 < v j h) (i : I) (h : H) : updU A K f v i h = 0 ↔ A i h = 0 := by
  constructor
  · intro e
    by_contra h0
    exact (Real.rpow_pos_of_pos (div_pos (lt_of_le_of_ne (g.hA i h) (Ne.symm h0)) (kv_pos g hv i h)) f).ne' e
  · intro e
    unfold updU
    rw [e, zero_div, Real.zero_rpow g.f0.ne']

theorem kap_pos [Nonempty J] (g : Good A w K f) {v : J → H → ℝ} (hv : ∀ j h, 0 < v j h) (j : J) (h : H) : 0 < kap A K f v j h := by
  obtain ⟨i, hi⟩ := g.mass h
  refine sum_pos' (fun i _ => mul_nonneg (g.hK i j).le (u_nonneg g hv i h)) ⟨i, mem_univ i, mul_pos (g.hK i j) ?_⟩
  exact Real.rpow_pos_of_pos (div_pos hi (kv_pos g hv i h)) _

theorem S_pos [Nonempty H] (hw : ∀ h, 0 < w h) {κ : J → H → ℝ} (hκ : ∀ j h, 0 < κ j h) (j : J) : 0 < ∑ h, κ j h ^ (1 - f) * w h :=
  sum_pos (fun h _ => mul_pos (Real.rpow_pos_of_pos (hκ j h) _) (hw h)) univ_nonempty

theorem q_pos [Nonempty H] [Nonempty J] (g : Good A w K f) {v : J → H → ℝ} (hv : ∀ j h, 0 < v j h) (j : J) : 0 < baryQ A w K f v j :=
  Real.rpow_pos_of_pos (S_pos g.hw (kap_pos g hv) j) _

theorem q_pow [Nonempty H] [Nonempty J] (g : Good A w K f) {v : J → H → ℝ} (hv : ∀ j h, 0 < v j h) (j : J) :
    baryQ A w K f v j ^ (1 - f) = ∑ h, kap A K f v j h ^ (1 - f) * w h := by
  unfold baryQ updQ
  rw [← Real.rpow_mul (S_pos g.hw (kap_pos g hv) j).le, one_div, inv_mul_cancel₀ (by linarith [g.f1]), Real.rpow_one]

theorem next_pos [Nonempty H] [Nonempty J] (g : Good A w K f) {v : J → H → ℝ} (hv : ∀ j h, 0 < v j h) (j : J) (h : H) : 0 < next A w K f v j h :=
  Real.rpow_pos_of_pos (div_pos (q_pos g hv j) (kap_pos g hv j h)) _

/-- `Σ_h w_h v_jh Ktu_jh = q_j` after every iteration -/
theorem next_kap [Nonempty H] [Nonempty J] (g : Good A w K f) {v : J → H → ℝ} (hv : ∀ j h, 0 < v j h) (j : J) :
    ∑ h, w h * (kap A K f v j h * next A w K f v j h) = baryQ A w K f v j := by
  have hq := q_pos g hv j
  have : ∀ h, w h * (kap A K f v j h * next A w K f v j h) = baryQ A w K f v j ^ f * (kap A K f v j h ^ (1 - f) * w h) := fun h => by
    have hk := kap_pos g hv j h
    unfold next updV
    rw [Real.div_rpow hq.le hk.le, Real.rpow_sub hk, Real.rpow_one]
    ring
  rw [sum_congr rfl fun h _ => this h, ← mul_sum, ← q_pow g hv j, ← Real.rpow_add hq]
  norm_num

/-- `Σ_h w_h v_jh ^ (-c) = 1` after every iteration, with `c = (1 - f) / f` -/
theorem next_norm [Nonempty H] [Nonempty J] (g : Good A w K f) {v : J → H → ℝ} (hv : ∀ j h, 0 < v j h) (j : J) :
    ∑ h, w h * next A w K f v j h ^ (-((1 - f) / f)) = 1 := by
  have hq := q_pos g hv j
  have hf := g.f0.ne'
  have : ∀ h, w h * next A w K f v j h ^ (-((1 - f) / f)) = (kap A K f v j h ^ (1 - f) * w h) / baryQ A w K f v j ^ (1 - f) := fun h => by
    have hk := kap_pos g hv j h
    unfold next updV
    rw [← Real.rpow_mul (div_pos hq hk).le, show f * (-((1 - f) / f)) = -(1 - f) by field_simp, Real.rpow_neg (div_pos hq hk).le, Real.div_rpow hq.le hk.le, inv_div]
    ring
  rw [sum_congr rfl fun h _ => this h, ← sum_div, ← q_pow g hv j, div_self (Real.rpow_pos_of_pos hq _).ne']

theorem next_tan [Nonempty H] [Nonempty J] (g : Good A w K f) {v : J → H → ℝ} (hv : ∀ j h, 0 < v j h) (j : J) (h : H) :
    next A w K f v j h ^ (-((1 - f) / f) - 1) = kap A K f v j h / baryQ A w K f v j := by
  have hq := q_pos g hv j
  have hk := kap_pos g hv j h
  have hf := g.f0.ne'
  unfold next updV
  rw [← Real.rpow_mul (div_pos hq hk).le, show f * (-((1 - f) / f) - 1) = -1 by field_simp; ring, Real.rpow_neg_one, inv_div]

/-- strict convexity of `x ↦ x ^ (-c)` -/
theorem neg_pow_tangent {c x y : ℝ} (hc : 0 < c) (hx : 0 < x) (hy : 0 < y) :
    0 ≤ x ^ (-c) - y ^ (-c) + c * y ^ (-c - 1) * (x - y) ∧ (x ^ (-c) - y ^ (-c) + c * y ^ (-c - 1) * (x - y) ≤ 0 → x = y) := by
  have e : x ^ (-c) - y ^ (-c) + c * y ^ (-c - 1) * (x - y) = y ^ (-c) * ((x / y) ^ (-c) - 1 + c * (x / y - 1)) := by
    rw [Real.div_rpow hx.le hy.le, Real.rpow_sub hy, Real.rpow_one]
    have := (Real.rpow_pos_of_pos hy (-c)).ne'
    field_simp
  have hr : 0 < x / y := div_pos hx hy
  have h1 : 1 - c * Real.log (x / y) ≤ (x / y) ^ (-c) := by
    rw [Real.rpow_def_of_pos hr]
    have := Real.add_one_le_exp (Real.log (x / y) * -c)
    linarith
  have h2 := Real.log_le_sub_one_of_pos hr
  have h3 : c * Real.log (x / y) ≤ c * (x / y - 1) := mul_le_mul_of_nonneg_left h2 hc.le
  have hy' := Real.rpow_pos_of_pos hy (-c)
  rw [e]
  refine ⟨mul_nonneg hy'.le (by linarith), fun h0 => ?_⟩
  by_contra hne
  have hr1 : x / y ≠ 1 := fun e => hne ((div_eq_one_iff_eq hy.ne').1 e)
  have h4 := Real.log_lt_sub_one_of_pos hr hr1
  have h5 : c * Real.log (x / y) < c * (x / y - 1) := mul_lt_mul_of_pos_left h4 hc
  have h6 := mul_pos hy' (show 0 < (x / y) ^ (-c) - 1 + c * (x / y - 1) by linarith)
  linarith

/-- concavity of `x ↦ x ^ (1 - f)` -/
theorem pow_tangent {f x y : ℝ} (hf0 : 0 ≤ f) (hf1 : f ≤ 1) (hx : 0 < x) (hy : 0 < y) : x ^ (1 - f) ≤ y ^ (1 - f) + (1 - f) * y ^ (-f) * (x - y) := by
  have h := rpow_one_add_le_one_add_mul_self (s := x / y - 1) (by have := div_pos hx hy; linarith) (p := 1 - f) (by linarith) (by linarith)
  rw [show 1 + (x / y - 1) = x / y by ring, Real.div_rpow hx.le hy.le, div_le_iff₀ (Real.rpow_pos_of_pos hy _)] at h
  refine h.trans (le_of_eq ?_)
  rw [show -f = (1 - f) - 1 by ring, Real.rpow_sub_one hy.ne']
  field_simp

/-- the function that decreases along the iterations: `Σ_h w_h Σ_i A_ih ^ f (K v)_ih ^ (1 - f)` -/
noncomputable def lyap (A : I → H → ℝ) (w : H → ℝ) (K : I → J → ℝ) (f : ℝ) (v : J → H → ℝ) : ℝ := ∑ h, w h * ∑ i, A i h ^ f * kvB K v i h ^ (1 - f)

theorem lyap_tangent [Nonempty J] (g : Good A w K f) {v v' : J → H → ℝ} (hv : ∀ j h, 0 < v j h) (hv' : ∀ j h, 0 < v' j h) :
    lyap A w K f v' ≤ lyap A w K f v - (1 - f) * ∑ j, ∑ h, w h * kap A K f v j h * (v j h - v' j h) := by
  have e : ∀ h, ∑ j, kap A K f v j h * (v j h - v' j h) = ∑ i, updU A K f v i h * (kvB K v i h - kvB K v' i h) := fun h => by
    unfold kap ktuB kvB
    simp_rw [← sum_sub_distrib, mul_sum, sum_mul]
    rw [sum_comm]
    exact sum_congr rfl fun i _ => sum_congr rfl fun j _ => by ring
  have e2 : ∑ j, ∑ h, w h * kap A K f v j h * (v j h - v' j h) = ∑ h, w h * ∑ i, updU A K f v i h * (kvB K v i h - kvB K v' i h) := by
    rw [sum_comm]
    refine sum_congr rfl fun h _ => ?_
    rw [← e h, mul_sum]
    exact sum_congr rfl fun j _ => by ring
  rw [e2, mul_sum]
  unfold lyap
  rw [← sum_sub_distrib]
  refine sum_le_sum fun h _ => ?_
  rw [show w h * ∑ i, A i h ^ f * kvB K v i h ^ (1 - f) - (1 - f) * (w h * ∑ i, updU A K f v i h * (kvB K v i h - kvB K v' i h))
    = w h * (∑ i, A i h ^ f * kvB K v i h ^ (1 - f) - (1 - f) * ∑ i, updU A K f v i h * (kvB K v i h - kvB K v' i h)) by ring]
  refine mul_le_mul_of_nonneg_left ?_ (g.hw h).le
  rw [mul_sum, ← sum_sub_distrib]
  refine sum_le_sum fun i _ => ?_
  have h1 := kv_pos g hv i h
  have h2 := kv_pos g hv' i h
  have h3 := mul_le_mul_of_nonneg_left (pow_tangent g.f0.le g.f1.le h2 h1) (Real.rpow_nonneg (g.hA i h) f)
  refine h3.trans (le_of_eq ?_)
  unfold updU
  rw [Real.div_rpow (g.hA i h) h1.le, Real.rpow_neg h1.le]
  ring

theorem next_gap [Nonempty H] [Nonempty J] (g : Good A w K f) {v : J → H → ℝ} (hv : ∀ j h, 0 < v j h) (j : J) (hn : ∑ h, w h * v j h ^ (-((1 - f) / f)) = 1) :
    0 ≤ ∑ h, w h * kap A K f v j h * (v j h - next A w K f v j h) ∧
    (∑ h, w h * kap A K f v j h * (v j h - next A w K f v j h) ≤ 0 → ∀ h, v j h = next A w K f v j h) := by
  have hc : 0 < (1 - f) / f := div_pos (by linarith [g.f1]) g.f0
  obtain ⟨c, hcd⟩ : ∃ c, c = (1 - f) / f := ⟨_, rfl⟩
  have hn' := next_norm g hv j
  have ht := fun h => next_tan g hv j h
  rw [← hcd] at hc hn hn'
  simp_rw [← hcd] at ht
  have hq := q_pos g hv j
  have key := fun h => neg_pow_tangent hc (hv j h) (next_pos g hv j h)
  have e : ∑ h, w h * (v j h ^ (-c) - next A w K f v j h ^ (-c) + c * next A w K f v j h ^ (-c - 1) * (v j h - next A w K f v j h))
      = c / baryQ A w K f v j * ∑ h, w h * kap A K f v j h * (v j h - next A w K f v j h) := by
    have : ∀ h, w h * (v j h ^ (-c) - next A w K f v j h ^ (-c) + c * next A w K f v j h ^ (-c - 1) * (v j h - next A w K f v j h))
        = w h * v j h ^ (-c) - w h * next A w K f v j h ^ (-c) + c / baryQ A w K f v j * (w h * kap A K f v j h * (v j h - next A w K f v j h)) := fun h => by
      rw [ht h]; ring
    rw [sum_congr rfl fun h _ => this h, sum_add_distrib, sum_sub_distrib, hn, hn', ← mul_sum]
    ring
  have hpos : 0 < c / baryQ A w K f v j := div_pos hc hq
  have hterm : ∀ h ∈ univ, 0 ≤ w h * (v j h ^ (-c) - next A w K f v j h ^ (-c) + c * next A w K f v j h ^ (-c - 1) * (v j h - next A w K f v j h)) :=
    fun h _ => mul_nonneg (g.hw h).le (key h).1
  have h0 := sum_nonneg hterm
  refine ⟨?_, fun hle => ?_⟩
  · rw [e] at h0
    exact (mul_nonneg_iff_of_pos_left hpos).1 h0
  · intro h
    have hz : ∑ h, w h * (v j h ^ (-c) - next A w K f v j h ^ (-c) + c * next A w K f v j h ^ (-c - 1) * (v j h - next A w K f v j h)) = 0 :=
      le_antisymm (by rw [e]; exact mul_nonpos_of_nonneg_of_nonpos hpos.le hle) h0
    have := (sum_eq_zero_iff_of_nonneg hterm).1 hz h (mem_univ h)
    exact (key h).2 ((mul_eq_zero.1 this).resolve_left (g.hw h).ne').le

/-- the descent: strict unless `v` is a fixed point -/
theorem lyap_desc [Nonempty H] [Nonempty J] (g : Good A w K f) {v : J → H → ℝ} (hv : ∀ j h, 0 < v j h) (hn : ∀ j, ∑ h, w h * v j h ^ (-((1 - f) / f)) = 1) :
    lyap A w K f (next A w K f v) ≤ lyap A w K f v ∧ (lyap A w K f v ≤ lyap A w K f (next A w K f v) → next A w K f v = v) := by
  have h1 := lyap_tangent g hv (next_pos g hv)
  have h2 := fun j => next_gap g hv j (hn j)
  have hf : 0 < 1 - f := by linarith [g.f1]
  have h3 : 0 ≤ ∑ j, ∑ h, w h * kap A K f v j h * (v j h - next A w K f v j h) := sum_nonneg fun j _ => (h2 j).1
  refine ⟨by have := mul_nonneg hf.le h3; linarith, fun h => ?_⟩
  have h4 : (1 - f) * ∑ j, ∑ h, w h * kap A K f v j h * (v j h - next A w K f v j h) ≤ 0 := by linarith
  have h5 : ∑ j, ∑ h, w h * kap A K f v j h * (v j h - next A w K f v j h) = 0 := le_antisymm (nonpos_of_mul_nonpos_right h4 hf) h3
  funext j h
  have h6 := (sum_eq_zero_iff_of_nonneg fun j _ => (h2 j).1).1 h5 j (mem_univ j)
  exact ((h2 j).2 h6.le h).symm

/-! ### continuity -/

theorem kv_cont (i : I) (h : H) : Continuous fun v : J → H → ℝ => kvB K v i h := by
  unfold kvB
  fun_prop

theorem u_cont [Nonempty J] (g : Good A w K f) {v : J → H → ℝ} (hv : ∀ j h, 0 < v j h) (i : I) (h : H) : ContinuousAt (fun v : J → H → ℝ => updU A K f v i h) v := by
  unfold updU
  exact ContinuousAt.rpow_const (continuousAt_const.div (kv_cont i h).continuousAt (kv_pos g hv i h).ne') (Or.inr g.f0.le)

theorem kap_cont [Nonempty J] (g : Good A w K f) {v : J → H → ℝ} (hv : ∀ j h, 0 < v j h) (j : J) (h : H) : ContinuousAt (fun v : J → H → ℝ => kap A K f v j h) v := by
  unfold kap ktuB
  exact tendsto_finsetSum univ fun i _ => (u_cont g hv i h).const_mul _

theorem q_cont [Nonempty H] [Nonempty J] (g : Good A w K f) {v : J → H → ℝ} (hv : ∀ j h, 0 < v j h) (j : J) : ContinuousAt (fun v : J → H → ℝ => baryQ A w K f v j) v := by
  unfold baryQ updQ
  refine ContinuousAt.rpow_const ?_ (Or.inl (S_pos g.hw (kap_pos g hv) j).ne')
  exact tendsto_finsetSum univ fun h _ => ((kap_cont g hv j h).rpow_const (Or.inl (kap_pos g hv j h).ne')).mul_const _

theorem next_cont [Nonempty H] [Nonempty J] (g : Good A w K f) {v : J → H → ℝ} (hv : ∀ j h, 0 < v j h) : ContinuousAt (next A w K f) v := by
  refine continuousAt_pi.2 fun j => continuousAt_pi.2 fun h => ?_
  unfold next updV
  exact ContinuousAt.rpow_const ((q_cont g hv j).div (kap_cont g hv j h) (kap_pos g hv j h).ne') (Or.inr g.f0.le)

theorem lyap_cont [Nonempty J] (g : Good A w K f) {v : J → H → ℝ} (hv : ∀ j h, 0 < v j h) : ContinuousAt (lyap A w K f) v := by
  unfold lyap
  exact tendsto_finsetSum univ fun h _ => (tendsto_finsetSum univ fun i _ =>
    (((kv_cont i h).continuousAt (x := v)).rpow_const (Or.inl (kv_pos g hv i h).ne')).const_mul _).const_mul _

/-! ### bounds -/

theorem v_lower (g : Good A w K f) {v : J → H → ℝ} (hv : ∀ j h, 0 < v j h) (hn : ∀ j, ∑ h, w h * v j h ^ (-((1 - f) / f)) = 1) (j : J) (h : H) :
    w h ^ (1 / ((1 - f) / f)) ≤ v j h := by
  obtain ⟨c, hcd⟩ : ∃ c, c = (1 - f) / f := ⟨_, rfl⟩
  have hc : 0 < c := by rw [hcd]; exact div_pos (by linarith [g.f1]) g.f0
  rw [← hcd]
  have h1 : w h * v j h ^ (-c) ≤ 1 := by
    rw [← hn j, ← hcd]
    exact single_le_sum (f := fun h => w h * v j h ^ (-c)) (fun h _ => mul_nonneg (g.hw h).le (Real.rpow_nonneg (hv j h).le _)) (mem_univ h)
  rw [Real.rpow_neg (hv j h).le, ← div_eq_mul_inv, div_le_one (Real.rpow_pos_of_pos (hv j h) _)] at h1
  have h2 := Real.rpow_le_rpow (g.hw h).le h1 (show 0 ≤ 1 / c by positivity)
  rwa [← Real.rpow_mul (hv j h).le, mul_one_div_cancel hc.ne', Real.rpow_one] at h2

theorem v_upper (g : Good A w K f) (B : ℝ) : ∃ hi : J → H → ℝ, ∀ v : J → H → ℝ, (∀ j h, 0 < v j h) → lyap A w K f v ≤ B → ∀ j h, v j h ≤ hi j h := by
  choose i0 hi0 using g.mass
  refine ⟨fun j h => (B / (w h * A (i0 h) h ^ f)) ^ (1 / (1 - f)) / K (i0 h) j, fun v hv hB j h => ?_⟩
  have hf : 0 < 1 - f := by linarith [g.f1]
  have hk0 : ∀ i h, 0 ≤ kvB K v i h := fun i h => sum_nonneg fun j _ => mul_nonneg (g.hK i j).le (hv j h).le
  have hterm : ∀ h i, 0 ≤ A i h ^ f * kvB K v i h ^ (1 - f) := fun h i => mul_nonneg (Real.rpow_nonneg (g.hA i h) _) (Real.rpow_nonneg (hk0 i h) _)
  have h1 : w h * (A (i0 h) h ^ f * kvB K v (i0 h) h ^ (1 - f)) ≤ B := by
    refine le_trans ?_ hB
    refine le_trans ?_ (single_le_sum (f := fun h => w h * ∑ i, A i h ^ f * kvB K v i h ^ (1 - f)) (fun h _ => mul_nonneg (g.hw h).le (sum_nonneg fun i _ => hterm h i)) (mem_univ h))
    exact mul_le_mul_of_nonneg_left (single_le_sum (f := fun i => A i h ^ f * kvB K v i h ^ (1 - f)) (fun i _ => hterm h i) (mem_univ (i0 h))) (g.hw h).le
  have hpos : 0 < w h * A (i0 h) h ^ f := mul_pos (g.hw h) (Real.rpow_pos_of_pos (hi0 h) _)
  have h2 : kvB K v (i0 h) h ^ (1 - f) ≤ B / (w h * A (i0 h) h ^ f) := by
    rw [le_div_iff₀ hpos]; linarith
  have h3 := Real.rpow_le_rpow (Real.rpow_nonneg (hk0 _ _) _) h2 (show 0 ≤ 1 / (1 - f) by positivity)
  rw [← Real.rpow_mul (hk0 _ _), mul_one_div_cancel hf.ne', Real.rpow_one] at h3
  rw [le_div_iff₀ (g.hK _ _)]
  refine le_trans ?_ h3
  rw [mul_comm]
  exact single_le_sum (f := fun j => K (i0 h) j * v j h) (fun j _ => mul_nonneg (g.hK _ j).le (hv j h).le) (mem_univ j)

/-! ### LaSalle's principle -/

theorem lasalle {X : Type*} [MetricSpace X] {C : Set X} (hC : IsCompact C) {Φ : X → X} {Ψ : X → ℝ} (hΦ : ∀ x ∈ C, ContinuousAt Φ x) (hΨ : ∀ x ∈ C, ContinuousAt Ψ x)
    (hΦC : ∀ x ∈ C, Φ x ∈ C) {x : ℕ → X} (hx : ∀ n, x n ∈ C) (hs : ∀ n, x (n + 1) = Φ (x n)) (hd : ∀ x ∈ C, Ψ (Φ x) ≤ Ψ x) :
    (∃ t ∈ C, Ψ (Φ t) = Ψ t) ∧ ∀ t, (∀ y ∈ C, Ψ (Φ y) = Ψ y → y = t) → Tendsto x atTop (𝓝 t) := by
  have hanti : Antitone fun n => Ψ (x n) := antitone_nat_of_succ_le fun n => by simp only [hs]; exact hd _ (hx n)
  have hbdd : BddBelow (Set.range fun n => Ψ (x n)) := by
    have := (hC.image_of_continuousOn fun y hy => (hΨ y hy).continuousWithinAt).bddBelow
    refine this.mono ?_
    rintro _ ⟨n, rfl⟩
    exact ⟨x n, hx n, rfl⟩
  have hlim := tendsto_atTop_ciInf hanti hbdd
  have key : ∀ (ns : ℕ → ℕ), Tendsto ns atTop atTop → ∃ t ∈ C, ∃ ms : ℕ → ℕ, Tendsto (fun n => x (ns (ms n))) atTop (𝓝 t) ∧ Ψ (Φ t) = Ψ t := by
    intro ns hns
    obtain ⟨t, ht, ms, hms, hlimt⟩ := hC.tendsto_subseq (x := fun n => x (ns n)) fun n => hx _
    refine ⟨t, ht, ms, hlimt, ?_⟩
    have hsub : Tendsto (fun n => ns (ms n)) atTop atTop := hns.comp hms.tendsto_atTop
    have a1 : Tendsto (fun n => Ψ (x (ns (ms n)))) atTop (𝓝 (Ψ t)) := (hΨ t ht).tendsto.comp hlimt
    have a2 : Tendsto (fun n => Ψ (Φ (x (ns (ms n))))) atTop (𝓝 (Ψ (Φ t))) := (hΨ _ (hΦC t ht)).tendsto.comp ((hΦ t ht).tendsto.comp hlimt)
    have b1 := hlim.comp hsub
    have b2 := hlim.comp ((tendsto_add_atTop_nat 1).comp hsub)
    have b2' : Tendsto (fun n => Ψ (Φ (x (ns (ms n))))) atTop (𝓝 (⨅ n, Ψ (x n))) := by
      refine b2.congr fun n => ?_
      simp only [Function.comp]
      rw [hs]
    exact (tendsto_nhds_unique a2 b2').trans (tendsto_nhds_unique b1 a1)
  refine ⟨?_, fun t ht => ?_⟩
  · obtain ⟨t, h1, _, _, h2⟩ := key id tendsto_id
    exact ⟨t, h1, h2⟩
  · refine tendsto_of_subseq_tendsto fun ns hns => ?_
    obtain ⟨y, hy, ms, hlimy, hfix⟩ := key ns hns
    rw [ht y hy hfix] at hlimy
    exact ⟨ms, hlimy⟩

/-- the iterates from a positive start: a positive fixed point exists, and if it is the only one they converge to it -/
theorem next_tendsto [Nonempty H] [Nonempty J] (g : Good A w K f) {v : J → H → ℝ} (hv : ∀ j h, 0 < v j h) :
    (∃ t, (∀ j h, 0 < t j h) ∧ next A w K f t = t) ∧
    ∀ t, (∀ y, (∀ j h, 0 < y j h) → next A w K f y = y → y = t) → Tendsto (fun n => (next A w K f)^[n] v) atTop (𝓝 t) := by
  obtain ⟨hi, hhi⟩ := v_upper g (lyap A w K f (next A w K f v))
  obtain ⟨lo, hlo⟩ : ∃ lo : J → H → ℝ, lo = fun _ h => w h ^ (1 / ((1 - f) / f)) := ⟨_, rfl⟩
  have hlopos : ∀ j h, 0 < lo j h := fun j h => by rw [hlo]; exact Real.rpow_pos_of_pos (g.hw h) _
  obtain ⟨C, hCdef⟩ : ∃ C : Set (J → H → ℝ), C = {y | y ∈ Set.Icc lo hi ∧ (∀ j, ∑ h, w h * y j h ^ (-((1 - f) / f)) = 1) ∧ lyap A w K f y ≤ lyap A w K f (next A w K f v)} := ⟨_, rfl⟩
  have hpos : ∀ y ∈ C, ∀ j h, 0 < y j h := fun y hy j h => by
    rw [hCdef] at hy
    exact (hlopos j h).trans_le (hy.1.1 j h)
  have hnorm : ∀ y ∈ C, ∀ j, ∑ h, w h * y j h ^ (-((1 - f) / f)) = 1 := fun y hy => by rw [hCdef] at hy; exact hy.2.1
  have hmem : ∀ y, (∀ j h, 0 < y j h) → (∀ j, ∑ h, w h * y j h ^ (-((1 - f) / f)) = 1) → lyap A w K f y ≤ lyap A w K f (next A w K f v) → y ∈ C := fun y h1 h2 h3 => by
    rw [hCdef]
    refine ⟨⟨fun j h => ?_, fun j h => hhi y h1 h3 j h⟩, h2, h3⟩
    rw [hlo]
    exact v_lower g h1 h2 j h
  have hC : IsCompact C := by
    have hIcc : IsCompact (Set.Icc lo hi) := isCompact_Icc
    have hposI : ∀ y ∈ Set.Icc lo hi, ∀ j h, 0 < y j h := fun y hy j h => (hlopos j h).trans_le (hy.1 j h)
    have hcl : IsClosed C := by
      have e : C = Set.Icc lo hi ∩ {y | y ∈ Set.Icc lo hi ∧ ((∀ j, ∑ h, w h * y j h ^ (-((1 - f) / f)) = 1) ∧ lyap A w K f y ≤ lyap A w K f (next A w K f v))} := by
        rw [hCdef]; ext y; simp only [Set.mem_inter_iff, Set.mem_setOf_eq]; tauto
      rw [hCdef]
      refine IsSeqClosed.isClosed fun y t hy ht => ?_
      have ht1 : t ∈ Set.Icc lo hi := isClosed_Icc.mem_of_tendsto ht (Eventually.of_forall fun n => (hy n).1)
      have htp := hposI t ht1
      refine ⟨ht1, fun j => ?_, ?_⟩
      · have hc : Tendsto (fun n => ∑ h, w h * y n j h ^ (-((1 - f) / f))) atTop (𝓝 (∑ h, w h * t j h ^ (-((1 - f) / f)))) := by
          refine tendsto_finsetSum univ fun h _ => Tendsto.const_mul _ ?_
          have h1 : Tendsto (fun n => y n j h) atTop (𝓝 (t j h)) := tendsto_pi_nhds.1 (tendsto_pi_nhds.1 ht j) h
          exact (Real.continuousAt_rpow_const _ _ (Or.inl (htp j h).ne')).tendsto.comp h1
        refine tendsto_nhds_unique hc ?_
        simp_rw [fun n => (hy n).2.1 j]
        exact tendsto_const_nhds
      · exact le_of_tendsto ((lyap_cont g htp).tendsto.comp ht) (Eventually.of_forall fun n => (hy n).2.2)
    refine hIcc.of_isClosed_subset hcl ?_
    rw [hCdef]; exact fun y hy => hy.1
  have hv1 := next_pos g hv
  have hΦC : ∀ x ∈ C, next A w K f x ∈ C := fun y hy => by
    refine hmem _ (next_pos g (hpos y hy)) (next_norm g (hpos y hy)) ?_
    refine (lyap_desc g (hpos y hy) (hnorm y hy)).1.trans ?_
    rw [hCdef] at hy; exact hy.2.2
  have hx : ∀ n, (next A w K f)^[n] (next A w K f v) ∈ C := fun n => by
    induction n with
    | zero => exact hmem _ hv1 (next_norm g hv) le_rfl
    | succ n ih => rw [Function.iterate_succ_apply']; exact hΦC _ ih
  have hL := lasalle hC (fun y hy => next_cont g (hpos y hy)) (fun y hy => lyap_cont g (hpos y hy)) hΦC hx (fun n => Function.iterate_succ_apply' _ _ _)
    (fun y hy => (lyap_desc g (hpos y hy) (hnorm y hy)).1)
  refine ⟨?_, fun t ht => ?_⟩
  · obtain ⟨t, h1, h2⟩ := hL.1
    exact ⟨t, hpos t h1, (lyap_desc g (hpos t h1) (hnorm t h1)).2 h2.ge⟩
  · have := hL.2 t fun y hy h => ht y (hpos y hy) ((lyap_desc g (hpos y hy) (hnorm y hy)).2 h.ge)
    refine (tendsto_add_atTop_iff_nat 1).1 (this.congr fun n => ?_)
    rw [← Function.iterate_succ_apply]

/-! ### fixed points are barycenters -/

/-- the plan of histogram `h` -/
noncomputable def planB (A : I → H → ℝ) (K : I → J → ℝ) (f : ℝ) (v : J → H → ℝ) : H → I → J → ℝ := fun h i j => updU A K f v i h * K i j * v j h

theorem planB_row (v : J → H → ℝ) (h : H) (i : I) : ∑ j, planB A K f v h i j = updU A K f v i h * kvB K v i h := by
  unfold planB kvB
  rw [mul_sum]
  exact sum_congr rfl fun j _ => by ring

theorem planB_col (v : J → H → ℝ) (h : H) (j : J) : ∑ i, planB A K f v h i j = kap A K f v j h * v j h := by
  unfold planB kap ktuB
  rw [sum_mul]
  exact sum_congr rfl fun i _ => by ring

theorem fi_prop {reg ρ : ℝ} (hreg : 0 < reg) (hρ : 0 < ρ) : 0 < fiB reg ρ ∧ fiB reg ρ < 1 ∧ ρ * (1 - fiB reg ρ) = reg * fiB reg ρ := by
  unfold fiB
  refine ⟨by positivity, by rw [div_lt_one (by positivity)]; linarith, by field_simp; ring⟩

theorem fixed_log [Nonempty H] [Nonempty J] {reg ρ : ℝ} (hreg : 0 < reg) (hρ : 0 < ρ) (g : Good A w K (fiB reg ρ)) {v : J → H → ℝ} (hv : ∀ j h, 0 < v j h)
    (hfix : next A w K (fiB reg ρ) v = v) (j : J) (h : H) :
    reg * Real.log (v j h) = -ρ * Real.log ((∑ i, planB A K (fiB reg ρ) v h i j) / baryQ A w K (fiB reg ρ) v j) := by
  obtain ⟨_, _, hfi⟩ := fi_prop hreg hρ
  have hq := q_pos g hv j
  have hk := kap_pos g hv j h
  have e : Real.log (v j h) = fiB reg ρ * (Real.log (baryQ A w K (fiB reg ρ) v j) - Real.log (kap A K (fiB reg ρ) v j h)) := by
    conv_lhs => rw [← hfix]
    unfold next updV
    rw [Real.log_rpow (div_pos hq hk), Real.log_div hq.ne' hk.ne']
  rw [planB_col, Real.log_div (mul_pos hk (hv j h)).ne' hq.ne', Real.log_mul hk.ne' (hv j h).ne', e]
  linear_combination (Real.log (kap A K (fiB reg ρ) v j h) - Real.log (baryQ A w K (fiB reg ρ) v j)) * hfi

theorem fixed_bary [Nonempty H] [Nonempty J] {M : I → J → ℝ} {reg ρ : ℝ} (hreg : 0 < reg) (hρ : 0 < ρ) (g : Good A w (kern M reg) (fiB reg ρ)) (hw1 : ∑ h, w h = 1)
    {v : J → H → ℝ} (hv : ∀ j h, 0 < v j h) (hfix : next A w (kern M reg) (fiB reg ρ) v = v) :
    IsUnbBary A w M reg ρ (baryQ A w (kern M reg) (fiB reg ρ) v) (planB A (kern M reg) (fiB reg ρ) v) := by
  obtain ⟨hf0, hf1, hfi⟩ := fi_prop hreg hρ
  obtain ⟨P, hPd⟩ : ∃ P, P = planB A (kern M reg) (fiB reg ρ) v := ⟨_, rfl⟩
  obtain ⟨q, hqd⟩ : ∃ q, q = baryQ A w (kern M reg) (fiB reg ρ) v := ⟨_, rfl⟩
  have hq : ∀ j, 0 < q j := fun j => by rw [hqd]; exact q_pos g hv j
  have hcol : ∀ h j, ∑ i, P h i j = kap A (kern M reg) (fiB reg ρ) v j h * v j h := fun h j => by rw [hPd]; exact planB_col v h j
  have hcolp : ∀ h j, 0 < ∑ i, P h i j := fun h j => by rw [hcol]; exact mul_pos (kap_pos g hv j h) (hv j h)
  have hP0 : ∀ h i j, 0 ≤ P h i j := fun h i j => by
    rw [hPd]; exact mul_nonneg (mul_nonneg (u_nonneg g hv i h) (g.hK i j).le) (hv j h).le
  have hrow0 : ∀ h i, A i h = 0 → ∀ j, P h i j = 0 := fun h i e j => by
    rw [hPd]; unfold planB; rw [(u_zero g hv i h).2 e]; ring
  have hsum : ∀ j, ∑ h, w h * ∑ i, P h i j = q j := fun j => by
    have := next_kap g hv j
    rw [hfix] at this
    rw [hqd, ← this]
    exact sum_congr rfl fun h _ => by rw [hcol]
  rw [← hPd, ← hqd]
  refine ⟨⟨fun j => (hq j).le, hP0, hrow0, fun j e => absurd e (hq j).ne'⟩, fun q' P' hc => ?_⟩
  have hgap : ∀ h, unbObjective (fun i => A i h) q' M reg (fun _ _ => 1) (some ρ) (some ρ) (P' h) = _ := fun h =>
    one_gap (a := fun i => A i h) (q := q) (q' := q') (M := M) (reg := reg) (ρ := ρ) (u := fun i => updU A (kern M reg) (fiB reg ρ) v i h) (v := fun j => v j h) (P := P h)
      (P' := P' h) hreg (fun i j => by rw [hPd]; rfl) (fun i => g.hA i h) (fun i => u_nonneg g hv i h) (fun i => u_zero g hv i h) (fun j => hv j h) hq hc.bary (hcolp h)
      (fun i hi => by
        have hAi : 0 < A i h := lt_of_le_of_ne (g.hA i h) (Ne.symm hi)
        have hk := kv_pos g hv i h
        have hui : 0 < updU A (kern M reg) (fiB reg ρ) v i h := Real.rpow_pos_of_pos (div_pos hAi hk) _
        have hrow : ∑ j, P h i j = updU A (kern M reg) (fiB reg ρ) v i h * kvB (kern M reg) v i h := by rw [hPd]; exact planB_row v h i
        have e : Real.log (updU A (kern M reg) (fiB reg ρ) v i h) = fiB reg ρ * (Real.log (A i h) - Real.log (kvB (kern M reg) v i h)) := by
          unfold updU
          rw [Real.log_rpow (div_pos hAi hk), Real.log_div hAi.ne' hk.ne']
        rw [hrow, Real.log_div (mul_pos hui hk).ne' hAi.ne', Real.log_mul hui.ne' hk.ne', e]
        linear_combination (Real.log (kvB (kern M reg) v i h) - Real.log (A i h)) * hfi)
      (fun j => by
        have := fixed_log hreg hρ g hv hfix j h
        rwa [← hPd, ← hqd] at this)
      (hc.nonneg h) (fun i e j => hc.row h i e j) (fun j e i => hc.col j e h i)
  have hlin : ∑ h, w h * (ρ * ∑ j, (q' j - q j) * (1 - (∑ i, P h i j) / q j)) = 0 := by
    have : ∀ h, w h * (ρ * ∑ j, (q' j - q j) * (1 - (∑ i, P h i j) / q j)) = ∑ j, ρ * (q' j - q j) * (w h - (w h * ∑ i, P h i j) / q j) := fun h => by
      rw [mul_sum, mul_sum]
      exact sum_congr rfl fun j _ => by ring
    rw [sum_congr rfl fun h _ => this h, sum_comm]
    refine sum_eq_zero fun j _ => ?_
    rw [← mul_sum, sum_sub_distrib, ← sum_div, hw1, hsum j, div_self (hq j).ne']
    ring
  have n1 : ∀ h, 0 ≤ klPlan (P' h) (P h) := fun h => POT.EntBary.kl_nonneg' (fun x => hc.nonneg h _ _) (fun x => hP0 h _ _) fun x e => by
    refine hc.row h x.1 ?_ x.2
    have e' : P h x.1 x.2 = 0 := e
    rw [hPd] at e'
    rcases mul_eq_zero.1 e' with e' | e'
    · rcases mul_eq_zero.1 e' with e' | e'
      · exact (u_zero g hv _ _).1 e'
      · exact absurd e' (g.hK _ _).ne'
    · exact absurd e' (hv _ _).ne'
  have n2 : ∀ h, 0 ≤ klDivergence (fun i => ∑ j, P' h i j) (fun i => ∑ j, P h i j) := fun h =>
    POT.EntBary.kl_nonneg' (fun i => sum_nonneg fun j _ => hc.nonneg h i j) (fun i => sum_nonneg fun j _ => hP0 h i j) fun i e => by
      refine sum_eq_zero fun j _ => hc.row h i ?_ j
      have e' : ∑ j, P h i j = 0 := e
      rw [hPd, planB_row] at e'
      exact (u_zero g hv i h).1 ((mul_eq_zero.1 e').resolve_right (kv_pos g hv i h).ne')
  have hr : ∀ h j, 0 < (∑ i, P h i j) / q j := fun h j => div_pos (hcolp h j) (hq j)
  have n3 : ∀ h, 0 ≤ klDivergence (fun j => ∑ i, P' h i j) (fun j => q' j * ((∑ i, P h i j) / q j)) := fun h =>
    POT.EntBary.kl_nonneg' (fun j => sum_nonneg fun i _ => hc.nonneg h i j) (fun j => mul_nonneg (hc.bary j) (hr h j).le) fun j e => by
      exact sum_eq_zero fun i _ => hc.col j ((mul_eq_zero.1 e).resolve_right (hr h j).ne') h i
  have htot : unbBaryObjective A w M reg ρ q' P' = unbBaryObjective A w M reg ρ q P + ∑ h, w h * (reg * klPlan (P' h) (P h)
      + ρ * klDivergence (fun i => ∑ j, P' h i j) (fun i => ∑ j, P h i j) + ρ * klDivergence (fun j => ∑ i, P' h i j) (fun j => q' j * ((∑ i, P h i j) / q j))) := by
    unfold unbBaryObjective
    rw [← add_zero (_ + ∑ h, w h * (reg * klPlan (P' h) (P h) + _ + _)), ← hlin, ← sum_add_distrib, ← sum_add_distrib]
    refine sum_congr rfl fun h _ => ?_
    rw [hgap h]
    ring
  have hterm : ∀ h ∈ univ, 0 ≤ w h * (reg * klPlan (P' h) (P h)
      + ρ * klDivergence (fun i => ∑ j, P' h i j) (fun i => ∑ j, P h i j) + ρ * klDivergence (fun j => ∑ i, P' h i j) (fun j => q' j * ((∑ i, P h i j) / q j))) :=
    fun h _ => mul_nonneg (g.hw h).le (add_nonneg (add_nonneg (mul_nonneg hreg.le (n1 h)) (mul_nonneg hρ.le (n2 h))) (mul_nonneg hρ.le (n3 h)))
  have htot0 := sum_nonneg hterm
  refine ⟨by linarith, fun hle => ?_⟩
  have hz := (sum_eq_zero_iff_of_nonneg hterm).1 (le_antisymm (by linarith) htot0)
  have hz' : ∀ h, klPlan (P' h) (P h) ≤ 0 ∧ klDivergence (fun j => ∑ i, P' h i j) (fun j => q' j * ((∑ i, P h i j) / q j)) ≤ 0 := fun h => by
    have h0 := (mul_eq_zero.1 (hz h (mem_univ h))).resolve_left (g.hw h).ne'
    have m1 := mul_nonneg hreg.le (n1 h)
    have m2 := mul_nonneg hρ.le (n2 h)
    have m3 := mul_nonneg hρ.le (n3 h)
    exact ⟨nonpos_of_mul_nonpos_right (show reg * klPlan (P' h) (P h) ≤ 0 by linarith) hreg,
      nonpos_of_mul_nonpos_right (show ρ * klDivergence (fun j => ∑ i, P' h i j) (fun j => q' j * ((∑ i, P h i j) / q j)) ≤ 0 by linarith) hρ⟩
  have hPP : P' = P := by
    funext h i j
    have := POT.EntBary.kl_eq_zero' (p := fun x : I × J => P' h x.1 x.2) (q := fun x : I × J => P h x.1 x.2) (fun x => hc.nonneg h _ _) (fun x => hP0 h _ _) (fun x e => by
      refine hc.row h x.1 ?_ x.2
      have e' : P h x.1 x.2 = 0 := e
      rw [hPd] at e'
      rcases mul_eq_zero.1 e' with e' | e'
      · rcases mul_eq_zero.1 e' with e' | e'
        · exact (u_zero g hv _ _).1 e'
        · exact absurd e' (g.hK _ _).ne'
      · exact absurd e' (hv _ _).ne') (hz' h).1
    exact congrFun this (i, j)
  refine ⟨?_, hPP⟩
  funext j
  obtain ⟨h⟩ := ‹Nonempty H›
  have := congrFun (POT.EntBary.kl_eq_zero' (p := fun j => ∑ i, P' h i j) (q := fun j => q' j * ((∑ i, P h i j) / q j)) (fun j => sum_nonneg fun i _ => hc.nonneg h i j)
    (fun j => mul_nonneg (hc.bary j) (hr h j).le) (fun j e => sum_eq_zero fun i _ => hc.col j ((mul_eq_zero.1 e).resolve_right (hr h j).ne') h i) (hz' h).2) j
  simp only [hPP] at this
  have h1 := hcolp h j
  have h2 := hq j
  field_simp at this
  linarith

/-- the fixed point is unique -/
theorem fixed_unique [Nonempty H] [Nonempty J] {M : I → J → ℝ} {reg ρ : ℝ} (hreg : 0 < reg) (hρ : 0 < ρ) (g : Good A w (kern M reg) (fiB reg ρ)) (hw1 : ∑ h, w h = 1)
    {v v' : J → H → ℝ} (hv : ∀ j h, 0 < v j h) (hfix : next A w (kern M reg) (fiB reg ρ) v = v) (hv' : ∀ j h, 0 < v' j h) (hfix' : next A w (kern M reg) (fiB reg ρ) v' = v') : v' = v := by
  have h1 := fixed_bary hreg hρ g hw1 hv hfix
  have h2 := fixed_bary hreg hρ g hw1 hv' hfix'
  obtain ⟨e1, e2⟩ := (h1.2 _ _ h2.1).2 (h2.2 _ _ h1.1).1
  funext j h
  have l1 := fixed_log hreg hρ g hv hfix j h
  have l2 := fixed_log hreg hρ g hv' hfix' j h
  rw [e1, e2, ← l1] at l2
  exact Real.log_injOn_pos (hv' j h) (hv j h) (mul_left_cancel₀ hreg.ne' l2)

end iter

end POT.UnbBary
