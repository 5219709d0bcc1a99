import Verif.Model.Stochastic
import Verif.Spec.Stochastic
import Verif.Lemmas.Smooth
import Verif.Lemmas.SinkhornConv
import Verif.Lemmas.SinkhornOpt
import Mathlib.Analysis.SpecialFunctions.Pow.Real
import Mathlib.NumberTheory.Harmonic.Bounds

/-! # Lemmas about the stochastic solvers -/

set_option linter.unusedSectionVars false

namespace POT.Stoch

open Finset Spec

variable {I J : Type*} [Fintype I] [Fintype J]

/-- the normalisation of row `i` -/
noncomputable def zed (b : J → ℝ) (M : I → J → ℝ) (reg : ℝ) (beta : J → ℝ) (i : I) : ℝ := ∑ j, b j * Real.exp ((beta j - M i j) / reg)

/-- the conditional distribution of row `i` -/
noncomputable def chi (b : J → ℝ) (M : I → J → ℝ) (reg : ℝ) (beta : J → ℝ) (i : I) (j : J) : ℝ :=
  b j * Real.exp ((beta j - M i j) / reg) / zed b M reg beta i

/-- the term of row `i` in the semi-dual -/
noncomputable def rowTerm (b : J → ℝ) (M : I → J → ℝ) (reg : ℝ) (beta : J → ℝ) (i : I) : ℝ :=
  ∑ j, beta j * b j - reg * Real.log (zed b M reg beta i)

variable {a : I → ℝ} {b : J → ℝ} {M : I → J → ℝ} {reg : ℝ}

theorem zed_pos [Nonempty J] (hb : ∀ j, 0 < b j) (beta : J → ℝ) (i : I) : 0 < zed b M reg beta i :=
  sum_pos (fun j _ => mul_pos (hb j) (Real.exp_pos _)) univ_nonempty

theorem chi_nonneg [Nonempty J] (hb : ∀ j, 0 < b j) (beta : J → ℝ) (i : I) (j : J) : 0 ≤ chi b M reg beta i j :=
  div_nonneg (mul_pos (hb j) (Real.exp_pos _)).le (zed_pos hb beta i).le

theorem chi_sum [Nonempty J] (hb : ∀ j, 0 < b j) (beta : J → ℝ) (i : I) : ∑ j, chi b M reg beta i j = 1 := by
  unfold chi
  rw [← sum_div]
  exact div_self (zed_pos hb beta i).ne'

theorem coordGrad_eq (beta : J → ℝ) (i : I) (j : J) : coordGrad b M reg beta i j = b j - chi b M reg beta i j := by
  have e : ∀ j, Real.exp (-(M i j - beta j) / reg) * b j = b j * Real.exp ((beta j - M i j) / reg) := fun j => by
    rw [mul_comm]; congr 2; ring
  simp only [coordGrad, chi, zed, e]

theorem coordGrad_sq [Nonempty J] (hb : ∀ j, 0 < b j) (hB : ∑ j, b j = 1) (beta : J → ℝ) (i : I) :
    ∑ j, coordGrad b M reg beta i j ^ 2 ≤ 2 := by
  have hb1 : ∀ j, b j ≤ 1 := fun j => by rw [← hB]; exact single_le_sum (fun k _ => (hb k).le) (mem_univ j)
  have hc1 : ∀ j, chi b M reg beta i j ≤ 1 := fun j => by
    rw [← chi_sum (M := M) (reg := reg) hb beta i]; exact single_le_sum (fun k _ => chi_nonneg hb beta i k) (mem_univ j)
  calc ∑ j, coordGrad b M reg beta i j ^ 2 ≤ ∑ j, (b j + chi b M reg beta i j) := by
        refine sum_le_sum fun j _ => ?_
        rw [coordGrad_eq]
        have h0 := chi_nonneg (M := M) (reg := reg) hb beta i j
        nlinarith [hb j, hb1 j, hc1 j, mul_nonneg (hb j).le h0, mul_nonneg (hb j).le (sub_nonneg.2 (hb1 j)), mul_nonneg h0 (sub_nonneg.2 (hc1 j))]
    _ = 2 := by rw [sum_add_distrib, hB, chi_sum hb]; norm_num

/-- supergradient inequality for one row -/
theorem rowTerm_le [Nonempty J] (hreg : 0 < reg) (hb : ∀ j, 0 < b j) (beta beta' : J → ℝ) (i : I) :
    rowTerm b M reg beta' i ≤ rowTerm b M reg beta i + ∑ j, coordGrad b M reg beta i j * (beta' j - beta j) := by
  have hz := zed_pos (M := M) (reg := reg) hb beta i
  obtain ⟨c, hc⟩ : ∃ c, c = ∑ j, chi b M reg beta i j * ((beta' j - beta j) / reg) := ⟨_, rfl⟩
  have h1 : zed b M reg beta i * Real.exp c ≤ zed b M reg beta' i := by
    have e : zed b M reg beta' i = zed b M reg beta i * ∑ j, chi b M reg beta i j * Real.exp ((beta' j - beta j) / reg) := by
      unfold chi
      rw [mul_sum]
      conv_lhs => unfold zed
      refine sum_congr rfl fun j _ => ?_
      rw [show (beta' j - M i j) / reg = (beta j - M i j) / reg + (beta' j - beta j) / reg by ring, Real.exp_add]
      field_simp
    rw [e]
    refine mul_le_mul_of_nonneg_left ?_ hz.le
    have h2 : ∀ j, Real.exp c * (1 + ((beta' j - beta j) / reg - c)) ≤ Real.exp ((beta' j - beta j) / reg) := fun j => by
      have := Real.add_one_le_exp ((beta' j - beta j) / reg - c)
      have h3 : Real.exp ((beta' j - beta j) / reg) = Real.exp c * Real.exp ((beta' j - beta j) / reg - c) := by rw [← Real.exp_add]; ring_nf
      rw [h3]
      exact mul_le_mul_of_nonneg_left (by linarith) (Real.exp_pos c).le
    calc Real.exp c = ∑ j, chi b M reg beta i j * (Real.exp c * (1 + ((beta' j - beta j) / reg - c))) := by
          have : ∀ j, chi b M reg beta i j * (Real.exp c * (1 + ((beta' j - beta j) / reg - c))) =
              Real.exp c * (1 - c) * chi b M reg beta i j + Real.exp c * (chi b M reg beta i j * ((beta' j - beta j) / reg)) := fun j => by ring
          rw [sum_congr rfl fun j _ => this j, sum_add_distrib, ← mul_sum, ← mul_sum, chi_sum hb, ← hc]; ring
      _ ≤ _ := sum_le_sum fun j _ => mul_le_mul_of_nonneg_left (h2 j) (chi_nonneg hb beta i j)
  have h2 := Real.log_le_log (mul_pos hz (Real.exp_pos c)) h1
  rw [Real.log_mul hz.ne' (Real.exp_pos c).ne', Real.log_exp] at h2
  unfold rowTerm
  have h3 : ∑ j, coordGrad b M reg beta i j * (beta' j - beta j) = ∑ j, beta' j * b j - ∑ j, beta j * b j - reg * c := by
    rw [hc, mul_sum, ← sum_sub_distrib, ← sum_sub_distrib]
    refine sum_congr rfl fun j _ => ?_
    rw [coordGrad_eq]
    field_simp
  rw [h3]
  nlinarith [mul_le_mul_of_nonneg_left h2 hreg.le]

theorem semiDual_eq (beta : J → ℝ) : semiDual a b M reg beta = ∑ i, a i * rowTerm b M reg beta i := rfl

theorem semiDual_le [Nonempty J] (hreg : 0 < reg) (ha : ∀ i, 0 ≤ a i) (hb : ∀ j, 0 < b j) (beta beta' : J → ℝ) :
    semiDual a b M reg beta' ≤ semiDual a b M reg beta + ∑ j, (∑ i, a i * coordGrad b M reg beta i j) * (beta' j - beta j) := by
  rw [semiDual_eq, semiDual_eq]
  calc ∑ i, a i * rowTerm b M reg beta' i ≤ ∑ i, a i * (rowTerm b M reg beta i + ∑ j, coordGrad b M reg beta i j * (beta' j - beta j)) :=
        sum_le_sum fun i _ => mul_le_mul_of_nonneg_left (rowTerm_le hreg hb beta beta' i) (ha i)
    _ = _ := by
        simp only [mul_add, sum_add_distrib]
        congr 1
        simp only [mul_sum, sum_mul]
        rw [sum_comm]
        exact sum_congr rfl fun j _ => sum_congr rfl fun i _ => by ring

/-- concavity along a segment -/
theorem semiDual_concave [Nonempty J] (hreg : 0 < reg) (ha : ∀ i, 0 ≤ a i) (hb : ∀ j, 0 < b j) (x y : J → ℝ) (t : ℝ) (h0 : 0 ≤ t) (h1 : t ≤ 1) :
    t * semiDual a b M reg x + (1 - t) * semiDual a b M reg y ≤ semiDual a b M reg (fun j => t * x j + (1 - t) * y j) := by
  obtain ⟨z, hz⟩ : ∃ z : J → ℝ, z = fun j => t * x j + (1 - t) * y j := ⟨_, rfl⟩
  rw [← hz]
  obtain ⟨g, hg⟩ : ∃ g : J → ℝ, g = fun j => ∑ i, a i * coordGrad b M reg z i j := ⟨_, rfl⟩
  have hx := semiDual_le (M := M) hreg ha hb z x
  have hy := semiDual_le (M := M) hreg ha hb z y
  have e : t * ∑ j, (∑ i, a i * coordGrad b M reg z i j) * (x j - z j) + (1 - t) * ∑ j, (∑ i, a i * coordGrad b M reg z i j) * (y j - z j) = 0 := by
    rw [mul_sum, mul_sum, ← sum_add_distrib]
    refine sum_eq_zero fun j _ => ?_
    rw [hz]; ring
  have := add_le_add (mul_le_mul_of_nonneg_left hx h0) (mul_le_mul_of_nonneg_left hy (sub_nonneg.2 h1))
  nlinarith

theorem cTransform_eq [Nonempty J] (hreg : 0 < reg) (hb : ∀ j, 0 < b j) (beta : J → ℝ) (i : I) :
    cTransform b M reg beta i = -reg * Real.log (zed b M reg beta i) := by
  simp only [cTransform]
  obtain ⟨c, hc⟩ : ∃ c, c = minOf fun j => M i j - beta j := ⟨_, rfl⟩
  rw [← hc]
  have e : ∑ j, Real.exp (-(M i j - beta j - c) / reg) * b j = zed b M reg beta i * Real.exp (c / reg) := by
    unfold zed
    rw [sum_mul]
    refine sum_congr rfl fun j _ => ?_
    rw [show -(M i j - beta j - c) / reg = (beta j - M i j) / reg + c / reg by ring, Real.exp_add]; ring
  rw [e, Real.log_mul (zed_pos hb beta i).ne' (Real.exp_pos _).ne', Real.log_exp]
  field_simp
  ring

theorem semiPlan_eq [Nonempty J] (hreg : 0 < reg) (hb : ∀ j, 0 < b j) (beta : J → ℝ) (i : I) (j : J) :
    semiPlan a b M reg beta i j = a i * chi b M reg beta i j := by
  have hz := zed_pos (M := M) (reg := reg) hb beta i
  simp only [semiPlan]
  rw [cTransform_eq hreg hb]
  rw [show (-reg * Real.log (zed b M reg beta i) + beta j - M i j) / reg = (beta j - M i j) / reg - Real.log (zed b M reg beta i) by field_simp; ring,
    Real.exp_sub, Real.exp_log hz]
  unfold chi
  ring

/-- Fenchel inequality of one entry, relative entropy -/
theorem relScalar {reg x y c : ℝ} (hreg : 0 < reg) (hy : 0 ≤ y) (hc : 0 < c) :
    y * x - reg * (y * Real.log (y / c)) ≤ reg * (c * Real.exp (x / reg)) - reg * y ∧
    (reg * (c * Real.exp (x / reg)) - reg * y ≤ y * x - reg * (y * Real.log (y / c)) → y = c * Real.exp (x / reg)) := by
  have h := Smooth.klScalar (x := x + reg + reg * Real.log c) hreg hy
  have e1 : Real.exp ((x + reg + reg * Real.log c) / reg - 1) = c * Real.exp (x / reg) := by
    rw [show (x + reg + reg * Real.log c) / reg - 1 = Real.log c + x / reg by field_simp; ring, Real.exp_add, Real.exp_log hc]
  have e2 : y * (x + reg + reg * Real.log c) - reg * (y * Real.log y) = y * x - reg * (y * Real.log (y / c)) + reg * y := by
    rcases hy.eq_or_lt with h0 | h0
    · rw [← h0]; simp
    · rw [Real.log_div h0.ne' hc.ne']; ring
  rw [e1, e2] at h
  exact ⟨by linarith [h.1], fun h' => h.2 (by linarith)⟩

/-- Fenchel inequality of one entry, quadratic -/
theorem quadScalar {reg x y c : ℝ} (hreg : 0 < reg) (hy : 0 ≤ y) (hc : 0 < c) :
    y * x - reg * (y ^ 2 / c) + reg / c * (y - c * (1 / (2 * reg) * max x 0)) ^ 2 ≤ c * (1 / (4 * reg) * max x 0 ^ 2) := by
  have e : c * (1 / (4 * reg) * max x 0 ^ 2) = y * max x 0 - reg * (y ^ 2 / c) + reg / c * (y - c * (1 / (2 * reg) * max x 0)) ^ 2 := by
    field_simp; ring
  rw [e]
  nlinarith [mul_le_mul_of_nonneg_left (le_max_left x 0) hy]

/-! ### means over draws -/

section Mean

variable {N : ℕ}

theorem mean_zero (f : (Fin 0 → I) → ℝ) : mean 0 f = f (fun k => k.elim0) := by
  unfold mean
  rw [Fintype.sum_unique, pow_zero, div_one]
  congr 1

theorem mean_snoc [Nonempty I] (f : (Fin (N + 1) → I) → ℝ) :
    mean (N + 1) f = mean N fun ω => (∑ i, f (Fin.snoc (α := fun _ => I) ω i)) / Fintype.card I := by
  unfold mean
  have h : (Fintype.card I : ℝ) ≠ 0 := by exact_mod_cast Fintype.card_ne_zero
  rw [← sum_div, div_div, ← pow_succ']
  congr 1
  rw [← (Fin.snocEquiv (fun _ => I)).sum_comp, Fintype.sum_prod_type_right]
  exact sum_congr rfl fun ω _ => sum_congr rfl fun i _ => rfl

theorem mean_le {f g : (Fin N → I) → ℝ} (h : ∀ ω, f ω ≤ g ω) : mean N f ≤ mean N g :=
  div_le_div_of_nonneg_right (sum_le_sum fun ω _ => h ω) (by positivity)

theorem mean_const [Nonempty I] (c : ℝ) : mean (I := I) N (fun _ => c) = c := by
  unfold mean
  have h : (Fintype.card I : ℝ) ≠ 0 := by exact_mod_cast Fintype.card_ne_zero
  rw [sum_const, card_univ, Fintype.card_fun, Fintype.card_fin, nsmul_eq_mul]
  push_cast
  field_simp

theorem mean_add (f g : (Fin N → I) → ℝ) : mean N (fun ω => f ω + g ω) = mean N f + mean N g := by
  unfold mean; rw [sum_add_distrib, add_div]

theorem mean_sub (f g : (Fin N → I) → ℝ) : mean N (fun ω => f ω - g ω) = mean N f - mean N g := by
  unfold mean; rw [sum_sub_distrib, sub_div]

theorem mean_mul (c : ℝ) (f : (Fin N → I) → ℝ) : mean N (fun ω => c * f ω) = c * mean N f := by
  unfold mean; rw [← mul_sum, mul_div_assoc]

theorem ofFn_snoc (ω : Fin N → I) (i : I) : List.ofFn (Fin.snoc (α := fun _ => I) ω i) = List.ofFn ω ++ [i] := by
  rw [List.ofFn_succ', List.concat_eq_append]
  simp

end Mean

/-! ### averaged SGD -/

theorem asgd_snoc (b : J → ℝ) (M : I → J → ℝ) (reg lr : ℝ) (l : List I) (i : I) :
    asgd b M reg lr (l ++ [i]) = asgdStep b M reg lr (asgd b M reg lr l) i := by
  unfold asgd; rw [List.foldl_append]; rfl

theorem asgd_iter (b : J → ℝ) (M : I → J → ℝ) (reg lr : ℝ) (l : List I) : (asgd b M reg lr l).iter = l.length := by
  induction l using List.reverseRecOn with
  | nil => rfl
  | append_singleton l i ih => rw [asgd_snoc, List.length_append, List.length_singleton, ← ih]; rfl

section Rate

variable [Nonempty I] [Nonempty J]

/-- the uniform weights, which averaged SGD works with -/
noncomputable def unif (I : Type*) [Fintype I] : I → ℝ := fun _ => 1 / Fintype.card I

/-- squared distance to `z` -/
def sq (x z : J → ℝ) : ℝ := ∑ j, (x j - z j) ^ 2

/-- one step, averaged over the draw -/
theorem step_mean (hreg : 0 < reg) (hb : ∀ j, 0 < b j) (hB : ∑ j, b j = 1) (lr : ℝ) (hlr : 0 < lr) (s : Asgd J) (z : J → ℝ) :
    (∑ i : I, sq (asgdStep b M reg lr s i).cur z) / Fintype.card I ≤
      sq s.cur z - 2 * (lr / Real.sqrt (s.iter + 1)) * (semiDual (unif I) b M reg z - semiDual (unif I) b M reg s.cur) + 2 * (lr / Real.sqrt (s.iter + 1)) ^ 2 := by
  have hcard : (0 : ℝ) < Fintype.card I := by exact_mod_cast Fintype.card_pos
  obtain ⟨η, hη⟩ : ∃ η, η = lr / Real.sqrt (s.iter + 1) := ⟨_, rfl⟩
  have hη0 : 0 ≤ η := by rw [hη]; positivity
  rw [← hη]
  have h1 : ∀ i : I, sq (asgdStep b M reg lr s i).cur z ≤ sq s.cur z - 2 * η * (rowTerm b M reg z i - rowTerm b M reg s.cur i) + 2 * η ^ 2 := by
    intro i
    have e : sq (asgdStep b M reg lr s i).cur z = sq s.cur z - 2 * η * ∑ j, coordGrad b M reg s.cur i j * (z j - s.cur j) +
        η ^ 2 * ∑ j, coordGrad b M reg s.cur i j ^ 2 := by
      unfold sq
      rw [mul_sum, mul_sum, ← sum_sub_distrib, ← sum_add_distrib]
      refine sum_congr rfl fun j _ => ?_
      simp only [asgdStep, ← hη]
      ring
    rw [e]
    have h2 := rowTerm_le (M := M) hreg hb s.cur z i
    have h3 := coordGrad_sq (M := M) (reg := reg) hb hB s.cur i
    nlinarith [mul_le_mul_of_nonneg_left h2 hη0, mul_le_mul_of_nonneg_left h3 (sq_nonneg η)]
  rw [div_le_iff₀ hcard]
  refine (sum_le_sum fun i _ => h1 i).trans ?_
  have e : semiDual (unif I) b M reg z - semiDual (unif I) b M reg s.cur = (∑ i, (rowTerm b M reg z i - rowTerm b M reg s.cur i)) / Fintype.card I := by
    rw [semiDual_eq, semiDual_eq]
    unfold unif
    rw [← mul_sum, ← mul_sum, sum_sub_distrib]
    ring
  rw [e, sum_add_distrib, sum_sub_distrib, ← mul_sum, sum_const, sum_const, card_univ, nsmul_eq_mul, nsmul_eq_mul]
  refine le_of_eq ?_
  field_simp

/-- the quantities of the analysis -/
noncomputable def dT (b : J → ℝ) (M : I → J → ℝ) (reg lr : ℝ) (z : J → ℝ) (N : ℕ) : ℝ := mean (I := I) N fun ω => sq (asgd b M reg lr (List.ofFn ω)).cur z
noncomputable def gT (b : J → ℝ) (M : I → J → ℝ) (reg lr : ℝ) (z : J → ℝ) (N : ℕ) : ℝ :=
  mean (I := I) N fun ω => semiDual (unif I) b M reg z - semiDual (unif I) b M reg (asgd b M reg lr (List.ofFn ω)).cur
noncomputable def hT (b : J → ℝ) (M : I → J → ℝ) (reg lr : ℝ) (z : J → ℝ) (N : ℕ) : ℝ :=
  mean (I := I) N fun ω => semiDual (unif I) b M reg z - semiDual (unif I) b M reg (asgd b M reg lr (List.ofFn ω)).ave

theorem dT_step (hreg : 0 < reg) (hb : ∀ j, 0 < b j) (hB : ∑ j, b j = 1) (lr : ℝ) (hlr : 0 < lr) (z : J → ℝ) (N : ℕ) :
    dT b M reg lr z (N + 1) ≤ dT b M reg lr z N - 2 * (lr / Real.sqrt (N + 1)) * gT b M reg lr z N + 2 * (lr / Real.sqrt (N + 1)) ^ 2 := by
  unfold dT gT
  rw [mean_snoc, ← mean_mul, ← mean_sub, ← mean_const (I := I) (N := N) (2 * (lr / Real.sqrt (N + 1)) ^ 2), ← mean_add]
  refine mean_le fun ω => ?_
  simp only [ofFn_snoc, asgd_snoc]
  have := step_mean (M := M) hreg hb hB lr hlr (asgd b M reg lr (List.ofFn ω)) z
  rw [asgd_iter, List.length_ofFn] at this
  exact this

theorem hT_step (hreg : 0 < reg) (hb : ∀ j, 0 < b j) (lr : ℝ) (z : J → ℝ) (N : ℕ) :
    ((N + 1 : ℕ) : ℝ) * hT b M reg lr z (N + 1) ≤ gT b M reg lr z (N + 1) + N * hT b M reg lr z N := by
  unfold hT gT
  have hcard : (0 : ℝ) < Fintype.card I := by exact_mod_cast Fintype.card_pos
  rw [mean_snoc, mean_snoc, ← mean_mul, ← mean_mul, ← mean_add]
  refine mean_le fun ω => ?_
  simp only [ofFn_snoc, asgd_snoc]
  obtain ⟨s, hs⟩ : ∃ s, s = asgd b M reg lr (List.ofFn ω) := ⟨_, rfl⟩
  have hit : s.iter = N := by rw [hs, asgd_iter, List.length_ofFn]
  rw [← hs]
  obtain ⟨F, hF⟩ : ∃ F : (J → ℝ) → ℝ, F = semiDual (unif I) b M reg := ⟨_, rfl⟩
  rw [← hF]
  have h1 : ∀ i : I, ((N + 1 : ℕ) : ℝ) * (F z - F (asgdStep b M reg lr s i).ave) ≤ (F z - F (asgdStep b M reg lr s i).cur) + N * (F z - F s.ave) := by
    intro i
    have hk : (0 : ℝ) < N + 1 := by positivity
    have hc := semiDual_concave (M := M) (a := unif I) hreg (fun _ => by unfold unif; positivity) hb (asgdStep b M reg lr s i).cur s.ave (1 / (N + 1)) (by positivity)
      (by rw [div_le_one hk]; linarith [Nat.cast_nonneg (α := ℝ) N])
    rw [← hF] at hc
    have e : (asgdStep b M reg lr s i).ave = fun j => 1 / (N + 1) * (asgdStep b M reg lr s i).cur j + (1 - 1 / (N + 1)) * s.ave j := by
      simp only [asgdStep, hit]
    rw [← e] at hc
    have h2 := mul_le_mul_of_nonneg_left hc hk.le
    have e2 : ((N : ℝ) + 1) * (1 / (N + 1) * F (asgdStep b M reg lr s i).cur + (1 - 1 / (N + 1)) * F s.ave) = F (asgdStep b M reg lr s i).cur + N * F s.ave := by
      field_simp; ring
    rw [e2] at h2
    push_cast
    linarith
  have h2 := sum_le_sum fun i (_ : i ∈ (univ : Finset I)) => h1 i
  rw [sum_add_distrib, sum_const, card_univ, nsmul_eq_mul, ← mul_sum] at h2
  have h3 := div_le_div_of_nonneg_right h2 hcard.le
  rw [mul_div_assoc, add_div] at h3
  rw [mul_div_assoc (Fintype.card I : ℝ) _ _ ] at h3
  have e3 : (Fintype.card I : ℝ) * (↑N * (F z - F s.ave) / (Fintype.card I : ℝ)) = N * (F z - F s.ave) := by field_simp
  rw [e3] at h3
  exact h3

/-- Abel summation -/
theorem abel_sqrt (d : ℕ → ℝ) (D : ℝ) (N : ℕ) (hd : ∀ t, t ≤ N + 1 → d t ≤ D) :
    ∑ t ∈ range N, (d (t + 1) - d (t + 2)) * Real.sqrt ((t : ℝ) + 2) ≤ (D - d (N + 1)) * Real.sqrt ((N : ℝ) + 1) := by
  induction N with
  | zero => simp; exact hd 1 le_rfl
  | succ N ih =>
    rw [sum_range_succ]
    have h := ih fun t ht => hd t (by omega)
    have h1 : Real.sqrt ((N : ℝ) + 1) ≤ Real.sqrt ((N : ℝ) + 2) := Real.sqrt_le_sqrt (by linarith)
    have h2 := hd (N + 1) (by omega)
    push_cast
    rw [show (N : ℝ) + 1 + 1 = N + 2 by ring]
    nlinarith [mul_nonneg (sub_nonneg.2 h2) (sub_nonneg.2 h1)]

theorem sum_inv_sqrt (N : ℕ) : ∑ t ∈ range N, 1 / Real.sqrt ((t : ℝ) + 2) ≤ 2 * Real.sqrt ((N : ℝ) + 1) := by
  induction N with
  | zero => simp
  | succ N ih =>
    rw [sum_range_succ]
    push_cast
    rw [show (N : ℝ) + 1 + 1 = N + 2 by ring]
    obtain ⟨x, hx⟩ : ∃ x, x = Real.sqrt ((N : ℝ) + 1) := ⟨_, rfl⟩
    obtain ⟨y, hy⟩ : ∃ y, y = Real.sqrt ((N : ℝ) + 2) := ⟨_, rfl⟩
    have hx2 : x ^ 2 = N + 1 := by rw [hx]; exact Real.sq_sqrt (by positivity)
    have hy2 : y ^ 2 = N + 2 := by rw [hy]; exact Real.sq_sqrt (by positivity)
    have hyp : 0 < y := by rw [hy]; exact Real.sqrt_pos.2 (by positivity)
    have hxp : 0 ≤ x := by rw [hx]; positivity
    rw [← hx] at ih
    rw [← hy]
    have : 1 / y ≤ 2 * y - 2 * x := by
      rw [div_le_iff₀ hyp]
      nlinarith [sq_nonneg (y - x)]
    linarith

theorem dT_bound (hreg : 0 < reg) (hb : ∀ j, 0 < b j) (hB : ∑ j, b j = 1) (lr : ℝ) (hlr : 0 < lr) (z : J → ℝ)
    (hz : ∀ x, semiDual (unif I) b M reg x ≤ semiDual (unif I) b M reg z) (N : ℕ) :
    dT b M reg lr z N ≤ ∑ j, z j ^ 2 + 2 * lr ^ 2 * (harmonic N : ℝ) := by
  induction N with
  | zero =>
    unfold dT
    rw [mean_zero]
    simp [asgd, sq]
  | succ N ih =>
    have h := dT_step (M := M) hreg hb hB lr hlr z N
    have hg : 0 ≤ gT b M reg lr z N := by
      unfold gT
      rw [← mean_const (I := I) (N := N) 0]
      exact mean_le fun ω => sub_nonneg.2 (hz _)
    have hs : (lr / Real.sqrt ((N : ℝ) + 1)) ^ 2 = lr ^ 2 / (N + 1) := by
      rw [div_pow, Real.sq_sqrt (by positivity)]
    rw [hs] at h
    have hp : 0 ≤ 2 * (lr / Real.sqrt ((N : ℝ) + 1)) * gT b M reg lr z N := by positivity
    rw [harmonic_succ]
    push_cast
    have e : 2 * lr ^ 2 * ((harmonic N : ℝ) + ((N : ℝ) + 1)⁻¹) = 2 * lr ^ 2 * (harmonic N : ℝ) + 2 * (lr ^ 2 / (N + 1)) := by
      rw [div_eq_mul_inv]; ring
    rw [e]
    linarith

theorem hT_sum (hreg : 0 < reg) (hb : ∀ j, 0 < b j) (lr : ℝ) (z : J → ℝ) (N : ℕ) :
    (N : ℝ) * hT b M reg lr z N ≤ ∑ t ∈ range N, gT b M reg lr z (t + 1) := by
  induction N with
  | zero => simp
  | succ N ih =>
    rw [sum_range_succ]
    have := hT_step (M := M) hreg hb lr z N
    linarith

theorem hT_rate (hreg : 0 < reg) (hb : ∀ j, 0 < b j) (hB : ∑ j, b j = 1) (lr : ℝ) (hlr : 0 < lr) (z : J → ℝ)
    (hz : ∀ x, semiDual (unif I) b M reg x ≤ semiDual (unif I) b M reg z) (N : ℕ) (hN : 0 < N) :
    hT b M reg lr z N ≤ Real.sqrt (N + 1) / N * ((∑ j, z j ^ 2 + 2 * lr ^ 2 * (1 + Real.log (N + 1))) / (2 * lr) + 2 * lr) := by
  obtain ⟨D, hD⟩ : ∃ D, D = ∑ j, z j ^ 2 + 2 * lr ^ 2 * (1 + Real.log (N + 1)) := ⟨_, rfl⟩
  rw [← hD]
  have hdD : ∀ t, t ≤ N + 1 → dT b M reg lr z t ≤ D := by
    intro t ht
    refine (dT_bound hreg hb hB lr hlr z hz t).trans ?_
    rw [hD]
    have h1 : (harmonic t : ℝ) ≤ 1 + Real.log (N + 1) := by
      rcases Nat.eq_zero_or_pos t with h0 | h0
      · subst h0
        simp only [harmonic_zero, Rat.cast_zero]
        have : 0 ≤ Real.log ((N : ℝ) + 1) := Real.log_nonneg (by linarith [Nat.cast_nonneg (α := ℝ) N])
        linarith
      · refine (harmonic_le_one_add_log t).trans ?_
        have : Real.log t ≤ Real.log (N + 1) := Real.log_le_log (by exact_mod_cast h0) (by exact_mod_cast ht)
        linarith
    nlinarith [mul_le_mul_of_nonneg_left h1 (by positivity : (0 : ℝ) ≤ 2 * lr ^ 2)]
  have hg : ∀ t ∈ range N, gT b M reg lr z (t + 1) ≤
      1 / (2 * lr) * ((dT b M reg lr z (t + 1) - dT b M reg lr z (t + 2)) * Real.sqrt ((t : ℝ) + 2)) + lr * (1 / Real.sqrt ((t : ℝ) + 2)) := by
    intro t _
    have h := dT_step (M := M) hreg hb hB lr hlr z (t + 1)
    push_cast at h
    rw [show (t : ℝ) + 1 + 1 = t + 2 by ring] at h
    obtain ⟨y, hy⟩ : ∃ y, y = Real.sqrt ((t : ℝ) + 2) := ⟨_, rfl⟩
    have hyp : 0 < y := by rw [hy]; exact Real.sqrt_pos.2 (by positivity)
    rw [← hy] at h ⊢
    have h2 : 2 * (lr / y) * gT b M reg lr z (t + 1) ≤ dT b M reg lr z (t + 1) - dT b M reg lr z (t + 2) + 2 * (lr / y) ^ 2 := by linarith
    have h3 := mul_le_mul_of_nonneg_left h2 (by positivity : (0 : ℝ) ≤ y / (2 * lr))
    have e1 : y / (2 * lr) * (2 * (lr / y) * gT b M reg lr z (t + 1)) = gT b M reg lr z (t + 1) := by field_simp
    have e2 : y / (2 * lr) * (dT b M reg lr z (t + 1) - dT b M reg lr z (t + 2) + 2 * (lr / y) ^ 2) =
        1 / (2 * lr) * ((dT b M reg lr z (t + 1) - dT b M reg lr z (t + 2)) * y) + lr * (1 / y) := by field_simp
    rw [e1, e2] at h3
    exact h3
  have h1 := (hT_sum (M := M) hreg hb lr z N).trans (sum_le_sum hg)
  rw [sum_add_distrib, ← mul_sum, ← mul_sum] at h1
  have h2 := abel_sqrt (fun t => dT b M reg lr z t) D N hdD
  have h3 := sum_inv_sqrt N
  have hd0 : 0 ≤ dT b M reg lr z (N + 1) := by
    unfold dT
    rw [← mean_const (I := I) (N := N + 1) 0]
    exact mean_le fun ω => sum_nonneg fun j _ => sq_nonneg _
  have hsq : 0 ≤ Real.sqrt ((N : ℝ) + 1) := Real.sqrt_nonneg _
  have h4 : (N : ℝ) * hT b M reg lr z N ≤ Real.sqrt (N + 1) * (D / (2 * lr) + 2 * lr) := by
    have h5 : (D - dT b M reg lr z (N + 1)) * Real.sqrt ((N : ℝ) + 1) ≤ D * Real.sqrt ((N : ℝ) + 1) := by nlinarith
    have h6 := mul_le_mul_of_nonneg_left (h2.trans h5) (by positivity : (0 : ℝ) ≤ 1 / (2 * lr))
    have h7 := mul_le_mul_of_nonneg_left h3 hlr.le
    have e : Real.sqrt ((N : ℝ) + 1) * (D / (2 * lr) + 2 * lr) = 1 / (2 * lr) * (D * Real.sqrt ((N : ℝ) + 1)) + lr * (2 * Real.sqrt ((N : ℝ) + 1)) := by
      ring
    rw [e]
    linarith
  have hNp : (0 : ℝ) < N := by exact_mod_cast hN
  rw [div_mul_eq_mul_div, le_div_iff₀ hNp]
  linarith

end Rate

end POT.Stoch
