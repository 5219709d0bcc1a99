import Verif.Lemmas.Jcpot
import Mathlib.Analysis.Complex.ExponentialBounds
import Mathlib.Tactic.FinCases

/-! # C114: `jcpot_barycenter` -/

set_option linter.unusedSectionVars false

namespace POT.Props

open Finset Spec Classical POT.Jcpot

variable {Δ : Type*} {X : Δ → Type*} {C J : Type*} [Fintype Δ] [∀ d, Fintype (X d)] [Fintype C] [Fintype J]
variable {ℓ : ∀ d, X d → C} {M : ∀ d, X d → J → ℝ} {reg : ℝ}

/-- The estimate is a strictly positive probability vector, for every budget of at least one iteration and every threshold, if every domain has a sample of every class. -/
theorem C114_simplex [Nonempty J] [Nonempty C] (hℓ : ∀ d c, ∃ i, ℓ d i = c) {N : ℕ} (hN : 0 < N) (thr : ℝ) :
    ∃ h, estimate ℓ M reg N thr = some h ∧ (∀ c, 0 < h c) ∧ ∑ c, h c = 1 := by
  obtain ⟨m, -, h2, -⟩ := loop_eq (ℓ := ℓ) thr N (kernels M reg) (fun _ => 1) hN
  have hp := Jcpot.iter_pos hℓ (K := kernels M reg) (fun _ _ _ => Real.exp_pos _) m
  have hb : ∀ c, 0 < (run ℓ M reg N thr).2 c := by
    intro c
    unfold run
    rw [h2]
    exact baryOf_pos (fun d i j => (hp d i j).le) (fun d i _ j => hp d i j) fun d => hℓ d c
  have hs : 0 < ∑ c, (run ℓ M reg N thr).2 c := sum_pos (fun c _ => hb c) univ_nonempty
  refine ⟨_, if_neg hN.ne', fun c => div_pos (hb c) hs, ?_⟩
  rw [← sum_div, div_self hs.ne']

/-- Without iterations the call fails. -/
theorem C114_zero_iterations_refuted (thr : ℝ) : estimate ℓ M reg 0 thr = none := rfl

/-- A class without samples in *one* source domain is estimated to be absent from the target, whatever the data (some other class being present everywhere, so that the result is a number). -/
theorem C114_missing_class_refuted [Nonempty J] {c c' : C} {d : Δ} (hc : ∀ i, ℓ d i ≠ c) (hc' : ∀ d, ∃ i, ℓ d i = c') {N : ℕ} (hN : 0 < N) (thr : ℝ) :
    ∃ h, estimate ℓ M reg N thr = some h ∧ h c = 0 ∧ 0 < h c' ∧ ∑ c, h c = 1 := by
  obtain ⟨m, -, h2, -⟩ := loop_eq (ℓ := ℓ) thr N (kernels M reg) (fun _ => 1) hN
  have hk : ∀ d i j, 0 ≤ kernels M reg d i j := fun _ _ _ => (Real.exp_pos _).le
  have e : (run ℓ M reg N thr).2 = baryOf ℓ ((step ℓ)^[m] (kernels M reg)) := by unfold run; rw [h2]
  have h1 : (run ℓ M reg N thr).2 c = 0 := by rw [e]; exact baryOf_absent hc
  have h3 : 0 < (run ℓ M reg N thr).2 c' := by
    rw [e]
    exact baryOf_pos (iter_nonneg hk m) (iter_posAt hk (fun _ _ _ _ => Real.exp_pos _) hc' m) hc'
  have hs : 0 < ∑ c, (run ℓ M reg N thr).2 c := sum_pos' (fun c _ => by rw [e]; exact baryOf_nonneg c) ⟨c', mem_univ _, h3⟩
  refine ⟨_, if_neg hN.ne', by rw [h1, zero_div], div_pos h3 hs, ?_⟩
  rw [← sum_div, div_self hs.ne']

/-- The plans in the log: in every domain their class totals are the returned proportions, up to a common factor at most `1` (no row sum below the constant `1e-10` of the projection in the last iteration). -/
theorem C114_plans [Nonempty J] [Nonempty Δ] [Nonempty C] (hℓ : ∀ d c, ∃ i, ℓ d i = c) {N : ℕ} (hN : 0 < N) (thr : ℝ)
    (hg : ∀ m < N, ∀ d i, 1 / 10 ^ 10 ≤ ∑ j, Unmix.projC (((step ℓ)^[m] (kernels M reg)) d) target i j) :
    ∃ h s, estimate ℓ M reg N thr = some h ∧ 0 < s ∧ s ≤ 1 ∧ (∀ d c, (∑ i, if ℓ d i = c then ∑ j, (run ℓ M reg N thr).1 d i j else 0) = s * h c) ∧
      ∀ d i, ∑ j, (run ℓ M reg N thr).1 d i j = s * spreadProportions (ℓ d) h i := by
  obtain ⟨m, hm, h2, -⟩ := loop_eq (ℓ := ℓ) thr N (kernels M reg) (fun _ => 1) hN
  have hp := Jcpot.iter_pos hℓ (K := kernels M reg) (fun _ _ _ => Real.exp_pos _) m
  have e : (run ℓ M reg N thr).2 = baryOf ℓ ((step ℓ)^[m] (kernels M reg)) := by unfold run; rw [h2]
  have e1 : (run ℓ M reg N thr).1 = step ℓ ((step ℓ)^[m] (kernels M reg)) := by unfold run; rw [h2, Function.iterate_succ_apply']
  have hb : ∀ c, 0 < (run ℓ M reg N thr).2 c := by
    intro c
    rw [e]
    exact baryOf_pos (fun d i j => (hp d i j).le) (fun d i _ j => hp d i j) fun d => hℓ d c
  have hs : 0 < ∑ c, (run ℓ M reg N thr).2 c := sum_pos (fun c _ => hb c) univ_nonempty
  have hr : ∀ d i, ∑ j, (run ℓ M reg N thr).1 d i j = spread (ℓ d) (run ℓ M reg N thr).2 i := by
    intro d i
    rw [e1, e]
    exact rows_projR (hg m hm d i)
  refine ⟨_, _, if_neg hN.ne', hs, ?_, fun d c => ?_, fun d i => ?_⟩
  · rw [e]
    exact baryOf_sum_le fun d i j => (hp d i j).le
  · simp only [hr]
    rw [mul_div_cancel₀ _ hs.ne']
    exact classSum_spread (hℓ d c)
  · rw [hr]
    unfold spread spreadProportions
    field_simp

/-- When the iteration is stationary (the row sums of the projected plans are already the spread proportions), every plan is the unique entropic optimal plan between the spread proportions and the uniform target weights. -/
theorem C114_stationary_plans [Nonempty J] (hℓ : ∀ d c, ∃ i, ℓ d i = c) (hreg : 0 < reg) (n : ℕ)
    (hg : ∀ m < n, ∀ d i, 1 / 10 ^ 10 ≤ ∑ j, Unmix.projC (((step ℓ)^[m] (kernels M reg)) d) target i j)
    (hc : ∀ d j, 1 / 10 ^ 10 ≤ ∑ i, ((step ℓ)^[n] (kernels M reg)) d i j)
    (hag : ∀ d i, ∑ j, Unmix.projC (((step ℓ)^[n] (kernels M reg)) d) target i j = spreadProportions (ℓ d) (baryOf ℓ ((step ℓ)^[n] (kernels M reg))) i) (d : Δ) :
    IsEntropicOptimal (spreadProportions (ℓ d) (baryOf ℓ ((step ℓ)^[n] (kernels M reg)))) (fun _ : J => 1 / (Fintype.card J : ℝ)) (M d) reg
      (Unmix.projC (((step ℓ)^[n] (kernels M reg)) d) target) := by
  obtain ⟨x, hx⟩ := iter_scaled hℓ n hg
  obtain ⟨y, hy⟩ := hx d
  have hp := Jcpot.iter_pos hℓ (K := kernels M reg) (fun _ _ _ => Real.exp_pos _) n
  have hpp := Unmix.projC_pos (hp d) (target_pos (J := J))
  refine Sinkhorn.optimal_of_form hreg (x := x d) (y := fun j => y j + (Real.log ((target : J → ℝ) j) - Real.log (max (Unmix.cols (((step ℓ)^[n] (kernels M reg)) d) j) Unmix.guard)))
    ⟨fun i j => (hpp i j).le, hag d, fun j => Unmix.cols_projC_eq (hc d j)⟩ hpp fun i j => ?_
  rw [Unmix.log_projC (hp d) (target_pos (J := J)), hy]
  ring

/-- One sample per class in every domain: at a stationary iterate the proportions minimise the documented objective. -/
theorem C114_stationary_optimal_partial [Nonempty J] [Nonempty Δ] (hbij : ∀ d, Function.Bijective (ℓ d)) (hreg : 0 < reg) (n : ℕ)
    (hg : ∀ m < n, ∀ d i, 1 / 10 ^ 10 ≤ ∑ j, Unmix.projC (((step ℓ)^[m] (kernels M reg)) d) target i j)
    (hc : ∀ d j, 1 / 10 ^ 10 ≤ ∑ i, ((step ℓ)^[n] (kernels M reg)) d i j)
    (hag : ∀ d i, ∑ j, Unmix.projC (((step ℓ)^[n] (kernels M reg)) d) target i j = spreadProportions (ℓ d) (baryOf ℓ ((step ℓ)^[n] (kernels M reg))) i) :
    IsProportions ℓ M (fun _ : J => 1 / (Fintype.card J : ℝ)) reg (baryOf ℓ ((step ℓ)^[n] (kernels M reg))) := by
  obtain ⟨x, hx, hb⟩ := iter_balanced hbij n hg
  exact optimal_of_balanced hbij hreg (Jcpot.iter_pos (fun d => (hbij d).2) (K := kernels M reg) (fun _ _ _ => Real.exp_pos _) n) hx hb hc hag

/-- Stopping: the returned vector is the normalised vector of some iteration `m + 1 ≤ numItermax`; either the budget is used up, or the last change was below the threshold (from the vector of ones in the first iteration); no earlier change was. -/
theorem C114_stop {N : ℕ} (hN : 0 < N) (thr : ℝ) : ∃ m < N, ∃ b : ℕ → C → ℝ, (∀ r, b r = baryOf ℓ ((step ℓ)^[r] (kernels M reg))) ∧
    estimate ℓ M reg N thr = some (fun c => b m c / ∑ c', b m c') ∧
    (∀ r, r + 1 < m → thr ≤ norm2 fun c => b (r + 1) c - b r c) ∧ (0 < m → thr ≤ norm2 fun c => b 0 c - 1) ∧
    (m + 1 = N ∨ (m = 0 ∧ norm2 (fun c => b 0 c - 1) < thr) ∨ ∃ r, m = r + 1 ∧ norm2 (fun c => b (r + 1) c - b r c) < thr) := by
  obtain ⟨m, h1, h2, h3, h4, h5⟩ := loop_eq (ℓ := ℓ) thr N (kernels M reg) (fun _ => 1) hN
  refine ⟨m, h1, fun r => baryOf ℓ ((step ℓ)^[r] (kernels M reg)), fun r => rfl, ?_, h3, h4, h5⟩
  unfold estimate run
  rw [if_neg hN.ne', h2]

/-! ### Labels -/

theorem minLabel_add {X : Type*} [Fintype X] [Nonempty X] (y : X → ℤ) (k : ℤ) : minLabel (fun i => y i + k) = minLabel y + k := by
  unfold minLabel
  refine le_antisymm ?_ ?_
  · obtain ⟨i, hi, h⟩ := exists_mem_eq_inf' (univ_nonempty (α := X)) y
    rw [h]
    exact inf'_le _ hi
  · refine le_inf' _ _ fun i hi => ?_
    have := inf'_le y hi
    linarith

theorem shifted_eq {X : Type*} [Fintype X] [Nonempty X] (y : X → ℤ) : shifted y = fun i => y i - minLabel y := by
  unfold shifted
  split_ifs with h
  · rfl
  · push Not at h
    simp [h]

/-- Labels are aligned by the minimum of *each domain*: adding a constant to the labels of single domains does not change the result. (So samples labelled `1` in a domain without class `0` are taken for class `0`.) -/
theorem C114_labels_refuted [∀ d, Nonempty (X d)] (d₀ : Δ) (y : ∀ d, X d → ℤ) (k : Δ → ℤ) (M : ∀ d, X d → J → ℝ) (reg : ℝ) (N : ℕ) (thr : ℝ) :
    jcpot d₀ (fun d i => y d i + k d) M reg N thr = jcpot d₀ y M reg N thr := by
  have h1 : ∀ d, shifted (fun i => y d i + k d) = shifted (y d) := fun d => by
    rw [shifted_eq, shifted_eq]
    funext i
    rw [minLabel_add]
    ring
  have h2 : nbClasses (fun i => y d₀ i + k d₀) = nbClasses (y d₀) := by
    unfold nbClasses
    have : (univ.image fun i => y d₀ i + k d₀) = (univ.image (y d₀)).image (fun z => z + k d₀) := by
      rw [image_image]; rfl
    rw [this, card_image_of_injective _ (add_left_injective _)]
  have h3 : ∀ nb d, classIndex nb (fun i => y d i + k d) = classIndex nb (y d) := fun nb d => by
    unfold classIndex
    simp only [h1]
  unfold jcpot
  rw [h2]
  congr 1
  unfold jcpotWith
  simp only [h3]

/-- The caller's label arrays are modified: after the call their minimum is `0`; they are unchanged only if it was `0` before. -/
theorem C114_mutation_refuted {X : Type*} [Fintype X] [Nonempty X] (y : X → ℤ) : minLabel (shifted y) = 0 ∧ (shifted y = y ↔ minLabel y = 0) := by
  refine ⟨?_, fun h => ?_, fun h => ?_⟩
  · rw [shifted_eq]
    have := minLabel_add y (-minLabel y)
    simp only [← sub_eq_add_neg, sub_self] at this
    exact this
  · rw [shifted_eq] at h
    have := congrFun h (Classical.arbitrary X)
    linarith
  · unfold shifted
    rw [if_neg (not_not.2 h)]

/-- The call succeeds iff there is an iteration and, in every domain, the labels span less than the number of distinct labels of the *first* domain. -/
theorem C114_success [∀ d, Nonempty (X d)] (d₀ : Δ) (y : ∀ d, X d → ℤ) (M : ∀ d, X d → J → ℝ) (reg : ℝ) (N : ℕ) (thr : ℝ) :
    (jcpot d₀ y M reg N thr).isSome ↔ 0 < N ∧ ∀ d i i', y d i - y d i' < (univ.image (y d₀)).card := by
  have h1 : ∀ nb d, (classIndex nb (y d)).isSome ↔ ∀ i, (shifted (y d) i).toNat < nb := by
    intro nb d
    unfold classIndex
    split_ifs with h
    · simpa using h
    · simpa using h
  have h2 : (jcpot d₀ y M reg N thr).isSome ↔ 0 < N ∧ ∀ d, (classIndex (nbClasses (y d₀)) (y d)).isSome := by
    unfold jcpot jcpotWith estimate
    by_cases h : ∀ d, (classIndex (nbClasses (y d₀)) (y d)).isSome
    · rw [dif_pos h]
      by_cases hN : N = 0
      · simp [hN]
      · rw [if_neg hN]
        simp [h, Nat.pos_of_ne_zero hN]
    · rw [dif_neg h]
      simp [h]
  rw [h2]
  refine and_congr_right fun _ => forall_congr' fun d => (h1 _ d).trans ?_
  rw [shifted_eq]
  beta_reduce
  constructor
  · intro h i i'
    have h3 := h i
    have h4 : minLabel (y d) ≤ y d i' := inf'_le _ (mem_univ i')
    unfold nbClasses at h3
    omega
  · intro h i
    obtain ⟨i', -, h3⟩ := exists_mem_eq_inf' (univ_nonempty (α := X d)) (y d)
    have h4 := h i i'
    have h5 : minLabel (y d) = y d i' := h3
    have h6 : minLabel (y d) ≤ y d i := inf'_le _ (mem_univ i)
    have h7 : 0 < (univ.image (y d₀)).card := card_pos.2 (univ_nonempty.image _)
    unfold nbClasses
    omega

/-! ### The documented problem is not solved -/

/-- all plans equal to one column `p` -/
theorem baryOf_column {X : Type*} [Fintype X] [Nonempty Δ] {ℓ : X → C} {p : X → ℝ} (hp : ∀ i, 0 < p i) (hS : Unmix.guard ≤ ∑ i, p i) {c : C} (hc : ∃ i, ℓ i = c) :
    baryOf (fun _ : Δ => ℓ) (fun _ i (_ : Fin 1) => p i) c = classSum ℓ p c / ∑ i, p i := by
  have hr : ∀ i, Unmix.rows (Unmix.projC (fun i (_ : Fin 1) => p i) target) i = p i / ∑ i, p i := by
    intro i
    unfold Unmix.rows
    rw [Fin.sum_univ_one]
    change p i * (1 / ((Fintype.card (Fin 1) : ℕ) : ℝ)) / max (∑ i, p i) Unmix.guard = _
    rw [max_eq_left hS]
    simp
  have hcs : ∀ w : X → ℝ, classSum ℓ (fun i => w i / ∑ i, p i) c = classSum ℓ w c / ∑ i, p i := by
    intro w
    unfold classSum
    rw [sum_div]
    exact sum_congr rfl fun i _ => by split_ifs; exacts [rfl, (zero_div _).symm]
  obtain ⟨i, hi⟩ := hc
  have hpos : 0 < classSum ℓ p c / ∑ i, p i := div_pos (classSum_pos (fun i => (hp i).le) ⟨i, hi, hp i⟩) (Unmix.guard_pos.trans_le hS)
  rw [baryOf_eq (fun _ i _ => (hp i).le) (fun _ i _ _ => hp i) (fun _ => ⟨i, hi⟩), funext hr, hcs p, sum_const, card_univ, nsmul_eq_mul,
    mul_div_cancel₀ _ (Nat.cast_ne_zero.2 Fintype.card_ne_zero), Real.exp_log hpos]

/-- classes `0, 0, 1` -/
def jcpotLabels : Fin 3 → Fin 2 := ![0, 0, 1]

/-- costs `0, 2, 0` to a single target sample -/
noncomputable def jcpotCost : Fin 3 → Fin 1 → ℝ := fun i _ => ![0, 2, 0] i

theorem classSum_jcpotLabels (p : Fin 3 → ℝ) : classSum jcpotLabels p 0 = p 0 + p 1 ∧ classSum jcpotLabels p 1 = p 2 := by
  unfold classSum jcpotLabels
  constructor <;> simp [Fin.sum_univ_three]

theorem spread_jcpotLabels (h : Fin 2 → ℝ) : spread jcpotLabels h 0 = h 0 / 2 ∧ spread jcpotLabels h 1 = h 0 / 2 ∧ spread jcpotLabels h 2 = h 1 := by
  have c0 : (univ.filter fun i' : Fin 3 => jcpotLabels i' = 0) = {0, 1} := by decide
  have c1 : (univ.filter fun i' : Fin 3 => jcpotLabels i' = 1) = {2} := by decide
  have e0 : jcpotLabels 0 = 0 := rfl
  have e1 : jcpotLabels 1 = 0 := rfl
  have e2 : jcpotLabels 2 = 1 := rfl
  have k0 : ((univ.filter fun i' : Fin 3 => jcpotLabels i' = 0).card : ℝ) = 2 := by
    rw [c0]; norm_num
  have k1 : ((univ.filter fun i' : Fin 3 => jcpotLabels i' = 1).card : ℝ) = 1 := by
    rw [c1]; norm_num
  refine ⟨?_, ?_, ?_⟩
  · unfold spread; rw [e0]; convert congrArg (h 0 / ·) k0
  · unfold spread; rw [e1]; convert congrArg (h 0 / ·) k0
  · unfold spread; rw [e2]
    refine Eq.trans ?_ (div_one (h 1))
    convert congrArg (h 1 / ·) k1

/-- the documented objective for one target sample -/
theorem jcpot_objective {h : Fin 2 → ℝ} (hp : ∀ c, 0 < h c) (hs : h 0 + h 1 = 1) {P : Fin 3 → Fin 1 → ℝ} (hP : IsCoupling (spreadProportions jcpotLabels h) (fun _ : Fin 1 => 1 / (Fintype.card (Fin 1) : ℝ)) P) :
    entropicObjective jcpotCost 1 P = klDivergence h ![2 / (Real.exp 1 + 2), Real.exp 1 / (Real.exp 1 + 2)] + 1 - Real.log (Real.exp 1 + 2) := by
  have hr : ∀ i, P i 0 = spread jcpotLabels h i := fun i => by
    have := hP.row i
    rw [Fin.sum_univ_one] at this
    exact this
  obtain ⟨s0, s1, s2⟩ := spread_jcpotLabels h
  have e := Real.exp_pos 1
  have p0 := hp 0
  have p1 := hp 1
  unfold entropicObjective cost klDivergence jcpotCost
  simp only [Fin.sum_univ_three, Fin.sum_univ_one, Fin.sum_univ_two, hr, s0, s1, s2]
  simp only [Matrix.cons_val_zero, Matrix.cons_val_one, Matrix.cons_val_two]
  have hz : Matrix.vecHead (Matrix.vecTail (![(2 : ℝ), 0] : Fin 2 → ℝ)) = 0 := rfl
  rw [hz]
  rw [Real.log_div p0.ne' two_ne_zero, Real.log_div p0.ne' (by positivity), Real.log_div p1.ne' (by positivity), Real.log_div two_ne_zero (by positivity),
    Real.log_div e.ne' (by positivity), Real.log_exp]
  have hd : 2 / (Real.exp 1 + 2) + Real.exp 1 / (Real.exp 1 + 2) = 1 := by field_simp; ring
  linear_combination (1 - Real.log (Real.exp 1 + 2)) * hs - hd + hs

/-- Two identical source domains with samples of classes `0, 0, 1` at costs `0, 2, 0` from a single target sample, `reg = 1`: for every budget and threshold the result is a fixed vector that is *not* a minimiser of the documented objective. (The class total is an arithmetic mean over the samples of a class where the minimiser needs a geometric one.) -/
theorem C114_argmin_refuted {N : ℕ} (hN : 0 < N) (thr : ℝ) :
    ∃ h : Fin 2 → ℝ, estimate (fun _ : Fin 2 => jcpotLabels) (fun _ => jcpotCost) 1 N thr = some h ∧ ¬ IsProportions (fun _ : Fin 2 => jcpotLabels) (fun _ => jcpotCost) (fun _ : Fin 1 => 1 / (Fintype.card (Fin 1) : ℝ)) 1 h := by
  obtain ⟨t, ht⟩ : ∃ t, t = Real.exp (-1) := ⟨_, rfl⟩
  have ht0 : 0 < t := by rw [ht]; exact Real.exp_pos _
  have ht1 : t < 1 := by rw [ht]; exact Real.exp_lt_one_iff.2 (by norm_num)
  have ht2 : Real.exp (-2) = t ^ 2 := by rw [ht, ← Real.exp_nat_mul]; norm_num
  have hte : Real.exp 1 = t⁻¹ := by rw [ht, Real.exp_neg, inv_inv]
  have htg : (1 / 10 : ℝ) ≤ t := by
    rw [ht, Real.exp_neg, one_div]
    exact inv_anti₀ (Real.exp_pos _) (Real.exp_one_lt_d9.le.trans (by norm_num))
  have hsurj : ∀ c : Fin 2, ∃ i, jcpotLabels i = c := by decide
  obtain ⟨v, hv⟩ : ∃ v : Fin 2 → ℝ, v = ![(1 + t ^ 2) / (2 + t ^ 2), 1 / (2 + t ^ 2)] := ⟨_, rfl⟩
  have v0 : v 0 = (1 + t ^ 2) / (2 + t ^ 2) := by rw [hv]; rfl
  have v1 : v 1 = 1 / (2 + t ^ 2) := by rw [hv]; rfl
  have vs : v 0 + v 1 = 1 := by rw [v0, v1]; field_simp; ring
  have vp : ∀ c, 0 < v c := by
    intro c
    fin_cases c
    · change 0 < v 0; rw [v0]; positivity
    · change 0 < v 1; rw [v1]; positivity
  have gsmall : Unmix.guard ≤ 1 := by unfold Unmix.guard; norm_num
  -- a column whose class totals are proportional to `v`
  have hbary : ∀ p : Fin 3 → ℝ, (∀ i, 0 < p i) → Unmix.guard ≤ ∑ i, p i → p 0 + p 1 = v 0 * ∑ i, p i → p 2 = v 1 * ∑ i, p i →
      baryOf (fun _ : Fin 2 => jcpotLabels) (fun _ i (_ : Fin 1) => p i) = v := by
    intro p hp hS h0 h1
    obtain ⟨c0, c1⟩ := classSum_jcpotLabels p
    have hS' := (Unmix.guard_pos.trans_le hS).ne'
    funext c
    rw [baryOf_column hp hS (hsurj c)]
    fin_cases c
    · change classSum jcpotLabels p 0 / _ = v 0
      rw [c0, h0]; field_simp
    · change classSum jcpotLabels p 1 / _ = v 1
      rw [c1, h1]; field_simp
  have hstep : ∀ p : Fin 3 → ℝ, (∀ i, 0 < p i) → Unmix.guard ≤ ∑ i, p i → (∀ i, Unmix.guard ≤ p i / ∑ i, p i) → p 0 + p 1 = v 0 * ∑ i, p i → p 2 = v 1 * ∑ i, p i →
      step (fun _ : Fin 2 => jcpotLabels) (fun _ i (_ : Fin 1) => p i) = fun _ i (_ : Fin 1) => spread jcpotLabels v i := by
    intro p hp hS hg h0 h1
    funext d i j
    have hr : ∀ i, Unmix.rows (Unmix.projC (fun i (_ : Fin 1) => p i) target) i = p i / ∑ i, p i := by
      intro i
      unfold Unmix.rows
      rw [Fin.sum_univ_one]
      change p i * (1 / ((Fintype.card (Fin 1) : ℕ) : ℝ)) / max (∑ i, p i) Unmix.guard = _
      rw [max_eq_left hS]
      simp
    unfold step
    rw [hbary p hp hS h0 h1]
    have := rows_projR (G := Unmix.projC (fun i (_ : Fin 1) => p i) target) (p := spread jcpotLabels v) (i := i) (by rw [hr]; exact hg i)
    unfold Unmix.rows at this
    rw [Fin.sum_univ_one] at this
    rw [Subsingleton.elim j 0]
    exact this
  have hk : kernels (fun _ : Fin 2 => jcpotCost) 1 = fun _ i (_ : Fin 1) => ![1, t ^ 2, 1] i := by
    funext d i j
    unfold kernels jcpotCost
    fin_cases i
    · simp
    · simp [ht2]
    · simp
  obtain ⟨s0, s1, s2⟩ := spread_jcpotLabels v
  have hall : ∀ m, baryOf (fun _ : Fin 2 => jcpotLabels) ((step (fun _ : Fin 2 => jcpotLabels))^[m] (kernels (fun _ : Fin 2 => jcpotCost) 1)) = v := by
    have hp0 : ∀ i : Fin 3, 0 < (![1, t ^ 2, 1] : Fin 3 → ℝ) i := by
      intro i; fin_cases i <;> simp [ht0]
    have hS0 : ∑ i : Fin 3, (![1, t ^ 2, 1] : Fin 3 → ℝ) i = 2 + t ^ 2 := by simp [Fin.sum_univ_three]; ring
    have hq0 : (![1, t ^ 2, 1] : Fin 3 → ℝ) 0 + (![1, t ^ 2, 1] : Fin 3 → ℝ) 1 = v 0 * ∑ i : Fin 3, (![1, t ^ 2, 1] : Fin 3 → ℝ) i := by
      rw [hS0, v0]; simp; field_simp
    have hq1 : (![1, t ^ 2, 1] : Fin 3 → ℝ) 2 = v 1 * ∑ i : Fin 3, (![1, t ^ 2, 1] : Fin 3 → ℝ) i := by
      rw [hS0, v1]; simp; field_simp
    have hg0 : Unmix.guard ≤ ∑ i : Fin 3, (![1, t ^ 2, 1] : Fin 3 → ℝ) i := by
      rw [hS0]
      have := sq_nonneg t
      linarith
    have hsp : ∀ i, 0 < spread jcpotLabels v i := fun i => spread_pos (vp _)
    have hSs : ∑ i, spread jcpotLabels v i = 1 := by rw [Fin.sum_univ_three, s0, s1, s2]; linarith
    have b0 : Unmix.guard ≤ v 0 / 2 := by
      rw [v0, div_div, le_div_iff₀ (by positivity)]
      unfold Unmix.guard
      nlinarith
    have b1 : Unmix.guard ≤ v 1 := by
      rw [v1, le_div_iff₀ (by positivity)]
      unfold Unmix.guard
      nlinarith
    have hfix : ∀ m, (step (fun _ : Fin 2 => jcpotLabels))^[m + 1] (kernels (fun _ : Fin 2 => jcpotCost) 1) = fun _ i (_ : Fin 1) => spread jcpotLabels v i := by
      intro m
      induction m with
      | zero =>
        rw [Function.iterate_succ_apply', Function.iterate_zero, id, hk]
        refine hstep _ hp0 hg0 (fun i => ?_) hq0 hq1
        rw [hS0, le_div_iff₀ (by positivity)]
        have hb : Unmix.guard * (2 + t ^ 2) ≤ t ^ 2 := by
          unfold Unmix.guard
          nlinarith
        have ht21 : t ^ 2 ≤ 1 := by nlinarith
        fin_cases i
        · simp; linarith
        · simpa using hb
        · simp; linarith
      | succ m ih =>
        rw [Function.iterate_succ_apply', ih]
        refine hstep _ hsp (by rw [hSs]; exact gsmall) (fun i => ?_) (by rw [hSs, s0, s1]; ring) (by rw [hSs, s2]; ring)
        rw [hSs, div_one]
        fin_cases i
        · change _ ≤ spread jcpotLabels v 0; rw [s0]; exact b0
        · change _ ≤ spread jcpotLabels v 1; rw [s1]; exact b0
        · change _ ≤ spread jcpotLabels v 2; rw [s2]; exact b1
    intro m
    cases m with
    | zero => rw [Function.iterate_zero, id, hk]; exact hbary _ hp0 hg0 hq0 hq1
    | succ m =>
      rw [hfix]
      exact hbary _ hsp (by rw [hSs]; exact gsmall) (by rw [hSs, s0, s1]; ring) (by rw [hSs, s2]; ring)
  obtain ⟨m, -, h2, -⟩ := loop_eq (ℓ := fun _ : Fin 2 => jcpotLabels) thr N (kernels (fun _ : Fin 2 => jcpotCost) 1) (fun _ => 1) hN
  refine ⟨v, ?_, ?_⟩
  · unfold estimate run
    rw [if_neg hN.ne', h2]
    dsimp only
    rw [hall, Fin.sum_univ_two, vs]
    simp only [div_one]
  · rintro ⟨P, hP, hmin⟩
    obtain ⟨w, hw⟩ : ∃ w : Fin 2 → ℝ, w = ![2 / (Real.exp 1 + 2), Real.exp 1 / (Real.exp 1 + 2)] := ⟨_, rfl⟩
    have he := Real.exp_pos 1
    have wp : ∀ c, 0 < w c := by
      intro c
      rw [hw]
      fin_cases c
      · change 0 < 2 / (Real.exp 1 + 2); positivity
      · change 0 < Real.exp 1 / (Real.exp 1 + 2); positivity
    have ws : w 0 + w 1 = 1 := by
      rw [hw]
      change 2 / (Real.exp 1 + 2) + Real.exp 1 / (Real.exp 1 + 2) = 1
      field_simp; ring
    obtain ⟨w0, w1, w2⟩ := spread_jcpotLabels w
    have hQ : IsCoupling (spreadProportions jcpotLabels w) (fun _ : Fin 1 => 1 / (Fintype.card (Fin 1) : ℝ)) (fun i _ => spread jcpotLabels w i) := by
      refine ⟨fun i j => (spread_pos (wp _)).le, fun i => by rw [Fin.sum_univ_one]; rfl, fun j => ?_⟩
      rw [Fin.sum_univ_three, w0, w1, w2]
      simp
      linarith
    have h3 := hmin w (fun _ i _ => spread jcpotLabels w i) fun _ => hQ
    rw [sum_congr rfl fun d _ => jcpot_objective vp vs (hP d), sum_congr rfl fun d _ => jcpot_objective wp ws hQ, ← hw] at h3
    simp only [sum_const, card_univ, Fintype.card_fin, nsmul_eq_mul] at h3
    have hz : klDivergence w w = 0 := by
      unfold klDivergence
      refine sum_eq_zero fun c _ => ?_
      rw [div_self (wp c).ne', Real.log_one]; ring
    have hle : klDivergence v w ≤ 0 := by
      rw [hz] at h3
      norm_num at h3
      linarith
    have heq := klDivergence_eq_zero (fun c => (vp c).le) wp hle
    have := congrFun heq 0
    rw [v0, hw] at this
    change _ = 2 / (Real.exp 1 + 2) at this
    rw [hte, div_eq_div_iff (by positivity) (by positivity)] at this
    field_simp at this
    nlinarith [sq_nonneg (1 - t), mul_pos (sub_pos.2 ht1) (sub_pos.2 ht1)]

/-- `JCPOTTransport.transform_labels` does not return class probabilities: over all target samples and classes its entries add up to the mean number of *source* samples (positive plans), not to the number of target samples. -/
theorem C114_soft_labels_refuted [Nonempty J] {γ : ∀ d, X d → J → ℝ} (hγ : ∀ d i j, 0 < γ d i j) :
    ∑ j, ∑ c, transformLabels ℓ γ j c = (∑ d, (Fintype.card (X d) : ℝ)) / Fintype.card Δ := by
  unfold transformLabels
  have h1 : ∀ j, ∑ c, ∑ d, classSum (ℓ d) (fun i => γ d i j / Unmix.rows (γ d) i) c / (Fintype.card Δ : ℝ) = ∑ d, (∑ i, γ d i j / Unmix.rows (γ d) i) / Fintype.card Δ := by
    intro j
    rw [sum_comm]
    exact sum_congr rfl fun d _ => by rw [← sum_div, classSum_sum]
  rw [sum_congr rfl fun j _ => h1 j, sum_comm, sum_div]
  refine sum_congr rfl fun d _ => ?_
  rw [← sum_div, sum_comm]
  have h2 : ∀ i, ∑ j, γ d i j / Unmix.rows (γ d) i = 1 := fun i => by
    rw [← sum_div]
    exact div_self (Unmix.rows_pos (hγ d) i).ne'
  rw [sum_congr rfl fun i _ => h2 i, sum_const, card_univ, nsmul_eq_mul, mul_one]

/-! ### The hypotheses are met -/

/-- three samples per domain and one target sample: its soft labels add up to 3 -/
example : ∑ j, ∑ c, transformLabels (fun _ : Fin 2 => jcpotLabels) (fun _ _ (_ : Fin 1) => (1 / 3 : ℝ)) j c = 3 := by
  rw [C114_soft_labels_refuted fun _ _ _ => by norm_num]
  simp

example := C114_simplex (ℓ := fun _ : Fin 2 => jcpotLabels) (M := fun _ => jcpotCost) (reg := 1) (fun _ => by decide) (N := 10) (by norm_num) (1 / 1000)

/-- the second domain lacks class 1 -/
example := C114_missing_class_refuted (ℓ := fun d : Fin 2 => if d = 0 then jcpotLabels else fun _ => 0) (M := fun _ => jcpotCost) (reg := 1) (c := 1) (c' := 0) (d := 1)
  (fun i => by simp) (fun d => by fin_cases d <;> exact ⟨0, rfl⟩) (N := 10) (by norm_num) (1 / 1000)

/-- two domains with one sample per class and equal costs are stationary at once -/
example : IsProportions (fun _ : Fin 2 => (id : Fin 2 → Fin 2)) (fun _ _ (_ : Fin 3) => (0 : ℝ)) (fun _ : Fin 3 => 1 / (Fintype.card (Fin 3) : ℝ)) 1
    (baryOf (fun _ : Fin 2 => (id : Fin 2 → Fin 2)) ((step (fun _ : Fin 2 => (id : Fin 2 → Fin 2)))^[0] (kernels (fun _ _ (_ : Fin 3) => (0 : ℝ)) 1))) := by
  have hk : kernels (fun (_ : Fin 2) (_ : Fin 2) (_ : Fin 3) => (0 : ℝ)) 1 = fun _ _ _ => 1 := by
    funext d i j
    simp [kernels]
  have hP : Unmix.projC (fun (_ : Fin 2) (_ : Fin 3) => (1 : ℝ)) target = fun _ _ => 1 / 6 := by
    funext i j
    have : max (2 : ℝ) Unmix.guard = 2 := max_eq_left (by unfold Unmix.guard; norm_num)
    simp [Unmix.projC, Unmix.cols, target, this]
    norm_num
  refine C114_stationary_optimal_partial (fun _ => Function.bijective_id) one_pos 0 (fun m hm => by omega) (fun d j => ?_) fun d i => ?_
  · rw [Function.iterate_zero, id, hk]
    norm_num
  · rw [Function.iterate_zero, id, hk, hP]
    have hcs : ∀ c : Fin 2, classSum (id : Fin 2 → Fin 2) (Unmix.rows fun (_ : Fin 2) (_ : Fin 3) => (1 / 6 : ℝ)) c = 1 / 2 := by
      intro c
      unfold classSum Unmix.rows
      simp
      norm_num
    have hb : baryOf (fun _ : Fin 2 => (id : Fin 2 → Fin 2)) (fun (_ : Fin 2) (_ : Fin 2) (_ : Fin 3) => (1 : ℝ)) i = 1 / 2 := by
      rw [baryOf_eq (ℓ := fun _ : Fin 2 => (id : Fin 2 → Fin 2)) (c := i) (fun _ _ _ => zero_le_one) (fun _ _ _ _ => one_pos) (fun _ => ⟨i, rfl⟩), hP]
      simp only [hcs]
      rw [sum_const, card_univ, Fintype.card_fin, nsmul_eq_mul, Nat.cast_ofNat, mul_div_cancel₀ _ two_ne_zero, Real.exp_log (by norm_num)]
    have hs := classSum_spread (ℓ := (id : Fin 2 → Fin 2)) (h := baryOf (fun _ : Fin 2 => (id : Fin 2 → Fin 2)) (fun (_ : Fin 2) (_ : Fin 2) (_ : Fin 3) => (1 : ℝ))) (c := i) ⟨i, rfl⟩
    rw [hb] at hs
    unfold classSum at hs
    rw [Finset.sum_eq_single_of_mem i (mem_univ i) (fun x _ hx => by rw [if_neg]; exact hx), if_pos (show id i = i from rfl)] at hs
    refine Eq.trans ?_ hs.symm
    norm_num

/-- two samples labelled 1, 2: the caller's labels become 0, 1 -/
example : shifted (![1, 2] : Fin 2 → ℤ) ≠ ![1, 2] := by
  intro h
  have h1 := (C114_mutation_refuted (![1, 2] : Fin 2 → ℤ)).2.1 h
  obtain ⟨i, -, h2⟩ := exists_mem_eq_inf' (univ_nonempty (α := Fin 2)) (![1, 2] : Fin 2 → ℤ)
  have h3 : minLabel (![1, 2] : Fin 2 → ℤ) = (![1, 2] : Fin 2 → ℤ) i := h2
  rw [h1] at h3
  fin_cases i <;> simp at h3

end POT.Props
