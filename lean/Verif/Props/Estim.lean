import Verif.Lemmas.Estim
import Verif.Props.Emd1d
import Mathlib.Analysis.Calculus.Deriv.Add
import Mathlib.Analysis.Calculus.Deriv.Mul
import Mathlib.Analysis.Complex.ExponentialBounds
import Mathlib.Tactic.FinCases
import Mathlib.Tactic.IntervalCases
import Mathlib.Tactic.NormNum

/-!
# C112: stochastic estimators of Gromov-Wasserstein

`GW_distance_estimation`, `pointwise_gromov_wasserstein`, `sampled_gromov_wasserstein` (ot/gromov/_estimators.py). Specification: `Verif/Spec/Estim.lean`, `Verif/Spec/Gromov.lean`.
-/

set_option linter.unusedSectionVars false

namespace POT.Props

open Finset POT.Spec POT.Estim Classical

/-! ### the estimate -/

/-- **Drawing all the rows** succeeds iff no weight is zero, and is a permutation of the rows. -/
theorem C112_draw_all {n : ℕ} (p : Fin n → ℝ) : (canDraw p n ↔ ∀ i, p i ≠ 0) ∧ ∀ i : Fin n → Fin n, Function.Injective i → Function.Bijective i := by
  refine ⟨?_, fun i h => Finite.injective_iff_bijective.1 h⟩
  unfold canDraw
  constructor
  · intro h i
    have : univ.filter (fun i => p i ≠ 0) = univ := by
      apply Finset.eq_univ_of_card
      refine le_antisymm (card_le_univ _) ?_
      rwa [Fintype.card_fin]
    have hi := mem_univ i
    rw [← this, mem_filter] at hi
    exact hi.2
  · intro h
    rw [filter_true_of_mem fun i _ => h i, card_univ, Fintype.card_fin]

private theorem rowLaw_uniform {n m : ℕ} {p : Fin n → ℝ} {q : Fin m → ℝ} {T : Fin n → Fin m → ℝ} (hp : IsUniform p) (hT : IsCoupling p q T) (i : Fin n) (j : Fin m) : rowLaw T i j = n * T i j := by
  unfold rowLaw
  rw [hT.row, hp i, div_div_eq_mul_div, div_one, mul_comm]

private theorem uniform_ne {n m : ℕ} (hn : 0 < n) {p : Fin n → ℝ} {q : Fin m → ℝ} {T : Fin n → Fin m → ℝ} (hp : IsUniform p) (hT : IsCoupling p q T) (i : Fin n) : ∑ j, T i j ≠ 0 := by
  rw [hT.row, hp i]
  have : (0 : ℝ) < n := by exact_mod_cast hn
  positivity

private theorem energy_pairs {n m : ℕ} {L : ℝ → ℝ → ℝ} {C1 : Fin n → Fin n → ℝ} {C2 : Fin m → Fin m → ℝ} {T : Fin n → Fin m → ℝ} :
    gwEnergy L C1 C2 T = ∑ a, ∑ b, ∑ k, ∑ l, T a k * T b l * L (C1 a b) (C2 k l) := by
  unfold gwEnergy
  refine sum_congr rfl fun i _ => ?_
  rw [sum_comm]
  refine sum_congr rfl fun b _ => sum_congr rfl fun k _ => sum_congr rfl fun l _ => by ring

/-- **The estimate is unbiased for uniform source weights** when all the rows are drawn (the default for dense plans): whatever permutations of the rows are drawn, the expectation over the columns is the Gromov-Wasserstein energy of the plan. -/
theorem C112_unbiased {n m r : ℕ} (hn : 0 < n) (hr : 0 < r) {L : ℝ → ℝ → ℝ} {C1 : Fin n → Fin n → ℝ} {C2 : Fin m → Fin m → ℝ} {p : Fin n → ℝ} {q : Fin m → ℝ} {T : Fin n → Fin m → ℝ} (hp : IsUniform p) (hT : IsCoupling p q T) {i j : Fin n → Fin n} (hi : Function.Injective i) (hj : Function.Injective j) :
    indepMean (fun x : Fin n × Fin r => rowLaw T (i x.1)) (fun k => indepMean (fun x : Fin n × Fin r => rowLaw T (j x.1)) fun l => estimate L C1 C2 ⟨i, j, fun a c => k (a, c), fun b c => l (b, c)⟩) = gwEnergy L C1 C2 T := by
  have hnr : (n : ℝ) ≠ 0 := by exact_mod_cast hn.ne'
  rw [estimate_mean hr (uniform_ne hn hp hT)]
  have bi := Equiv.ofBijective i (Finite.injective_iff_bijective.1 hi)
  have e1 : ∑ a, ∑ b, ∑ k, ∑ l, rowLaw T (i a) k * rowLaw T (j b) l * L (C1 (i a) (j b)) (C2 k l) = ∑ a, ∑ b, ∑ k, ∑ l, rowLaw T a k * rowLaw T b l * L (C1 a b) (C2 k l) := by
    rw [Function.Bijective.sum_comp (Finite.injective_iff_bijective.1 hi) fun a => ∑ b, ∑ k, ∑ l, rowLaw T a k * rowLaw T (j b) l * L (C1 a (j b)) (C2 k l)]
    exact sum_congr rfl fun a _ => Function.Bijective.sum_comp (Finite.injective_iff_bijective.1 hj) fun b => ∑ k, ∑ l, rowLaw T a k * rowLaw T b l * L (C1 a b) (C2 k l)
  rw [e1, energy_pairs, div_eq_iff (mul_ne_zero hnr hnr), sum_mul]
  refine sum_congr rfl fun a _ => ?_
  rw [sum_mul]
  refine sum_congr rfl fun b _ => ?_
  rw [sum_mul]
  refine sum_congr rfl fun k _ => ?_
  rw [sum_mul]
  refine sum_congr rfl fun l _ => ?_
  rw [rowLaw_uniform hp hT, rowLaw_uniform hp hT]
  ring

/-- **The estimate is unbiased for uniform source weights for every number of drawn rows**: the expectation over the rows (drawn without replacement, twice, independently) and the columns is the energy of the plan. -/
theorem C112_unbiased_subsample {n m s r : ℕ} (hs : 0 < s) (hsn : s ≤ n) (hr : 0 < r) {L : ℝ → ℝ → ℝ} {C1 : Fin n → Fin n → ℝ} {C2 : Fin m → Fin m → ℝ} {p : Fin n → ℝ} {q : Fin m → ℝ} {T : Fin n → Fin m → ℝ} (hp : IsUniform p) (hT : IsCoupling p q T) :
    sampleMean n s (fun i => sampleMean n s fun j => indepMean (fun x : Fin s × Fin r => rowLaw T (i x.1)) fun k => indepMean (fun x : Fin s × Fin r => rowLaw T (j x.1)) fun l => estimate L C1 C2 ⟨i, j, fun a c => k (a, c), fun b c => l (b, c)⟩) = gwEnergy L C1 C2 T := by
  have hn : 0 < n := lt_of_lt_of_le hs hsn
  have hnr : (n : ℝ) ≠ 0 := by exact_mod_cast hn.ne'
  have hsr : (s : ℝ) ≠ 0 := by exact_mod_cast hs.ne'
  have e0 : ∀ i j : Fin s ↪ Fin n, indepMean (fun x : Fin s × Fin r => rowLaw T (i x.1)) (fun k => indepMean (fun x : Fin s × Fin r => rowLaw T (j x.1)) fun l => estimate L C1 C2 ⟨i, j, fun a c => k (a, c), fun b c => l (b, c)⟩) = _ := fun i j => estimate_mean hr (uniform_ne hn hp hT) i j
  simp_rw [e0]
  simp only [sampleMean_div, sampleMean_sum]
  have e1 : ∀ a b : Fin s, sampleMean n s (fun i => sampleMean n s fun j => ∑ k, ∑ l, rowLaw T (i a) k * rowLaw T (j b) l * L (C1 (i a) (j b)) (C2 k l)) = (∑ a', (∑ b', ∑ k, ∑ l, rowLaw T a' k * rowLaw T b' l * L (C1 a' b') (C2 k l)) / n) / n := fun a b => by
    have : ∀ i : Fin s ↪ Fin n, sampleMean n s (fun j => ∑ k, ∑ l, rowLaw T (i a) k * rowLaw T (j b) l * L (C1 (i a) (j b)) (C2 k l)) = (∑ b', ∑ k, ∑ l, rowLaw T (i a) k * rowLaw T b' l * L (C1 (i a) b') (C2 k l)) / n := fun i =>
      sampleMean_point hsn hn b fun b' => ∑ k, ∑ l, rowLaw T (i a) k * rowLaw T b' l * L (C1 (i a) b') (C2 k l)
    simp_rw [this]
    exact sampleMean_point hsn hn a fun a' => (∑ b', ∑ k, ∑ l, rowLaw T a' k * rowLaw T b' l * L (C1 a' b') (C2 k l)) / n
  have e2 : ∑ a : Fin s, ∑ b : Fin s, sampleMean n s (fun i => sampleMean n s fun j => ∑ k, ∑ l, rowLaw T (i a) k * rowLaw T (j b) l * L (C1 (i a) (j b)) (C2 k l)) = s * (s * ((∑ a', (∑ b', ∑ k, ∑ l, rowLaw T a' k * rowLaw T b' l * L (C1 a' b') (C2 k l)) / n) / n)) := by
    simp_rw [e1]
    simp only [sum_const, card_univ, Fintype.card_fin, nsmul_eq_mul]
  simp only [sampleMean_sum] at e2
  rw [e2, ← mul_assoc, mul_div_cancel_left₀ _ (mul_ne_zero hsr hsr), energy_pairs, ← sum_div, div_div, div_eq_iff (mul_ne_zero hnr hnr), sum_mul]
  refine sum_congr rfl fun a _ => ?_
  rw [sum_mul]
  refine sum_congr rfl fun b _ => ?_
  rw [sum_mul]
  refine sum_congr rfl fun k _ => ?_
  rw [sum_mul]
  refine sum_congr rfl fun l _ => ?_
  rw [rowLaw_uniform hp hT, rowLaw_uniform hp hT]
  ring

/-- **Biased otherwise.** Weights `(1/3, 2/3)` against one point: the estimate is `1/2` for every draw of all the rows, the energy `4/9`. -/
theorem C112_biased_refuted {r : ℕ} (hr : 0 < r) (d : Draws 2 1 2 r) (hi : Function.Injective d.i) (hj : Function.Injective d.j) :
    IsCoupling ![1 / 3, 2 / 3] (fun _ : Fin 1 => 1) (fun i _ => (![1 / 3, 2 / 3] : Fin 2 → ℝ) i) ∧ estimate sqLoss (fun i j => if i = j then 0 else 1) (fun _ _ => 0) d = 1 / 2 ∧
    gwEnergy sqLoss (fun i j : Fin 2 => if i = j then (0 : ℝ) else 1) (fun _ _ : Fin 1 => 0) (fun i _ => (![1 / 3, 2 / 3] : Fin 2 → ℝ) i) = 4 / 9 := by
  refine ⟨⟨fun i _ => by fin_cases i <;> norm_num, fun i => by simp, fun j => by simp [Fin.sum_univ_two]; norm_num⟩, ?_, ?_⟩
  · have hr' : (r : ℝ) ≠ 0 := by exact_mod_cast hr.ne'
    unfold estimate sqLoss
    simp only [sub_zero, sum_const, card_univ, Fintype.card_fin, nsmul_eq_mul]
    rw [Function.Bijective.sum_comp (Finite.injective_iff_bijective.1 hi) fun a => ∑ b, (r : ℝ) * (if a = d.j b then (0 : ℝ) else 1) ^ 2]
    have e : ∀ a : Fin 2, ∑ b, (r : ℝ) * (if a = d.j b then (0 : ℝ) else 1) ^ 2 = ∑ b, (r : ℝ) * (if a = b then (0 : ℝ) else 1) ^ 2 := fun a => Function.Bijective.sum_comp (Finite.injective_iff_bijective.1 hj) fun b => (r : ℝ) * (if a = b then (0 : ℝ) else 1) ^ 2
    simp_rw [e]
    simp [Fin.sum_univ_two]
    field_simp
    norm_num
  · simp [gwEnergy, sqLoss, Fin.sum_univ_two]
    norm_num

/-- **The loss is evaluated with its arguments exchanged if the source is smaller than the target.** One point against two, the Kullback-Leibler loss: the estimate is `1` for every draw, the energy `e - 2`. -/
theorem C112_swap_refuted {r : ℕ} (hr : 0 < r) (d : Draws 1 2 2 r) (d' : Draws 2 1 2 r) :
    gwEstimation (klLoss 0) (fun _ _ : Fin 1 => 1) (fun _ _ : Fin 2 => Real.exp 1) d d' = 1 ∧ gwEnergy (klLoss 0) (fun _ _ : Fin 1 => 1) (fun _ _ : Fin 2 => Real.exp 1) (fun _ _ => 1 / 2) = Real.exp 1 - 2 ∧ Real.exp 1 - 2 ≠ 1 := by
  refine ⟨?_, ?_, ?_⟩
  · have hr' : (r : ℝ) ≠ 0 := by exact_mod_cast hr.ne'
    unfold gwEstimation
    rw [if_pos (by norm_num)]
    unfold estimate klLoss
    simp only [add_zero, Real.log_exp, Real.log_one, sum_const, card_univ, Fintype.card_fin, nsmul_eq_mul]
    push_cast
    field_simp
    ring
  · simp [gwEnergy, klLoss, Fin.sum_univ_two]
    ring
  · have := Real.exp_one_lt_d9
    intro h
    linarith

/-- For symmetric losses the exchange is harmless: the energy of the exchanged problem is the energy. -/
theorem C112_swap {n m : ℕ} {L : ℝ → ℝ → ℝ} (hL : ∀ x y, L x y = L y x) (C1 : Fin n → Fin n → ℝ) (C2 : Fin m → Fin m → ℝ) (T : Fin n → Fin m → ℝ) : gwEnergy L C2 C1 (fun j i => T i j) = gwEnergy L C1 C2 T := by
  rw [energy_pairs, energy_pairs]
  have e : ∑ a : Fin m, ∑ b : Fin m, ∑ k : Fin n, ∑ l : Fin n, T k a * T l b * L (C2 a b) (C1 k l) = ∑ x : Fin m × Fin m, ∑ y : Fin n × Fin n, T y.1 x.1 * T y.2 x.2 * L (C2 x.1 x.2) (C1 y.1 y.2) := by
    simp_rw [Fintype.sum_prod_type]
  have e' : ∑ a : Fin n, ∑ b : Fin n, ∑ k : Fin m, ∑ l : Fin m, T a k * T b l * L (C1 a b) (C2 k l) = ∑ y : Fin n × Fin n, ∑ x : Fin m × Fin m, T y.1 x.1 * T y.2 x.2 * L (C1 y.1 y.2) (C2 x.1 x.2) := by
    simp_rw [Fintype.sum_prod_type]
  rw [e, e', sum_comm]
  exact sum_congr rfl fun y _ => sum_congr rfl fun x _ => by rw [hL]

/-- **A single point a side** leaves the estimate of a sparse plan without a sample (a mean over nothing); at least two points give at least one and at most `n`. -/
theorem C112_samples : nbSamplesP 1 true none = 0 ∧ (∀ n, 2 ≤ n → 1 ≤ nbSamplesP n true none ∧ nbSamplesP n true none ≤ n) ∧ (∀ n, nbSamplesP n false none = n) ∧ (∀ n sp k, nbSamplesP n sp (some k) = min k n) ∧ ∀ g, 2 ≤ nbSamplesQ true g := by
  refine ⟨by simp [nbSamplesP], fun n hn => ?_, fun n => by simp [nbSamplesP], fun n sp k => rfl, fun g => le_max_left _ _⟩
  simp only [nbSamplesP, if_true]
  refine ⟨le_min (Nat.le_floor ?_) (by omega), min_le_right _ _⟩
  have h2 : (2 : ℝ) ≤ n := by exact_mod_cast hn
  have hl : Real.log 2 ≤ Real.log n := Real.log_le_log (by norm_num) h2
  have hl2 := Real.log_two_gt_d9
  have : 1 ≤ Real.sqrt (n * Real.log n) := by
    rw [Real.one_le_sqrt]
    nlinarith
  push_cast
  linarith

/-! ### pointwise Gromov-Wasserstein -/

section pointwise

variable {n m : ℕ} {C1 : Fin n → Fin n → ℝ} {C2 : Fin m → Fin m → ℝ} {p : Fin n → ℝ} {q : Fin m → ℝ} {α thr : ℝ}

/-- non-negative weights of equal positive mass -/
structure Weights (p : Fin n → ℝ) (q : Fin m → ℝ) : Prop where
  hp : ∀ i, 0 ≤ p i
  hq : ∀ j, 0 ≤ q j
  hs : ∑ i, p i = ∑ j, q j
  pos : 0 < ∑ j, q j

private theorem Weights.n_pos (h : Weights p q) : 1 ≤ n := by
  rcases Nat.eq_zero_or_pos n with h0 | h0
  · subst h0; have := h.pos; rw [← h.hs] at this; simp at this
  · exact h0

private theorem Weights.m_pos (h : Weights p q) : 1 ≤ m := by
  rcases Nat.eq_zero_or_pos m with h0 | h0
  · subst h0; have := h.pos; simp at this
  · exact h0

/-- **The direction of a step** is an exact solution of the linear problem whose cost is the square loss between the drawn rows. -/
theorem C112_direction (h : Weights p q) (x : Fin n → ℝ) (y : Fin m → ℝ) : ∃ G, plan1d p q x y = some G ∧ IsOptimal p q (fun i j => (x i - y j) ^ 2) G := by
  obtain ⟨G, h1, h2⟩ := C03_emd1d_optimal h.n_pos h.m_pos .sqeuclidean 1 le_rfl x y p q (Tuple.sort x) (Tuple.sort y) (Tuple.monotone_sort x) (Tuple.monotone_sort y) h.hp h.hq h.hs h.pos
  refine ⟨G, by unfold plan1d; rw [h1], ?_⟩
  have e : (fun i j => (x i - y j) ^ 2) = fun i j => Emd1d.metricCost .sqeuclidean 1 (x i) (y j) := by
    funext i j; unfold Emd1d.metricCost; ring
  rw [e]; exact h2

/-- every iterate: entries non-negative, marginals at most `p`, `q` and short of them by at most `m thr / α` resp. `n thr / α` -/
private theorem pw_bounds (h : Weights p q) (h0 : 0 < α) (h1 : α ≤ 1) (ht : 0 ≤ thr) (idx : ℕ → Fin n × Fin m) (k : ℕ) :
    ∃ T, pwIterate C1 C2 p q α thr idx k = some T ∧ (∀ i j, 0 ≤ T i j) ∧ (∀ i, p i - m * thr / α ≤ ∑ j, T i j ∧ ∑ j, T i j ≤ p i) ∧ ∀ j, q j - n * thr / α ≤ ∑ i, T i j ∧ ∑ i, T i j ≤ q j := by
  have coup : ∀ G, IsCoupling p q G → (∀ i j, 0 ≤ G i j) ∧ (∀ i, p i - m * thr / α ≤ ∑ j, G i j ∧ ∑ j, G i j ≤ p i) ∧ ∀ j, q j - n * thr / α ≤ ∑ i, G i j ∧ ∑ i, G i j ≤ q j := fun G hG => by
    have q1 : 0 ≤ m * thr / α := by positivity
    have q2 : 0 ≤ n * thr / α := by positivity
    exact ⟨hG.nonneg, fun i => ⟨by rw [hG.row]; linarith, (hG.row i).le⟩, fun j => ⟨by rw [hG.col]; linarith, (hG.col j).le⟩⟩
  induction k with
  | zero =>
    obtain ⟨G, e, o⟩ := C112_direction h (C1 (idx 0).1) (C2 (idx 0).2)
    exact ⟨G, e, coup G o.1⟩
  | succ k ih =>
    obtain ⟨T, eT, t0, t1, t2⟩ := ih
    obtain ⟨G, e, o⟩ := C112_direction h (C1 (idx (k + 1)).1) (C2 (idx (k + 1)).2)
    by_cases ha : α = 1
    · refine ⟨G, ?_, coup G o.1⟩
      rw [pwIterate, eT, Option.bind_some, pwStep, e, Option.map_some, if_pos ha]
    · obtain ⟨U, hU⟩ : ∃ U, U = elimZeros thr fun i j => (1 - α) * T i j + α * G i j := ⟨_, rfl⟩
      refine ⟨U, by rw [pwIterate, eT, Option.bind_some, pwStep, e, Option.map_some, if_neg ha, hU], ?_⟩
      have v0 : ∀ i j, 0 ≤ (1 - α) * T i j + α * G i j := fun i j => add_nonneg (mul_nonneg (by linarith) (t0 i j)) (mul_nonneg h0.le (o.1.nonneg i j))
      have u0 : ∀ i j, 0 ≤ U i j := fun i j => by rw [hU]; unfold elimZeros; split_ifs; exacts [le_rfl, v0 i j]
      have u1 : ∀ i j, U i j ≤ (1 - α) * T i j + α * G i j := fun i j => by rw [hU]; unfold elimZeros; split_ifs; exacts [v0 i j, le_rfl]
      have u2 : ∀ i j, (1 - α) * T i j + α * G i j - thr ≤ U i j := fun i j => by
        rw [hU]; unfold elimZeros; split_ifs with hc
        · have := hc.2; rw [abs_of_nonneg (v0 i j)] at this; linarith
        · linarith
      refine ⟨u0, fun i => ⟨?_, ?_⟩, fun j => ⟨?_, ?_⟩⟩
      · have := sum_le_sum fun j (_ : j ∈ univ) => u2 i j
        rw [sum_sub_distrib, sum_add_distrib, ← mul_sum, ← mul_sum, o.1.row, sum_const, card_univ, Fintype.card_fin, nsmul_eq_mul] at this
        have h3 := mul_le_mul_of_nonneg_left (t1 i).1 (by linarith : 0 ≤ 1 - α)
        have e3 : α * (m * thr / α) = m * thr := by field_simp
        have e4 : (1 - α) * (p i - m * thr / α) = p i - m * thr / α - α * p i + m * thr := by linear_combination e3
        linarith
      · have := sum_le_sum fun j (_ : j ∈ univ) => u1 i j
        rw [sum_add_distrib, ← mul_sum, ← mul_sum, o.1.row] at this
        have h3 := mul_le_mul_of_nonneg_left (t1 i).2 (by linarith : 0 ≤ 1 - α)
        linarith
      · have := sum_le_sum fun i (_ : i ∈ univ) => u2 i j
        rw [sum_sub_distrib, sum_add_distrib, ← mul_sum, ← mul_sum, o.1.col, sum_const, card_univ, Fintype.card_fin, nsmul_eq_mul] at this
        have h3 := mul_le_mul_of_nonneg_left (t2 j).1 (by linarith : 0 ≤ 1 - α)
        have e3 : α * (n * thr / α) = n * thr := by field_simp
        have e4 : (1 - α) * (q j - n * thr / α) = q j - n * thr / α - α * q j + n * thr := by linear_combination e3
        linarith
      · have := sum_le_sum fun i (_ : i ∈ univ) => u1 i j
        rw [sum_add_distrib, ← mul_sum, ← mul_sum, o.1.col] at this
        have h3 := mul_le_mul_of_nonneg_left (t2 j).2 (by linarith : 0 ≤ 1 - α)
        linarith

/-- **The best of the evaluated plans is returned**: the result is the plan after some evaluated iteration, and no evaluated plan had a smaller estimate (the first of the minimal ones). -/
theorem C112_best (idx : ℕ → Fin n × Fin m) (est : ℕ → (Fin n → Fin m → ℝ) → ℝ) {maxIter : ℕ} (hk : 0 < maxIter) {T : ℕ → Fin n → Fin m → ℝ} (hT : ∀ k, pwIterate C1 C2 p q α thr idx k = some (T k)) :
    ∃ k < maxIter, evaluated maxIter k ∧ pointwise C1 C2 p q α thr idx est maxIter = some (T (k + 1)) ∧ (∀ l < maxIter, evaluated maxIter l → est k (T (k + 1)) ≤ est l (T (l + 1))) ∧ ∀ l < k, evaluated maxIter l → est k (T (k + 1)) < est l (T (l + 1)) := by
  have key : ∀ K, 0 < K → ∃ k < K, evaluated maxIter k ∧ pwBest C1 C2 p q α thr idx est maxIter K = some (est k (T (k + 1)), T (k + 1)) ∧ (∀ l < K, evaluated maxIter l → est k (T (k + 1)) ≤ est l (T (l + 1))) ∧ ∀ l < k, evaluated maxIter l → est k (T (k + 1)) < est l (T (l + 1)) := by
    intro K hK
    induction K with
    | zero => omega
    | succ K ih =>
      have ev0 : evaluated maxIter 0 := Or.inl rfl
      rcases Nat.eq_zero_or_pos K with h0 | h0
      · subst h0
        refine ⟨0, one_pos, ev0, ?_, fun l hl _ => ?_, fun l hl => absurd hl (Nat.not_lt_zero _)⟩
        · rw [pwBest, hT]; dsimp only; rw [if_pos ev0, pwBest]
        · have : l = 0 := by omega
          rw [this]
      · obtain ⟨k, k1, k2, k3, k4, k5⟩ := ih h0
        by_cases he : evaluated maxIter K
        · by_cases hlt : est K (T (K + 1)) < est k (T (k + 1))
          · refine ⟨K, lt_add_one K, he, ?_, fun l hl hle => ?_, fun l hl hle => lt_of_lt_of_le hlt (k4 l hl hle)⟩
            · rw [pwBest, hT]; dsimp only; rw [if_pos he, k3]; dsimp only; rw [if_pos hlt]
            · rcases (Nat.lt_succ_iff_lt_or_eq.1 hl) with h | h
              · exact hlt.le.trans (k4 l h hle)
              · rw [h]
          · refine ⟨k, by omega, k2, ?_, fun l hl hle => ?_, k5⟩
            · rw [pwBest, hT]; dsimp only; rw [if_pos he, k3]; dsimp only; rw [if_neg hlt]
            · rcases (Nat.lt_succ_iff_lt_or_eq.1 hl) with h | h
              · exact k4 l h hle
              · rw [h]; exact not_lt.1 hlt
        · refine ⟨k, by omega, k2, ?_, fun l hl hle => ?_, k5⟩
          · rw [pwBest, hT]; dsimp only; rw [if_neg he, k3]
          · rcases (Nat.lt_succ_iff_lt_or_eq.1 hl) with h | h
            · exact k4 l h hle
            · rw [h] at hle; exact absurd hle he
  obtain ⟨k, k1, k2, k3, k4, k5⟩ := key maxIter hk
  exact ⟨k, k1, k2, by unfold pointwise; rw [k3]; rfl, k4, k5⟩

/-- **Marginals of the returned plan, for every sequence of draws and estimates**: non-negative, marginals never above `p` and `q`, short of them by at most `m · threshold / alpha` and `n · threshold / alpha`. -/
theorem C112_threshold (h : Weights p q) (h0 : 0 < α) (h1 : α ≤ 1) (ht : 0 ≤ thr) (idx : ℕ → Fin n × Fin m) (est : ℕ → (Fin n → Fin m → ℝ) → ℝ) {maxIter : ℕ} (hk : 0 < maxIter) :
    ∃ T, pointwise C1 C2 p q α thr idx est maxIter = some T ∧ (∀ i j, 0 ≤ T i j) ∧ (∀ i, p i - m * thr / α ≤ ∑ j, T i j ∧ ∑ j, T i j ≤ p i) ∧ ∀ j, q j - n * thr / α ≤ ∑ i, T i j ∧ ∑ i, T i j ≤ q j := by
  choose T hT hB using pw_bounds (C1 := C1) (C2 := C2) h h0 h1 ht idx
  obtain ⟨k, -, -, k3, -⟩ := C112_best idx est hk hT
  exact ⟨_, k3, hB (k + 1)⟩

/-- **The returned plan is a coupling**, for every step size in `[0, 1]`, every sequence of draws and estimates, if no threshold is set. -/
theorem C112_pointwise (h : Weights p q) (h0 : 0 ≤ α) (h1 : α ≤ 1) (idx : ℕ → Fin n × Fin m) (est : ℕ → (Fin n → Fin m → ℝ) → ℝ) {maxIter : ℕ} (hk : 0 < maxIter) :
    ∃ T, pointwise C1 C2 p q α 0 idx est maxIter = some T ∧ IsCoupling p q T := by
  have it : ∀ k, ∃ T, pwIterate C1 C2 p q α 0 idx k = some T ∧ IsCoupling p q T := fun k => by
    induction k with
    | zero =>
      obtain ⟨G, e, o⟩ := C112_direction h (C1 (idx 0).1) (C2 (idx 0).2)
      exact ⟨G, e, o.1⟩
    | succ k ih =>
      obtain ⟨T, eT, cT⟩ := ih
      obtain ⟨G, e, o⟩ := C112_direction h (C1 (idx (k + 1)).1) (C2 (idx (k + 1)).2)
      by_cases ha : α = 1
      · exact ⟨G, by rw [pwIterate, eT, Option.bind_some, pwStep, e, Option.map_some, if_pos ha], o.1⟩
      · refine ⟨fun i j => (1 - α) * T i j + α * G i j, ?_, ⟨fun i j => add_nonneg (mul_nonneg (by linarith) (cT.nonneg i j)) (mul_nonneg h0 (o.1.nonneg i j)), fun i => ?_, fun j => ?_⟩⟩
        · rw [pwIterate, eT, Option.bind_some, pwStep, e, Option.map_some, if_neg ha]
          congr 1
          funext i j
          unfold elimZeros
          rw [if_neg]
          exact fun hc => lt_irrefl _ hc.1
        · rw [sum_add_distrib, ← mul_sum, ← mul_sum, cT.row, o.1.row]; ring
        · rw [sum_add_distrib, ← mul_sum, ← mul_sum, cT.col, o.1.col]; ring
  choose T hT hC using it
  obtain ⟨k, -, -, k3, -⟩ := C112_best idx est hk hT
  exact ⟨_, k3, hC (k + 1)⟩

/-- With no iteration the function raises (`best_T` is unbound). -/
theorem C112_no_iteration_refuted (idx : ℕ → Fin n × Fin m) (est : ℕ → (Fin n → Fin m → ℝ) → ℝ) : pointwise C1 C2 p q α thr idx est 0 = none := rfl

end pointwise

/-! ### sampled Gromov-Wasserstein -/

private theorem energy_deriv {n m : ℕ} (L : ℝ → ℝ → ℝ) (C1 : Fin n → Fin n → ℝ) (C2 : Fin m → Fin m → ℝ) (T D : Fin n → Fin m → ℝ) :
    HasDerivAt (fun t : ℝ => gwEnergy L C1 C2 fun i j => T i j + t * D i j) (∑ x, ∑ y, (∑ i, ∑ l, L (C1 i x) (C2 l y) * T i l + ∑ i, ∑ l, L (C1 x i) (C2 y l) * T i l) * D x y) 0 := by
  have hd : ∀ i j, HasDerivAt (fun t : ℝ => T i j + t * D i j) (D i j) 0 := fun i j => by simpa using ((hasDerivAt_id (0 : ℝ)).mul_const (D i j)).const_add (T i j)
  have h : HasDerivAt (fun t : ℝ => gwEnergy L C1 C2 fun i j => T i j + t * D i j) (∑ i, ∑ j, ∑ k, ∑ l, (L (C1 i k) (C2 j l) * D i j * T k l + L (C1 i k) (C2 j l) * T i j * D k l)) 0 := by
    unfold gwEnergy
    refine HasDerivAt.fun_sum fun i _ => HasDerivAt.fun_sum fun j _ => HasDerivAt.fun_sum fun k _ => HasDerivAt.fun_sum fun l _ => ?_
    simpa using ((hd i j).const_mul (L (C1 i k) (C2 j l))).fun_mul (hd k l)
  refine h.congr_deriv ?_
  simp_rw [sum_add_distrib, add_mul, sum_add_distrib, sum_mul]
  rw [add_comm]
  congr 1
  · have e1 : ∑ i, ∑ j, ∑ k, ∑ l, L (C1 i k) (C2 j l) * T i j * D k l = ∑ z : Fin n × Fin m, ∑ w : Fin n × Fin m, L (C1 z.1 w.1) (C2 z.2 w.2) * T z.1 z.2 * D w.1 w.2 := by simp_rw [Fintype.sum_prod_type]
    have e2 : ∑ x, ∑ y, ∑ i, ∑ l, L (C1 i x) (C2 l y) * T i l * D x y = ∑ w : Fin n × Fin m, ∑ z : Fin n × Fin m, L (C1 z.1 w.1) (C2 z.2 w.2) * T z.1 z.2 * D w.1 w.2 := by simp_rw [Fintype.sum_prod_type]
    rw [e1, e2, sum_comm]
  · exact sum_congr rfl fun i _ => sum_congr rfl fun j _ => sum_congr rfl fun k _ => sum_congr rfl fun l _ => by ring

/-- **The sampled gradient is unbiased** up to the factor `n / 2` for uniform source weights, when all the rows are drawn, with one column each. `coin` may be anything if both matrices are symmetric; otherwise the average over the fair coins has the property. -/
theorem C112_gradient {n m : ℕ} (hn : 0 < n) {L : ℝ → ℝ → ℝ} {C1 : Fin n → Fin n → ℝ} {C2 : Fin m → Fin m → ℝ} {p : Fin n → ℝ} {q : Fin m → ℝ} {T : Fin n → Fin m → ℝ} (hp : IsUniform p) (hT : IsCoupling p q T) {i : Fin n → Fin n} (hi : Function.Injective i) (D : Fin n → Fin m → ℝ) :
    ((∀ x y, C1 x y = C1 y x) → (∀ x y, C2 x y = C2 y x) → ∀ coin, HasDerivAt (fun t : ℝ => (n : ℝ) / 2 * gwEnergy L C1 C2 fun i j => T i j + t * D i j) (∑ x, ∑ y, indepMean (fun z : Fin n × Fin 1 => rowLaw T (i z.1)) (fun l => lik L C1 C2 i (fun a c => l (a, c)) coin x y) * D x y) 0) ∧
    HasDerivAt (fun t : ℝ => (n : ℝ) / 2 * gwEnergy L C1 C2 fun i j => T i j + t * D i j) (∑ x, ∑ y, indepMean (fun _ _ => 1 / 2) (fun coin : Fin n → Bool => indepMean (fun z : Fin n × Fin 1 => rowLaw T (i z.1)) fun l => lik L C1 C2 i (fun a c => l (a, c)) coin x y) * D x y) 0 := by
  have h1 : ∀ x : Fin n × Fin 1, ∑ y, rowLaw T (i x.1) y = 1 := fun x => by
    unfold rowLaw
    rw [← sum_div, div_self (uniform_ne hn hp hT _)]
  have gen : ∀ coin x y, indepMean (fun z : Fin n × Fin 1 => rowLaw T (i z.1)) (fun l => lik L C1 C2 i (fun a c => l (a, c)) coin x y) = ∑ a, if coin a then n * ∑ l, L (C1 x (i a)) (C2 y l) * T (i a) l else n * ∑ l, L (C1 (i a) x) (C2 l y) * T (i a) l := fun coin x y => by
    unfold lik
    rw [mean_sum]
    refine sum_congr rfl fun a _ => ?_
    split_ifs
    · simp only [Fin.sum_univ_one, Nat.cast_one, div_one]
      rw [mean_point h1 (a, 0) fun l => L (C1 x (i a)) (C2 y l), mul_sum]
      exact sum_congr rfl fun l _ => by rw [rowLaw_uniform hp hT]; ring
    · simp only [Fin.sum_univ_one, Nat.cast_one, div_one]
      rw [mean_point h1 (a, 0) fun l => L (C1 (i a) x) (C2 l y), mul_sum]
      exact sum_congr rfl fun l _ => by rw [rowLaw_uniform hp hT]; ring
  have bij := Finite.injective_iff_bijective.1 hi
  refine ⟨fun s1 s2 coin => ?_, ?_⟩
  · refine ((energy_deriv L C1 C2 T D).const_mul _).congr_deriv ?_
    rw [mul_sum]
    refine sum_congr rfl fun x _ => ?_
    rw [mul_sum]
    refine sum_congr rfl fun y _ => ?_
    rw [gen]
    have e : ∀ a, (if coin a then n * ∑ l, L (C1 x (i a)) (C2 y l) * T (i a) l else n * ∑ l, L (C1 (i a) x) (C2 l y) * T (i a) l) = n * ∑ l, L (C1 (i a) x) (C2 l y) * T (i a) l := fun a => by
      split_ifs
      · congr 1
        exact sum_congr rfl fun l _ => by rw [s1 x, s2 y]
      · rfl
    simp_rw [e]
    rw [← mul_sum, bij.sum_comp fun a => ∑ l, L (C1 a x) (C2 l y) * T a l]
    have e2 : ∑ i, ∑ l, L (C1 x i) (C2 y l) * T i l = ∑ i, ∑ l, L (C1 i x) (C2 l y) * T i l := sum_congr rfl fun i _ => sum_congr rfl fun l _ => by rw [s1 x, s2 y]
    rw [e2]
    ring
  · refine ((energy_deriv L C1 C2 T D).const_mul _).congr_deriv ?_
    rw [mul_sum]
    refine sum_congr rfl fun x _ => ?_
    rw [mul_sum]
    refine sum_congr rfl fun y _ => ?_
    simp_rw [gen]
    rw [mean_sum]
    have hc : ∀ _ : Fin n, ∑ _y : Bool, (1 / 2 : ℝ) = 1 := fun _ => by simp
    have e : ∀ a, indepMean (fun (_ : Fin n) (_ : Bool) => (1 / 2 : ℝ)) (fun coin => if coin a then n * ∑ l, L (C1 x (i a)) (C2 y l) * T (i a) l else n * ∑ l, L (C1 (i a) x) (C2 l y) * T (i a) l) = n / 2 * (∑ l, L (C1 (i a) x) (C2 l y) * T (i a) l + ∑ l, L (C1 x (i a)) (C2 y l) * T (i a) l) := fun a => by
      rw [mean_point hc a fun c => if c = true then n * ∑ l, L (C1 x (i a)) (C2 y l) * T (i a) l else n * ∑ l, L (C1 (i a) x) (C2 l y) * T (i a) l]
      rw [Fintype.sum_bool]
      simp only [if_true, Bool.false_eq_true, if_false]
      ring
    simp_rw [e]
    rw [← mul_sum, bij.sum_comp fun a => ∑ l, L (C1 a x) (C2 l y) * T a l + ∑ l, L (C1 x a) (C2 y l) * T a l, sum_add_distrib]
    ring

/-- **With as many columns as there are, the sampled gradient ignores the plan.** Columns are drawn without replacement, so drawing all of them gives the plain average over the columns: for every draw the result is the same matrix, whatever the plan. -/
theorem C112_gradient_refuted {n m : ℕ} {L : ℝ → ℝ → ℝ} {C1 : Fin n → Fin n → ℝ} {C2 : Fin m → Fin m → ℝ} {i : Fin n → Fin n} (hi : Function.Injective i) {l : Fin n → Fin m → Fin m} (hl : ∀ a, Function.Injective (l a)) (x : Fin n) (y : Fin m) :
    lik L C1 C2 i l (fun _ => false) x y = ∑ a, (∑ b, L (C1 a x) (C2 b y)) / m := by
  unfold lik
  simp only [Bool.false_eq_true, if_false]
  rw [← (Finite.injective_iff_bijective.1 hi).sum_comp fun a => (∑ b, L (C1 a x) (C2 b y)) / m]
  exact sum_congr rfl fun a _ => by rw [(Finite.injective_iff_bijective.1 (hl a)).sum_comp fun b => L (C1 (i a) x) (C2 b y)]

/-- this is the default (`nb_samples_grad=100`) for ten points a side -/
example : gradBudget 100 10 = (10, 10) := rfl

/-- **The default call raises for small problems**: for at most nine points a side (sizes equal) and any weights, more columns than there are have to be drawn without replacement from a row of the initial plan. -/
theorem C112_small_refuted {n : ℕ} (h0 : 0 < n) (h9 : n ≤ 9) (p q : Fin n → ℝ) (i : Fin n) : ¬ canDraw (fun j => p i * q j / ∑ j, p i * q j) (gradBudget 100 n).2 := by
  unfold canDraw
  have hb : n < (gradBudget 100 n).2 := by
    unfold gradBudget
    rw [if_pos (by omega)]
    dsimp only
    interval_cases n <;> norm_num
  intro h
  have := h.trans (card_le_univ _)
  rw [Fintype.card_fin] at this
  omega

section sampled

variable {n m : ℕ} [NeZero n] [NeZero m] {p : Fin n → ℝ} {q : Fin m → ℝ}

/-- **A regularised step is a mirror step**: the entropic optimum for the cost `G/max G - ε log T` is the coupling minimising `⟨G/max G, ·⟩ + ε KL(· | T)`. -/
theorem C112_mirror {ε : ℝ} (hε : 0 < ε) {A T P : Fin n → Fin m → ℝ} (hT : IsCoupling p q T) (hpos : ∀ i j, 0 < T i j) (h : IsEntropicOptimal p q (innerCost ε A T) ε P) {Q : Fin n → Fin m → ℝ} (hQ : IsCoupling p q Q) :
    cost (fun i j => A i j / maxEntry A) P + ε * klPlan P T ≤ cost (fun i j => A i j / maxEntry A) Q + ε * klPlan Q T ∧ (cost (fun i j => A i j / maxEntry A) Q + ε * klPlan Q T ≤ cost (fun i j => A i j / maxEntry A) P + ε * klPlan P T → Q = P) := by
  have key : ∀ R, IsCoupling p q R → cost (fun i j => A i j / maxEntry A) R + ε * klPlan R T = entropicObjective (innerCost ε A T) ε R := fun R hR => by
    have e1 : klPlan R T = ∑ i, ∑ j, (R i j * Real.log (R i j) - R i j * Real.log (T i j)) := by
      unfold klPlan klDivergence
      rw [Fintype.sum_prod_type]
      have m1 : ∑ i, ∑ j, R i j = ∑ i, ∑ j, T i j := sum_congr rfl fun i _ => by rw [hR.row, hT.row]
      have e2 : ∀ i j, R i j * Real.log (R i j / T i j) - R i j + T i j = (R i j * Real.log (R i j) - R i j * Real.log (T i j)) + (T i j - R i j) := fun i j => by
        rcases (hR.nonneg i j).eq_or_lt with h0 | h0
        · rw [← h0]; simp
        · rw [Real.log_div h0.ne' (hpos i j).ne']; ring
      simp_rw [e2, sum_add_distrib]
      have e3 : ∑ i, ∑ j, (T i j - R i j) = 0 := by
        simp_rw [sum_sub_distrib]; rw [m1, sub_self]
      rw [e3, add_zero]
    rw [e1]
    unfold entropicObjective cost innerCost
    simp_rw [if_pos hε]
    rw [mul_sum, mul_sum, ← sum_add_distrib, ← sum_add_distrib]
    refine sum_congr rfl fun i _ => ?_
    rw [mul_sum, mul_sum, ← sum_add_distrib, ← sum_add_distrib]
    exact sum_congr rfl fun j _ => by ring
  rw [key P h.1, key Q hQ]
  exact h.2 Q hQ

/-- **The returned plan is a coupling** whatever is drawn, if the inner solver returns couplings. -/
theorem C112_sampled (hp : ∀ i, 0 ≤ p i) (hq : ∀ j, 0 ≤ q j) (sp : ∑ i, p i = 1) (sq : ∑ j, q j = 1) (ε : ℝ) {solve : (Fin n → Fin m → ℝ) → Option (Fin n → Fin m → ℝ)} (hs : ∀ M U, solve M = some U → IsCoupling p q U) (As : List (Fin n → Fin m → ℝ)) : IsCoupling p q (sampled ε solve p q As) := by
  have key : ∀ As T c, IsCoupling p q T → IsCoupling p q (sgLoop ε solve As T c) := by
    intro As
    induction As with
    | nil => intro T c h; exact h
    | cons A As ih =>
      intro T c h
      rw [sgLoop]
      by_cases h1 : maxEntry A = 0
      · rw [if_pos h1]; exact ih T c h
      · rw [if_neg h1]
        rcases hU : solve (innerCost ε A T) with _ | U
        · exact h
        · dsimp only
          have hc := hs _ U hU
          split_ifs
          · exact hc
          · exact ih U _ hc
          · exact ih U _ hc
  refine key As _ 0 ⟨fun i j => mul_nonneg (hp i) (hq j), fun i => ?_, fun j => ?_⟩
  · rw [← mul_sum, sq, mul_one]
  · rw [← sum_mul, sp, one_mul]

/-- **When the loop stops early.** The plan returned is either the starting plan of a step whose solver gave a warning, or the result of the last draw, or the result of the 101st step in a row that changed the plan by at most `1e-19` in the mean square. Draws of constant zero count for nothing. -/
theorem C112_stop (ε : ℝ) (solve : (Fin n → Fin m → ℝ) → Option (Fin n → Fin m → ℝ)) (A : Fin n → Fin m → ℝ) (As : List (Fin n → Fin m → ℝ)) (T : Fin n → Fin m → ℝ) (c : ℕ) :
    (maxEntry A = 0 → sgLoop ε solve (A :: As) T c = sgLoop ε solve As T c) ∧
    (maxEntry A ≠ 0 → solve (innerCost ε A T) = none → sgLoop ε solve (A :: As) T c = T) ∧
    ∀ U, maxEntry A ≠ 0 → solve (innerCost ε A T) = some U → (1 / 10 ^ 19 < (∑ i, ∑ j, (T i j - U i j) ^ 2) / ((n : ℝ) * m) → sgLoop ε solve (A :: As) T c = sgLoop ε solve As U 0) ∧
      ((∑ i, ∑ j, (T i j - U i j) ^ 2) / ((n : ℝ) * m) ≤ 1 / 10 ^ 19 → (100 ≤ c → sgLoop ε solve (A :: As) T c = U) ∧ (c < 100 → sgLoop ε solve (A :: As) T c = sgLoop ε solve As U (c + 1))) := by
  have e : (10 / 10 ^ 20 : ℝ) = 1 / 10 ^ 19 := by norm_num
  refine ⟨fun h => by rw [sgLoop, if_pos h], fun h hn => by rw [sgLoop, if_neg h, hn], fun U h hU => ⟨fun hl => ?_, fun hl => ⟨fun hc => ?_, fun hc => ?_⟩⟩⟩
  · rw [sgLoop, if_neg h, hU]; dsimp only; rw [if_neg]; unfold change; rw [e]; exact not_le.2 hl
  · rw [sgLoop, if_neg h, hU]; dsimp only; rw [if_pos (by unfold change; rw [e]; exact hl), if_pos (by omega)]
  · rw [sgLoop, if_neg h, hU]; dsimp only; rw [if_pos (by unfold change; rw [e]; exact hl), if_neg (by omega)]

/-- **Without regularisation** every step hands the drawn gradient divided by its maximum to the exact solver, which for a positive maximum minimises the drawn gradient itself. -/
theorem C112_lmo {A T U : Fin n → Fin m → ℝ} (hA : 0 < maxEntry A) (h : IsOptimal p q (innerCost 0 A T) U) : IsOptimal p q A U := by
  refine ⟨h.1, fun V hV => ?_⟩
  have := h.2 V hV
  have e : ∀ W, cost (innerCost 0 A T) W = cost A W / maxEntry A := fun W => by
    unfold cost innerCost
    simp only [lt_irrefl, if_false]
    rw [sum_div]
    refine sum_congr rfl fun i _ => ?_
    rw [sum_div]
    exact sum_congr rfl fun j _ => by rw [mul_div_assoc]
  rw [e, e, div_le_div_iff_of_pos_right hA] at this
  exact this

end sampled

/-! ### non-vacuity -/

private theorem coup2 : IsCoupling (fun _ : Fin 2 => (1 / 2 : ℝ)) (fun _ : Fin 2 => (1 / 2 : ℝ)) fun _ _ => 1 / 4 :=
  ⟨fun _ _ => by norm_num, fun _ => by norm_num [Fin.sum_univ_two], fun _ => by norm_num [Fin.sum_univ_two]⟩

private theorem unif2 : IsUniform (fun _ : Fin 2 => (1 / 2 : ℝ)) := fun _ => by norm_num

example := C112_unbiased (L := sqLoss) (C1 := fun i j => if i = j then 0 else 1) (C2 := fun i j => if i = j then 0 else 2) (r := 3) (by norm_num) (by norm_num) unif2 coup2 (i := id) (j := ![1, 0]) Function.injective_id (by decide)
example := C112_unbiased_subsample (L := sqLoss) (C1 := fun i j => if i = j then 0 else 1) (C2 := fun i j => if i = j then 0 else 2) (s := 1) (r := 3) (by norm_num) (by norm_num) (by norm_num) unif2 coup2
example := C112_gradient (L := sqLoss) (C1 := fun i j => if i = j then 0 else 1) (C2 := fun i j => if i = j then 0 else 2) (by norm_num) unif2 coup2 (i := id) Function.injective_id
example : ∃ d : Draws 2 1 2 1, Function.Injective d.i ∧ Function.Injective d.j := ⟨⟨id, id, fun _ _ => 0, fun _ _ => 0⟩, Function.injective_id, Function.injective_id⟩
example : Weights ![1 / 3, 2 / 3] (fun _ : Fin 2 => (1 / 2 : ℝ)) := ⟨fun i => by fin_cases i <;> norm_num, fun _ => by norm_num, by norm_num [Fin.sum_univ_two], by norm_num⟩
example : canDraw (![1 / 2, 1 / 2] : Fin 2 → ℝ) 2 := (C112_draw_all _).1.2 fun i => by fin_cases i <;> norm_num

end POT.Props
