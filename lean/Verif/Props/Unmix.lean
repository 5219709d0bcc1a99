import Verif.Lemmas.Unmix
import Mathlib.Tactic.FinCases

/-! # C113: `unmix` -/

set_option linter.unusedSectionVars false

namespace POT.Props

open Finset Spec POT.Unmix

variable {I K : Type*} [Fintype I] [Fintype K]
variable {a : I → ℝ} {D : I → K → ℝ} {h0 : K → ℝ} {α : ℝ} {M : I → I → ℝ} {M0 : K → K → ℝ} {reg reg0 : ℝ}

/-- The weights returned by `unmix` are positive and their total mass is at most `α ∑ a + (1 - α) ∑ h₀`, for every budget of at least one iteration and every stopping threshold. -/
theorem C113_mass (hD : IsDictionary D) (ha : ∀ i, 0 < a i) (hh : ∀ k, 0 < h0 k) (h0α : 0 ≤ α) (h1α : α ≤ 1) {N : ℕ} (hN : 0 < N) (thr : ℝ) :
    (∀ k, 0 < unmix a D M M0 h0 reg reg0 α N thr k) ∧ ∑ k, unmix a D M M0 h0 reg reg0 α N thr k ≤ α * ∑ i, a i + (1 - α) * ∑ k, h0 k := by
  obtain ⟨m, -, h2, -, -, h5⟩ := loop_eq (a := a) (D := D) (h0 := h0) (α := α) thr N (start M M0 h0 reg reg0)
  obtain ⟨r, rfl⟩ : ∃ r, m = r + 1 := ⟨m - 1, by have := h5 hN; omega⟩
  unfold unmix
  rw [h2]
  have hs := iter_pos (α := α) hD ha hh (start_pos M M0 h0 reg reg0)
  refine ⟨fun k => ?_, ?_⟩
  · haveI : Nonempty K := ⟨k⟩
    exact rows_pos (hs (r + 1)).2 k
  · rw [Function.iterate_succ_apply', step_mass hD hh (hs r)]
    refine (sum_le_sum fun i _ => delta_le hD ha hh h0α h1α (hs r) i).trans ?_
    rw [sum_add_distrib, ← mul_sum, ← mul_sum]
    exact add_le_add (mul_le_mul_of_nonneg_left (sum_other_le ha _) h0α) (mul_le_mul_of_nonneg_left (sum_invNew_le hD hh _) (sub_nonneg.2 h1α))

/-- `unmix` is not a histogram: after a single iteration (`numItermax = 1`) the mass is *strictly* smaller than that of `a` and `h₀`, whenever the observation spread by the kernel differs from the mixture of the spread prior. -/
theorem C113_histogram_refuted (hD : IsDictionary D) (ha : ∀ i, 0 < a i) (hh : ∀ k, 0 < h0 k) (h0α : 0 < α) (h1α : α < 1) (sa : ∑ i, a i = 1) (sh : ∑ k, h0 k = 1)
    (hc : ∀ j, 1 / 10 ^ 10 ≤ ∑ i, Real.exp (-M i j / reg)) (hc0 : ∀ l, 1 / 10 ^ 10 ≤ ∑ k, Real.exp (-M0 k l / reg0))
    (hne : gibbsSpread M reg a ≠ mixture D (gibbsSpread M0 reg0 h0)) (thr : ℝ) : ∑ k, unmix a D M M0 h0 reg reg0 α 1 thr k < 1 := by
  have hs := start_pos M M0 h0 reg reg0
  have e1 : other a (start M M0 h0 reg reg0) = gibbsSpread M reg a := by
    funext i
    refine sum_congr rfl fun j _ => ?_
    change _ * _ / max (∑ i, Real.exp (-M i j / reg)) guard = _
    rw [max_eq_left (show POT.Unmix.guard ≤ _ from hc j), mul_comm]; rfl
  have e2 : invNew D h0 (start M M0 h0 reg reg0) = mixture D (gibbsSpread M0 reg0 h0) := by
    funext i
    refine sum_congr rfl fun k _ => congrArg _ (sum_congr rfl fun l _ => ?_)
    change _ * _ / max (∑ k, Real.exp (-M0 k l / reg0)) guard = _
    rw [max_eq_left (show POT.Unmix.guard ≤ _ from hc0 l), mul_comm]; rfl
  obtain ⟨i, hi⟩ := Function.ne_iff.1 hne
  have e3 : unmix a D M M0 h0 reg reg0 α 1 thr = rows (step a D h0 α (start M M0 h0 reg reg0)).P0 := by
    unfold unmix loop
    split_ifs <;> rfl
  rw [e3, step_mass hD hh hs]
  refine (sum_lt_sum (fun i _ => delta_le hD ha hh h0α.le h1α.le hs i) ⟨i, mem_univ _, delta_lt hD ha hh h0α h1α hs (by rw [e1, e2]; exact hi)⟩).trans_le ?_
  rw [sum_add_distrib, ← mul_sum, ← mul_sum]
  have n1 := mul_le_mul_of_nonneg_left (sum_other_le ha (start M M0 h0 reg reg0)) h0α.le
  have n2 := mul_le_mul_of_nonneg_left (sum_invNew_le hD hh (start M M0 h0 reg reg0)) (sub_pos.2 h1α).le
  rw [sa] at n1
  rw [sh] at n2
  linarith

/-- `alpha` is documented as the trust in the prior, the data term having the weight `1 - alpha`. For `alpha = 0` the result is a function of the *prior* alone: neither the observation `a` nor its cost matter. -/
theorem C113_alpha_zero_refuted (hD : IsDictionary D) (ha : ∀ i, 0 < a i) (hh : ∀ k, 1 / 10 ^ 10 ≤ h0 k) (hc0 : ∀ l, 1 / 10 ^ 10 ≤ ∑ k, Real.exp (-M0 k l / reg0))
    {N : ℕ} (hN : 0 < N) (thr : ℝ) : unmix a D M M0 h0 reg reg0 0 N thr = gibbsSpread M0 reg0 h0 := by
  have hh' : ∀ k, 0 < h0 k := fun k => guard_pos.trans_le (hh k)
  obtain ⟨m, -, h2, -, -, h5⟩ := loop_eq (a := a) (D := D) (h0 := h0) (α := 0) thr N (start M M0 h0 reg reg0)
  obtain ⟨r, rfl⟩ : ∃ r, m = r + 1 := ⟨m - 1, by have := h5 hN; omega⟩
  have hs := iter_pos (α := 0) hD ha hh' (start_pos M M0 h0 reg reg0)
  have hd : ∀ (s : St I K), Pos s → ∀ i, delta a D h0 0 s i = invNew D h0 s i := fun s hs i => by
    unfold delta
    rw [zero_mul, zero_add, sub_zero, one_mul, Real.exp_log (invNew_pos hD hh' hs i)]
  have key : ∀ r, ((step a D h0 0)^[r + 1] (start M M0 h0 reg reg0)).P0 = projC (start M M0 h0 reg reg0).P0 h0 := by
    intro r
    induction r with
    | zero => exact rows_step_agree hD ha hh' (hs 0) (hd _ (hs 0))
    | succ r ih =>
      rw [Function.iterate_succ_apply', rows_step_agree hD ha hh' (hs (r + 1)) (hd _ (hs _)), ih]
      exact projC_idem hc0 hh
  unfold unmix
  rw [h2, key]
  funext k
  refine sum_congr rfl fun l _ => ?_
  change _ * _ / max (∑ k, Real.exp (-M0 k l / reg0)) guard = _
  rw [max_eq_left (show POT.Unmix.guard ≤ _ from hc0 l), mul_comm]; rfl

/-- For `alpha = 1`, documented as full trust in the prior, and the dictionary of the unit vectors, the result is a function of the *observation* alone. -/
theorem C113_alpha_one_refuted [DecidableEq I] {M M0 : I → I → ℝ} {h0 : I → ℝ} (ha : ∀ i, 1 / 10 ^ 10 ≤ a i) (hh : ∀ k, 0 < h0 k)
    (hc : ∀ j, 1 / 10 ^ 10 ≤ ∑ i, Real.exp (-M i j / reg)) (hr : ∀ i, 1 / 10 ^ 10 ≤ gibbsSpread M reg a i)
    {N : ℕ} (hN : 0 < N) (thr : ℝ) : unmix a (fun i k => if i = k then 1 else 0) M M0 h0 reg reg0 1 N thr = gibbsSpread M reg a := by
  have ha' : ∀ k, 0 < a k := fun k => guard_pos.trans_le (ha k)
  obtain ⟨D, hDe⟩ : ∃ D : I → I → ℝ, D = fun i k => if i = k then 1 else 0 := ⟨_, rfl⟩
  rw [← hDe]
  have hD : IsDictionary D := by
    subst hDe
    refine ⟨fun i k => ?_, fun k => by simp, fun i => ⟨i, by simp⟩⟩
    split_ifs <;> norm_num
  obtain ⟨m, -, h2, -, -, h5⟩ := loop_eq (a := a) (D := D) (h0 := h0) (α := 1) thr N (start M M0 h0 reg reg0)
  obtain ⟨r, rfl⟩ : ∃ r, m = r + 1 := ⟨m - 1, by have := h5 hN; omega⟩
  have hs := iter_pos (α := 1) hD ha' hh (start_pos M M0 h0 reg reg0)
  have hd : ∀ (s : St I I), Pos s → ∀ i, delta a D h0 1 s i = other a s i := fun s hs i => by
    unfold delta
    rw [one_mul, sub_self, zero_mul, add_zero, Real.exp_log (other_pos ha' hs i)]
  have hspread : rows (projC (start M M0 h0 reg reg0).P a) = gibbsSpread M reg a := by
    funext i
    refine sum_congr rfl fun j _ => ?_
    change _ * _ / max (∑ i, Real.exp (-M i j / reg)) guard = _
    rw [max_eq_left (show POT.Unmix.guard ≤ _ from hc j), mul_comm]; rfl
  have hfix : ∀ r, projC ((step a D h0 1)^[r] (start M M0 h0 reg reg0)).P a = projC (start M M0 h0 reg reg0).P a := by
    intro r
    induction r with
    | zero => rfl
    | succ r ih =>
      rw [Function.iterate_succ_apply']
      change projC (projR (projC _ a) (delta a D h0 1 _)) a = _
      rw [projR_self (funext fun i => hd _ (hs r) i) (by rw [ih, hspread]; exact hr), ih]
      exact projC_idem hc ha
  unfold unmix
  rw [h2, Function.iterate_succ_apply']
  funext k
  have e : rows (step a D h0 1 ((step a D h0 1)^[r] (start M M0 h0 reg reg0))).P0 k = other a ((step a D h0 1)^[r] (start M M0 h0 reg reg0)) k := by
    have hi := (invNew_pos hD hh (hs r) k).ne'
    have ein : invNew D h0 ((step a D h0 1)^[r] (start M M0 h0 reg reg0)) k = rows (projC ((step a D h0 1)^[r] (start M M0 h0 reg reg0)).P0 h0) k := by
      unfold invNew
      subst hDe
      simp
    have e1 : rows (step a D h0 1 ((step a D h0 1)^[r] (start M M0 h0 reg reg0))).P0 k
        = (∑ i, D i k * (delta a D h0 1 ((step a D h0 1)^[r] (start M M0 h0 reg reg0)) i / invNew D h0 ((step a D h0 1)^[r] (start M M0 h0 reg reg0)) i))
          * rows (projC ((step a D h0 1)^[r] (start M M0 h0 reg reg0)).P0 h0) k := by
      unfold rows step
      dsimp only
      rw [← mul_sum]
    have e2 : ∀ f : I → ℝ, ∑ i, D i k * f i = f k := fun f => by subst hDe; simp
    rw [e1, e2, ← ein, div_mul_cancel₀ _ hi, hd _ (hs r)]
  rw [e]
  unfold other
  rw [hfix, hspread]

/-- What `unmix` converges to. For a dictionary of point masses (e.g. the identity) suppose that the two marginals formed at iteration `n` agree, i.e. the iteration is stationary. Then the weights returned from there are the unique minimiser of `(α/reg) W(a, D h) + ((1-α)/reg₀) W(h₀, h)`: `alpha` weights the *data* term, and the two terms are divided by their regularisations. (No row or column sum below the constant `1e-10` of the projections.) -/
theorem C113_stationary_optimal (hD : IsDictionary D) {pt : K → I} (hpt : ∀ i k, D i k = 0 ∨ i = pt k) (ha : ∀ i, 0 < a i) (hh : ∀ k, 0 < h0 k)
    (h0α : 0 < α) (h1α : α < 1) (hr : 0 < reg) (hr0 : 0 < reg0) (n : ℕ)
    (hg : ∀ m < n, ∀ i, 1 / 10 ^ 10 ≤ other a ((step a D h0 α)^[m] (start M M0 h0 reg reg0)) i)
    (hc : ∀ j, 1 / 10 ^ 10 ≤ ∑ i, ((step a D h0 α)^[n] (start M M0 h0 reg reg0)).P i j)
    (hc0 : ∀ l, 1 / 10 ^ 10 ≤ ∑ k, ((step a D h0 α)^[n] (start M M0 h0 reg reg0)).P0 k l)
    (hag : other a ((step a D h0 α)^[n] (start M M0 h0 reg reg0)) = invNew D h0 ((step a D h0 α)^[n] (start M M0 h0 reg reg0))) :
    IsUnmixing (α / reg) ((1 - α) / reg0) a D M M0 h0 reg reg0 (unmix a D M M0 h0 reg reg0 α (n + 1) 0) := by
  have hs := iter_pos (α := α) hD ha hh (start_pos M M0 h0 reg reg0) n
  have h := optimal_of_scaled hD hpt ha hh h0α h1α hr hr0 hs (iter_scaled hD hpt ha hh n hg) hc hc0 fun i => congrFun hag i
  have e : unmix a D M M0 h0 reg reg0 α (n + 1) 0 = rows (projC ((step a D h0 α)^[n] (start M M0 h0 reg reg0)).P0 h0) := by
    obtain ⟨m, -, h2, -, h4, -⟩ := loop_eq (a := a) (D := D) (h0 := h0) (α := α) 0 (n + 1) (start M M0 h0 reg reg0)
    have hm : m = n + 1 := by
      rcases h4 with h4 | ⟨r, -, h4⟩
      · exact h4
      · exact absurd h4 (not_lt.2 (Real.sqrt_nonneg _))
    unfold unmix
    rw [h2, hm, Function.iterate_succ_apply', rows_step_agree hD ha hh hs fun i => delta_agree ha hs (congrFun hag i)]
  rw [e]
  exact h

/-- Stopping: the result is the weight vector after some `m ≤ numItermax` iterations, at least one if any are allowed; either the budget is used up, or the last iteration moved the weights by less than the threshold - measured from the row sums *before* the dictionary step of the previous iteration - and no earlier one did. -/
theorem C113_stop (N : ℕ) (thr : ℝ) : ∃ m ≤ N, unmix a D M M0 h0 reg reg0 α N thr = unmix a D M M0 h0 reg reg0 α m 0 ∧ (0 < N → 0 < m) ∧
    (∀ r, r + 1 < m → thr ≤ err a D h0 α ((step a D h0 α)^[r] (start M M0 h0 reg reg0))) ∧
    (m = N ∨ ∃ r, m = r + 1 ∧ err a D h0 α ((step a D h0 α)^[r] (start M M0 h0 reg reg0)) < thr) := by
  obtain ⟨m, h1, h2, h3, h4, h5⟩ := loop_eq (a := a) (D := D) (h0 := h0) (α := α) thr N (start M M0 h0 reg reg0)
  refine ⟨m, h1, ?_, h5, h3, h4⟩
  obtain ⟨m', -, g2, -, g4, -⟩ := loop_eq (a := a) (D := D) (h0 := h0) (α := α) 0 m (start M M0 h0 reg reg0)
  have hm : m' = m := by
    rcases g4 with g4 | ⟨r, -, g4⟩
    · exact g4
    · exact absurd g4 (not_lt.2 (Real.sqrt_nonneg _))
  unfold unmix
  rw [h2, g2, hm]

/-- What the error compares: the weights of iteration `r + 2` with the row sums of the column-projected plan of iteration `r + 1`; in the first iteration with the prior. -/
theorem C113_error_meaning (r : ℕ) :
    err a D h0 α (start M M0 h0 reg reg0) = norm2 (fun k => unmix a D M M0 h0 reg reg0 α 1 0 k - h0 k) ∧
    err a D h0 α ((step a D h0 α)^[r + 1] (start M M0 h0 reg reg0))
      = norm2 (fun k => unmix a D M M0 h0 reg reg0 α (r + 2) 0 k - rows (projC ((step a D h0 α)^[r] (start M M0 h0 reg reg0)).P0 h0) k) := by
  have e : ∀ m, unmix a D M M0 h0 reg reg0 α m 0 = rows ((step a D h0 α)^[m] (start M M0 h0 reg reg0)).P0 := by
    intro m
    obtain ⟨m', -, g2, -, g4, -⟩ := loop_eq (a := a) (D := D) (h0 := h0) (α := α) 0 m (start M M0 h0 reg reg0)
    have hm : m' = m := by
      rcases g4 with g4 | ⟨r, -, g4⟩
      · exact g4
      · exact absurd g4 (not_lt.2 (Real.sqrt_nonneg _))
    unfold unmix
    rw [g2, hm]
  refine ⟨by rw [e]; rfl, ?_⟩
  rw [e, Function.iterate_succ_apply' (n := r + 1), Function.iterate_succ_apply' (n := r)]
  rfl

/-- With `numItermax = 0` the result is the vector of row sums of the prior's kernel: it depends neither on `a` nor on `h₀`, and is no histogram (all costs `0`: every weight is the number of atoms). -/
theorem C113_zero_iterations_refuted (thr : ℝ) :
    (∀ k, unmix a D M M0 h0 reg reg0 α 0 thr k = ∑ l, Real.exp (-M0 k l / reg0)) ∧ ∀ k, unmix a D M (fun _ _ : K => 0) h0 reg reg0 α 0 thr k = Fintype.card K := by
  refine ⟨fun k => rfl, fun k => ?_⟩
  change ∑ l : K, Real.exp (-0 / reg0) = _
  simp

/-! ### The hypotheses are met -/

/-- two overlapping atoms on two bins -/
noncomputable def unmixD : Fin 2 → Fin 2 → ℝ := ![![3 / 4, 1 / 2], ![1 / 4, 1 / 2]]

theorem unmixD_dict : IsDictionary unmixD := by
  refine ⟨fun i k => ?_, fun k => ?_, fun i => ⟨0, ?_⟩⟩
  · fin_cases i <;> fin_cases k <;> norm_num [unmixD]
  · fin_cases k <;> norm_num [unmixD, Fin.sum_univ_two]
  · fin_cases i <;> norm_num [unmixD]

example := C113_mass (M := fun i j => if i = j then 0 else 1) (M0 := fun i j => if i = j then 0 else 2) (a := ![1 / 3, 2 / 3]) (h0 := ![1 / 4, 3 / 4]) (α := 1 / 3) (reg := 1) (reg0 := 1)
  unmixD_dict (by intro i; fin_cases i <;> norm_num) (by intro i; fin_cases i <;> norm_num) (by norm_num) (by norm_num) (N := 7) (by norm_num) (1 / 1000)

/-- with zero costs one iteration loses mass -/
example : ∑ k, unmix ![1 / 3, 2 / 3] unmixD (fun _ _ => 0) (fun _ _ => 0) ![1 / 4, 3 / 4] 1 1 (1 / 3) 1 (1 / 1000) k < 1 := by
  refine C113_histogram_refuted unmixD_dict (by intro i; fin_cases i <;> norm_num) (by intro i; fin_cases i <;> norm_num) (by norm_num) (by norm_num)
    (by norm_num [Fin.sum_univ_two]) (by norm_num [Fin.sum_univ_two]) (fun j => by norm_num [Fin.sum_univ_two]) (fun j => by norm_num [Fin.sum_univ_two]) (fun h => ?_) _
  have := congrFun h 0
  norm_num [gibbsSpread, mixture, unmixD, Fin.sum_univ_two] at this

/-- `alpha = 0`: two different observations have the same unmixing -/
example : unmix ![1 / 3, 2 / 3] unmixD (fun _ _ => 0) (fun _ _ => 0) ![1 / 4, 3 / 4] 1 1 0 1000 (1 / 1000)
    = unmix ![9 / 10, 1 / 10] unmixD (fun i j => if i = j then 0 else 5) (fun _ _ => 0) ![1 / 4, 3 / 4] 1 1 0 1000 (1 / 1000) := by
  rw [C113_alpha_zero_refuted unmixD_dict (by intro i; fin_cases i <;> norm_num) (by intro i; fin_cases i <;> norm_num) (fun j => by norm_num [Fin.sum_univ_two]) (by norm_num),
    C113_alpha_zero_refuted unmixD_dict (by intro i; fin_cases i <;> norm_num) (by intro i; fin_cases i <;> norm_num) (fun j => by norm_num [Fin.sum_univ_two]) (by norm_num)]

/-- `alpha = 1`: two different priors have the same unmixing -/
example : unmix ![1 / 3, 2 / 3] (fun i k => if i = k then 1 else 0) (fun _ _ => 0) (fun _ _ => 0) ![1 / 4, 3 / 4] 1 1 1 1000 (1 / 1000)
    = unmix ![1 / 3, 2 / 3] (fun i k => if i = k then 1 else 0) (fun _ _ => 0) (fun i j => if i = j then 0 else 5) ![9 / 10, 1 / 10] 1 1 1 1000 (1 / 1000) := by
  rw [C113_alpha_one_refuted (by intro i; fin_cases i <;> norm_num) (by intro i; fin_cases i <;> norm_num) (fun j => by norm_num [Fin.sum_univ_two])
      (fun i => by norm_num [gibbsSpread, Fin.sum_univ_two]) (by norm_num),
    C113_alpha_one_refuted (by intro i; fin_cases i <;> norm_num) (by intro i; fin_cases i <;> norm_num) (fun j => by norm_num [Fin.sum_univ_two])
      (fun i => by norm_num [gibbsSpread, Fin.sum_univ_two]) (by norm_num)]

/-- a symmetric problem is stationary at once -/
example : IsUnmixing (1 / 3 / 2) ((1 - 1 / 3) / 3) ![1 / 2, 1 / 2] (fun i k : Fin 2 => if i = k then (1 : ℝ) else 0) (fun i j => if i = j then 0 else 1) (fun i j => if i = j then 0 else 4)
    ![1 / 2, 1 / 2] 2 3 (unmix ![1 / 2, 1 / 2] (fun i k : Fin 2 => if i = k then (1 : ℝ) else 0) (fun i j => if i = j then 0 else 1) (fun i j => if i = j then 0 else 4)
    ![1 / 2, 1 / 2] 2 3 (1 / 3) 1 0) := by
  have hd : IsDictionary (fun i k : Fin 2 => if i = k then (1 : ℝ) else 0) := by
    refine ⟨fun i k => ?_, fun k => by simp, fun i => ⟨i, by simp⟩⟩
    split_ifs <;> norm_num
  have h1 := Real.exp_pos (-1 / 2 : ℝ)
  have h2 := Real.exp_pos (-4 / 3 : ℝ)
  have p1 : (1 / 10 ^ 10 : ℝ) ≤ 1 + Real.exp (-1 / 2) := by norm_num at h1 ⊢; linarith
  have p2 : (1 / 10 ^ 10 : ℝ) ≤ 1 + Real.exp (-4 / 3) := by norm_num at h2 ⊢; linarith
  have hc : ∀ j : Fin 2, (1 / 10 ^ 10 : ℝ) ≤ ∑ i : Fin 2, Real.exp (-(if i = j then 0 else 1) / 2) := by
    intro j
    fin_cases j
    · simpa [Fin.sum_univ_two] using p1
    · rw [add_comm] at p1
      simpa [Fin.sum_univ_two] using p1
  have hc0 : ∀ j : Fin 2, (1 / 10 ^ 10 : ℝ) ≤ ∑ i : Fin 2, Real.exp (-(if i = j then 0 else 4) / 3) := by
    intro j
    fin_cases j
    · simpa [Fin.sum_univ_two] using p2
    · rw [add_comm] at p2
      simpa [Fin.sum_univ_two] using p2
  refine C113_stationary_optimal hd (pt := id) (fun i k => ?_) (by intro i; fin_cases i <;> norm_num) (by intro i; fin_cases i <;> norm_num) (by norm_num) (by norm_num) (by norm_num) (by norm_num) 0
    (fun m hm => by omega) hc hc0 ?_
  · by_cases h : i = k
    · exact Or.inr h
    · exact Or.inl (if_neg h)
  · have e : ∀ (c r : ℝ) (i : Fin 2), (1 / 10 ^ 10 : ℝ) ≤ 1 + Real.exp (-c / r) →
        rows (projC (fun i j : Fin 2 => Real.exp (-(if i = j then 0 else c) / r)) ![1 / 2, 1 / 2]) i = 1 / 2 := by
      intro c r i hg
      have hp : (1 + Real.exp (-c / r)) ≠ 0 := (by positivity : (0 : ℝ) < 1 + Real.exp (-c / r)).ne'
      have hg' : POT.Unmix.guard ≤ 1 + Real.exp (-c / r) := hg
      have hg2 : POT.Unmix.guard ≤ Real.exp (-c / r) + 1 := by rw [add_comm]; exact hg
      have hp2 : (Real.exp (-c / r) + 1) ≠ 0 := by rw [add_comm]; exact hp
      fin_cases i
      · simp [rows, projC, cols, Fin.sum_univ_two, max_eq_left hg', max_eq_left hg2]
        field_simp
        ring
      · simp [rows, projC, cols, Fin.sum_univ_two, max_eq_left hg', max_eq_left hg2]
        field_simp
        ring
    funext i
    refine (e 1 2 i p1).trans ?_
    unfold invNew
    simp only [ite_mul, one_mul, zero_mul, sum_ite_eq, mem_univ, if_true]
    exact (e 4 3 i p2).symm

end POT.Props
