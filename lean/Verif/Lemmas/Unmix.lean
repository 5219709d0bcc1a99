import Verif.Model.Unmix
import Verif.Spec.Unmix
import Verif.Lemmas.Kl
import Mathlib.Analysis.MeanInequalities
import Mathlib.Analysis.Convex.SpecificFunctions.Basic

/-! # Lemmas: `unmix` -/

set_option linter.unusedSectionVars false

namespace POT.Unmix

open Finset Spec

variable {I J K : Type*} [Fintype I] [Fintype J] [Fintype K]

theorem guard_pos : 0 < guard := by unfold guard; norm_num

theorem max_pos (x : ℝ) : 0 < max x guard := lt_max_of_lt_right guard_pos

theorem projC_pos {G : I → J → ℝ} {q : J → ℝ} (hG : ∀ i j, 0 < G i j) (hq : ∀ j, 0 < q j) (i : I) (j : J) : 0 < projC G q i j :=
  div_pos (mul_pos (hG i j) (hq j)) (max_pos _)

theorem projR_pos {G : I → J → ℝ} {p : I → ℝ} (hG : ∀ i j, 0 < G i j) (hp : ∀ i, 0 < p i) (i : I) (j : J) : 0 < projR G p i j :=
  div_pos (mul_pos (hG i j) (hp i)) (max_pos _)

theorem rows_pos [Nonempty J] {G : I → J → ℝ} (hG : ∀ i j, 0 < G i j) (i : I) : 0 < rows G i := sum_pos (fun j _ => hG i j) univ_nonempty

theorem cols_projC (G : I → J → ℝ) (q : J → ℝ) (j : J) : cols (projC G q) j = cols G j * q j / max (cols G j) guard := by
  unfold cols projC
  rw [sum_mul, sum_div]
  rfl

theorem cols_projC_eq {G : I → J → ℝ} {q : J → ℝ} {j : J} (h : guard ≤ cols G j) : cols (projC G q) j = q j := by
  rw [cols_projC, max_eq_left h]
  field_simp [(guard_pos.trans_le h).ne']

theorem cols_projC_le {G : I → J → ℝ} {q : J → ℝ} (hq : ∀ j, 0 ≤ q j) (j : J) : cols (projC G q) j ≤ q j := by
  rw [cols_projC, div_le_iff₀ (max_pos _), mul_comm]
  exact mul_le_mul_of_nonneg_left (le_max_left _ _) (hq j)

theorem sum_rows (G : I → J → ℝ) : ∑ i, rows G i = ∑ j, cols G j := sum_comm

theorem projC_idem {G : I → J → ℝ} {q : J → ℝ} (h : ∀ j, guard ≤ cols G j) (hq : ∀ j, guard ≤ q j) : projC (projC G q) q = projC G q := by
  funext i j
  have e : projC (projC G q) q i j = projC G q i j * q j / max (cols (projC G q) j) guard := rfl
  rw [e, cols_projC_eq (h j), max_eq_left (hq j), mul_div_assoc, div_self (guard_pos.trans_le (hq j)).ne', mul_one]

theorem projR_self {G : I → J → ℝ} {p : I → ℝ} (hp : p = rows G) (h : ∀ i, guard ≤ rows G i) : projR G p = G := by
  funext i j
  unfold projR
  rw [max_eq_left (h i), hp, mul_div_assoc, div_self (guard_pos.trans_le (h i)).ne', mul_one]

/-! ### one iteration -/

section step

variable {a : I → ℝ} {D : I → K → ℝ} {h0 : K → ℝ} {α : ℝ}

/-- positive plans -/
def Pos (s : St I K) : Prop := (∀ i j, 0 < s.P i j) ∧ ∀ k l, 0 < s.P0 k l

theorem start_pos (M : I → I → ℝ) (M0 : K → K → ℝ) (h0 : K → ℝ) (reg reg0 : ℝ) : Pos (start M M0 h0 reg reg0) :=
  ⟨fun _ _ => Real.exp_pos _, fun _ _ => Real.exp_pos _⟩

theorem delta_pos (s : St I K) (i : I) : 0 < delta a D h0 α s i := Real.exp_pos _

theorem invNew_pos (hD : IsDictionary D) (hh : ∀ k, 0 < h0 k) {s : St I K} (hs : Pos s) (i : I) : 0 < invNew D h0 s i := by
  obtain ⟨k, hk⟩ := hD.cover i
  haveI : Nonempty K := ⟨k⟩
  have hr := rows_pos (projC_pos hs.2 hh)
  exact sum_pos' (fun l _ => mul_nonneg (hD.nonneg i l) (hr l).le) ⟨k, mem_univ _, mul_pos hk (hr k)⟩

theorem coef_pos (hD : IsDictionary D) (hh : ∀ k, 0 < h0 k) {s : St I K} (hs : Pos s) (k : K) :
    0 < ∑ i, D i k * (delta a D h0 α s i / invNew D h0 s i) := by
  obtain ⟨i, -, hi⟩ : ∃ i ∈ univ, 0 < D i k := by
    by_contra hc
    push Not at hc
    have := sum_nonpos hc
    rw [hD.mass k] at this
    linarith
  exact sum_pos' (fun i _ => mul_nonneg (hD.nonneg i k) (div_pos (delta_pos s i) (invNew_pos hD hh hs i)).le)
    ⟨i, mem_univ _, mul_pos hi (div_pos (delta_pos s i) (invNew_pos hD hh hs i))⟩

theorem step_pos (hD : IsDictionary D) (ha : ∀ i, 0 < a i) (hh : ∀ k, 0 < h0 k) {s : St I K} (hs : Pos s) : Pos (step a D h0 α s) :=
  ⟨projR_pos (projC_pos hs.1 ha) (delta_pos s), fun k l => mul_pos (coef_pos hD hh hs k) (projC_pos hs.2 hh k l)⟩

theorem iter_pos (hD : IsDictionary D) (ha : ∀ i, 0 < a i) (hh : ∀ k, 0 < h0 k) {s : St I K} (hs : Pos s) (n : ℕ) : Pos ((step a D h0 α)^[n] s) := by
  induction n with
  | zero => exact hs
  | succ n ih => rw [Function.iterate_succ_apply']; exact step_pos hD ha hh ih

theorem other_pos (ha : ∀ i, 0 < a i) {s : St I K} (hs : Pos s) (i : I) : 0 < other a s i :=
  haveI : Nonempty I := ⟨i⟩
  rows_pos (projC_pos hs.1 ha) i

/-- the loop returns an iterate: the first one whose error is below the threshold, or the last one -/
theorem loop_eq (thr : ℝ) (n : ℕ) (s : St I K) : ∃ m ≤ n, loop a D h0 α thr n s = (step a D h0 α)^[m] s ∧
    (∀ r, r + 1 < m → thr ≤ err a D h0 α ((step a D h0 α)^[r] s)) ∧
    (m = n ∨ ∃ r, m = r + 1 ∧ err a D h0 α ((step a D h0 α)^[r] s) < thr) ∧ (0 < n → 0 < m) := by
  induction n generalizing s with
  | zero => exact ⟨0, le_rfl, rfl, fun r hr => by omega, Or.inl rfl, id⟩
  | succ n ih =>
    unfold loop
    by_cases h : err a D h0 α s < thr
    · rw [if_pos h]
      exact ⟨1, by omega, rfl, fun r hr => by omega, Or.inr ⟨0, rfl, h⟩, fun _ => one_pos⟩
    · rw [if_neg h]
      obtain ⟨m, h1, h2, h3, h4, h5⟩ := ih (step a D h0 α s)
      refine ⟨m + 1, by omega, h2, fun r hr => ?_, ?_, fun _ => Nat.succ_pos m⟩
      · cases r with
        | zero => exact not_lt.1 h
        | succ r => exact h3 r (by omega)
      · rcases h4 with h4 | ⟨r, h4, h5⟩
        · exact Or.inl (by omega)
        · exact Or.inr ⟨r + 1, by omega, h5⟩

/-- total mass of the weights after an iteration -/
theorem step_mass (hD : IsDictionary D) (hh : ∀ k, 0 < h0 k) {s : St I K} (hs : Pos s) :
    ∑ k, rows (step a D h0 α s).P0 k = ∑ i, delta a D h0 α s i := by
  have e : ∀ k, rows (step a D h0 α s).P0 k = ∑ i, D i k * (delta a D h0 α s i / invNew D h0 s i) * rows (projC s.P0 h0) k := by
    intro k
    unfold rows step
    dsimp only
    rw [← mul_sum, sum_mul]
  rw [sum_congr rfl fun k _ => e k, sum_comm]
  refine sum_congr rfl fun i _ => ?_
  have hi := (invNew_pos hD hh hs i).ne'
  have e2 : ∀ k, D i k * (delta a D h0 α s i / invNew D h0 s i) * rows (projC s.P0 h0) k
      = delta a D h0 α s i / invNew D h0 s i * (D i k * rows (projC s.P0 h0) k) := fun k => by ring
  rw [sum_congr rfl fun k _ => e2 k, ← mul_sum]
  change _ * invNew D h0 s i = _
  field_simp

theorem sum_invNew (hD : IsDictionary D) (s : St I K) : ∑ i, invNew D h0 s i = ∑ k, rows (projC s.P0 h0) k := by
  unfold invNew
  rw [sum_comm]
  exact sum_congr rfl fun k _ => by rw [← sum_mul, hD.mass k, one_mul]

theorem delta_le (hD : IsDictionary D) (ha : ∀ i, 0 < a i) (hh : ∀ k, 0 < h0 k) (h0α : 0 ≤ α) (h1α : α ≤ 1) {s : St I K} (hs : Pos s) (i : I) :
    delta a D h0 α s i ≤ α * other a s i + (1 - α) * invNew D h0 s i := by
  have h := convexOn_exp.2 (Set.mem_univ (Real.log (other a s i))) (Set.mem_univ (Real.log (invNew D h0 s i))) h0α (sub_nonneg.2 h1α) (by ring)
  simp only [smul_eq_mul, Real.exp_log (other_pos ha hs i), Real.exp_log (invNew_pos hD hh hs i)] at h
  exact h

theorem delta_lt (hD : IsDictionary D) (ha : ∀ i, 0 < a i) (hh : ∀ k, 0 < h0 k) (h0α : 0 < α) (h1α : α < 1) {s : St I K} (hs : Pos s) {i : I}
    (hne : other a s i ≠ invNew D h0 s i) : delta a D h0 α s i < α * other a s i + (1 - α) * invNew D h0 s i := by
  have h := strictConvexOn_exp.2 (Set.mem_univ (Real.log (other a s i))) (Set.mem_univ (Real.log (invNew D h0 s i)))
    (fun e => hne (Real.log_injOn_pos (other_pos ha hs i) (invNew_pos hD hh hs i) e)) h0α (sub_pos.2 h1α) (by ring)
  simp only [smul_eq_mul, Real.exp_log (other_pos ha hs i), Real.exp_log (invNew_pos hD hh hs i)] at h
  exact h

theorem sum_other_le (ha : ∀ i, 0 < a i) (s : St I K) : ∑ i, other a s i ≤ ∑ i, a i := by
  unfold other
  rw [sum_rows]
  exact sum_le_sum fun j _ => cols_projC_le (fun j => (ha j).le) j

theorem sum_invNew_le (hD : IsDictionary D) (hh : ∀ k, 0 < h0 k) (s : St I K) : ∑ i, invNew D h0 s i ≤ ∑ k, h0 k := by
  rw [sum_invNew hD, sum_rows]
  exact sum_le_sum fun j _ => cols_projC_le (fun j => (hh j).le) j

/-- agreement: the interpolated marginal is the common one -/
theorem delta_agree (ha : ∀ i, 0 < a i) {s : St I K} (hs : Pos s) {i : I} (h : other a s i = invNew D h0 s i) : delta a D h0 α s i = invNew D h0 s i := by
  unfold delta
  rw [← h, ← add_mul, add_sub_cancel, one_mul, Real.exp_log (other_pos ha hs i)]

theorem rows_step_agree (hD : IsDictionary D) (ha : ∀ i, 0 < a i) (hh : ∀ k, 0 < h0 k) {s : St I K} (hs : Pos s) (h : ∀ i, delta a D h0 α s i = invNew D h0 s i) :
    (step a D h0 α s).P0 = projC s.P0 h0 := by
  funext k l
  unfold step
  dsimp only
  have e : ∀ i, D i k * (delta a D h0 α s i / invNew D h0 s i) = D i k := fun i => by
    rw [h i, div_self (invNew_pos hD hh hs i).ne', mul_one]
  rw [sum_congr rfl fun i _ => e i, hD.mass k, one_mul]

end step

/-! ### entropic optimality with a free first marginal -/

theorem entropic_gap_free {p p' : I → ℝ} {b : J → ℝ} {M P Q : I → J → ℝ} {reg : ℝ} {x : I → ℝ} {y : J → ℝ}
    (hform : ∀ i j, Real.log (P i j) = x i + y j - M i j / reg) (hpos : ∀ i j, 0 < P i j) (hreg : reg ≠ 0)
    (hP : IsCoupling p b P) (hQ : IsCoupling p' b Q) :
    entropicObjective M reg Q - entropicObjective M reg P = reg * (klPlan Q P + ∑ i, x i * (p' i - p i)) := by
  have hm : ∑ i, p' i = ∑ i, p i := by
    rw [← sum_congr rfl fun i _ => hQ.row i, ← sum_congr rfl fun i _ => hP.row i, sum_comm, sum_comm (f := fun i j => P i j)]
    exact sum_congr rfl fun j _ => (hQ.col j).trans (hP.col j).symm
  have h1 : ∀ i j, Q i j * Real.log (Q i j / P i j) - Q i j + P i j
      = (Q i j * Real.log (Q i j) + Q i j * M i j / reg) - Q i j * (x i + y j) - Q i j + P i j := by
    intro i j
    rcases eq_or_ne (Q i j) 0 with h | h
    · simp [h]
    · rw [Real.log_div h (hpos i j).ne', hform]; ring
  have h2 : ∀ i j, P i j * Real.log (P i j) = P i j * (x i + y j) - P i j * M i j / reg := by
    intro i j; rw [hform]; ring
  have e1 : klPlan Q P = (∑ i, ∑ j, Q i j * Real.log (Q i j) + cost M Q / reg)
      - (∑ i, x i * p' i + ∑ j, y j * b j) - ∑ i, p' i + ∑ i, p i := by
    rw [klPlan_eq]
    simp only [h1, sum_add_distrib, sum_sub_distrib, hQ.sum_add_mul x y]
    simp only [hQ.row, hP.row, cost, sum_div]
  have e2 : ∑ i, ∑ j, P i j * Real.log (P i j) = (∑ i, x i * p i + ∑ j, y j * b j) - cost M P / reg := by
    simp only [h2, sum_sub_distrib, hP.sum_add_mul x y, cost, sum_div]
  unfold entropicObjective
  simp only [mul_sub, sum_sub_distrib]
  rw [e1, e2, hm]
  field_simp
  ring

/-! ### scalings along the iterations -/

section scal

variable {a : I → ℝ} {D : I → K → ℝ} {h0 : K → ℝ} {α : ℝ} {M : I → I → ℝ} {M0 : K → K → ℝ} {reg reg0 : ℝ}

/-- the plans are diagonal scalings of the kernels and the weighted row potentials cancel over the dictionary of point masses at `at` -/
def Scaled (pt : K → I) (M : I → I → ℝ) (M0 : K → K → ℝ) (reg reg0 α : ℝ) (s : St I K) : Prop :=
  ∃ (x y : I → ℝ) (x0 y0 : K → ℝ), (∀ i j, Real.log (s.P i j) = x i + y j - M i j / reg) ∧ (∀ k l, Real.log (s.P0 k l) = x0 k + y0 l - M0 k l / reg0) ∧
    ∀ k, α * x (pt k) + (1 - α) * x0 k = 0

theorem start_scaled (pt : K → I) : Scaled pt M M0 reg reg0 α (start M M0 h0 reg reg0) := by
  refine ⟨0, 0, 0, 0, fun i j => ?_, fun k l => ?_, fun k => ?_⟩
  · change Real.log (Real.exp _) = _
    rw [Real.log_exp, neg_div]; simp
  · change Real.log (Real.exp _) = _
    rw [Real.log_exp, neg_div]; simp
  · simp

theorem log_projC {G : I → J → ℝ} {q : J → ℝ} (hG : ∀ i j, 0 < G i j) (hq : ∀ j, 0 < q j) (i : I) (j : J) :
    Real.log (projC G q i j) = Real.log (G i j) + (Real.log (q j) - Real.log (max (cols G j) guard)) := by
  unfold projC
  rw [Real.log_div (mul_pos (hG i j) (hq j)).ne' (max_pos _).ne', Real.log_mul (hG i j).ne' (hq j).ne']
  ring

theorem step_scaled (hD : IsDictionary D) {pt : K → I} (hpt : ∀ i k, D i k = 0 ∨ i = pt k) (ha : ∀ i, 0 < a i) (hh : ∀ k, 0 < h0 k) {s : St I K} (hs : Pos s)
    (hg : ∀ i, guard ≤ other a s i) (h : Scaled pt M M0 reg reg0 α s) : Scaled pt M M0 reg reg0 α (step a D h0 α s) := by
  obtain ⟨x, y, x0, y0, h1, h2, h3⟩ := h
  have hcoef : ∀ k, ∑ i, D i k * (delta a D h0 α s i / invNew D h0 s i) = delta a D h0 α s (pt k) / invNew D h0 s (pt k) := by
    intro k
    have hz : ∀ i, i ≠ pt k → D i k = 0 := fun i hi => (hpt i k).resolve_right hi
    have hm := hD.mass k
    rw [sum_eq_single (pt k) (fun i _ hi => hz i hi) (fun h => absurd (mem_univ _) h)] at hm
    rw [sum_eq_single (pt k) (fun i _ hi => by rw [hz i hi, zero_mul]) (fun h => absurd (mem_univ _) h), hm, one_mul]
  refine ⟨fun i => x i + Real.log (delta a D h0 α s i) - Real.log (other a s i), fun j => y j + (Real.log (a j) - Real.log (max (cols s.P j) guard)),
    fun k => x0 k + Real.log (delta a D h0 α s (pt k)) - Real.log (invNew D h0 s (pt k)), fun l => y0 l + (Real.log (h0 l) - Real.log (max (cols s.P0 l) guard)),
    fun i j => ?_, fun k l => ?_, fun k => ?_⟩
  · have e : (step a D h0 α s).P i j = projC s.P a i j * delta a D h0 α s i / other a s i := by
      change _ * _ / max (other a s i) guard = _
      rw [max_eq_left (hg i)]
    rw [e, Real.log_div (mul_pos (projC_pos hs.1 ha i j) (delta_pos s i)).ne' (other_pos ha hs i).ne', Real.log_mul (projC_pos hs.1 ha i j).ne' (delta_pos s i).ne',
      log_projC hs.1 ha, h1]
    ring
  · have e : (step a D h0 α s).P0 k l = delta a D h0 α s (pt k) / invNew D h0 s (pt k) * projC s.P0 h0 k l := by
      rw [← hcoef k]; rfl
    have hi := invNew_pos hD hh hs (pt k)
    rw [e, Real.log_mul (div_pos (delta_pos s _) hi).ne' (projC_pos hs.2 hh k l).ne', Real.log_div (delta_pos s _).ne' hi.ne', log_projC hs.2 hh, h2]
    ring
  · have e : Real.log (delta a D h0 α s (pt k)) = α * Real.log (other a s (pt k)) + (1 - α) * Real.log (invNew D h0 s (pt k)) := by
      unfold delta
      rw [Real.log_exp]
    beta_reduce
    rw [e]
    linear_combination h3 k

theorem iter_scaled (hD : IsDictionary D) {pt : K → I} (hpt : ∀ i k, D i k = 0 ∨ i = pt k) (ha : ∀ i, 0 < a i) (hh : ∀ k, 0 < h0 k) (n : ℕ)
    (hg : ∀ m < n, ∀ i, guard ≤ other a ((step a D h0 α)^[m] (start M M0 h0 reg reg0)) i) :
    Scaled pt M M0 reg reg0 α ((step a D h0 α)^[n] (start M M0 h0 reg reg0)) := by
  induction n with
  | zero => exact start_scaled pt
  | succ n ih =>
    rw [Function.iterate_succ_apply']
    exact step_scaled hD hpt ha hh (iter_pos hD ha hh (start_pos _ _ _ _ _) n) (hg n (Nat.lt_succ_self n)) (ih fun m hm => hg m (by omega))

theorem optimal_of_scaled (hD : IsDictionary D) {pt : K → I} (hpt : ∀ i k, D i k = 0 ∨ i = pt k) (ha : ∀ i, 0 < a i) (hh : ∀ k, 0 < h0 k)
    (h0α : 0 < α) (h1α : α < 1) (hr : 0 < reg) (hr0 : 0 < reg0) {s : St I K} (hs : Pos s) (h : Scaled pt M M0 reg reg0 α s)
    (hc : ∀ j, guard ≤ cols s.P j) (hc0 : ∀ l, guard ≤ cols s.P0 l) (hag : ∀ i, other a s i = invNew D h0 s i) :
    IsUnmixing (α / reg) ((1 - α) / reg0) a D M M0 h0 reg reg0 (rows (projC s.P0 h0)) := by
  obtain ⟨x, y, x0, y0, h1, h2, h3⟩ := h
  have hP : IsCoupling (mixture D (rows (projC s.P0 h0))) a (projC s.P a) :=
    ⟨fun i j => (projC_pos hs.1 ha i j).le, fun i => hag i, fun j => cols_projC_eq (hc j)⟩
  have hP0 : IsCoupling (rows (projC s.P0 h0)) h0 (projC s.P0 h0) :=
    ⟨fun i j => (projC_pos hs.2 hh i j).le, fun i => rfl, fun j => cols_projC_eq (hc0 j)⟩
  refine ⟨_, _, hP, hP0, fun q Q Q0 hQ hQ0 => ?_⟩
  have f1 : ∀ i j, Real.log (projC s.P a i j) = x i + (y j + (Real.log (a j) - Real.log (max (cols s.P j) guard))) - M i j / reg := fun i j => by
    rw [log_projC hs.1 ha, h1]; ring
  have f2 : ∀ k l, Real.log (projC s.P0 h0 k l) = x0 k + (y0 l + (Real.log (h0 l) - Real.log (max (cols s.P0 l) guard))) - M0 k l / reg0 := fun k l => by
    rw [log_projC hs.2 hh, h2]; ring
  have g1 := entropic_gap_free f1 (projC_pos hs.1 ha) hr.ne' hP hQ
  have g2 := entropic_gap_free f2 (projC_pos hs.2 hh) hr0.ne' hP0 hQ0
  have k1 := klPlan_nonneg hQ.nonneg (projC_pos hs.1 ha)
  have k2 := klPlan_nonneg hQ0.nonneg (projC_pos hs.2 hh)
  have hz : ∀ i k, i ≠ pt k → D i k = 0 := fun i k hi => (hpt i k).resolve_right hi
  have hone : ∀ k, D (pt k) k = 1 := fun k => by
    have hm := hD.mass k
    rwa [sum_eq_single (pt k) (fun i _ hi => hz i k hi) (fun h => absurd (mem_univ _) h)] at hm
  have hmix : ∀ h : K → ℝ, ∑ i, x i * mixture D h i = ∑ k, x (pt k) * h k := by
    intro h
    unfold mixture
    simp only [mul_sum]
    rw [sum_comm]
    refine sum_congr rfl fun k _ => ?_
    rw [sum_eq_single (pt k) (fun i _ hi => by rw [hz i k hi]; ring) (fun h => absurd (mem_univ _) h), hone]
    ring
  have hcancel : α * ∑ i, x i * (mixture D q i - mixture D (rows (projC s.P0 h0)) i) + (1 - α) * ∑ k, x0 k * (q k - rows (projC s.P0 h0) k) = 0 := by
    simp only [mul_sub, sum_sub_distrib]
    simp only [← mul_sub]
    rw [hmix, hmix]
    simp only [← sum_sub_distrib, mul_sum, ← sum_add_distrib]
    refine sum_eq_zero fun k _ => ?_
    linear_combination (q k - rows (projC s.P0 h0) k) * h3 k
  have key : α / reg * entropicObjective M reg Q + (1 - α) / reg0 * entropicObjective M0 reg0 Q0
      - (α / reg * entropicObjective M reg (projC s.P a) + (1 - α) / reg0 * entropicObjective M0 reg0 (projC s.P0 h0))
      = α * klPlan Q (projC s.P a) + (1 - α) * klPlan Q0 (projC s.P0 h0) := by
    have e : α / reg * entropicObjective M reg Q + (1 - α) / reg0 * entropicObjective M0 reg0 Q0
      - (α / reg * entropicObjective M reg (projC s.P a) + (1 - α) / reg0 * entropicObjective M0 reg0 (projC s.P0 h0))
      = α / reg * (entropicObjective M reg Q - entropicObjective M reg (projC s.P a)) + (1 - α) / reg0 * (entropicObjective M0 reg0 Q0 - entropicObjective M0 reg0 (projC s.P0 h0)) := by ring
    rw [e, g1, g2]
    field_simp
    linear_combination hcancel
  have n1 := mul_nonneg h0α.le k1
  have n2 := mul_nonneg (sub_pos.2 h1α).le k2
  refine ⟨by linarith, fun hle => ?_⟩
  have hk : klPlan Q0 (projC s.P0 h0) ≤ 0 := by
    by_contra hcon
    push Not at hcon
    have := mul_pos (sub_pos.2 h1α) hcon
    linarith
  have := klPlan_eq_zero hQ0.nonneg (projC_pos hs.2 hh) hk
  funext k
  rw [← hQ0.row k, this]
  rfl

end scal

end POT.Unmix
