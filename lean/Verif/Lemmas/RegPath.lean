import Verif.Model.RegPath
import Mathlib.Tactic.Linarith
import Mathlib.Tactic.Ring
import Mathlib.Tactic.FieldSimp
import Mathlib.Tactic.Positivity
import Mathlib.Tactic.LinearCombination
import Mathlib.Algebra.BigOperators.Field
import Mathlib.Algebra.BigOperators.Ring.Finset
import Mathlib.Algebra.Order.BigOperators.Ring.Finset

/-! # Lemmas on the regularisation path: Schur updates, optimality conditions, segments -/

set_option linter.unusedSectionVars false

namespace POT.RegPath

open Finset

variable {X R : Type*} [Fintype X] [DecidableEq X] [Fintype R] {p : Lasso X R}

theorem HtH_symm (i j : X) : p.HtH i j = p.HtH j i := sum_congr rfl fun r _ => mul_comm _ _

/-- `B` is the inverse of the Gram matrix of the columns in `S` -/
structure IsInv (p : Lasso X R) (S : Finset X) (B : X → X → ℝ) : Prop where
  inv : ∀ i ∈ S, ∀ k ∈ S, ∑ j ∈ S, p.HtH i j * B j k = if i = k then 1 else 0
  symm : ∀ j ∈ S, ∀ k ∈ S, B j k = B k j

theorem IsInv.inv' {S : Finset X} {B : X → X → ℝ} (h : IsInv p S B) {i k : X} (hi : i ∈ S) (hk : k ∈ S) : ∑ j ∈ S, B i j * p.HtH j k = if i = k then 1 else 0 := by
  have := h.inv k hk i hi
  rw [show (if i = k then (1 : ℝ) else 0) = if k = i then 1 else 0 by simp [eq_comm], ← this]
  exact sum_congr rfl fun j hj => by rw [h.symm i hi j hj, HtH_symm j k]; ring

theorem IsInv.solve {S : Finset X} {B : X → X → ℝ} (h : IsInv p S B) (z : X → ℝ) {i : X} (hi : i ∈ S) : ∑ j ∈ S, p.HtH i j * ∑ k ∈ S, B j k * z k = z i := by
  simp_rw [mul_sum]
  rw [sum_comm]
  have : ∀ k ∈ S, ∑ j ∈ S, p.HtH i j * (B j k * z k) = if i = k then z k else 0 := fun k hk => by
    simp_rw [← mul_assoc]
    rw [← sum_mul, h.inv i hi k hk]
    split_ifs <;> simp
  rw [sum_congr rfl this, sum_ite_eq]
  simp [hi]

theorem IsInv.unique {S : Finset X} {B : X → X → ℝ} (h : IsInv p S B) {x z : X → ℝ} (hx : ∀ i ∈ S, ∑ j ∈ S, p.HtH i j * x j = z i) {i : X} (hi : i ∈ S) : x i = ∑ k ∈ S, B i k * z k := by
  have : ∑ k ∈ S, B i k * z k = ∑ k ∈ S, B i k * ∑ j ∈ S, p.HtH k j * x j := sum_congr rfl fun k hk => by rw [hx k hk]
  rw [this]
  simp_rw [mul_sum]
  rw [sum_comm]
  have h2 : ∀ j ∈ S, ∑ k ∈ S, B i k * (p.HtH k j * x j) = if i = j then x j else 0 := fun j hj => by
    simp_rw [← mul_assoc]
    rw [← sum_mul, h.inv' hi hj]
    split_ifs <;> simp
  rw [sum_congr rfl h2, sum_ite_eq]
  simp [hi]

/-- the Gram form is a squared norm -/
theorem gram_form (S : Finset X) (x : X → ℝ) : ∑ i ∈ S, x i * ∑ j ∈ S, p.HtH i j * x j = ∑ r, (∑ i ∈ S, p.H r i * x i) ^ 2 := by
  have : ∀ r, (∑ i ∈ S, p.H r i * x i) ^ 2 = ∑ i ∈ S, ∑ j ∈ S, x i * (p.H r i * p.H r j * x j) := fun r => by
    rw [sq, sum_mul_sum]
    exact sum_congr rfl fun i _ => sum_congr rfl fun j _ => by ring
  simp_rw [this]
  rw [sum_comm]
  refine sum_congr rfl fun i _ => ?_
  rw [sum_comm, mul_sum]
  refine sum_congr rfl fun j _ => ?_
  rw [Lasso.HtH, sum_mul, mul_sum]

theorem IsInv.diag_pos {S : Finset X} {B : X → X → ℝ} (h : IsInv p S B) {i : X} (hi : i ∈ S) : 0 < B i i := by
  have e := gram_form (p := p) S fun j => B j i
  have e1 : ∑ k ∈ S, B k i * ∑ j ∈ S, p.HtH k j * B j i = B i i := by
    have : ∀ k ∈ S, B k i * ∑ j ∈ S, p.HtH k j * B j i = if k = i then B i i else 0 := fun k hk => by
      rw [h.inv k hk i hi]; split_ifs with hh
      · rw [hh]; simp
      · simp
    rw [sum_congr rfl this, sum_ite_eq']
    simp [hi]
  rw [e1] at e
  have h0 : 0 ≤ B i i := by rw [e]; exact sum_nonneg fun r _ => sq_nonneg _
  refine lt_of_le_of_ne h0 fun hz => ?_
  rw [← hz] at e
  have hr : ∀ r, ∑ j ∈ S, p.H r j * B j i = 0 := fun r => by
    have := (sum_eq_zero_iff_of_nonneg fun r _ => sq_nonneg (∑ j ∈ S, p.H r j * B j i)).1 e.symm r (mem_univ r)
    exact pow_eq_zero_iff two_ne_zero |>.1 this
  have h1 := h.inv i hi i hi
  rw [if_pos rfl] at h1
  have h2 : ∑ j ∈ S, p.HtH i j * B j i = ∑ r, p.H r i * ∑ j ∈ S, p.H r j * B j i := by
    simp_rw [Lasso.HtH, sum_mul, mul_sum]
    rw [sum_comm]
    exact sum_congr rfl fun r _ => sum_congr rfl fun j _ => by ring
  rw [h2] at h1
  simp [hr] at h1

/-- the vector `X` and the number `s` of `complement_schur` -/
noncomputable def sx (p : Lasso X R) (B : X → X → ℝ) (S : Finset X) (i : X) : X → ℝ := fun j => ∑ k ∈ S, B j k * p.HtH k i
noncomputable def ss (p : Lasso X R) (B : X → X → ℝ) (S : Finset X) (i : X) : ℝ := p.HtH i i - ∑ k ∈ S, p.HtH k i * sx p B S i k

theorem sx_eq {S : Finset X} {B : X → X → ℝ} (h : IsInv p S B) (i : X) {k : X} (hk : k ∈ S) : ∑ j ∈ S, p.HtH k j * sx p B S i j = p.HtH k i := h.solve (fun k => p.HtH k i) hk

theorem ss_eq {S : Finset X} {B : X → X → ℝ} (h : IsInv p S B) {i : X} (hi : i ∉ S) : ss p B S i = ∑ r, (p.H r i - ∑ k ∈ S, p.H r k * sx p B S i k) ^ 2 := by
  have e1 : ∑ r, (∑ k ∈ S, p.H r k * sx p B S i k) ^ 2 = ∑ k ∈ S, p.HtH k i * sx p B S i k := by
    rw [← gram_form]
    exact sum_congr rfl fun k hk => by rw [sx_eq h i hk]; ring
  have e2 : ∑ r, p.H r i * ∑ k ∈ S, p.H r k * sx p B S i k = ∑ k ∈ S, p.HtH k i * sx p B S i k := by
    simp_rw [mul_sum, Lasso.HtH, sum_mul]
    rw [sum_comm]
    exact sum_congr rfl fun k _ => sum_congr rfl fun r _ => by ring
  have e3 : ∀ r, (p.H r i - ∑ k ∈ S, p.H r k * sx p B S i k) ^ 2 = p.H r i * p.H r i - 2 * (p.H r i * ∑ k ∈ S, p.H r k * sx p B S i k) + (∑ k ∈ S, p.H r k * sx p B S i k) ^ 2 := fun r => by ring
  simp_rw [e3]
  rw [sum_add_distrib, sum_sub_distrib, ← mul_sum, e1, e2]
  unfold ss
  rw [show p.HtH i i = ∑ r, p.H r i * p.H r i from rfl]
  ring

/-- a zero Schur complement means that the new column depends on the active ones; then its correlation with the residual vanishes for every value of the parameter -/
theorem ss_pos {S : Finset X} {B : X → X → ℝ} (h : IsInv p S B) {i : X} (hi : i ∉ S) (hne : ∑ k ∈ S, sx p B S i k * p.Hty k ≠ p.Hty i) : 0 < ss p B S i := by
  rw [ss_eq h hi]
  refine lt_of_le_of_ne (sum_nonneg fun r _ => sq_nonneg _) fun hz => hne ?_
  have hr : ∀ r, p.H r i = ∑ k ∈ S, p.H r k * sx p B S i k := fun r => by
    have := (sum_eq_zero_iff_of_nonneg fun r _ => sq_nonneg (p.H r i - ∑ k ∈ S, p.H r k * sx p B S i k)).1 hz.symm r (mem_univ r)
    exact sub_eq_zero.1 (pow_eq_zero_iff two_ne_zero |>.1 this)
  unfold Lasso.Hty
  simp_rw [mul_sum]
  rw [sum_comm]
  refine sum_congr rfl fun r _ => ?_
  rw [hr r, sum_mul]
  exact sum_congr rfl fun k _ => by ring

theorem add_inv {S : Finset X} {B : X → X → ℝ} (h : IsInv p S B) {i : X} (hi : i ∉ S) (hs : ss p B S i ≠ 0) : IsInv p (insert i S) (schurAdd B S i (fun k => p.HtH k i) (p.HtH i i)) := by
  obtain ⟨x, hx⟩ : ∃ x, x = sx p B S i := ⟨_, rfl⟩
  obtain ⟨s, hsd⟩ : ∃ s, s = ss p B S i := ⟨_, rfl⟩
  have hB : ∀ j k, schurAdd B S i (fun k => p.HtH k i) (p.HtH i i) j k = if j = i then (if k = i then 1 / s else -x k / s) else if k = i then -x j / s else B j k + x j * x k / s := fun j k => by
    rw [hx, hsd]; rfl
  have hne : ∀ {k}, k ∈ S → k ≠ i := fun hk e => hi (e ▸ hk)
  have hgx : ∀ k ∈ S, ∑ j ∈ S, p.HtH k j * x j = p.HtH k i := fun k hk => by rw [hx]; exact sx_eq h i hk
  have hix : ∑ j ∈ S, p.HtH i j * x j = p.HtH i i - s := by
    rw [hsd, ss, hx]
    have : ∀ k ∈ S, p.HtH i k * sx p B S i k = p.HtH k i * sx p B S i k := fun k _ => by rw [HtH_symm]
    rw [sum_congr rfl this]; ring
  have hxk : ∀ k ∈ S, ∑ j ∈ S, p.HtH i j * B j k = x k := fun k hk => by
    rw [hx]; exact sum_congr rfl fun j hj => by rw [h.symm j hj k hk, HtH_symm i j]; ring
  rw [← hsd] at hs
  refine ⟨fun a ha k hk => ?_, fun j hj k hk => ?_⟩
  · rw [sum_insert hi, hB]
    have hsum : ∀ b : ℝ, ∀ f : X → ℝ, (∀ j ∈ S, schurAdd B S i (fun k => p.HtH k i) (p.HtH i i) j k = f j) →
        ∑ j ∈ S, p.HtH a j * schurAdd B S i (fun k => p.HtH k i) (p.HtH i i) j k = ∑ j ∈ S, p.HtH a j * f j := fun _ f hf => sum_congr rfl fun j hj => by rw [hf j hj]
    rcases mem_insert.1 hk with rfl | hk'
    · rw [hsum 0 (fun j => -x j / s) fun j hj => by rw [hB, if_neg (hne hj), if_pos rfl]]
      have : ∑ j ∈ S, p.HtH a j * (-x j / s) = -(∑ j ∈ S, p.HtH a j * x j) / s := by
        rw [← sum_neg_distrib, sum_div]; exact sum_congr rfl fun j _ => by ring
      rw [this, if_pos rfl, if_pos rfl]
      rcases mem_insert.1 ha with rfl | ha'
      · rw [hix, if_pos rfl]; field_simp; ring
      · rw [hgx a ha', if_neg (hne ha')]; field_simp; ring
    · rw [hsum 0 (fun j => B j k + x j * x k / s) fun j hj => by rw [hB, if_neg (hne hj), if_neg (hne hk')]]
      have : ∑ j ∈ S, p.HtH a j * (B j k + x j * x k / s) = ∑ j ∈ S, p.HtH a j * B j k + (∑ j ∈ S, p.HtH a j * x j) * x k / s := by
        rw [sum_mul, sum_div, ← sum_add_distrib]; exact sum_congr rfl fun j _ => by ring
      rw [this, if_pos rfl, if_neg (hne hk')]
      rcases mem_insert.1 ha with rfl | ha'
      · rw [hix, hxk k hk', if_neg (Ne.symm (hne hk'))]; field_simp; ring
      · rw [hgx a ha', h.inv a ha' k hk']; field_simp; ring
  · rw [hB, hB]
    rcases mem_insert.1 hj with rfl | hj' <;> rcases mem_insert.1 hk with rfl | hk'
    · rfl
    · rw [if_pos rfl, if_neg (hne hk'), if_neg (hne hk'), if_pos rfl]
    · rw [if_neg (hne hj'), if_pos rfl, if_pos rfl, if_neg (hne hj')]
    · rw [if_neg (hne hj'), if_neg (hne hk'), if_neg (hne hk'), if_neg (hne hj'), h.symm j hj' k hk']; ring

theorem pop_inv {S : Finset X} {B : X → X → ℝ} (h : IsInv p S B) {i : X} (hi : i ∈ S) : IsInv p (S.erase i) (schurPop B i) := by
  have hd := (h.diag_pos hi).ne'
  refine ⟨fun a ha k hk => ?_, fun j hj k hk => ?_⟩
  · obtain ⟨ha1, ha2⟩ := mem_erase.1 ha
    obtain ⟨hk1, hk2⟩ := mem_erase.1 hk
    rw [sum_erase_eq_sub hi]
    unfold schurPop
    have : ∑ j ∈ S, p.HtH a j * (B j k - B j i * B i k / B i i) = ∑ j ∈ S, p.HtH a j * B j k - (∑ j ∈ S, p.HtH a j * B j i) * (B i k / B i i) := by
      rw [sum_mul, ← sum_sub_distrib]; exact sum_congr rfl fun j _ => by ring
    rw [this, h.inv a ha2 k hk2, h.inv a ha2 i hi, if_neg ha1]
    field_simp
    ring
  · unfold schurPop
    rw [h.symm j (mem_erase.1 hj).2 k (mem_erase.1 hk).2, h.symm j (mem_erase.1 hj).2 i hi, h.symm i hi k (mem_erase.1 hk).2]
    ring

theorem first_inv {i : X} (hi : p.HtH i i = 2) : IsInv p {i} fun _ _ => 1 / 2 :=
  ⟨fun a ha k hk => by rw [mem_singleton.1 ha, mem_singleton.1 hk]; simp [hi], fun _ _ _ _ => rfl⟩

/-! ### optimality conditions -/

/-- the objective `γ cᵀ t + ½ ‖H t - y‖²` -/
noncomputable def obj (p : Lasso X R) (γ : ℝ) (t : X → ℝ) : ℝ := γ * ∑ i, p.c i * t i + 1 / 2 * ∑ r, (∑ i, p.H r i * t i - p.y r) ^ 2

/-- its gradient -/
noncomputable def resid (p : Lasso X R) (γ : ℝ) (t : X → ℝ) (i : X) : ℝ := ∑ j, p.HtH i j * t j - p.Hty i + γ * p.c i

/-- minimiser over the non-negative vectors -/
def IsMin (p : Lasso X R) (γ : ℝ) (t : X → ℝ) : Prop := (∀ i, 0 ≤ t i) ∧ ∀ t' : X → ℝ, (∀ i, 0 ≤ t' i) → obj p γ t ≤ obj p γ t'

theorem obj_expand (γ : ℝ) (t t' : X → ℝ) : obj p γ t' = obj p γ t + ∑ i, resid p γ t i * (t' i - t i) + 1 / 2 * ∑ r, (∑ i, p.H r i * (t' i - t i)) ^ 2 := by
  have e1 : ∀ r, (∑ i, p.H r i * t' i - p.y r) ^ 2 = (∑ i, p.H r i * t i - p.y r) ^ 2 + 2 * ((∑ i, p.H r i * t i - p.y r) * ∑ i, p.H r i * (t' i - t i)) + (∑ i, p.H r i * (t' i - t i)) ^ 2 := fun r => by
    have : ∑ i, p.H r i * (t' i - t i) = ∑ i, p.H r i * t' i - ∑ i, p.H r i * t i := by rw [← sum_sub_distrib]; exact sum_congr rfl fun i _ => by ring
    rw [this]; ring
  have e2 : ∑ i, resid p γ t i * (t' i - t i) = ∑ r, (∑ i, p.H r i * t i - p.y r) * ∑ i, p.H r i * (t' i - t i) + γ * ∑ i, p.c i * (t' i - t i) := by
    have : ∀ i, resid p γ t i = ∑ r, (∑ j, p.H r j * t j - p.y r) * p.H r i + γ * p.c i := fun i => by
      unfold resid Lasso.HtH Lasso.Hty
      congr 1
      simp_rw [sub_mul, sum_sub_distrib, sum_mul]
      congr 1
      · rw [sum_comm]; exact sum_congr rfl fun r _ => sum_congr rfl fun j _ => by ring
      · exact sum_congr rfl fun r _ => by ring
    simp_rw [this, add_mul, sum_add_distrib, sum_mul, mul_sum]
    congr 1
    · rw [sum_comm]
      refine sum_congr rfl fun r _ => sum_congr rfl fun i _ => ?_
      ring
    · exact sum_congr rfl fun i _ => by ring
  have e3 : ∑ i, p.c i * (t' i - t i) = ∑ i, p.c i * t' i - ∑ i, p.c i * t i := by rw [← sum_sub_distrib]; exact sum_congr rfl fun i _ => by ring
  rw [e2, e3]
  unfold obj
  simp_rw [e1]
  rw [sum_add_distrib, sum_add_distrib, ← mul_sum]
  ring

/-- the Karush-Kuhn-Tucker conditions suffice -/
theorem kkt {γ : ℝ} {t : X → ℝ} (h0 : ∀ i, 0 ≤ t i) (h1 : ∀ i, 0 ≤ resid p γ t i) (h2 : ∀ i, t i ≠ 0 → resid p γ t i = 0) : IsMin p γ t := by
  refine ⟨h0, fun t' ht' => ?_⟩
  rw [obj_expand γ t t']
  have a1 : 0 ≤ ∑ i, resid p γ t i * (t' i - t i) := sum_nonneg fun i _ => by
    by_cases h : t i = 0
    · rw [h, sub_zero]; exact mul_nonneg (h1 i) (ht' i)
    · rw [h2 i h, zero_mul]
  have a2 : 0 ≤ ∑ r, (∑ i, p.H r i * (t' i - t i)) ^ 2 := sum_nonneg fun r _ => sq_nonneg _
  linarith

/-! ### segments -/

/-- the solution on the segment of a state, `t = phi - gamma * delta` -/
noncomputable def seg (p : Lasso X R) (s : State X) (γ : ℝ) : X → ℝ := fun i => phi p s i - γ * delta p s i

/-- intercept and slope of the gradient on the segment -/
noncomputable def rp (p : Lasso X R) (s : State X) (i : X) : ℝ := ∑ j ∈ s.S, p.HtH i j * phi p s j - p.Hty i
noncomputable def rq (p : Lasso X R) (s : State X) (i : X) : ℝ := ∑ j ∈ s.S, p.HtH i j * delta p s j - p.c i

theorem seg_out {s : State X} {γ : ℝ} {i : X} (hi : i ∉ s.S) : seg p s γ i = 0 := by simp [seg, phi, delta, hi]

theorem sum_seg {s : State X} {γ : ℝ} (f : X → ℝ) : ∑ j, f j * seg p s γ j = ∑ j ∈ s.S, f j * seg p s γ j :=
  (sum_subset (subset_univ s.S) fun j _ hj => by rw [seg_out hj, mul_zero]).symm

theorem resid_seg (s : State X) (γ : ℝ) (i : X) : resid p γ (seg p s γ) i = rp p s i - γ * rq p s i := by
  unfold resid rp rq
  rw [sum_seg]
  have : ∑ j ∈ s.S, p.HtH i j * seg p s γ j = ∑ j ∈ s.S, p.HtH i j * phi p s j - γ * ∑ j ∈ s.S, p.HtH i j * delta p s j := by
    rw [mul_sum, ← sum_sub_distrib]; exact sum_congr rfl fun j _ => by unfold seg; ring
  rw [this]; ring

theorem seg_in {s : State X} {γ : ℝ} {i : X} (hi : i ∈ s.S) : seg p s γ i = ∑ k ∈ s.S, inverse p s i k * (p.Hty k - γ * p.c k) := by
  simp only [seg, phi, delta, hi, if_true]
  rw [mul_sum, ← sum_sub_distrib]
  exact sum_congr rfl fun k _ => by ring

theorem gram_phi {s : State X} (h : IsInv p s.S (inverse p s)) {i : X} (hi : i ∈ s.S) : ∑ j ∈ s.S, p.HtH i j * phi p s j = p.Hty i := by
  rw [← h.solve p.Hty hi]
  exact sum_congr rfl fun j hj => by simp [phi, hj]

theorem gram_delta {s : State X} (h : IsInv p s.S (inverse p s)) {i : X} (hi : i ∈ s.S) : ∑ j ∈ s.S, p.HtH i j * delta p s j = p.c i := by
  rw [← h.solve p.c hi]
  exact sum_congr rfl fun j hj => by simp [delta, hj]

theorem resid_in {s : State X} (h : IsInv p s.S (inverse p s)) {γ : ℝ} {i : X} (hi : i ∈ s.S) : resid p γ (seg p s γ) i = 0 := by
  rw [resid_seg, rp, rq, gram_phi h hi, gram_delta h hi]; ring

/-- What holds at the beginning of an iteration. -/
structure Ready (p : Lasso X R) (s : State X) : Prop where
  ne : s.S.Nonempty
  inv : IsInv p s.S (inverse p s)
  pos : 0 < s.γ
  cont : s.t = seg p s s.γ
  act : ∀ i ∈ s.S, 0 ≤ seg p s s.γ i
  act0 : ∀ i ∈ s.S, seg p s s.γ i = 0 → 0 < delta p s i
  ina : ∀ i ∉ s.S, 0 ≤ resid p s.γ (seg p s s.γ) i
  ina0 : ∀ i ∉ s.S, resid p s.γ (seg p s s.γ) i = 0 → 0 < rq p s i

/-- no breakpoint is hidden by the tolerances -/
structure Gap (p : Lasso X R) (tol : Tol) (s : State X) : Prop where
  rem : ∀ i ∈ s.S, delta p s i ≠ 0 → phi p s i / delta p s i < s.γ → phi p s i / delta p s i < (1 - tol.rem) * s.γ
  add : ∀ i ∉ s.S, rq p s i ≠ 0 → rp p s i / rq p s i < s.γ → rp p s i / rq p s i ≤ s.γ - tol.add * s.γ

variable {tol : Tol} {arg : (X → ℝ) → X}

theorem nextGamma_eq (he : tol.eps = 0) (s : State X) (i : X) : nextGamma p tol s i = if i ∈ s.S then 0 else if rp p s i / rq p s i > s.γ - tol.add * s.γ then 0 else rp p s i / rq p s i := by
  unfold nextGamma rp rq
  rw [he, add_zero]

theorem nextRemoval_eq (he : tol.eps = 0) (s : State X) (i : X) :
    nextRemoval p tol s i = if i ∈ s.S then (if phi p s i / delta p s i ≥ (1 - tol.rem) * s.γ then 0 else phi p s i / delta p s i) else 0 := by
  unfold nextRemoval
  rw [he, sub_zero]

theorem step_γ (p : Lasso X R) (tol : Tol) (arg : (X → ℝ) → X) (s : State X) :
    (step p tol arg s).γ = max (nextRemoval p tol s (arg (nextRemoval p tol s))) (nextGamma p tol s (arg (nextGamma p tol s))) := by
  unfold step
  dsimp only
  split_ifs with h
  · rw [max_eq_left h.le]
  · rw [max_eq_right (not_lt.1 h)]

theorem step_t (p : Lasso X R) (tol : Tol) (arg : (X → ℝ) → X) (s : State X) : (step p tol arg s).t = seg p s (step p tol arg s).γ := by
  unfold step
  dsimp only
  split_ifs <;> rfl

theorem step_past (p : Lasso X R) (tol : Tol) (arg : (X → ℝ) → X) (s : State X) : (step p tol arg s).past = (s.γ, s.t) :: s.past := by
  unfold step
  dsimp only
  split_ifs <;> rfl

theorem step_γ_bounds (he : tol.eps = 0) (ha : 0 < tol.add) (hr : 0 < tol.rem) (harg : ∀ M : X → ℝ, ∀ i, M i ≤ M (arg M)) {s : State X} (h : Ready p s) :
    0 ≤ (step p tol arg s).γ ∧ (step p tol arg s).γ < s.γ := by
  rw [step_γ]
  constructor
  · obtain ⟨i, hi⟩ := h.ne
    refine le_max_of_le_right (le_trans (le_of_eq ?_) (harg _ i))
    rw [nextGamma_eq he, if_pos hi]
  · have hγ := h.pos
    refine max_lt ?_ ?_
    · rw [nextRemoval_eq he]
      split_ifs with h1 h2
      · exact hγ
      · have := mul_pos hr hγ
        linarith [not_le.1 h2]
      · exact hγ
    · rw [nextGamma_eq he]
      split_ifs with h1 h2
      · exact hγ
      · exact hγ
      · have := mul_pos ha hγ
        linarith [not_lt.1 h2]

/-- the segment stays optimal down to the next breakpoint -/
theorem segment (he : tol.eps = 0) (harg : ∀ M : X → ℝ, ∀ i, M i ≤ M (arg M)) {s : State X} (h : Ready p s) (hg : Gap p tol s) {γ : ℝ} (h1 : (step p tol arg s).γ ≤ γ) (h2 : γ ≤ s.γ) :
    (∀ i, 0 ≤ seg p s γ i) ∧ (∀ i, 0 ≤ resid p γ (seg p s γ) i) ∧ IsMin p γ (seg p s γ) := by
  rw [step_γ] at h1
  have hpos : ∀ i, 0 ≤ seg p s γ i := fun i => by
    by_cases hi : i ∈ s.S
    · by_contra hneg
      push Not at hneg
      have h0 := h.act i hi
      unfold seg at hneg h0
      have hd : delta p s i < 0 := by
        by_contra hd
        push Not at hd
        have := mul_le_mul_of_nonneg_right h2 hd
        linarith
      have hroot : γ < phi p s i / delta p s i := by rw [lt_div_iff_of_neg hd]; linarith
      have hroot2 : phi p s i / delta p s i ≤ s.γ := by rw [div_le_iff_of_neg hd]; linarith
      have hroot3 : phi p s i / delta p s i < s.γ := lt_of_le_of_ne hroot2 fun e => by
        have : seg p s s.γ i = 0 := by unfold seg; rw [← e, div_mul_cancel₀ _ hd.ne, sub_self]
        linarith [h.act0 i hi this]
      have hm := hg.rem i hi hd.ne hroot3
      have hv : nextRemoval p tol s i = phi p s i / delta p s i := by
        rw [nextRemoval_eq he, if_pos hi, if_neg (by push Not; exact hm)]
      have := harg (nextRemoval p tol s) i
      have := (le_max_left _ _).trans h1
      linarith
    · rw [seg_out hi]
  have hres : ∀ i, 0 ≤ resid p γ (seg p s γ) i := fun i => by
    by_cases hi : i ∈ s.S
    · rw [resid_in h.inv hi]
    · by_contra hneg
      push Not at hneg
      have h0 := h.ina i hi
      rw [resid_seg] at hneg h0
      have hd : rq p s i < 0 := by
        by_contra hd
        push Not at hd
        have := mul_le_mul_of_nonneg_right h2 hd
        linarith
      have hroot : γ < rp p s i / rq p s i := by rw [lt_div_iff_of_neg hd]; linarith
      have hroot2 : rp p s i / rq p s i ≤ s.γ := by rw [div_le_iff_of_neg hd]; linarith
      have hroot3 : rp p s i / rq p s i < s.γ := lt_of_le_of_ne hroot2 fun e => by
        have : resid p s.γ (seg p s s.γ) i = 0 := by rw [resid_seg, ← e, div_mul_cancel₀ _ hd.ne, sub_self]
        linarith [h.ina0 i hi this]
      have hm := hg.add i hi hd.ne hroot3
      have hv : nextGamma p tol s i = rp p s i / rq p s i := by
        rw [nextGamma_eq he, if_neg hi, if_neg (by push Not; exact hm)]
      have := harg (nextGamma p tol s) i
      have := (le_max_right _ _).trans h1
      linarith
  refine ⟨hpos, hres, kkt hpos hres fun i hi => ?_⟩
  by_cases hS : i ∈ s.S
  · exact resid_in h.inv hS
  · exact absurd (seg_out hS) hi

/-- only the index of the last event sits on the boundary -/
structure Simple (p : Lasso X R) (s : State X) : Prop where
  act : ∀ i ∈ s.S, seg p s s.γ i = 0 → s.ev = .first i ∨ s.ev = .add i
  ina : ∀ i ∉ s.S, resid p s.γ (seg p s s.γ) i = 0 → s.ev = .pop i

theorem ready_step (he : tol.eps = 0) (ha : 0 < tol.add) (hr : 0 < tol.rem) (harg : ∀ M : X → ℝ, ∀ i, M i ≤ M (arg M)) (h2 : ∀ i, p.HtH i i = 2) (hc : ∀ i, 0 < p.c i) {s : State X}
    (h : Ready p s) (hg : Gap p tol s) (hγ : 0 < (step p tol arg s).γ) (hs : Simple p (step p tol arg s)) : Ready p (step p tol arg s) := by
  obtain ⟨-, hlt⟩ := step_γ_bounds he ha hr harg h
  obtain ⟨hseg, hres, -⟩ := segment he harg h hg (γ := (step p tol arg s).γ) le_rfl hlt.le
  obtain ⟨ik, hik⟩ : ∃ ik, ik = arg (nextGamma p tol s) := ⟨_, rfl⟩
  obtain ⟨ip, hip⟩ : ∃ ip, ip = arg (nextRemoval p tol s) := ⟨_, rfl⟩
  -- the new segment starts where the old one ends
  have hglue : IsInv p (step p tol arg s).S (inverse p (step p tol arg s)) → (∀ i ∈ (step p tol arg s).S, resid p (step p tol arg s).γ (seg p s (step p tol arg s).γ) i = 0) →
      (∀ i ∉ (step p tol arg s).S, seg p s (step p tol arg s).γ i = 0) → seg p (step p tol arg s) (step p tol arg s).γ = seg p s (step p tol arg s).γ := by
    intro hinv hz ho
    funext i
    by_cases hi : i ∈ (step p tol arg s).S
    · rw [seg_in hi]
      refine (hinv.unique (x := seg p s (step p tol arg s).γ) (z := fun k => p.Hty k - (step p tol arg s).γ * p.c k) (fun k hk => ?_) hi).symm
      have e : ∑ j, p.HtH k j * seg p s (step p tol arg s).γ j = ∑ j ∈ (step p tol arg s).S, p.HtH k j * seg p s (step p tol arg s).γ j :=
        (sum_subset (subset_univ _) fun j _ hj => by rw [ho j hj, mul_zero]).symm
      have := hz k hk
      unfold resid at this
      rw [e] at this
      linarith
    · rw [seg_out hi, ho i hi]
  by_cases hbr : nextRemoval p tol s ip > nextGamma p tol s ik
  · -- removal
    have es : step p tol arg s = { S := s.S.erase ip, B := inverse p s, ev := .pop ip, γ := nextRemoval p tol s ip, t := fun i => phi p s i - nextRemoval p tol s ip * delta p s i, past := (s.γ, s.t) :: s.past } := by
      unfold step; simp only [← hik, ← hip]; rw [if_pos hbr]
    have hγe : (step p tol arg s).γ = nextRemoval p tol s ip := by rw [es]
    have hSe : (step p tol arg s).S = s.S.erase ip := by rw [es]
    have hBe : inverse p (step p tol arg s) = schurPop (inverse p s) ip := by rw [es]; rfl
    have heve : (step p tol arg s).ev = .pop ip := by rw [es]
    have hγ' := hγ
    rw [hγe, nextRemoval_eq he] at hγ'
    have hipS : ip ∈ s.S := by by_contra hn; rw [if_neg hn] at hγ'; exact lt_irrefl _ hγ'
    rw [if_pos hipS] at hγ'
    have hmask : ¬ phi p s ip / delta p s ip ≥ (1 - tol.rem) * s.γ := fun hm => by rw [if_pos hm] at hγ'; exact lt_irrefl _ hγ'
    have hγv : (step p tol arg s).γ = phi p s ip / delta p s ip := by rw [hγe, nextRemoval_eq he, if_pos hipS, if_neg hmask]
    rw [if_neg hmask] at hγ'
    have hd0 : delta p s ip ≠ 0 := fun e => by rw [e, div_zero] at hγ'; exact lt_irrefl _ hγ'
    have hz : seg p s (step p tol arg s).γ ip = 0 := by unfold seg; rw [hγv, div_mul_cancel₀ _ hd0, sub_self]
    have hdneg : delta p s ip < 0 := by
      refine lt_of_le_of_ne ?_ hd0
      by_contra hpos
      push Not at hpos
      have h3 := h.act ip hipS
      unfold seg at hz h3
      have := mul_lt_mul_of_pos_right hlt hpos
      linarith
    have hinv : IsInv p (step p tol arg s).S (inverse p (step p tol arg s)) := by rw [hSe, hBe]; exact pop_inv h.inv hipS
    have hBpos := h.inv.diag_pos hipS
    have hcont := hglue hinv (fun i hi => resid_in h.inv (mem_of_mem_erase (hSe ▸ hi))) (fun i hi => by
      by_cases e : i = ip
      · rw [e, hz]
      · exact seg_out fun hiS => hi (by rw [hSe]; exact mem_erase.2 ⟨e, hiS⟩))
    have hdel : ∀ j ∈ s.S.erase ip, delta p (step p tol arg s) j = delta p s j - inverse p s j ip * delta p s ip / inverse p s ip ip := fun j hj => by
      have hj' := (mem_erase.1 hj).2
      have e1 : delta p (step p tol arg s) j = ∑ k ∈ s.S.erase ip, (inverse p s j k - inverse p s j ip * inverse p s ip k / inverse p s ip ip) * p.c k := by
        unfold delta; rw [hSe, if_pos hj, hBe]; rfl
      have e2 : ∀ i ∈ s.S, delta p s i = ∑ k ∈ s.S, inverse p s i k * p.c k := fun i hi => by simp [delta, hi]
      rw [e1, e2 j hj', e2 ip hipS, sum_erase_eq_sub hipS]
      have : ∑ k ∈ s.S, (inverse p s j k - inverse p s j ip * inverse p s ip k / inverse p s ip ip) * p.c k
          = ∑ k ∈ s.S, inverse p s j k * p.c k - inverse p s j ip * (∑ k ∈ s.S, inverse p s ip k * p.c k) / inverse p s ip ip := by
        rw [mul_sum, sum_div, ← sum_sub_distrib]; exact sum_congr rfl fun k _ => by ring
      rw [this]
      field_simp
      ring
    have hrq : rq p (step p tol arg s) ip = -delta p s ip / inverse p s ip ip := by
      unfold rq
      rw [hSe, sum_congr rfl fun j hj => by rw [hdel j hj], sum_erase_eq_sub hipS]
      have e3 : ∑ j ∈ s.S, p.HtH ip j * (delta p s j - inverse p s j ip * delta p s ip / inverse p s ip ip)
          = ∑ j ∈ s.S, p.HtH ip j * delta p s j - (∑ j ∈ s.S, p.HtH ip j * inverse p s j ip) * (delta p s ip / inverse p s ip ip) := by
        rw [sum_mul, ← sum_sub_distrib]; exact sum_congr rfl fun k _ => by ring
      rw [e3, gram_delta h.inv hipS, h.inv.inv ip hipS ip hipS, if_pos rfl]
      field_simp
      ring
    have hne : (step p tol arg s).S.Nonempty := by
      rw [hSe]
      by_contra hemp
      rw [not_nonempty_iff_eq_empty] at hemp
      have hS1 : s.S = {ip} := by rw [← insert_erase hipS, hemp]; rfl
      have h3 := gram_delta h.inv hipS
      rw [hS1, sum_singleton, h2] at h3
      have := hc ip
      linarith
    refine ⟨hne, hinv, hγ, ?_, ?_, ?_, ?_, ?_⟩
    · rw [step_t, hcont]
    · intro i _; rw [hcont]; exact hseg i
    · intro i hi h0
      rcases hs.act i hi h0 with e | e <;> rw [heve] at e <;> cases e
    · intro i _; rw [hcont]; exact hres i
    · intro i hi h0
      have e := hs.ina i hi h0
      rw [heve] at e
      have : ip = i := by injection e
      rw [← this, hrq]
      exact div_pos (by linarith) hBpos
  · -- addition
    have es : step p tol arg s = { S := insert ik s.S, B := inverse p s, ev := .add ik, γ := nextGamma p tol s ik, t := fun i => phi p s i - nextGamma p tol s ik * delta p s i, past := (s.γ, s.t) :: s.past } := by
      unfold step; simp only [← hik, ← hip]; rw [if_neg hbr]
    have hγe : (step p tol arg s).γ = nextGamma p tol s ik := by rw [es]
    have hSe : (step p tol arg s).S = insert ik s.S := by rw [es]
    have heve : (step p tol arg s).ev = .add ik := by rw [es]
    have hγ' := hγ
    rw [hγe, nextGamma_eq he] at hγ'
    have hikS : ik ∉ s.S := fun hn => by rw [if_pos hn] at hγ'; exact lt_irrefl _ hγ'
    rw [if_neg hikS] at hγ'
    have hmask : ¬ rp p s ik / rq p s ik > s.γ - tol.add * s.γ := fun hm => by rw [if_pos hm] at hγ'; exact lt_irrefl _ hγ'
    have hγv : (step p tol arg s).γ = rp p s ik / rq p s ik := by rw [hγe, nextGamma_eq he, if_neg hikS, if_neg hmask]
    rw [if_neg hmask] at hγ'
    have hq0 : rq p s ik ≠ 0 := fun e => by rw [e, div_zero] at hγ'; exact lt_irrefl _ hγ'
    have hp0 : rp p s ik ≠ 0 := fun e => by rw [e, zero_div] at hγ'; exact lt_irrefl _ hγ'
    have hz : resid p (step p tol arg s).γ (seg p s (step p tol arg s).γ) ik = 0 := by rw [resid_seg, hγv, div_mul_cancel₀ _ hq0, sub_self]
    have hqneg : rq p s ik < 0 := by
      refine lt_of_le_of_ne ?_ hq0
      by_contra hpos
      push Not at hpos
      have h3 := h.ina ik hikS
      rw [resid_seg] at hz h3
      have := mul_lt_mul_of_pos_right hlt hpos
      linarith
    have hsxz : ∀ z : X → ℝ, ∑ k ∈ s.S, sx p (inverse p s) s.S ik k * z k = ∑ j ∈ s.S, p.HtH ik j * ∑ k ∈ s.S, inverse p s j k * z k := fun z => by
      unfold sx
      simp_rw [sum_mul, mul_sum]
      rw [sum_comm]
      refine sum_congr rfl fun j hj => sum_congr rfl fun k hk => ?_
      rw [h.inv.symm k hk j hj, HtH_symm j ik]; ring
    have hsspos : 0 < ss p (inverse p s) s.S ik := by
      refine ss_pos h.inv hikS fun e => hp0 ?_
      unfold rp
      rw [← e, hsxz]
      rw [sub_eq_zero]
      exact sum_congr rfl fun j hj => by simp [phi, hj]
    have hBe : inverse p (step p tol arg s) = schurAdd (inverse p s) s.S ik (fun k => p.HtH k ik) (p.HtH ik ik) := by
      rw [es, h2]; simp only [inverse, erase_insert hikS]
    have hinv : IsInv p (step p tol arg s).S (inverse p (step p tol arg s)) := by rw [hSe, hBe]; exact add_inv h.inv hikS hsspos.ne'
    have hcont := hglue hinv (fun i hi => by
        rw [hSe] at hi
        rcases mem_insert.1 hi with rfl | hi
        · exact hz
        · exact resid_in h.inv hi)
      (fun i hi => seg_out fun hiS => hi (by rw [hSe]; exact mem_insert_of_mem hiS))
    have hdel : delta p (step p tol arg s) ik = -rq p s ik / ss p (inverse p s) s.S ik := by
      have e1 : delta p (step p tol arg s) ik = ∑ k ∈ insert ik s.S, schurAdd (inverse p s) s.S ik (fun k => p.HtH k ik) (p.HtH ik ik) ik k * p.c k := by
        unfold delta; rw [hSe, if_pos (mem_insert_self _ _), hBe]
      have e2 : ∀ k, schurAdd (inverse p s) s.S ik (fun k => p.HtH k ik) (p.HtH ik ik) ik k = if k = ik then 1 / ss p (inverse p s) s.S ik else -sx p (inverse p s) s.S ik k / ss p (inverse p s) s.S ik := fun k => by
        unfold schurAdd; rw [if_pos rfl]; rfl
      rw [e1, sum_insert hikS, e2, if_pos rfl]
      have e3 : ∑ k ∈ s.S, schurAdd (inverse p s) s.S ik (fun k => p.HtH k ik) (p.HtH ik ik) ik k * p.c k = -(∑ k ∈ s.S, sx p (inverse p s) s.S ik k * p.c k) / ss p (inverse p s) s.S ik := by
        rw [← sum_neg_distrib, sum_div]
        refine sum_congr rfl fun k hk => ?_
        rw [e2, if_neg (fun e : k = ik => hikS (e ▸ hk))]; ring
      have e4 : ∑ k ∈ s.S, sx p (inverse p s) s.S ik k * p.c k = rq p s ik + p.c ik := by
        rw [hsxz, rq, sub_add_cancel]
        exact sum_congr rfl fun j hj => by simp [delta, hj]
      rw [e3, e4]
      field_simp
      ring
    refine ⟨by rw [hSe]; exact insert_nonempty _ _, hinv, hγ, ?_, ?_, ?_, ?_, ?_⟩
    · rw [step_t, hcont]
    · intro i _; rw [hcont]; exact hseg i
    · intro i hi h0
      rcases hs.act i hi h0 with e | e
      · rw [heve] at e; cases e
      · rw [heve] at e
        have : ik = i := by injection e
        rw [← this, hdel]
        exact div_pos (by linarith) hsspos
    · intro i _; rw [hcont]; exact hres i
    · intro i hi h0
      have e := hs.ina i hi h0
      rw [heve] at e; cases e

theorem ready_start (harg : ∀ M : X → ℝ, ∀ i, M i ≤ M (arg M)) (h2 : ∀ i, p.HtH i i = 2) (hc : ∀ i, 0 < p.c i) (hγ : 0 < (start p arg).γ) (hs : Simple p (start p arg)) : Ready p (start p arg) := by
  obtain ⟨i0, hi0⟩ : ∃ i0, i0 = arg fun i => p.Hty i / p.c i := ⟨_, rfl⟩
  have es : start p arg = { S := {i0}, B := fun _ _ => 0, ev := .first i0, γ := p.Hty i0 / p.c i0, t := fun _ => 0, past := [] } := by unfold start; simp only [← hi0]
  have hBe : inverse p (start p arg) = fun _ _ => 1 / 2 := by rw [es]; rfl
  have hSe : (start p arg).S = {i0} := by rw [es]
  have hγe : (start p arg).γ = p.Hty i0 / p.c i0 := by rw [es]
  have heve : (start p arg).ev = .first i0 := by rw [es]
  have hinv : IsInv p (start p arg).S (inverse p (start p arg)) := by rw [hSe, hBe]; exact first_inv (h2 i0)
  have hci := hc i0
  have hzero : seg p (start p arg) (start p arg).γ = fun _ => 0 := by
    funext i
    by_cases hi : i ∈ (start p arg).S
    · rw [seg_in hi, hSe, sum_singleton, hγe]; field_simp; ring
    · exact seg_out hi
  have hd : delta p (start p arg) i0 = p.c i0 / 2 := by
    unfold delta; rw [hSe, if_pos (mem_singleton_self _), sum_singleton, hBe]; ring
  refine ⟨by rw [hSe]; exact singleton_nonempty _, hinv, hγ, ?_, ?_, ?_, ?_, ?_⟩
  · rw [hzero, es]
  · intro i _; rw [hzero]
  · intro i hi h0
    rcases hs.act i hi h0 with e | e
    · rw [heve] at e
      have : i0 = i := by injection e
      rw [← this, hd]; linarith
    · rw [heve] at e; cases e
  · intro i _
    rw [hzero, resid]
    simp only [mul_zero, sum_const_zero, zero_sub]
    have := harg (fun i => p.Hty i / p.c i) i
    rw [← hi0, ← hγe] at this
    have := (div_le_iff₀ (hc i)).1 this
    linarith
  · intro i hi h0
    have e := hs.ina i hi h0
    rw [heve] at e; cases e

end POT.RegPath
