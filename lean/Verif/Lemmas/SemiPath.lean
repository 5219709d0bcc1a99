import Verif.Model.SemiPath
import Mathlib.Tactic.Linarith
import Mathlib.Tactic.Ring
import Mathlib.Tactic.FieldSimp
import Mathlib.Tactic.Positivity
import Mathlib.Tactic.LinearCombination
import Mathlib.Algebra.BigOperators.Field
import Mathlib.Algebra.BigOperators.Ring.Finset
import Mathlib.Algebra.Order.BigOperators.Ring.Finset
import Mathlib.Data.Fintype.BigOperators

/-! # Lemmas on the semi-relaxed regularisation path: Schur updates of the augmented system, optimality conditions, segments -/

set_option linter.unusedSectionVars false

namespace POT.SemiPath

open Finset RegPath

/-! ### Schur updates for a symmetric matrix -/

section schur

variable {Z : Type*} [DecidableEq Z] {K : Z → Z → ℝ}

/-- `B` is the inverse of `K` on the indices in `S`, and symmetric there -/
structure InvOn (K : Z → Z → ℝ) (S : Finset Z) (B : Z → Z → ℝ) : Prop where
  inv : ∀ i ∈ S, ∀ k ∈ S, ∑ j ∈ S, K i j * B j k = if i = k then 1 else 0
  symm : ∀ j ∈ S, ∀ k ∈ S, B j k = B k j

theorem InvOn.inv' (hK : ∀ i j, K i j = K j i) {S : Finset Z} {B : Z → Z → ℝ} (h : InvOn K S B) {i k : Z} (hi : i ∈ S) (hk : k ∈ S) : ∑ j ∈ S, B i j * K j k = if i = k then 1 else 0 := by
  have := h.inv k hk i hi
  rw [show (if i = k then (1 : ℝ) else 0) = if k = i then 1 else 0 by simp [eq_comm], ← this]
  exact sum_congr rfl fun j hj => by rw [h.symm i hi j hj, hK j k]; ring

theorem InvOn.solve {S : Finset Z} {B : Z → Z → ℝ} (h : InvOn K S B) (z : Z → ℝ) {i : Z} (hi : i ∈ S) : ∑ j ∈ S, K i j * ∑ k ∈ S, B j k * z k = z i := by
  simp_rw [mul_sum]
  rw [sum_comm]
  have : ∀ k ∈ S, ∑ j ∈ S, K i j * (B j k * z k) = if i = k then z k else 0 := fun k hk => by
    simp_rw [← mul_assoc]
    rw [← sum_mul, h.inv i hi k hk]
    split_ifs <;> simp
  rw [sum_congr rfl this, sum_ite_eq]
  simp [hi]

theorem InvOn.unique (hK : ∀ i j, K i j = K j i) {S : Finset Z} {B : Z → Z → ℝ} (h : InvOn K S B) {x z : Z → ℝ} (hx : ∀ i ∈ S, ∑ j ∈ S, K i j * x j = z i) {i : Z} (hi : i ∈ S) : x i = ∑ k ∈ S, B i k * z k := by
  have : ∑ k ∈ S, B i k * z k = ∑ k ∈ S, B i k * ∑ j ∈ S, K k j * x j := sum_congr rfl fun k hk => by rw [hx k hk]
  rw [this]
  simp_rw [mul_sum]
  rw [sum_comm]
  have h2 : ∀ j ∈ S, ∑ k ∈ S, B i k * (K k j * x j) = if i = j then x j else 0 := fun j hj => by
    simp_rw [← mul_assoc]
    rw [← sum_mul, h.inv' hK hi hj]
    split_ifs <;> simp
  rw [sum_congr rfl h2, sum_ite_eq]
  simp [hi]

/-- the vector `X` and the number `s` of `complement_schur` -/
noncomputable def sx (K : Z → Z → ℝ) (B : Z → Z → ℝ) (S : Finset Z) (i : Z) : Z → ℝ := fun j => ∑ k ∈ S, B j k * K k i
noncomputable def ss (K : Z → Z → ℝ) (B : Z → Z → ℝ) (S : Finset Z) (i : Z) : ℝ := K i i - ∑ k ∈ S, K k i * sx K B S i k

theorem sx_eq {S : Finset Z} {B : Z → Z → ℝ} (h : InvOn K S B) (i : Z) {k : Z} (hk : k ∈ S) : ∑ j ∈ S, K k j * sx K B S i j = K k i := h.solve (fun k => K k i) hk

theorem add_inv (hK : ∀ i j, K i j = K j i) {S : Finset Z} {B : Z → Z → ℝ} (h : InvOn K S B) {i : Z} (hi : i ∉ S) (hs : ss K B S i ≠ 0) : InvOn K (insert i S) (schurAdd B S i (fun k => K k i) (K i i)) := by
  obtain ⟨x, hx⟩ : ∃ x, x = sx K B S i := ⟨_, rfl⟩
  obtain ⟨s, hsd⟩ : ∃ s, s = ss K B S i := ⟨_, rfl⟩
  have hB : ∀ j k, schurAdd B S i (fun k => K k i) (K i i) j k = if j = i then (if k = i then 1 / s else -x k / s) else if k = i then -x j / s else B j k + x j * x k / s := fun j k => by
    rw [hx, hsd]; rfl
  have hne : ∀ {k}, k ∈ S → k ≠ i := fun hk e => hi (e ▸ hk)
  have hgx : ∀ k ∈ S, ∑ j ∈ S, K k j * x j = K k i := fun k hk => by rw [hx]; exact sx_eq h i hk
  have hix : ∑ j ∈ S, K i j * x j = K i i - s := by
    rw [hsd, ss, hx]
    have : ∀ k ∈ S, K i k * sx K B S i k = K k i * sx K B S i k := fun k _ => by rw [hK]
    rw [sum_congr rfl this]; ring
  have hxk : ∀ k ∈ S, ∑ j ∈ S, K i j * B j k = x k := fun k hk => by
    rw [hx]; exact sum_congr rfl fun j hj => by rw [h.symm j hj k hk, hK i j]; ring
  rw [← hsd] at hs
  refine ⟨fun a ha k hk => ?_, fun j hj k hk => ?_⟩
  · rw [sum_insert hi, hB]
    have hsum : ∀ b : ℝ, ∀ f : Z → ℝ, (∀ j ∈ S, schurAdd B S i (fun k => K k i) (K i i) j k = f j) →
        ∑ j ∈ S, K a j * schurAdd B S i (fun k => K k i) (K i i) j k = ∑ j ∈ S, K a j * f j := fun _ f hf => sum_congr rfl fun j hj => by rw [hf j hj]
    rcases mem_insert.1 hk with rfl | hk'
    · rw [hsum 0 (fun j => -x j / s) fun j hj => by rw [hB, if_neg (hne hj), if_pos rfl]]
      have : ∑ j ∈ S, K a j * (-x j / s) = -(∑ j ∈ S, K a j * x j) / s := by
        rw [← sum_neg_distrib, sum_div]; exact sum_congr rfl fun j _ => by ring
      rw [this, if_pos rfl, if_pos rfl]
      rcases mem_insert.1 ha with rfl | ha'
      · rw [hix, if_pos rfl]; field_simp; ring
      · rw [hgx a ha', if_neg (hne ha')]; field_simp; ring
    · rw [hsum 0 (fun j => B j k + x j * x k / s) fun j hj => by rw [hB, if_neg (hne hj), if_neg (hne hk')]]
      have : ∑ j ∈ S, K a j * (B j k + x j * x k / s) = ∑ j ∈ S, K a j * B j k + (∑ j ∈ S, K a j * x j) * x k / s := by
        rw [sum_mul, sum_div, ← sum_add_distrib]; exact sum_congr rfl fun j _ => by ring
      rw [this, if_pos rfl, if_neg (hne hk')]
      rcases mem_insert.1 ha with rfl | ha'
      · rw [hix, hxk k hk', if_neg (Ne.symm (hne hk'))]; field_simp; ring
      · rw [hgx a ha', h.inv a ha' k hk']; field_simp; ring
  · rw [hB, hB]
    rcases mem_insert.1 hj with rfl | hj' <;> rcases mem_insert.1 hk with rfl | hk'
    · rfl
    · rw [if_pos rfl, if_neg (hne hk'), if_neg (hne hk'), if_pos rfl]
    · rw [if_neg (hne hj'), if_pos rfl, if_pos rfl, if_neg (hne hj')]
    · rw [if_neg (hne hj'), if_neg (hne hk'), if_neg (hne hk'), if_neg (hne hj'), h.symm j hj' k hk']; ring

theorem pop_inv {S : Finset Z} {B : Z → Z → ℝ} (h : InvOn K S B) {i : Z} (hi : i ∈ S) (hd : B i i ≠ 0) : InvOn K (S.erase i) (schurPop B i) := by
  refine ⟨fun a ha k hk => ?_, fun j hj k hk => ?_⟩
  · obtain ⟨ha1, ha2⟩ := mem_erase.1 ha
    obtain ⟨hk1, hk2⟩ := mem_erase.1 hk
    rw [sum_erase_eq_sub hi]
    unfold schurPop
    have : ∑ j ∈ S, K a j * (B j k - B j i * B i k / B i i) = ∑ j ∈ S, K a j * B j k - (∑ j ∈ S, K a j * B j i) * (B i k / B i i) := by
      rw [sum_mul, ← sum_sub_distrib]; exact sum_congr rfl fun j _ => by ring
    rw [this, h.inv a ha2 k hk2, h.inv a ha2 i hi, if_neg ha1]
    field_simp
    ring
  · unfold schurPop
    rw [h.symm j (mem_erase.1 hj).2 k (mem_erase.1 hk).2, h.symm j (mem_erase.1 hj).2 i hi, h.symm i hi k (mem_erase.1 hk).2]
    ring

end schur

/-! ### the augmented system -/

variable {X R J : Type*} [Fintype X] [DecidableEq X] [Fintype R] [Fintype J] [DecidableEq J] {p : Prob X R J}

theorem HrHr_symm (i j : X) : p.HrHr i j = p.HrHr j i := sum_congr rfl fun r _ => mul_comm _ _

theorem aug_symm (z w : J ⊕ X) : p.aug z w = p.aug w z := by
  rcases z with j | i <;> rcases w with j' | k
  · rfl
  · rfl
  · rfl
  · exact HrHr_symm i k

/-- `c` extended by zero -/
def cst (p : Prob X R J) : J ⊕ X → ℝ := Sum.elim (fun _ => 0) p.c

theorem mem_inl (S : Finset X) (j : J) : (Sum.inl j : J ⊕ X) ∈ active (J := J) S := by simp [active]
theorem mem_inr (S : Finset X) (i : X) : (Sum.inr i : J ⊕ X) ∈ active (J := J) S ↔ i ∈ S := by simp [active]

theorem sum_active (S : Finset X) (f : J ⊕ X → ℝ) : ∑ z ∈ active S, f z = ∑ j, f (.inl j) + ∑ i ∈ S, f (.inr i) := by
  unfold active
  rw [sum_disjSum]

theorem active_insert (S : Finset X) (i : X) : active (J := J) (insert i S) = insert (.inr i) (active S) := by
  ext z; rcases z with j | k <;> simp [active]

theorem active_erase (S : Finset X) (i : X) : active (J := J) (S.erase i) = (active S).erase (.inr i) := by
  ext z; rcases z with j | k <;> simp [active]

/-- if the constraint rows vanish, the quadratic form of the augmented matrix is a squared norm -/
theorem aug_form (x : J ⊕ X → ℝ) (h : ∀ j, ∑ i, p.E j i * x (.inr i) = 0) : ∑ z, x z * ∑ w, p.aug z w * x w = ∑ r, (∑ i, p.H r i * x (.inr i)) ^ 2 := by
  rw [Fintype.sum_sum_type]
  have e1 : ∀ j : J, ∑ w, p.aug (.inl j) w * x w = 0 := fun j => by
    rw [Fintype.sum_sum_type]
    simp only [Prob.aug, zero_mul, sum_const_zero, zero_add]
    exact h j
  have e2 : ∀ i : X, ∑ w, p.aug (.inr i) w * x w = ∑ j, p.E j i * x (.inl j) + ∑ k, p.HrHr i k * x (.inr k) := fun i => by
    rw [Fintype.sum_sum_type]
    simp only [Prob.aug]
  simp only [e1, e2, mul_zero, sum_const_zero, zero_add, mul_add, sum_add_distrib]
  have e3 : ∑ i, x (.inr i) * ∑ j, p.E j i * x (.inl j) = 0 := by
    simp_rw [mul_sum]
    rw [sum_comm]
    refine sum_eq_zero fun j _ => ?_
    have : ∀ i, x (.inr i) * (p.E j i * x (.inl j)) = x (.inl j) * (p.E j i * x (.inr i)) := fun i => by ring
    simp_rw [this]
    rw [← mul_sum, h j, mul_zero]
  rw [e3, zero_add]
  have : ∀ r, (∑ i, p.H r i * x (.inr i)) ^ 2 = ∑ i, ∑ j, x (.inr i) * (p.H r i * p.H r j * x (.inr j)) := fun r => by
    rw [sq, sum_mul_sum]
    exact sum_congr rfl fun i _ => sum_congr rfl fun j _ => by ring
  simp_rw [this]
  rw [sum_comm (s := (univ : Finset R))]
  refine sum_congr rfl fun i _ => ?_
  rw [sum_comm, mul_sum]
  refine sum_congr rfl fun j _ => ?_
  rw [Prob.HrHr, sum_mul, mul_sum]

/-- in the kernel of the rows, the reduced gradient only has the multiplier part -/
theorem aug_null (x : J ⊕ X → ℝ) (h : ∀ r, ∑ i, p.H r i * x (.inr i) = 0) (i : X) : ∑ w, p.aug (.inr i) w * x w = ∑ j, p.E j i * x (.inl j) := by
  rw [Fintype.sum_sum_type]
  simp only [Prob.aug]
  have : ∑ k, p.HrHr i k * x (.inr k) = 0 := by
    simp_rw [Prob.HrHr, sum_mul]
    rw [sum_comm]
    refine sum_eq_zero fun r _ => ?_
    simp_rw [mul_assoc]
    rw [← mul_sum, h r, mul_zero]
  rw [this, add_zero]

theorem sum_ext {S : Finset X} {x : J ⊕ X → ℝ} (hx : ∀ z ∉ active S, x z = 0) (f : J ⊕ X → ℝ) : ∑ w, f w * x w = ∑ w ∈ active S, f w * x w :=
  (sum_subset (subset_univ _) fun w _ hw => by rw [hx w hw, mul_zero]).symm

/-- the pivot of a removal is nonnegative; if it vanishes the whole column is zero on the plan entries -/
theorem pivot {S : Finset X} {B : J ⊕ X → J ⊕ X → ℝ} (h : InvOn p.aug (active S) B) {i : X} (hi : i ∈ S) :
    0 ≤ B (.inr i) (.inr i) ∧ (B (.inr i) (.inr i) = 0 → ∀ k ∈ S, B (.inr i) (.inr k) = 0) := by
  have hiA := (mem_inr (J := J) S i).2 hi
  let x : J ⊕ X → ℝ := fun z => if z ∈ active S then B z (.inr i) else 0
  have hx : ∀ z ∉ active S, x z = 0 := fun z hz => if_neg hz
  have hxin : ∀ z ∈ active S, x z = B z (.inr i) := fun z hz => if_pos hz
  have hK : ∀ z ∈ active S, ∑ w, p.aug z w * x w = if z = .inr i then 1 else 0 := fun z hz => by
    rw [sum_ext hx, ← h.inv z hz _ hiA]
    exact sum_congr rfl fun w hw => by rw [hxin w hw]
  have hE : ∀ j, ∑ k, p.E j k * x (.inr k) = 0 := fun j => by
    have := hK (.inl j) (mem_inl S j)
    rw [Fintype.sum_sum_type] at this
    simpa [Prob.aug] using this
  have hform := aug_form (p := p) x hE
  have e1 : ∑ z, x z * ∑ w, p.aug z w * x w = B (.inr i) (.inr i) := by
    have : ∀ z, x z * ∑ w, p.aug z w * x w = if z = .inr i then B (.inr i) (.inr i) else 0 := fun z => by
      by_cases hz : z ∈ active S
      · rw [hK z hz]
        split_ifs with e
        · rw [e, hxin _ hiA, mul_one]
        · rw [mul_zero]
      · rw [hx z hz, zero_mul, if_neg fun e : z = Sum.inr i => hz (e ▸ hiA)]
    rw [sum_congr rfl fun z _ => this z, sum_ite_eq']
    simp
  rw [e1] at hform
  refine ⟨by rw [hform]; exact sum_nonneg fun r _ => sq_nonneg _, fun h0 k hk => ?_⟩
  rw [h0] at hform
  have hr : ∀ r, ∑ k, p.H r k * x (.inr k) = 0 := fun r => by
    have := (sum_eq_zero_iff_of_nonneg fun r _ => sq_nonneg (∑ k, p.H r k * x (.inr k))).1 hform.symm r (mem_univ r)
    exact pow_eq_zero_iff two_ne_zero |>.1 this
  let x' : J ⊕ X → ℝ := Sum.elim (fun _ => 0) fun k => x (.inr k)
  have hx' : ∀ z ∉ active S, x' z = 0 := by
    rintro (j | k) hz
    · rfl
    · exact hx _ hz
  have hz : ∀ z ∈ active S, ∑ w ∈ active S, p.aug z w * x' w = 0 := by
    rintro (j | k) hz
    · rw [← sum_ext hx', Fintype.sum_sum_type]
      simpa [Prob.aug, x'] using hE j
    · rw [← sum_ext hx', aug_null x' hr]
      simp [x']
  have hkA := (mem_inr (J := J) S k).2 hk
  have := h.unique aug_symm (x := x') (z := fun _ => 0) hz hkA
  simp only [mul_zero, sum_const_zero] at this
  rw [h.symm _ hiA _ hkA, ← hxin _ hkA]
  exact this

/-- the Schur complement of an addition is nonnegative; if it vanishes the new column is orthogonal to the data -/
theorem complement {S : Finset X} {B : J ⊕ X → J ⊕ X → ℝ} (h : InvOn p.aug (active S) B) {i : X} (hi : i ∉ S) :
    0 ≤ ss p.aug B (active S) (.inr i) ∧ (ss p.aug B (active S) (.inr i) = 0 → ∑ z ∈ active S, sx p.aug B (active S) (.inr i) z * p.rhs z = p.Hra i) := by
  have hiA : (Sum.inr i : J ⊕ X) ∉ active S := fun hh => hi ((mem_inr S i).1 hh)
  let v : J ⊕ X → ℝ := fun z => if z = .inr i then 1 else if z ∈ active S then -sx p.aug B (active S) (.inr i) z else 0
  have hv : ∀ z ∉ active (insert i S), v z = 0 := fun z hz => by
    rw [active_insert, mem_insert, not_or] at hz
    simp [v, hz.1, hz.2]
  have hvi : v (.inr i) = 1 := if_pos rfl
  have hvA : ∀ z ∈ active S, v z = -sx p.aug B (active S) (.inr i) z := fun z hz => by
    have : z ≠ .inr i := fun e => hiA (e ▸ hz)
    simp [v, this, hz]
  have hsum : ∀ f : J ⊕ X → ℝ, ∑ w, f w * v w = f (.inr i) - ∑ w ∈ active S, f w * sx p.aug B (active S) (.inr i) w := fun f => by
    rw [sum_ext hv, active_insert, sum_insert hiA, hvi, mul_one, sub_eq_add_neg, ← sum_neg_distrib]
    congr 1
    exact sum_congr rfl fun w hw => by rw [hvA w hw]; ring
  have hK : ∀ z ∈ active S, ∑ w, p.aug z w * v w = 0 := fun z hz => by rw [hsum, sx_eq h _ hz, sub_self]
  have hKi : ∑ w, p.aug (.inr i) w * v w = ss p.aug B (active S) (.inr i) := by
    rw [hsum, ss]
    congr 1
    exact sum_congr rfl fun w _ => by rw [aug_symm]
  have hE : ∀ j, ∑ k, p.E j k * v (.inr k) = 0 := fun j => by
    have := hK (.inl j) (mem_inl S j)
    rw [Fintype.sum_sum_type] at this
    simpa [Prob.aug] using this
  have hform := aug_form (p := p) v hE
  have e1 : ∑ z, v z * ∑ w, p.aug z w * v w = ss p.aug B (active S) (.inr i) := by
    have : ∀ z, v z * ∑ w, p.aug z w * v w = if z = .inr i then ss p.aug B (active S) (.inr i) else 0 := fun z => by
      by_cases e : z = .inr i
      · rw [if_pos e, e, hvi, one_mul, hKi]
      · rw [if_neg e]
        by_cases hz : z ∈ active S
        · rw [hK z hz, mul_zero]
        · rw [hv z (by rw [active_insert, mem_insert, not_or]; exact ⟨e, hz⟩), zero_mul]
    rw [sum_congr rfl fun z _ => this z, sum_ite_eq']
    simp
  rw [e1] at hform
  refine ⟨by rw [hform]; exact sum_nonneg fun r _ => sq_nonneg _, fun h0 => ?_⟩
  rw [h0] at hform
  have hr : ∀ r, ∑ k, p.H r k * v (.inr k) = 0 := fun r => by
    have := (sum_eq_zero_iff_of_nonneg fun r _ => sq_nonneg (∑ k, p.H r k * v (.inr k))).1 hform.symm r (mem_univ r)
    exact pow_eq_zero_iff two_ne_zero |>.1 this
  -- the multiplier part is orthogonal to the active columns
  have hu : ∀ k ∈ S, ∑ j, p.E j k * v (.inl j) = 0 := fun k hk => by
    rw [← aug_null v hr k]
    exact hK _ ((mem_inr S k).2 hk)
  have hrhs : ∑ w, p.rhs w * v w = 0 := by
    rw [Fintype.sum_sum_type]
    have e2 : ∑ k, p.rhs (.inr k) * v (.inr k) = 0 := by
      have : ∀ k, p.rhs (.inr k) * v (.inr k) = ∑ r, p.y r * (p.H r k * v (.inr k)) := fun k => by
        show p.Hra k * _ = _
        rw [Prob.Hra, sum_mul]
        exact sum_congr rfl fun r _ => by ring
      simp_rw [this]
      rw [sum_comm]
      exact sum_eq_zero fun r _ => by rw [← mul_sum, hr r, mul_zero]
    have e3 : ∑ j, p.rhs (.inl j) * v (.inl j) = 0 := by
      have hb : ∀ j, p.rhs (.inl j) = ∑ k ∈ S, p.E j k * ∑ w ∈ active S, B (.inr k) w * p.rhs w := fun j => by
        rw [← h.solve p.rhs (mem_inl S j), sum_active]
        simp [Prob.aug]
      simp_rw [hb, sum_mul]
      rw [sum_comm]
      refine sum_eq_zero fun k hk => ?_
      have : ∀ j, p.E j k * (∑ w ∈ active S, B (.inr k) w * p.rhs w) * v (.inl j) = (∑ w ∈ active S, B (.inr k) w * p.rhs w) * (p.E j k * v (.inl j)) := fun j => by ring
      simp_rw [this]
      rw [← mul_sum, hu k hk, mul_zero]
    rw [e2, e3, add_zero]
  rw [hsum] at hrhs
  have : p.rhs (.inr i) = p.Hra i := rfl
  rw [this] at hrhs
  rw [sub_eq_zero.1 hrhs]
  exact sum_congr rfl fun z _ => mul_comm _ _

/-! ### optimality conditions -/

/-- the objective `γ cᵀ t + ½ ‖H t - y‖²` -/
noncomputable def obj (p : Prob X R J) (γ : ℝ) (t : X → ℝ) : ℝ := γ * ∑ i, p.c i * t i + 1 / 2 * ∑ r, (∑ i, p.H r i * t i - p.y r) ^ 2

/-- nonnegative and with the right constraints -/
def Feas (p : Prob X R J) (t : X → ℝ) : Prop := (∀ i, 0 ≤ t i) ∧ ∀ j, ∑ i, p.E j i * t i = p.b j

/-- minimiser over the feasible vectors -/
def IsMin (p : Prob X R J) (γ : ℝ) (t : X → ℝ) : Prop := Feas p t ∧ ∀ t' : X → ℝ, Feas p t' → obj p γ t ≤ obj p γ t'

/-- residual of the optimality system -/
noncomputable def resid (p : Prob X R J) (γ : ℝ) (x : J ⊕ X → ℝ) (z : J ⊕ X) : ℝ := ∑ w, p.aug z w * x w - p.rhs z + γ * cst p z

theorem resid_inl (γ : ℝ) (x : J ⊕ X → ℝ) (j : J) : resid p γ x (.inl j) = ∑ i, p.E j i * x (.inr i) - p.b j := by
  unfold resid
  rw [Fintype.sum_sum_type]
  simp [Prob.aug, cst, Prob.rhs]

theorem resid_inr (γ : ℝ) (x : J ⊕ X → ℝ) (i : X) : resid p γ x (.inr i) = ∑ r, (∑ k, p.H r k * x (.inr k) - p.y r) * p.H r i + ∑ j, p.E j i * x (.inl j) + γ * p.c i := by
  unfold resid
  rw [Fintype.sum_sum_type]
  simp only [Prob.aug, cst, Prob.rhs, Sum.elim_inr]
  have : ∑ k, p.HrHr i k * x (.inr k) - p.Hra i = ∑ r, (∑ k, p.H r k * x (.inr k) - p.y r) * p.H r i := by
    unfold Prob.HrHr Prob.Hra
    simp_rw [sub_mul, sum_sub_distrib, sum_mul]
    congr 1
    · rw [sum_comm]; exact sum_congr rfl fun r _ => sum_congr rfl fun j _ => by ring
    · exact sum_congr rfl fun r _ => by ring
  linarith

/-- the Karush-Kuhn-Tucker conditions suffice -/
theorem kkt {γ : ℝ} {x : J ⊕ X → ℝ} (h0 : ∀ i, 0 ≤ x (.inr i)) (hE : ∀ j, resid p γ x (.inl j) = 0) (h1 : ∀ i, 0 ≤ resid p γ x (.inr i)) (h2 : ∀ i, x (.inr i) ≠ 0 → resid p γ x (.inr i) = 0) :
    IsMin p γ fun i => x (.inr i) := by
  have hfe : ∀ j, ∑ i, p.E j i * x (.inr i) = p.b j := fun j => by have := hE j; rw [resid_inl] at this; linarith
  refine ⟨⟨h0, hfe⟩, fun t' ht' => ?_⟩
  have e1 : ∀ r, (∑ i, p.H r i * t' i - p.y r) ^ 2 = (∑ i, p.H r i * x (.inr i) - p.y r) ^ 2 + 2 * ((∑ i, p.H r i * x (.inr i) - p.y r) * ∑ i, p.H r i * (t' i - x (.inr i))) + (∑ i, p.H r i * (t' i - x (.inr i))) ^ 2 := fun r => by
    have : ∑ i, p.H r i * (t' i - x (.inr i)) = ∑ i, p.H r i * t' i - ∑ i, p.H r i * x (.inr i) := by rw [← sum_sub_distrib]; exact sum_congr rfl fun i _ => by ring
    rw [this]; ring
  have e2 : ∑ i, resid p γ x (.inr i) * (t' i - x (.inr i)) = ∑ r, (∑ i, p.H r i * x (.inr i) - p.y r) * ∑ i, p.H r i * (t' i - x (.inr i)) + γ * ∑ i, p.c i * (t' i - x (.inr i)) := by
    simp_rw [resid_inr, add_mul, sum_add_distrib]
    have a1 : ∑ i, (∑ j, p.E j i * x (.inl j)) * (t' i - x (.inr i)) = 0 := by
      simp_rw [sum_mul]
      rw [sum_comm]
      refine sum_eq_zero fun j _ => ?_
      have : ∀ i, p.E j i * x (.inl j) * (t' i - x (.inr i)) = x (.inl j) * (p.E j i * t' i) - x (.inl j) * (p.E j i * x (.inr i)) := fun i => by ring
      simp_rw [this]
      rw [sum_sub_distrib, ← mul_sum, ← mul_sum, ht'.2 j, hfe j, sub_self]
    rw [a1, add_zero]
    congr 1
    · simp_rw [sum_mul, mul_sum]
      rw [sum_comm]
      exact sum_congr rfl fun r _ => sum_congr rfl fun i _ => by ring
    · rw [mul_sum]; exact sum_congr rfl fun i _ => by ring
  have e3 : ∑ i, p.c i * (t' i - x (.inr i)) = ∑ i, p.c i * t' i - ∑ i, p.c i * x (.inr i) := by rw [← sum_sub_distrib]; exact sum_congr rfl fun i _ => by ring
  have a1 : 0 ≤ ∑ i, resid p γ x (.inr i) * (t' i - x (.inr i)) := sum_nonneg fun i _ => by
    by_cases h : x (.inr i) = 0
    · rw [h, sub_zero]; exact mul_nonneg (h1 i) (ht'.1 i)
    · rw [h2 i h, zero_mul]
  have a2 : 0 ≤ ∑ r, (∑ i, p.H r i * (t' i - x (.inr i))) ^ 2 := sum_nonneg fun r _ => sq_nonneg _
  unfold obj
  simp_rw [e1]
  rw [sum_add_distrib, sum_add_distrib, ← mul_sum]
  rw [e2, e3] at a1
  linarith

/-! ### segments -/

variable {inv : Finset (J ⊕ X) → (J ⊕ X → J ⊕ X → ℝ) → (J ⊕ X → J ⊕ X → ℝ)}

/-- multipliers and solution on the segment of a state, `phi - gamma * delta` -/
noncomputable def seg (p : Prob X R J) (inv : Finset (J ⊕ X) → (J ⊕ X → J ⊕ X → ℝ) → (J ⊕ X → J ⊕ X → ℝ)) (s : State X J) (γ : ℝ) : J ⊕ X → ℝ := fun z => phi p inv s z - γ * delta p inv s z

/-- intercept and slope of the residual on the segment -/
noncomputable def rp (p : Prob X R J) (inv : Finset (J ⊕ X) → (J ⊕ X → J ⊕ X → ℝ) → (J ⊕ X → J ⊕ X → ℝ)) (s : State X J) (z : J ⊕ X) : ℝ := ∑ w ∈ active s.S, p.aug z w * phi p inv s w - p.rhs z
noncomputable def rq (p : Prob X R J) (inv : Finset (J ⊕ X) → (J ⊕ X → J ⊕ X → ℝ) → (J ⊕ X → J ⊕ X → ℝ)) (s : State X J) (z : J ⊕ X) : ℝ := ∑ w ∈ active s.S, p.aug z w * delta p inv s w - cst p z

theorem seg_out {s : State X J} {γ : ℝ} {z : J ⊕ X} (hz : z ∉ active s.S) : seg p inv s γ z = 0 := by simp [seg, phi, delta, hz]

theorem delta_in {s : State X J} {z : J ⊕ X} (hz : z ∈ active s.S) : delta p inv s z = ∑ w ∈ active s.S, inverse p inv s z w * cst p w := by
  rw [delta, if_pos hz, sum_active]
  simp [cst]

theorem phi_in {s : State X J} {z : J ⊕ X} (hz : z ∈ active s.S) : phi p inv s z = ∑ w ∈ active s.S, inverse p inv s z w * p.rhs w := if_pos hz

theorem resid_seg (s : State X J) (γ : ℝ) (z : J ⊕ X) : resid p γ (seg p inv s γ) z = rp p inv s z - γ * rq p inv s z := by
  unfold resid rp rq
  rw [sum_ext (S := s.S) fun z hz => seg_out hz]
  have : ∑ w ∈ active s.S, p.aug z w * seg p inv s γ w = ∑ w ∈ active s.S, p.aug z w * phi p inv s w - γ * ∑ w ∈ active s.S, p.aug z w * delta p inv s w := by
    rw [mul_sum, ← sum_sub_distrib]; exact sum_congr rfl fun j _ => by unfold seg; ring
  rw [this]; ring

theorem seg_in {s : State X J} {γ : ℝ} {z : J ⊕ X} (hz : z ∈ active s.S) : seg p inv s γ z = ∑ k ∈ active s.S, inverse p inv s z k * (p.rhs k - γ * cst p k) := by
  rw [seg, phi_in hz, delta_in hz, mul_sum, ← sum_sub_distrib]
  exact sum_congr rfl fun k _ => by ring

theorem gram_phi {s : State X J} (h : InvOn p.aug (active s.S) (inverse p inv s)) {z : J ⊕ X} (hz : z ∈ active s.S) : ∑ w ∈ active s.S, p.aug z w * phi p inv s w = p.rhs z := by
  rw [← h.solve p.rhs hz]
  exact sum_congr rfl fun j hj => by rw [phi_in hj]

theorem gram_delta {s : State X J} (h : InvOn p.aug (active s.S) (inverse p inv s)) {z : J ⊕ X} (hz : z ∈ active s.S) : ∑ w ∈ active s.S, p.aug z w * delta p inv s w = cst p z := by
  rw [← h.solve (cst p) hz]
  exact sum_congr rfl fun j hj => by rw [delta_in hj]

theorem resid_in {s : State X J} (h : InvOn p.aug (active s.S) (inverse p inv s)) {γ : ℝ} {z : J ⊕ X} (hz : z ∈ active s.S) : resid p γ (seg p inv s γ) z = 0 := by
  rw [resid_seg, rp, rq, gram_phi h hz, gram_delta h hz]; ring

/-- What holds at the beginning of an iteration from the parameter `g`. -/
structure Ready (p : Prob X R J) (inv : Finset (J ⊕ X) → (J ⊕ X → J ⊕ X → ℝ) → (J ⊕ X → J ⊕ X → ℝ)) (s : State X J) (g : ℝ) : Prop where
  ne : s.S.Nonempty
  isInv : InvOn p.aug (active s.S) (inverse p inv s)
  pos : 0 < g
  act : ∀ i ∈ s.S, 0 ≤ seg p inv s g (.inr i)
  act0 : ∀ i ∈ s.S, seg p inv s g (.inr i) = 0 → 0 < delta p inv s (.inr i)
  ina : ∀ i ∉ s.S, 0 ≤ resid p g (seg p inv s g) (.inr i)
  ina0 : ∀ i ∉ s.S, resid p g (seg p inv s g) (.inr i) = 0 → 0 < rq p inv s (.inr i)

/-- no breakpoint is hidden by the tolerances -/
structure Gap (p : Prob X R J) (inv : Finset (J ⊕ X) → (J ⊕ X → J ⊕ X → ℝ) → (J ⊕ X → J ⊕ X → ℝ)) (tol : Tol) (s : State X J) (g : ℝ) : Prop where
  rem : ∀ i ∈ s.S, delta p inv s (.inr i) ≠ 0 → phi p inv s (.inr i) / delta p inv s (.inr i) < g → phi p inv s (.inr i) / delta p inv s (.inr i) < (1 - tol.rem) * g
  add : ∀ i ∉ s.S, rq p inv s (.inr i) ≠ 0 → rp p inv s (.inr i) / rq p inv s (.inr i) < g → rp p inv s (.inr i) / rq p inv s (.inr i) ≤ g - tol.add * g

variable {tol : Tol} {arg : (X → ℝ) → X}

open Classical in
theorem nextGamma_cur (he : tol.eps = 0) (cur : Option ℝ) (s : State X J) (i : X) :
    nextGamma p inv tol cur s i = if i ∈ s.S then 0 else if tooLarge tol.add cur (rp p inv s (.inr i) / rq p inv s (.inr i)) then 0 else rp p inv s (.inr i) / rq p inv s (.inr i) := by
  have e1 : ∑ k ∈ s.S, p.HrHr i k * phi p inv s (.inr k) - p.Hra i + ∑ j, p.E j i * phi p inv s (.inl j) = rp p inv s (.inr i) := by
    rw [rp, sum_active]; simp only [Prob.aug, Prob.rhs, Sum.elim_inr]; ring
  have e2 : ∑ k ∈ s.S, p.HrHr i k * delta p inv s (.inr k) - p.c i + ∑ j, p.E j i * delta p inv s (.inl j) = rq p inv s (.inr i) := by
    rw [rq, sum_active]; simp only [Prob.aug, cst, Sum.elim_inr]; ring
  unfold nextGamma
  rw [he, add_zero, e1, e2]

theorem nextGamma_eq (he : tol.eps = 0) (g : ℝ) (s : State X J) (i : X) :
    nextGamma p inv tol (some g) s i = if i ∈ s.S then 0 else if rp p inv s (.inr i) / rq p inv s (.inr i) > g - tol.add * g then 0 else rp p inv s (.inr i) / rq p inv s (.inr i) := by
  rw [nextGamma_cur he]
  simp only [tooLarge]
  congr

open Classical in
theorem nextRemoval_cur (he : tol.eps = 0) (cur : Option ℝ) (s : State X J) (i : X) :
    nextRemoval p inv tol cur s i = if i ∈ s.S then (if tooLarge' tol.rem cur (phi p inv s (.inr i) / delta p inv s (.inr i)) then 0 else phi p inv s (.inr i) / delta p inv s (.inr i)) else 0 := by
  unfold nextRemoval
  rw [he, sub_zero]

theorem nextRemoval_eq (he : tol.eps = 0) (g : ℝ) (s : State X J) (i : X) :
    nextRemoval p inv tol (some g) s i = if i ∈ s.S then (if phi p inv s (.inr i) / delta p inv s (.inr i) ≥ (1 - tol.rem) * g then 0 else phi p inv s (.inr i) / delta p inv s (.inr i)) else 0 := by
  rw [nextRemoval_cur he]
  simp only [tooLarge']
  congr

theorem step_γ (p : Prob X R J) (inv : Finset (J ⊕ X) → (J ⊕ X → J ⊕ X → ℝ) → (J ⊕ X → J ⊕ X → ℝ)) (tol : Tol) (arg : (X → ℝ) → X) (cur : Option ℝ) (s : State X J) :
    (step p inv tol arg cur s).2.1 = max (nextRemoval p inv tol cur s (arg (nextRemoval p inv tol cur s))) (nextGamma p inv tol cur s (arg (nextGamma p inv tol cur s))) := by
  unfold step
  dsimp only
  split_ifs with h
  · rw [max_eq_left h.le]
  · rw [max_eq_right (not_lt.1 h)]

theorem step_t (p : Prob X R J) (inv : Finset (J ⊕ X) → (J ⊕ X → J ⊕ X → ℝ) → (J ⊕ X → J ⊕ X → ℝ)) (tol : Tol) (arg : (X → ℝ) → X) (cur : Option ℝ) (s : State X J) :
    (step p inv tol arg cur s).2.2 = fun i => seg p inv s (step p inv tol arg cur s).2.1 (.inr i) := by
  unfold step
  dsimp only
  split_ifs <;> rfl

theorem step_γ_bounds (he : tol.eps = 0) (ha : 0 < tol.add) (hr : 0 < tol.rem) (harg : ∀ M : X → ℝ, ∀ i, M i ≤ M (arg M)) {s : State X J} {g : ℝ} (h : Ready p inv s g) :
    0 ≤ (step p inv tol arg (some g) s).2.1 ∧ (step p inv tol arg (some g) s).2.1 < g := by
  rw [step_γ]
  constructor
  · obtain ⟨i, hi⟩ := h.ne
    refine le_max_of_le_right (le_trans (le_of_eq ?_) (harg _ i))
    rw [nextGamma_eq he, if_pos hi]
  · have hγ := h.pos
    refine max_lt ?_ ?_
    · rw [nextRemoval_eq he]
      split_ifs with h1 h2
      · exact hγ
      · have := mul_pos hr hγ
        linarith [not_le.1 h2]
      · exact hγ
    · rw [nextGamma_eq he]
      split_ifs with h1 h2
      · exact hγ
      · exact hγ
      · have := mul_pos ha hγ
        linarith [not_lt.1 h2]

/-- the segment stays optimal down to the next breakpoint -/
theorem segment (he : tol.eps = 0) (harg : ∀ M : X → ℝ, ∀ i, M i ≤ M (arg M)) {s : State X J} {g : ℝ} (h : Ready p inv s g) (hg : Gap p inv tol s g) {γ : ℝ} (h1 : (step p inv tol arg (some g) s).2.1 ≤ γ) (h2 : γ ≤ g) :
    (∀ i, 0 ≤ seg p inv s γ (.inr i)) ∧ (∀ i, 0 ≤ resid p γ (seg p inv s γ) (.inr i)) ∧ IsMin p γ fun i => seg p inv s γ (.inr i) := by
  rw [step_γ] at h1
  have hpos : ∀ i, 0 ≤ seg p inv s γ (.inr i) := fun i => by
    by_cases hi : i ∈ s.S
    · by_contra hneg
      push Not at hneg
      have h0 := h.act i hi
      unfold seg at hneg h0
      have hd : delta p inv s (.inr i) < 0 := by
        by_contra hd
        push Not at hd
        have := mul_le_mul_of_nonneg_right h2 hd
        linarith
      have hroot : γ < phi p inv s (.inr i) / delta p inv s (.inr i) := by rw [lt_div_iff_of_neg hd]; linarith
      have hroot2 : phi p inv s (.inr i) / delta p inv s (.inr i) ≤ g := by rw [div_le_iff_of_neg hd]; linarith
      have hroot3 : phi p inv s (.inr i) / delta p inv s (.inr i) < g := lt_of_le_of_ne hroot2 fun e => by
        have : seg p inv s g (.inr i) = 0 := by unfold seg; rw [← e, div_mul_cancel₀ _ hd.ne, sub_self]
        linarith [h.act0 i hi this]
      have hm := hg.rem i hi hd.ne hroot3
      have hv : nextRemoval p inv tol (some g) s i = phi p inv s (.inr i) / delta p inv s (.inr i) := by
        rw [nextRemoval_eq he, if_pos hi, if_neg (by push Not; exact hm)]
      have := harg (nextRemoval p inv tol (some g) s) i
      have := (le_max_left _ _).trans h1
      linarith
    · rw [seg_out fun hh => hi ((mem_inr _ _).1 hh)]
  have hres : ∀ i, 0 ≤ resid p γ (seg p inv s γ) (.inr i) := fun i => by
    by_cases hi : i ∈ s.S
    · rw [resid_in h.isInv ((mem_inr _ _).2 hi)]
    · by_contra hneg
      push Not at hneg
      have h0 := h.ina i hi
      rw [resid_seg] at hneg h0
      have hd : rq p inv s (.inr i) < 0 := by
        by_contra hd
        push Not at hd
        have := mul_le_mul_of_nonneg_right h2 hd
        linarith
      have hroot : γ < rp p inv s (.inr i) / rq p inv s (.inr i) := by rw [lt_div_iff_of_neg hd]; linarith
      have hroot2 : rp p inv s (.inr i) / rq p inv s (.inr i) ≤ g := by rw [div_le_iff_of_neg hd]; linarith
      have hroot3 : rp p inv s (.inr i) / rq p inv s (.inr i) < g := lt_of_le_of_ne hroot2 fun e => by
        have : resid p g (seg p inv s g) (.inr i) = 0 := by rw [resid_seg, ← e, div_mul_cancel₀ _ hd.ne, sub_self]
        linarith [h.ina0 i hi this]
      have hm := hg.add i hi hd.ne hroot3
      have hv : nextGamma p inv tol (some g) s i = rp p inv s (.inr i) / rq p inv s (.inr i) := by
        rw [nextGamma_eq he, if_neg hi, if_neg (by push Not; exact hm)]
      have := harg (nextGamma p inv tol (some g) s) i
      have := (le_max_right _ _).trans h1
      linarith
  refine ⟨hpos, hres, kkt hpos (fun j => resid_in h.isInv (mem_inl _ j)) hres fun i hi => ?_⟩
  by_cases hS : i ∈ s.S
  · exact resid_in h.isInv ((mem_inr _ _).2 hS)
  · exact absurd (seg_out fun hh => hS ((mem_inr _ _).1 hh)) hi

/-- only the index of the last event sits on the boundary -/
structure Simple (p : Prob X R J) (inv : Finset (J ⊕ X) → (J ⊕ X → J ⊕ X → ℝ) → (J ⊕ X → J ⊕ X → ℝ)) (s : State X J) (g : ℝ) : Prop where
  act : ∀ i ∈ s.S, seg p inv s g (.inr i) = 0 → s.ev = .add i
  ina : ∀ i ∉ s.S, resid p g (seg p inv s g) (.inr i) = 0 → s.ev = .pop i

theorem ready_step (he : tol.eps = 0) (ha : 0 < tol.add) (hr : 0 < tol.rem) (harg : ∀ M : X → ℝ, ∀ i, M i ≤ M (arg M)) (h2 : ∀ i, p.HrHr i i = 1) (hE : ∀ i, ∃ j, p.E j i ≠ 0) {s : State X J} {g : ℝ}
    (h : Ready p inv s g) (hg : Gap p inv tol s g) {s' : State X J} {g' : ℝ} {t' : X → ℝ} (hst : step p inv tol arg (some g) s = (s', g', t')) (hγ : 0 < g') (hs : Simple p inv s' g') :
    Ready p inv s' g' ∧ t' = fun i => seg p inv s' g' (.inr i) := by
  obtain ⟨-, hlt⟩ := step_γ_bounds he ha hr harg h
  obtain ⟨hseg, hres, -⟩ := segment he harg h hg (γ := (step p inv tol arg (some g) s).2.1) le_rfl hlt.le
  have htt := step_t p inv tol arg (some g) s
  rw [hst] at hlt hseg hres htt
  dsimp only at hlt hseg hres htt
  obtain ⟨ik, hik⟩ : ∃ ik, ik = arg (nextGamma p inv tol (some g) s) := ⟨_, rfl⟩
  obtain ⟨ip, hip⟩ : ∃ ip, ip = arg (nextRemoval p inv tol (some g) s) := ⟨_, rfl⟩
  -- the new segment starts where the old one ends
  have hglue : InvOn p.aug (active s'.S) (inverse p inv s') → (∀ z ∈ active s'.S, resid p g' (seg p inv s g') z = 0) →
      (∀ z ∉ active s'.S, seg p inv s g' z = 0) → seg p inv s' g' = seg p inv s g' := by
    intro hinv hz ho
    funext z
    by_cases hi : z ∈ active s'.S
    · rw [seg_in hi]
      refine (hinv.unique aug_symm (x := seg p inv s g') (z := fun k => p.rhs k - g' * cst p k) (fun k hk => ?_) hi).symm
      have := hz k hk
      unfold resid at this
      rw [sum_ext (S := s'.S) ho] at this
      linarith
    · rw [seg_out hi, ho z hi]
  unfold step at hst
  simp only [← hik, ← hip] at hst
  by_cases hbr : nextRemoval p inv tol (some g) s ip > nextGamma p inv tol (some g) s ik
  · -- removal
    rw [if_pos hbr] at hst
    obtain ⟨es, eg, -⟩ : _ = s' ∧ _ = g' ∧ _ = t' := by simpa only [Prod.mk.injEq] using hst
    have hSe : s'.S = s.S.erase ip := by rw [← es]
    have hBe : inverse p inv s' = schurPop (inverse p inv s) (.inr ip) := by rw [← es]; rfl
    have heve : s'.ev = .pop ip := by rw [← es]
    have hγ' := hγ
    rw [← eg, nextRemoval_eq he] at hγ'
    have hipS : ip ∈ s.S := by by_contra hn; rw [if_neg hn] at hγ'; exact lt_irrefl _ hγ'
    have hipA : (Sum.inr ip : J ⊕ X) ∈ active s.S := (mem_inr _ _).2 hipS
    rw [if_pos hipS] at hγ'
    have hmask : ¬ phi p inv s (.inr ip) / delta p inv s (.inr ip) ≥ (1 - tol.rem) * g := fun hm => by rw [if_pos hm] at hγ'; exact lt_irrefl _ hγ'
    have hγv : g' = phi p inv s (.inr ip) / delta p inv s (.inr ip) := by rw [← eg, nextRemoval_eq he, if_pos hipS, if_neg hmask]
    rw [if_neg hmask] at hγ'
    have hd0 : delta p inv s (.inr ip) ≠ 0 := fun e => by rw [e, div_zero] at hγ'; exact lt_irrefl _ hγ'
    have hz : seg p inv s g' (.inr ip) = 0 := by unfold seg; rw [hγv, div_mul_cancel₀ _ hd0, sub_self]
    have hdneg : delta p inv s (.inr ip) < 0 := by
      refine lt_of_le_of_ne ?_ hd0
      by_contra hpos
      push Not at hpos
      have h3 := h.act ip hipS
      unfold seg at hz h3
      have := mul_lt_mul_of_pos_right hlt hpos
      linarith
    have hBpos : 0 < inverse p inv s (.inr ip) (.inr ip) := by
      obtain ⟨a1, a2⟩ := pivot h.isInv hipS
      refine lt_of_le_of_ne a1 fun e => hd0 ?_
      rw [delta, if_pos hipA]
      exact sum_eq_zero fun k hk => by rw [a2 e.symm k hk, zero_mul]
    have hAe : active (J := J) s'.S = (active s.S).erase (.inr ip) := by rw [hSe, active_erase]
    have hinv : InvOn p.aug (active s'.S) (inverse p inv s') := by rw [hAe, hBe]; exact pop_inv h.isInv hipA hBpos.ne'
    have hcont := hglue hinv (fun z hz => resid_in h.isInv (mem_of_mem_erase (hAe ▸ hz))) (fun z hz' => by
      by_cases e : z = .inr ip
      · rw [e, hz]
      · exact seg_out fun hzS => hz' (by rw [hAe]; exact mem_erase.2 ⟨e, hzS⟩))
    have hdel : ∀ z ∈ (active s.S).erase (.inr ip), delta p inv s' z = delta p inv s z - inverse p inv s z (.inr ip) * delta p inv s (.inr ip) / inverse p inv s (.inr ip) (.inr ip) := fun z hz => by
      have hz' := (mem_erase.1 hz).2
      have e1 : delta p inv s' z = ∑ k ∈ (active s.S).erase (.inr ip), (inverse p inv s z k - inverse p inv s z (.inr ip) * inverse p inv s (.inr ip) k / inverse p inv s (.inr ip) (.inr ip)) * cst p k := by
        rw [delta_in (hAe ▸ hz), hAe, hBe]; rfl
      rw [e1, delta_in hz', delta_in hipA, sum_erase_eq_sub hipA]
      have : ∑ k ∈ active s.S, (inverse p inv s z k - inverse p inv s z (.inr ip) * inverse p inv s (.inr ip) k / inverse p inv s (.inr ip) (.inr ip)) * cst p k
          = ∑ k ∈ active s.S, inverse p inv s z k * cst p k - inverse p inv s z (.inr ip) * (∑ k ∈ active s.S, inverse p inv s (.inr ip) k * cst p k) / inverse p inv s (.inr ip) (.inr ip) := by
        rw [mul_sum, sum_div, ← sum_sub_distrib]; exact sum_congr rfl fun k _ => by ring
      rw [this]
      field_simp
      ring
    have hrq : rq p inv s' (.inr ip) = -delta p inv s (.inr ip) / inverse p inv s (.inr ip) (.inr ip) := by
      unfold rq
      rw [hAe, sum_congr rfl fun j hj => by rw [hdel j hj], sum_erase_eq_sub hipA]
      have e3 : ∑ j ∈ active s.S, p.aug (.inr ip) j * (delta p inv s j - inverse p inv s j (.inr ip) * delta p inv s (.inr ip) / inverse p inv s (.inr ip) (.inr ip))
          = ∑ j ∈ active s.S, p.aug (.inr ip) j * delta p inv s j - (∑ j ∈ active s.S, p.aug (.inr ip) j * inverse p inv s j (.inr ip)) * (delta p inv s (.inr ip) / inverse p inv s (.inr ip) (.inr ip)) := by
        rw [sum_mul, ← sum_sub_distrib]; exact sum_congr rfl fun k _ => by ring
      rw [e3, gram_delta h.isInv hipA, h.isInv.inv _ hipA _ hipA, if_pos rfl]
      field_simp
      ring
    have hne : s'.S.Nonempty := by
      rw [hSe]
      by_contra hemp
      rw [not_nonempty_iff_eq_empty] at hemp
      have hS1 : s.S = {ip} := by rw [← insert_erase hipS, hemp]; rfl
      obtain ⟨j, hj⟩ := hE ip
      have h3 := h.isInv.inv (.inl j) (mem_inl _ j) _ hipA
      rw [sum_active, hS1, sum_singleton, if_neg (by simp)] at h3
      simp only [Prob.aug, zero_mul, sum_const_zero, zero_add, mul_eq_zero] at h3
      rcases h3 with h3 | h3
      · exact hj h3
      · exact hBpos.ne' h3
    refine ⟨⟨hne, hinv, hγ, ?_, ?_, ?_, ?_⟩, by rw [htt, hcont]⟩
    · intro i _; rw [hcont]; exact hseg i
    · intro i hi h0
      have e := hs.act i hi h0
      rw [heve] at e; cases e
    · intro i _; rw [hcont]; exact hres i
    · intro i hi h0
      have e := hs.ina i hi h0
      rw [heve] at e
      have : ip = i := by injection e
      rw [← this, hrq]
      exact div_pos (by linarith) hBpos
  · -- addition
    rw [if_neg hbr] at hst
    obtain ⟨es, eg, -⟩ : _ = s' ∧ _ = g' ∧ _ = t' := by simpa only [Prod.mk.injEq] using hst
    have hSe : s'.S = insert ik s.S := by rw [← es]
    have heve : s'.ev = .add ik := by rw [← es]
    have hγ' := hγ
    rw [← eg, nextGamma_eq he] at hγ'
    have hikS : ik ∉ s.S := fun hn => by rw [if_pos hn] at hγ'; exact lt_irrefl _ hγ'
    have hikA : (Sum.inr ik : J ⊕ X) ∉ active s.S := fun hh => hikS ((mem_inr _ _).1 hh)
    rw [if_neg hikS] at hγ'
    have hmask : ¬ rp p inv s (.inr ik) / rq p inv s (.inr ik) > g - tol.add * g := fun hm => by rw [if_pos hm] at hγ'; exact lt_irrefl _ hγ'
    have hγv : g' = rp p inv s (.inr ik) / rq p inv s (.inr ik) := by rw [← eg, nextGamma_eq he, if_neg hikS, if_neg hmask]
    rw [if_neg hmask] at hγ'
    have hq0 : rq p inv s (.inr ik) ≠ 0 := fun e => by rw [e, div_zero] at hγ'; exact lt_irrefl _ hγ'
    have hp0 : rp p inv s (.inr ik) ≠ 0 := fun e => by rw [e, zero_div] at hγ'; exact lt_irrefl _ hγ'
    have hz : resid p g' (seg p inv s g') (.inr ik) = 0 := by rw [resid_seg, hγv, div_mul_cancel₀ _ hq0, sub_self]
    have hqneg : rq p inv s (.inr ik) < 0 := by
      refine lt_of_le_of_ne ?_ hq0
      by_contra hpos
      push Not at hpos
      have h3 := h.ina ik hikS
      rw [resid_seg] at hz h3
      have := mul_lt_mul_of_pos_right hlt hpos
      linarith
    have hsxz : ∀ y : J ⊕ X → ℝ, ∑ k ∈ active s.S, sx p.aug (inverse p inv s) (active s.S) (.inr ik) k * y k = ∑ j ∈ active s.S, p.aug (.inr ik) j * ∑ k ∈ active s.S, inverse p inv s j k * y k := fun y => by
      unfold sx
      simp_rw [sum_mul, mul_sum]
      rw [sum_comm]
      refine sum_congr rfl fun j hj => sum_congr rfl fun k hk => ?_
      rw [h.isInv.symm k hk j hj, aug_symm j (.inr ik)]; ring
    have hsspos : 0 < ss p.aug (inverse p inv s) (active s.S) (.inr ik) := by
      obtain ⟨a1, a2⟩ := complement h.isInv hikS
      refine lt_of_le_of_ne a1 fun e => hp0 ?_
      unfold rp
      have : p.rhs (.inr ik) = p.Hra ik := rfl
      rw [this, ← a2 e.symm, hsxz, sub_eq_zero]
      exact sum_congr rfl fun j hj => by rw [phi_in hj]
    have hAe : active (J := J) s'.S = insert (.inr ik) (active s.S) := by rw [hSe, active_insert]
    have hdiag : p.aug (.inr ik) (.inr ik) = 1 := h2 ik
    have hBe : inverse p inv s' = schurAdd (inverse p inv s) (active s.S) (.inr ik) (fun k => p.aug k (.inr ik)) (p.aug (.inr ik) (.inr ik)) := by
      rw [← es, hdiag]; simp only [inverse, erase_insert hikS]
    have hinv : InvOn p.aug (active s'.S) (inverse p inv s') := by rw [hAe, hBe]; exact add_inv aug_symm h.isInv hikA hsspos.ne'
    have hcont := hglue hinv (fun z hz' => by
        rw [hAe] at hz'
        rcases mem_insert.1 hz' with rfl | hz'
        · exact hz
        · exact resid_in h.isInv hz')
      (fun z hz' => seg_out fun hzS => hz' (by rw [hAe]; exact mem_insert_of_mem hzS))
    have hdel : delta p inv s' (.inr ik) = -rq p inv s (.inr ik) / ss p.aug (inverse p inv s) (active s.S) (.inr ik) := by
      have e1 : delta p inv s' (.inr ik) = ∑ k ∈ insert (.inr ik) (active s.S), schurAdd (inverse p inv s) (active s.S) (.inr ik) (fun k => p.aug k (.inr ik)) (p.aug (.inr ik) (.inr ik)) (.inr ik) k * cst p k := by
        rw [delta_in (by rw [hAe]; exact mem_insert_self _ _), hAe, hBe]
      have e2 : ∀ k, schurAdd (inverse p inv s) (active s.S) (.inr ik) (fun k => p.aug k (.inr ik)) (p.aug (.inr ik) (.inr ik)) (.inr ik) k =
          if k = .inr ik then 1 / ss p.aug (inverse p inv s) (active s.S) (.inr ik) else -sx p.aug (inverse p inv s) (active s.S) (.inr ik) k / ss p.aug (inverse p inv s) (active s.S) (.inr ik) := fun k => by
        unfold schurAdd; rw [if_pos rfl]; rfl
      rw [e1, sum_insert hikA, e2, if_pos rfl]
      have e3 : ∑ k ∈ active s.S, schurAdd (inverse p inv s) (active s.S) (.inr ik) (fun k => p.aug k (.inr ik)) (p.aug (.inr ik) (.inr ik)) (.inr ik) k * cst p k =
          -(∑ k ∈ active s.S, sx p.aug (inverse p inv s) (active s.S) (.inr ik) k * cst p k) / ss p.aug (inverse p inv s) (active s.S) (.inr ik) := by
        rw [← sum_neg_distrib, sum_div]
        refine sum_congr rfl fun k hk => ?_
        rw [e2, if_neg (fun e : k = .inr ik => hikA (e ▸ hk))]; ring
      have e4 : ∑ k ∈ active s.S, sx p.aug (inverse p inv s) (active s.S) (.inr ik) k * cst p k = rq p inv s (.inr ik) + cst p (.inr ik) := by
        rw [hsxz, rq, sub_add_cancel]
        exact sum_congr rfl fun j hj => by rw [delta_in hj]
      rw [e3, e4]
      field_simp
      ring
    refine ⟨⟨by rw [hSe]; exact insert_nonempty _ _, hinv, hγ, ?_, ?_, ?_, ?_⟩, by rw [htt, hcont]⟩
    · intro i _; rw [hcont]; exact hseg i
    · intro i hi h0
      have e := hs.act i hi h0
      rw [heve] at e
      have : ik = i := by injection e
      rw [← this, hdel]
      exact div_pos (by linarith) hsspos
    · intro i _; rw [hcont]; exact hres i
    · intro i hi h0
      have e := hs.ina i hi h0
      rw [heve] at e; cases e

/-- An iteration from infinity is one from every large enough parameter. -/
theorem step_none (he : tol.eps = 0) (ha1 : tol.add < 1) (hr1 : tol.rem < 1) (s : State X J) : ∃ g0, ∀ g, g0 ≤ g → step p inv tol arg none s = step p inv tol arg (some g) s := by
  obtain ⟨m, hm⟩ : ∃ m : ℝ, (∀ i, rp p inv s (.inr i) / rq p inv s (.inr i) ≤ m) ∧ ∀ i, phi p inv s (.inr i) / delta p inv s (.inr i) ≤ m := by
    refine ⟨∑ i, |rp p inv s (.inr i) / rq p inv s (.inr i)| + ∑ i, |phi p inv s (.inr i) / delta p inv s (.inr i)|, fun i => ?_, fun i => ?_⟩
    · have h1 := single_le_sum (f := fun i => |rp p inv s (.inr i) / rq p inv s (.inr i)|) (fun _ _ => abs_nonneg _) (mem_univ i)
      have h2 : 0 ≤ ∑ i, |phi p inv s (.inr i) / delta p inv s (.inr i)| := sum_nonneg fun _ _ => abs_nonneg _
      have h3 := le_abs_self (rp p inv s (.inr i) / rq p inv s (.inr i))
      linarith
    · have h1 := single_le_sum (f := fun i => |phi p inv s (.inr i) / delta p inv s (.inr i)|) (fun _ _ => abs_nonneg _) (mem_univ i)
      have h2 : 0 ≤ ∑ i, |rp p inv s (.inr i) / rq p inv s (.inr i)| := sum_nonneg fun _ _ => abs_nonneg _
      have h3 := le_abs_self (phi p inv s (.inr i) / delta p inv s (.inr i))
      linarith
  refine ⟨max (m / (1 - tol.add)) ((m + 1) / (1 - tol.rem)), fun g hg => ?_⟩
  have hg1 : m ≤ g - tol.add * g := by
    have := (div_le_iff₀ (by linarith)).1 ((le_max_left _ _).trans hg)
    linarith
  have hg2 : m < (1 - tol.rem) * g := by
    have := (div_le_iff₀ (by linarith)).1 ((le_max_right _ _).trans hg)
    linarith
  have e1 : nextGamma p inv tol none s = nextGamma p inv tol (some g) s := by
    funext i
    rw [nextGamma_eq he, nextGamma_cur he, if_neg (c := tooLarge tol.add none _) (fun h => h)]
    rw [if_neg (c := _ > g - tol.add * g) (by push Not; exact (hm.1 i).trans hg1)]
  have e2 : nextRemoval p inv tol none s = nextRemoval p inv tol (some g) s := by
    funext i
    rw [nextRemoval_eq he, nextRemoval_cur he, if_neg (c := tooLarge' tol.rem none _) (fun h => h)]
    rw [if_neg (c := _ ≥ (1 - tol.rem) * g) (by push Not; exact (hm.2 i).trans_lt hg2)]
  unfold step
  rw [e1, e2]

end POT.SemiPath
