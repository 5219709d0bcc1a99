import Verif.Lemmas.CircleSearch
import Mathlib.Data.Nat.ModEq

/-! # The cut made by `derivative_cost_on_circle` and `ot_cost_on_circle` -/

set_option linter.unusedSectionVars false

namespace POT.Circle

open Finset Spec

variable {K : Type*} [Field K] [LinearOrder K] [IsStrictOrderedRing K] [FloorRing K]

/-! ### cumulative weights -/

section
variable {n : ℕ} {w : Fin (n + 1) → K} (hw : ∀ i, 0 ≤ w i) (hw1 : ∑ i, w i = 1)

include hw in
theorem cdfs_mono : Monotone (cdfs w) := fun _ _ h => sum_Iic_mono hw h

include hw1 in
theorem cdfs_last : cdfs w (Fin.last n) = 1 := by
  unfold cdfs
  have : Iic (Fin.last n) = univ := by ext l; simp [Fin.le_last]
  rw [this, hw1]

include hw in
theorem cdfs_nonneg (i : Fin (n + 1)) : 0 ≤ cdfs w i := sum_nonneg fun l _ => hw l

theorem cdfs_zero : cdfs w 0 = w 0 := by rw [cdfs_eq]; simp [ext]

theorem cdfs_succ (i : ℕ) (hi : i + 1 < n + 1) : cdfs w ⟨i + 1, hi⟩ - cdfs w ⟨i, by omega⟩ = w ⟨i + 1, hi⟩ := by
  rw [cdfs_eq, cdfs_eq]
  simp only
  rw [sum_range_succ]
  have := ext_val 0 w ⟨i + 1, hi⟩
  simp only at this
  rw [this]; ring

include hw1 in
theorem unr_cdfs_step (l : ℤ) : unr (cdfs w) (l + 1) - unr (cdfs w) l = w (ix (l + 1)) := by
  unfold unr
  rcases ix_succ (n := n) l with ⟨h, h1, h2⟩ | ⟨h, h1, h2⟩
  · rw [h1, h2]
    have := cdfs_succ (w := w) _ h
    rw [← this]; simp
  · rw [h1, h2]
    have e : ix (n := n) l = Fin.last n := Fin.ext h
    rw [e, cdfs_last hw1, cdfs_zero]; push_cast; ring

include hw hw1 in
theorem unr_cdfs_mono : Monotone (unr (cdfs w)) := unr_mono _ (cdfs_mono hw) (by rw [cdfs_last hw1]; linarith [cdfs_nonneg hw (0 : Fin (n + 1))])

theorem unr_neg_one (x : Fin (n + 1) → K) : unr x (-1) = x (Fin.last n) - 1 := by
  have := unr_of x (Fin.last n) (-1)
  rw [show ((n + 1 : ℕ) : ℤ) * (-1) + ((Fin.last n : Fin (n + 1)) : ℕ) = -1 by simp] at this
  rw [this]; push_cast; ring

/-! ### indices found by `searchsorted` -/

theorem card_lt_le_iff {N : ℕ} {f : Fin N → K} (hf : Monotone f) (q : K) (i : Fin N) : (univ.filter fun l => f l < q).card ≤ i ↔ q ≤ f i := by
  constructor
  · intro hc
    by_contra hcon
    have hsub : Iic i ⊆ univ.filter fun l => f l < q := fun l hl => mem_filter.2 ⟨mem_univ _, (hf (mem_Iic.1 hl)).trans_lt (not_le.1 hcon)⟩
    have := card_le_card hsub
    rw [Fin.card_Iic] at this
    omega
  · intro hq
    have hsub : (univ.filter fun l => f l < q) ⊆ Iio i := fun l hl => mem_Iio.2 (by
      by_contra hcon
      exact absurd (mem_filter.1 hl).2 (not_lt.2 (hq.trans (hf (not_lt.1 hcon)))))
    have := card_le_card hsub
    rwa [Fin.card_Iio] at this

theorem card_le_le_iff {N : ℕ} {f : Fin N → K} (hf : Monotone f) (q : K) (i : Fin N) : (univ.filter fun l => f l ≤ q).card ≤ i ↔ q < f i := by
  constructor
  · intro hc
    by_contra hcon
    have hsub : Iic i ⊆ univ.filter fun l => f l ≤ q := fun l hl => mem_filter.2 ⟨mem_univ _, (hf (mem_Iic.1 hl)).trans (not_lt.1 hcon)⟩
    have := card_le_card hsub
    rw [Fin.card_Iic] at this
    omega
  · intro hq
    have hsub : (univ.filter fun l => f l ≤ q) ⊆ Iio i := fun l hl => mem_Iio.2 (by
      by_contra hcon
      exact absurd (mem_filter.1 hl).2 (not_le.2 (hq.trans_le (hf (not_lt.1 hcon)))))
    have := card_le_card hsub
    rwa [Fin.card_Iio] at this

include hw hw1 in
theorem leftIdx_le_iff {q : K} (hq : q ≤ 1) (i : Fin (n + 1)) : leftIdx (cdfs w) q ≤ i ↔ q ≤ cdfs w i := by
  rw [← card_lt_le_iff (cdfs_mono hw), Fin.le_def]
  have : (univ.filter fun l => cdfs w l < q).card ≤ n := by
    have := (card_lt_le_iff (cdfs_mono hw) q (Fin.last n)).2 (by rw [cdfs_last hw1]; exact hq)
    simpa using this
  unfold leftIdx
  simp only
  rw [min_eq_left this]

include hw hw1 in
theorem leftIdx_spec {q : K} (hq0 : 0 ≤ q) (hq : q ≤ 1) : unr (cdfs w) (((leftIdx (cdfs w) q : Fin (n + 1)) : ℕ) - 1 : ℤ) ≤ q ∧
    (0 < q → unr (cdfs w) (((leftIdx (cdfs w) q : Fin (n + 1)) : ℕ) - 1 : ℤ) < q) ∧ q ≤ unr (cdfs w) ((leftIdx (cdfs w) q : Fin (n + 1)) : ℕ) := by
  obtain ⟨r, hr⟩ : ∃ r, r = leftIdx (cdfs w) q := ⟨_, rfl⟩
  rw [← hr]
  have h3 : q ≤ unr (cdfs w) ((r : ℕ) : ℤ) := by
    rw [unr_val]
    exact (leftIdx_le_iff hw hw1 hq r).1 (by rw [hr])
  by_cases h0 : (r : ℕ) = 0
  · rw [h0, show ((0 : ℕ) : ℤ) - 1 = -1 by norm_num, unr_neg_one, cdfs_last hw1, sub_self]
    rw [h0] at h3
    exact ⟨hq0, fun h => h, h3⟩
  · have hlt : unr (cdfs w) ((r : ℕ) - 1 : ℤ) < q := by
      have e : ((r : ℕ) - 1 : ℤ) = (((⟨(r : ℕ) - 1, by omega⟩ : Fin (n + 1)) : ℕ) : ℤ) := by simp only; omega
      rw [e, unr_val]
      by_contra hcon
      have := (leftIdx_le_iff hw hw1 hq _).2 (not_lt.1 hcon)
      rw [← hr, Fin.le_def] at this
      simp only at this
      omega
    exact ⟨hlt.le, fun _ => hlt, h3⟩

include hw hw1 in
theorem rightIdx_spec {q : K} (hq0 : 0 ≤ q) (hq : q ≤ 1) : unr (cdfs w) (((rightIdx (cdfs w) q : Fin (n + 2)) : ℕ) - 1 : ℤ) ≤ q ∧
    q ≤ unr (cdfs w) ((rightIdx (cdfs w) q : Fin (n + 2)) : ℕ) := by
  have hmono : Monotone (wrap (cdfs w)) := fun a b h => by
    rw [wrap_eq, wrap_eq]
    exact unr_cdfs_mono hw hw1 (by exact_mod_cast h)
  obtain ⟨c, hc⟩ : ∃ c, c = (univ.filter fun i => wrap (cdfs w) i ≤ q).card := ⟨_, rfl⟩
  have hval : ((rightIdx (cdfs w) q : Fin (n + 2)) : ℕ) = min c (n + 1) := by rw [hc]; rfl
  rw [hval]
  constructor
  · by_cases h0 : min c (n + 1) = 0
    · rw [h0, show ((0 : ℕ) : ℤ) - 1 = -1 by norm_num, unr_neg_one, cdfs_last hw1, sub_self]; exact hq0
    · have hlt : min c (n + 1) - 1 < n + 2 := by omega
      have e : ((min c (n + 1) : ℕ) - 1 : ℤ) = (((⟨min c (n + 1) - 1, hlt⟩ : Fin (n + 2)) : ℕ) : ℤ) := by simp only; omega
      rw [e, ← wrap_eq]
      by_contra hcon
      have := (card_le_le_iff hmono q _).2 (not_le.1 hcon)
      rw [← hc] at this
      simp only at this
      omega
  · by_cases hcn : c ≤ n + 1
    · rw [min_eq_left hcn]
      have := (card_le_le_iff hmono q ⟨c, by omega⟩).1 (by rw [← hc])
      rw [wrap_eq] at this
      exact this.le
    · rw [min_eq_right (by omega)]
      have := unr_of (cdfs w) 0 1
      rw [show ((n + 1 : ℕ) : ℤ) * 1 + ((0 : Fin (n + 1)) : ℕ) = ((n + 1 : ℕ) : ℤ) by simp] at this
      rw [this]
      have := cdfs_nonneg hw (0 : Fin (n + 1))
      push_cast; linarith

end

/-! ### the rolled target -/

section
variable {m : ℕ} {vw : Fin (m + 1) → K} (hvw : ∀ j, 0 ≤ vw j) (hvw1 : ∑ j, vw j = 1) (θ : K)

/-- first target atom after the cut -/
def start (vw : Fin (m + 1) → K) (θ : K) : Fin (m + 1) := argminNonneg (cutDiff θ (cdfs vw))

/-- target atom at position `k` after the cut -/
def rollIdx (vw : Fin (m + 1) → K) (θ : K) (k : Fin (m + 1)) : Fin (m + 1) := ix (((start vw θ : Fin (m + 1)) : ℕ) + (k : ℕ) : ℤ)

/-- turn of the target atom at position `k` after the cut -/
def rollTurn (vw : Fin (m + 1) → K) (θ : K) (k : Fin (m + 1)) : ℤ := ⌊θ⌋ + qt m (((start vw θ : Fin (m + 1)) : ℕ) + (k : ℕ) : ℤ)

include hvw hvw1 in
theorem start_spec : Int.fract θ ≤ cdfs vw (start vw θ) ∧ (∀ j < start vw θ, cdfs vw j < Int.fract θ) ∧ ∀ j, start vw θ ≤ j → Int.fract θ ≤ cdfs vw j := by
  have hmono : Monotone (cutDiff θ (cdfs vw)) := fun a b h => sub_le_sub_right (cdfs_mono hvw h) _
  have h := argmin_spec (cutDiff θ (cdfs vw)) hmono (by
    unfold cutDiff
    rw [cdfs_last hvw1]
    have := (Int.fract_lt_one θ).le
    unfold Int.fract at this
    linarith)
  unfold cutDiff at h
  have h1 : Int.fract θ ≤ cdfs vw (start vw θ) := by
    have := h.1; unfold start Int.fract; unfold cutDiff; linarith
  exact ⟨h1, fun j hj => by have := h.2 j hj; unfold Int.fract; linarith, fun j hj => h1.trans (cdfs_mono hvw hj)⟩

theorem roll_index (k : Fin (m + 1)) : (⟨((k : ℕ) + start vw θ) % (m + 1), Nat.mod_lt _ (Nat.succ_pos m)⟩ : Fin (m + 1)) = rollIdx vw θ k := by
  apply Fin.ext
  unfold rollIdx ix
  simp only
  have : (((start vw θ : Fin (m + 1)) : ℕ) + (k : ℕ) : ℤ) % ((m + 1 : ℕ) : ℤ) = ((((k : ℕ) + start vw θ) % (m + 1) : ℕ) : ℤ) := by
    push_cast; rw [add_comm]
  rw [this, Int.toNat_natCast]

theorem roll_cases (k : Fin (m + 1)) : (((start vw θ : Fin (m + 1)) : ℕ) + (k : ℕ) < m + 1 ∧ (rollIdx vw θ k : ℕ) = (start vw θ : ℕ) + k ∧ qt m (((start vw θ : Fin (m + 1)) : ℕ) + (k : ℕ) : ℤ) = 0) ∨
    (m + 1 ≤ ((start vw θ : Fin (m + 1)) : ℕ) + (k : ℕ) ∧ (rollIdx vw θ k : ℕ) + (m + 1) = (start vw θ : ℕ) + k ∧ qt m (((start vw θ : Fin (m + 1)) : ℕ) + (k : ℕ) : ℤ) = 1) := by
  have hs := (start vw θ).2
  have hk := k.2
  rcases lt_or_ge (((start vw θ : Fin (m + 1)) : ℕ) + (k : ℕ)) (m + 1) with h | h
  · left
    have := ix_val (n := m) ⟨(start vw θ : ℕ) + k, h⟩
    simp only at this
    push_cast at this
    refine ⟨h, ?_, this.2⟩
    unfold rollIdx
    rw [this.1]
  · right
    have := ix_qt_of (n := m) ⟨(start vw θ : ℕ) + k - (m + 1), by omega⟩ 1
    simp only at this
    rw [show ((m + 1 : ℕ) : ℤ) * 1 + (((start vw θ : ℕ) + (k : ℕ) - (m + 1) : ℕ) : ℤ) = (((start vw θ : Fin (m + 1)) : ℕ) + (k : ℕ) : ℤ) by omega] at this
    refine ⟨h, ?_, this.2⟩
    unfold rollIdx
    rw [this.1]
    simp only
    omega

theorem rollIdx_bij : Function.Bijective (rollIdx vw θ) := by
  rw [← Finite.injective_iff_bijective]
  intro a b h
  rw [← roll_index, ← roll_index, Fin.mk.injEq] at h
  have h2 : (a : ℕ) ≡ b [MOD m + 1] := Nat.ModEq.add_right_cancel' _ h
  exact Fin.ext (Nat.ModEq.eq_of_lt_of_lt h2 a.2 b.2)

/-- the permutation made by `roll_cols` -/
noncomputable def rollPerm (vw : Fin (m + 1) → K) (θ : K) : Equiv.Perm (Fin (m + 1)) := Equiv.ofBijective (rollIdx vw θ) (rollIdx_bij θ)

include hvw hvw1 in
theorem cutDiff_neg_iff (k : Fin (m + 1)) : cutDiff θ (cdfs vw) (rollIdx vw θ k) < 0 ↔ qt m (((start vw θ : Fin (m + 1)) : ℕ) + (k : ℕ) : ℤ) = 1 := by
  obtain ⟨h1, h2, h3⟩ := start_spec hvw hvw1 θ
  have hk := k.2
  have e : ∀ j, cutDiff θ (cdfs vw) j = cdfs vw j - Int.fract θ := fun j => rfl
  rw [e]
  rcases roll_cases (vw := vw) θ k with ⟨h, h4, h5⟩ | ⟨h, h4, h5⟩
  · rw [h5]
    have := h3 (rollIdx vw θ k) (by rw [Fin.le_def]; omega)
    constructor
    · intro; linarith
    · intro; omega
  · rw [h5]
    have := h2 (rollIdx vw θ k) (by rw [Fin.lt_def]; omega)
    constructor
    · intro; rfl
    · intro; linarith

include hvw hvw1 in
theorem cutW_eq (k : Fin (m + 1)) : cutW θ (cdfs vw) k = unr (cdfs vw) (((start vw θ : Fin (m + 1)) : ℕ) + (k : ℕ) : ℤ) - Int.fract θ := by
  have hr := roll_index (vw := vw) θ k
  unfold cutW rolled
  rw [show (⟨((k : ℕ) + argminNonneg (cutDiff θ (cdfs vw))) % (m + 1), Nat.mod_lt _ (Nat.succ_pos m)⟩ : Fin (m + 1)) = rollIdx vw θ k from hr]
  have hn := cutDiff_neg_iff hvw hvw1 θ k
  have e : ∀ j, cutDiff θ (cdfs vw) j = cdfs vw j - Int.fract θ := fun j => rfl
  unfold unr
  rw [show ix (n := m) (((start vw θ : Fin (m + 1)) : ℕ) + (k : ℕ) : ℤ) = rollIdx vw θ k from rfl]
  unfold cutCdf
  rcases roll_cases (vw := vw) θ k with ⟨h, h4, h5⟩ | ⟨h, h4, h5⟩
  · rw [if_neg, h5, e]
    · push_cast; ring
    · rintro ⟨-, -, hc⟩
      rw [hn, h5] at hc
      exact absurd hc (by norm_num)
  · rw [if_pos, h5, e]
    · push_cast; ring
    · refine ⟨⟨rollIdx vw θ k, hn.2 h5⟩, ⟨start vw θ, ?_⟩, hn.2 h5⟩
      rw [e]
      linarith [(start_spec hvw hvw1 θ).1]

include hvw hvw1 in
theorem cutY_eq (v : Fin (m + 1) → K) (k : Fin (m + 1)) : cutY θ (cdfs vw) v k = unr v (((start vw θ : Fin (m + 1)) : ℕ) + (k : ℕ) : ℤ) + ⌊θ⌋ := by
  have hr := roll_index (vw := vw) θ k
  unfold cutY rolled
  rw [show (⟨((k : ℕ) + argminNonneg (cutDiff θ (cdfs vw))) % (m + 1), Nat.mod_lt _ (Nat.succ_pos m)⟩ : Fin (m + 1)) = rollIdx vw θ k from hr]
  have hn := cutDiff_neg_iff hvw hvw1 θ k
  unfold unr
  rw [show ix (n := m) (((start vw θ : Fin (m + 1)) : ℕ) + (k : ℕ) : ℤ) = rollIdx vw θ k from rfl]
  unfold cutValues
  rcases roll_cases (vw := vw) θ k with ⟨h, h4, h5⟩ | ⟨h, h4, h5⟩
  · rw [if_neg, h5]
    · push_cast; ring
    · intro hc
      rw [hn, h5] at hc
      exact absurd hc (by norm_num)
  · rw [if_pos (hn.2 h5), h5]
    push_cast; ring

include hvw hvw1 in
theorem cutY_eq' (v : Fin (m + 1) → K) (k : Fin (m + 1)) : cutY θ (cdfs vw) v k = v (rollPerm vw θ k) + rollTurn vw θ k := by
  rw [cutY_eq hvw hvw1]
  unfold unr rollTurn
  rw [show rollPerm vw θ k = rollIdx vw θ k from rfl]
  unfold rollIdx
  push_cast; ring

include hvw hvw1 in
theorem cutW_mono : Monotone (cutW θ (cdfs vw)) := fun a b h => by
  rw [cutW_eq hvw hvw1, cutW_eq hvw hvw1]
  exact sub_le_sub_right (unr_cdfs_mono hvw hvw1 (by have : (a : ℕ) ≤ b := h; omega)) _

include hvw hvw1 in
theorem cutY_mono {v : Fin (m + 1) → K} (hv : Monotone v) (hv1 : v (Fin.last m) ≤ v 0 + 1) : Monotone (cutY θ (cdfs vw) v) := fun a b h => by
  rw [cutY_eq hvw hvw1, cutY_eq hvw hvw1]
  exact add_le_add_left (unr_mono v hv hv1 (by have : (a : ℕ) ≤ b := h; omega)) _

theorem unr_start_add (x : Fin (m + 1) → K) : unr x ((start vw θ : ℕ) + ((m + 1 : ℕ) : ℤ)) = unr x ((start vw θ : ℕ) : ℤ) + 1 := by
  have := unr_add x ((start vw θ : ℕ) : ℤ) 1
  rw [mul_one] at this
  rw [this]; push_cast; ring

include hvw hvw1 in
theorem cutY_wrap {v : Fin (m + 1) → K} (hv : Monotone v) (hv1 : v (Fin.last m) ≤ v 0 + 1) : cutY θ (cdfs vw) v (Fin.last m) ≤ cutY θ (cdfs vw) v 0 + 1 := by
  rw [cutY_eq hvw hvw1, cutY_eq hvw hvw1]
  have := unr_start_add (vw := vw) θ v
  have h2 := unr_mono v hv hv1 (show ((start vw θ : ℕ) + ((Fin.last m : Fin (m + 1)) : ℕ) : ℤ) ≤ (start vw θ : ℕ) + ((m + 1 : ℕ) : ℤ) by simp)
  simp only [Fin.val_zero, Nat.cast_zero, add_zero] at *
  linarith

include hvw hvw1 in
theorem cutW_bounds (k : Fin (m + 1)) : 0 ≤ cutW θ (cdfs vw) k ∧ cutW θ (cdfs vw) k ≤ 1 := by
  constructor
  · refine le_trans ?_ (cutW_mono hvw hvw1 θ (Fin.zero_le k))
    rw [cutW_eq hvw hvw1]
    simp only [Fin.val_zero, Nat.cast_zero, add_zero, unr_val]
    linarith [(start_spec hvw hvw1 θ).1]
  · refine (cutW_mono hvw hvw1 θ (Fin.le_last k)).trans ?_
    rw [cutW_eq hvw hvw1]
    obtain ⟨h1, h2, h3⟩ := start_spec hvw hvw1 θ
    have e : ((start vw θ : ℕ) + ((Fin.last m : Fin (m + 1)) : ℕ) : ℤ) = ((start vw θ : ℕ) - 1 : ℤ) + ((m + 1 : ℕ) : ℤ) * 1 := by simp
    rw [e, unr_add]
    by_cases h0 : (start vw θ : ℕ) = 0
    · rw [h0, show ((0 : ℕ) : ℤ) - 1 = -1 by norm_num, unr_neg_one, cdfs_last hvw1]
      have := Int.fract_nonneg θ
      push_cast; linarith
    · have e2 : ((start vw θ : ℕ) - 1 : ℤ) = (((⟨(start vw θ : ℕ) - 1, by omega⟩ : Fin (m + 1)) : ℕ) : ℤ) := by simp only; omega
      rw [e2, unr_val]
      have := h2 ⟨(start vw θ : ℕ) - 1, by omega⟩ (by rw [Fin.lt_def]; simp only; omega)
      push_cast; linarith

end

/-! ### the common axis -/

theorem sum_filter_le_last {N : ℕ} {a : Fin (N + 1) → K} (ha : Monotone a) (s : Fin (N + 1)) :
    ∑ t ∈ univ.filter (fun t => a t ≤ a s), (a t - if h : (t : ℕ) = 0 then 0 else a ⟨(t : ℕ) - 1, by omega⟩) = a s := by
  -- prefix sums telescope
  have hpre : ∀ k : ℕ, ∀ hk : k < N + 1, ∑ t ∈ Iic (⟨k, hk⟩ : Fin (N + 1)), (a t - if h : (t : ℕ) = 0 then 0 else a ⟨(t : ℕ) - 1, by omega⟩) = a ⟨k, hk⟩ := by
    intro k
    induction k with
    | zero =>
      intro hk
      have : Iic (⟨0, hk⟩ : Fin (N + 1)) = {⟨0, hk⟩} := by
        ext l; rw [mem_Iic, mem_singleton, Fin.le_def, Fin.ext_iff]; simp
      rw [this, sum_singleton]; simp
    | succ k ih =>
      intro hk
      have : Iic (⟨k + 1, hk⟩ : Fin (N + 1)) = insert ⟨k + 1, hk⟩ (Iic (⟨k, by omega⟩ : Fin (N + 1))) := by
        ext l; rw [mem_Iic, mem_insert, mem_Iic, Fin.le_def, Fin.le_def, Fin.ext_iff]; simp only; omega
      rw [this, sum_insert (by rw [mem_Iic, Fin.le_def]; simp), ih (by omega)]
      simp
  -- the filter is an initial segment
  have hne : (univ.filter (fun t => a t ≤ a s)).Nonempty := ⟨s, by simp⟩
  obtain ⟨s', hs', hmax⟩ := exists_max_image _ (fun t : Fin (N + 1) => (t : ℕ)) hne
  have e : univ.filter (fun t => a t ≤ a s) = Iic s' := by
    ext t
    rw [mem_Iic]
    constructor
    · intro ht; exact hmax t ht
    · intro ht; exact mem_filter.2 ⟨mem_univ _, (ha ht).trans (mem_filter.1 hs').2⟩
  have h1 := hpre s' s'.2
  rw [e]
  refine h1.trans (le_antisymm (mem_filter.1 hs').2 (ha (hmax s (by simp))))

section
variable {n m : ℕ} {uw : Fin (n + 1) → K} {vw : Fin (m + 1) → K} (huw : ∀ i, 0 ≤ uw i) (huw1 : ∑ i, uw i = 1) (hvw : ∀ j, 0 ≤ vw j) (hvw1 : ∑ j, vw j = 1) (θ : K)

theorem cutAxis_mono (U : Fin (n + 1) → K) (V : Fin (m + 1) → K) : Monotone (cutAxis U V θ) := by
  have := Tuple.monotone_sort (Fin.append U (cutW θ V))
  exact this

theorem cutAxis_mem (U : Fin (n + 1) → K) (V : Fin (m + 1) → K) (t) : (∃ i, cutAxis U V θ t = U i) ∨ ∃ k, cutAxis U V θ t = cutW θ V k := by
  obtain ⟨s, hs⟩ : ∃ s, s = Tuple.sort (Fin.append U (cutW θ V)) t := ⟨_, rfl⟩
  have e : cutAxis U V θ t = Fin.append U (cutW θ V) s := by rw [hs]; rfl
  rw [e]
  refine Fin.addCases (fun i => ?_) (fun k => ?_) s
  · left; exact ⟨i, Fin.append_left _ _ _⟩
  · right; exact ⟨k, Fin.append_right _ _ _⟩

theorem cutAxis_src (U : Fin (n + 1) → K) (V : Fin (m + 1) → K) (i) : ∃ t, cutAxis U V θ t = U i := by
  refine ⟨(Tuple.sort (Fin.append U (cutW θ V))).symm (Fin.castAdd _ i), ?_⟩
  unfold cutAxis
  simp only [Equiv.apply_symm_apply, Fin.append_left]

theorem cutAxis_tgt (U : Fin (n + 1) → K) (V : Fin (m + 1) → K) (k) : ∃ t, cutAxis U V θ t = cutW θ V k := by
  refine ⟨(Tuple.sort (Fin.append U (cutW θ V))).symm (Fin.natAdd _ k), ?_⟩
  unfold cutAxis
  simp only [Equiv.apply_symm_apply, Fin.append_right]

include huw huw1 hvw hvw1 in
theorem cutAxis_bounds (t) : 0 ≤ cutAxis (cdfs uw) (cdfs vw) θ t ∧ cutAxis (cdfs uw) (cdfs vw) θ t ≤ 1 := by
  rcases cutAxis_mem θ (cdfs uw) (cdfs vw) t with ⟨i, hi⟩ | ⟨k, hk⟩
  · rw [hi]
    exact ⟨cdfs_nonneg huw i, (cdfs_mono huw (Fin.le_last i)).trans (cdfs_last huw1).le⟩
  · rw [hk]; exact cutW_bounds hvw hvw1 θ k

theorem cutDelta_sum (U : Fin (n + 1) → K) (V : Fin (m + 1) → K) (c : K) (hc : ∃ t, cutAxis U V θ t = c) :
    ∑ t ∈ univ.filter (fun t => cutAxis U V θ t ≤ c), cutDelta U V θ t = c := by
  obtain ⟨t, rfl⟩ := hc
  exact sum_filter_le_last (cutAxis_mono θ U V) t

include huw huw1 hvw hvw1 in
theorem cutDelta_nonneg (t) : 0 ≤ cutDelta (cdfs uw) (cdfs vw) θ t := by
  unfold cutDelta
  by_cases h : (t : ℕ) = 0
  · rw [dif_pos h]; linarith [(cutAxis_bounds huw huw1 hvw hvw1 θ t).1]
  · rw [dif_neg h]
    linarith [cutAxis_mono θ (cdfs uw) (cdfs vw) (show (⟨(t : ℕ) - 1, by omega⟩ : Fin (n + 1 + m + 1)) ≤ t by rw [Fin.le_def]; simp)]

include huw huw1 hvw hvw1 in
theorem cutAxis_pos {t} (ht : 0 < cutDelta (cdfs uw) (cdfs vw) θ t) : 0 < cutAxis (cdfs uw) (cdfs vw) θ t := by
  unfold cutDelta at ht
  by_cases h : (t : ℕ) = 0
  · rw [dif_pos h] at ht; linarith
  · rw [dif_neg h] at ht
    linarith [(cutAxis_bounds huw huw1 hvw hvw1 θ (⟨(t : ℕ) - 1, by omega⟩ : Fin (n + 1 + m + 1))).1]

include huw huw1 hvw hvw1 in
theorem cutDelta_total : ∑ t, cutDelta (cdfs uw) (cdfs vw) θ t = 1 := by
  have := cutDelta_sum θ (cdfs uw) (cdfs vw) 1 (by obtain ⟨t, ht⟩ := cutAxis_src θ (cdfs uw) (cdfs vw) (Fin.last n); exact ⟨t, by rw [ht, cdfs_last huw1]⟩)
  rw [filter_true_of_mem (fun t _ => (cutAxis_bounds huw huw1 hvw hvw1 θ t).2)] at this
  exact this

include hvw hvw1 in
theorem cutIdx_le_iff (q : K) (k : Fin (m + 1)) : (cutIdx (cdfs vw) θ q : ℕ) ≤ k ↔ q ≤ cutW θ (cdfs vw) k := by
  rw [← card_lt_le_iff (cutW_mono hvw hvw1 θ)]
  unfold cutIdx
  simp only
  have := k.2
  omega

include hvw hvw1 in
theorem cutIdx_spec {q : K} (hq0 : 0 < q) (hq : q ≤ 1) : unr (cutW θ (cdfs vw)) ((cutIdx (cdfs vw) θ q : ℕ) - 1 : ℤ) < q ∧ q ≤ unr (cutW θ (cdfs vw)) ((cutIdx (cdfs vw) θ q : ℕ) : ℤ) := by
  obtain ⟨c, hc⟩ : ∃ c, c = cutIdx (cdfs vw) θ q := ⟨_, rfl⟩
  have hle := cutIdx_le_iff hvw hvw1 θ q
  rw [← hc] at hle ⊢
  constructor
  · by_cases h0 : (c : ℕ) = 0
    · rw [h0, show ((0 : ℕ) : ℤ) - 1 = -1 by norm_num, unr_neg_one]
      linarith [(cutW_bounds hvw hvw1 θ (Fin.last m)).2]
    · have e : ((c : ℕ) - 1 : ℤ) = (((⟨(c : ℕ) - 1, by omega⟩ : Fin (m + 1)) : ℕ) : ℤ) := by simp only; omega
      rw [e, unr_val]
      by_contra hcon
      have := (hle _).2 (not_lt.1 hcon)
      simp only at this
      omega
  · by_cases h0 : (c : ℕ) < m + 1
    · have := (hle ⟨c, h0⟩).1 (le_refl _)
      have e := unr_val (cutW θ (cdfs vw)) ⟨c, h0⟩
      simp only at e
      rw [e]; exact this
    · have hc1 : (c : ℕ) = m + 1 := by omega
      have e := unr_of (cutW θ (cdfs vw)) 0 1
      rw [show ((m + 1 : ℕ) : ℤ) * 1 + ((0 : Fin (m + 1)) : ℕ) = ((c : ℕ) : ℤ) by rw [hc1]; simp] at e
      rw [e]
      have := (cutW_bounds hvw hvw1 θ 0).1
      push_cast; linarith

/-- masses of the fibres of an index from the masses of its initial segments -/
theorem sum_fiber {T : Type*} [Fintype T] (f : T → ℕ) (δ : T → K) (k : ℕ) :
    ∑ t ∈ univ.filter (fun t => f t = k + 1), δ t = ∑ t ∈ univ.filter (fun t => f t ≤ k + 1), δ t - ∑ t ∈ univ.filter (fun t => f t ≤ k), δ t := by
  rw [sum_filter, sum_filter, sum_filter, ← sum_sub_distrib]
  refine sum_congr rfl fun t _ => ?_
  rcases lt_trichotomy (f t) (k + 1) with h | h | h
  · rw [if_neg h.ne, if_pos h.le, if_pos (by omega)]; ring
  · rw [if_pos h, if_pos h.le, if_neg (by omega)]; ring
  · rw [if_neg h.ne', if_neg (by omega), if_neg (by omega)]; ring

include huw huw1 hvw hvw1 in
theorem cut_row (i : Fin (n + 1)) : ∑ t ∈ univ.filter (fun t => leftIdx (cdfs uw) (cutAxis (cdfs uw) (cdfs vw) θ t) = i), cutDelta (cdfs uw) (cdfs vw) θ t = uw i := by
  have hle : ∀ i : Fin (n + 1), ∑ t ∈ univ.filter (fun t => ((leftIdx (cdfs uw) (cutAxis (cdfs uw) (cdfs vw) θ t) : Fin (n + 1)) : ℕ) ≤ (i : ℕ)), cutDelta (cdfs uw) (cdfs vw) θ t = cdfs uw i := by
    intro i
    have := cutDelta_sum θ (cdfs uw) (cdfs vw) _ (cutAxis_src θ (cdfs uw) (cdfs vw) i)
    rw [← this]
    refine sum_congr (filter_congr fun t _ => ?_) fun _ _ => rfl
    rw [← Fin.le_def]
    exact leftIdx_le_iff huw huw1 (cutAxis_bounds huw huw1 hvw hvw1 θ t).2 i
  have e : univ.filter (fun t => leftIdx (cdfs uw) (cutAxis (cdfs uw) (cdfs vw) θ t) = i) = univ.filter (fun t => ((leftIdx (cdfs uw) (cutAxis (cdfs uw) (cdfs vw) θ t) : Fin (n + 1)) : ℕ) = (i : ℕ)) :=
    filter_congr fun t _ => Fin.ext_iff
  rw [e]
  obtain ⟨i, hi⟩ := i
  cases i with
  | zero =>
    have h0 := hle 0
    rw [cdfs_zero] at h0
    rw [show (⟨0, hi⟩ : Fin (n + 1)) = 0 from rfl, ← h0]
    exact sum_congr (filter_congr fun t _ => by simp) fun _ _ => rfl
  | succ i =>
    rw [sum_fiber]
    have h1 := hle ⟨i + 1, hi⟩
    have h2 := hle ⟨i, by omega⟩
    simp only at h1 h2
    rw [h1, h2, cdfs_succ]

include huw huw1 hvw hvw1 in
theorem cut_le (k : Fin (m + 1)) : ∑ t ∈ univ.filter (fun t => (cutIdx (cdfs vw) θ (cutAxis (cdfs uw) (cdfs vw) θ t) : ℕ) ≤ (k : ℕ)), cutDelta (cdfs uw) (cdfs vw) θ t = cutW θ (cdfs vw) k := by
  have := cutDelta_sum θ (cdfs uw) (cdfs vw) _ (cutAxis_tgt θ (cdfs uw) (cdfs vw) k)
  rw [← this]
  refine sum_congr (filter_congr fun t _ => ?_) fun _ _ => rfl
  exact cutIdx_le_iff hvw hvw1 θ _ k

theorem ix_cut (c : Fin (m + 2)) (k : Fin (m + 1)) : ix (n := m) ((c : ℕ) : ℤ) = k ↔ (c : ℕ) = k ∨ ((k : ℕ) = 0 ∧ (c : ℕ) = m + 1) := by
  have hk := k.2
  by_cases h : (c : ℕ) < m + 1
  · have := (ix_val (n := m) ⟨c, h⟩).1
    simp only at this
    rw [this, Fin.ext_iff]
    simp only
    omega
  · have hc : (c : ℕ) = m + 1 := by omega
    have := (ix_qt_of (n := m) 0 1).1
    rw [show ((m + 1 : ℕ) : ℤ) * 1 + ((0 : Fin (m + 1)) : ℕ) = ((c : ℕ) : ℤ) by rw [hc]; simp] at this
    rw [this, Fin.ext_iff]
    simp only [Fin.val_zero]
    omega

include huw huw1 hvw hvw1 in
theorem cut_col (k : Fin (m + 1)) : ∑ t ∈ univ.filter (fun t => ix (n := m) ((cutIdx (cdfs vw) θ (cutAxis (cdfs uw) (cdfs vw) θ t) : ℕ) : ℤ) = k), cutDelta (cdfs uw) (cdfs vw) θ t = vw (rollPerm vw θ k) := by
  have hle := cut_le huw huw1 hvw hvw1 θ
  have hvk : vw (rollPerm vw θ k) = unr (cdfs vw) ((start vw θ : ℕ) + (k : ℕ) : ℤ) - unr (cdfs vw) ((start vw θ : ℕ) + (k : ℕ) - 1 : ℤ) := by
    have := unr_cdfs_step hvw1 ((start vw θ : ℕ) + (k : ℕ) - 1 : ℤ)
    rw [show ((start vw θ : ℕ) + (k : ℕ) - 1 : ℤ) + 1 = (start vw θ : ℕ) + (k : ℕ) by ring] at this
    rw [this]; rfl
  rw [hvk]
  obtain ⟨k, hk⟩ := k
  cases k with
  | zero =>
    have htot := cutDelta_total huw huw1 hvw hvw1 θ
    have h0 := hle 0
    have hm := hle (Fin.last m)
    have e : ∑ t ∈ univ.filter (fun t => ix (n := m) ((cutIdx (cdfs vw) θ (cutAxis (cdfs uw) (cdfs vw) θ t) : ℕ) : ℤ) = ⟨0, hk⟩), cutDelta (cdfs uw) (cdfs vw) θ t =
        ∑ t ∈ univ.filter (fun t => (cutIdx (cdfs vw) θ (cutAxis (cdfs uw) (cdfs vw) θ t) : ℕ) ≤ ((0 : Fin (m + 1)) : ℕ)), cutDelta (cdfs uw) (cdfs vw) θ t +
          (∑ t, cutDelta (cdfs uw) (cdfs vw) θ t - ∑ t ∈ univ.filter (fun t => (cutIdx (cdfs vw) θ (cutAxis (cdfs uw) (cdfs vw) θ t) : ℕ) ≤ ((Fin.last m : Fin (m + 1)) : ℕ)), cutDelta (cdfs uw) (cdfs vw) θ t) := by
      rw [sum_filter, sum_filter, sum_filter, ← sum_sub_distrib, ← sum_add_distrib]
      refine sum_congr rfl fun t _ => ?_
      obtain ⟨c, hc⟩ : ∃ c, c = cutIdx (cdfs vw) θ (cutAxis (cdfs uw) (cdfs vw) θ t) := ⟨_, rfl⟩
      rw [← hc]
      have h1 := ix_cut c ⟨0, hk⟩
      simp only [Fin.val_zero, Fin.val_last] at h1 ⊢
      simp only [h1, nonpos_iff_eq_zero]
      have := c.2
      by_cases hz : (c : ℕ) = 0
      · rw [if_pos (Or.inl hz), if_pos hz, if_pos (by omega)]; ring
      · by_cases hl : (c : ℕ) = m + 1
        · rw [if_pos (Or.inr ⟨trivial, hl⟩), if_neg hz, if_neg (by omega)]; ring
        · rw [if_neg (by rintro (h | h); exacts [hz h, hl h.2]), if_neg hz, if_pos (by omega)]; ring
    rw [e, htot, h0, hm, cutW_eq hvw hvw1, cutW_eq hvw hvw1]
    have e2 : ((start vw θ : ℕ) + ((Fin.last m : Fin (m + 1)) : ℕ) : ℤ) = ((start vw θ : ℕ) + ((0 : ℕ) : ℤ) - 1 : ℤ) + ((m + 1 : ℕ) : ℤ) * 1 := by simp
    rw [e2, unr_add]
    simp only [Fin.val_zero]
    push_cast; ring
  | succ k =>
    have e : univ.filter (fun t => ix (n := m) ((cutIdx (cdfs vw) θ (cutAxis (cdfs uw) (cdfs vw) θ t) : ℕ) : ℤ) = ⟨k + 1, hk⟩) =
        univ.filter (fun t => (cutIdx (cdfs vw) θ (cutAxis (cdfs uw) (cdfs vw) θ t) : ℕ) = k + 1) := by
      refine filter_congr fun t _ => ?_
      rw [ix_cut]; simp
    rw [e, sum_fiber]
    have h1 := hle ⟨k + 1, hk⟩
    have h2 := hle ⟨k, by omega⟩
    simp only at h1 h2
    rw [h1, h2, cutW_eq hvw hvw1, cutW_eq hvw hvw1]
    simp only
    rw [show ((start vw θ : ℕ) + ((k + 1 : ℕ) : ℤ) - 1 : ℤ) = (start vw θ : ℕ) + (k : ℤ) by push_cast; ring]
    ring

include huw huw1 hvw hvw1 in
theorem cut_rot : ∑ t, cutDelta (cdfs uw) (cdfs vw) θ t * ((qt m ((cutIdx (cdfs vw) θ (cutAxis (cdfs uw) (cdfs vw) θ t) : ℕ) : ℤ) +
    rollTurn vw θ (ix ((cutIdx (cdfs vw) θ (cutAxis (cdfs uw) (cdfs vw) θ t) : ℕ) : ℤ)) : ℤ) : K) = θ := by
  obtain ⟨k0, hk0⟩ : ∃ k0 : Fin (m + 1), (k0 : ℕ) + start vw θ = m := ⟨⟨m - start vw θ, by omega⟩, by simp only; omega⟩
  have hturn : ∀ c : Fin (m + 2), qt m ((c : ℕ) : ℤ) + rollTurn vw θ (ix ((c : ℕ) : ℤ)) = ⌊θ⌋ + if (c : ℕ) ≤ k0 then 0 else 1 := by
    intro c
    unfold rollTurn
    have h1 := (ix_add (n := m) ((start vw θ : ℕ) + ((ix (n := m) ((c : ℕ) : ℤ) : Fin (m + 1)) : ℕ) : ℤ) (qt m ((c : ℕ) : ℤ))).2
    have h2 := ix_qt_eq (n := m) ((c : ℕ) : ℤ)
    have h3 : ((start vw θ : ℕ) + ((ix (n := m) ((c : ℕ) : ℤ) : Fin (m + 1)) : ℕ) : ℤ) + ((m + 1 : ℕ) : ℤ) * qt m ((c : ℕ) : ℤ) = (start vw θ : ℕ) + (c : ℕ) := by omega
    rw [h3] at h1
    have h4 : qt m ((start vw θ : ℕ) + (c : ℕ) : ℤ) = if (c : ℕ) ≤ k0 then 0 else 1 := by
      have hc := c.2
      by_cases h : (c : ℕ) ≤ k0
      · rw [if_pos h]
        have := (ix_val (n := m) ⟨(start vw θ : ℕ) + c, by omega⟩).2
        simpa using this
      · rw [if_neg h]
        have := (ix_qt_of (n := m) ⟨(start vw θ : ℕ) + c - (m + 1), by omega⟩ 1).2
        simp only at this
        rwa [show ((m + 1 : ℕ) : ℤ) * 1 + (((start vw θ : ℕ) + (c : ℕ) - (m + 1) : ℕ) : ℤ) = ((start vw θ : ℕ) + (c : ℕ) : ℤ) by omega] at this
    rw [h4] at h1
    omega
  have hsum : ∑ t, cutDelta (cdfs uw) (cdfs vw) θ t * ((qt m ((cutIdx (cdfs vw) θ (cutAxis (cdfs uw) (cdfs vw) θ t) : ℕ) : ℤ) +
    rollTurn vw θ (ix ((cutIdx (cdfs vw) θ (cutAxis (cdfs uw) (cdfs vw) θ t) : ℕ) : ℤ)) : ℤ) : K) =
      ∑ t, cutDelta (cdfs uw) (cdfs vw) θ t * (⌊θ⌋ + 1) - ∑ t ∈ univ.filter (fun t => (cutIdx (cdfs vw) θ (cutAxis (cdfs uw) (cdfs vw) θ t) : ℕ) ≤ (k0 : ℕ)), cutDelta (cdfs uw) (cdfs vw) θ t := by
    rw [sum_filter, ← sum_sub_distrib]
    refine sum_congr rfl fun t _ => ?_
    rw [hturn]
    by_cases h : (cutIdx (cdfs vw) θ (cutAxis (cdfs uw) (cdfs vw) θ t) : ℕ) ≤ (k0 : ℕ)
    · rw [if_pos h, if_pos h]; push_cast; ring
    · rw [if_neg h, if_neg h]; push_cast; ring
  rw [hsum, ← sum_mul, cutDelta_total huw huw1 hvw hvw1, cut_le huw huw1 hvw hvw1, cutW_eq hvw hvw1]
  have e : ((start vw θ : ℕ) + (k0 : ℕ) : ℤ) = (((Fin.last m : Fin (m + 1)) : ℕ) : ℤ) := by simp; omega
  rw [e, unr_val, cdfs_last hvw1]
  unfold Int.fract
  ring

end

/-! ### `otCost` and its two slopes -/

section
variable {n m : ℕ} (h : K → K) {u uw : Fin (n + 1) → K} {v vw : Fin (m + 1) → K}
  (hh : ∀ a b x x', a ≤ b → x ≤ x' → h (x' - b) - h (x' - a) ≤ h (x - b) - h (x - a)) (hu : Monotone u) (hu1 : u (Fin.last n) ≤ u 0 + 1) (hv : Monotone v) (hv1 : v (Fin.last m) ≤ v 0 + 1)
  (huw : ∀ i, 0 ≤ uw i) (huw1 : ∑ i, uw i = 1) (hvw : ∀ j, 0 ≤ vw j) (hvw1 : ∑ j, vw j = 1) (θ : K)

theorem dCp_eq (U : Fin (n + 1) → K) (V : Fin (m + 1) → K) : dCp h U u V v θ = cutSlope h u (cutY θ V v) fun k => (((leftIdx U (cutW θ V k) : Fin (n + 1)) : ℕ) : ℤ) := by
  unfold dCp cutSlope
  rw [← Fin.sum_univ_eq_sum_range (fun k => cutStep h u (cutY θ V v) (fun k => (((leftIdx U (cutW θ V k) : Fin (n + 1)) : ℕ) : ℤ)) (k : ℤ))]
  refine sum_congr rfl fun k _ => ?_
  unfold cutStep cutPos
  rw [(ix_val k).1, (ix_val k).2, mul_zero, add_zero, unr_val]
  simp only [wrap_eq, Fin.val_succ, Fin.val_castSucc]
  push_cast
  rfl

theorem dCm_eq (U : Fin (n + 1) → K) (V : Fin (m + 1) → K) : dCm h U u V v θ = cutSlope h u (cutY θ V v) fun k => (((rightIdx U (cutW θ V k) : Fin (n + 2)) : ℕ) : ℤ) := by
  unfold dCm cutSlope
  rw [← Fin.sum_univ_eq_sum_range (fun k => cutStep h u (cutY θ V v) (fun k => (((rightIdx U (cutW θ V k) : Fin (n + 2)) : ℕ) : ℤ)) (k : ℤ))]
  refine sum_congr rfl fun k _ => ?_
  unfold cutStep cutPos
  rw [(ix_val k).1, (ix_val k).2, mul_zero, add_zero]
  simp only [wrap_eq, Fin.val_succ, Fin.val_castSucc]
  push_cast
  rfl

theorem otCost_eq (U : Fin (n + 1) → K) (V : Fin (m + 1) → K) : otCost h U u V v θ = ∑ t, cutDelta U V θ t * h (u (leftIdx U (cutAxis U V θ t)) - unr (cutY θ V v) ((cutIdx V θ (cutAxis U V θ t) : ℕ) : ℤ)) := by
  unfold otCost
  simp only [wrap_eq]

include hh hu hu1 hv hv1 huw huw1 hvw hvw1 in
/-- both slopes are subgradients of the least cost of a lifted plan, seen as a function of its rotation -/
theorem otCost_le {T' : Type*} [Fintype T'] (δ' : T' → K) (hδ' : ∀ t, 0 ≤ δ' t) (i' : T' → Fin (n + 1)) (j' : T' → Fin (m + 1)) (z' : T' → ℤ)
    (hrow' : ∀ i, ∑ t ∈ univ.filter (fun t => i' t = i), δ' t = uw i) (hcol' : ∀ j, ∑ t ∈ univ.filter (fun t => j' t = j), δ' t = vw j) (g : K)
    (hg : g = dCp h (cdfs uw) u (cdfs vw) v θ ∨ g = dCm h (cdfs uw) u (cdfs vw) v θ) :
    otCost h (cdfs uw) u (cdfs vw) v θ + g * (∑ t, δ' t * (z' t : K) - θ) ≤ ∑ t, δ' t * h (u (i' t) - v (j' t) - z' t) := by
  have hb := cutW_bounds hvw hvw1 θ
  have hab := cutAxis_bounds huw huw1 hvw hvw1 θ
  have key : ∀ r : Fin (m + 1) → ℤ, (∀ k, unr (cdfs uw) (r k - 1) ≤ cutW θ (cdfs vw) k ∧ cutW θ (cdfs vw) k ≤ unr (cdfs uw) (r k)) → g = cutSlope h u (cutY θ (cdfs vw) v) r →
      otCost h (cdfs uw) u (cdfs vw) v θ + g * (∑ t, δ' t * (z' t : K) - θ) ≤ ∑ t, δ' t * h (u (i' t) - v (j' t) - z' t) := by
    intro r hr hgr
    rw [otCost_eq, hgr]
    refine lifted_le h u (cdfs uw) (cutY θ (cdfs vw) v) (cutW θ (cdfs vw)) r hh hu hu1 (cdfs_mono huw) (by rw [cdfs_last huw1]; linarith [cdfs_nonneg huw (0 : Fin (n + 1))])
      (cutY_mono hvw hvw1 θ hv hv1) (cutY_wrap hvw hvw1 θ hv hv1) (cutW_mono hvw hvw1 θ) (by linarith [(hb (Fin.last m)).2, (hb 0).1]) hr uw vw v (rollPerm vw θ) (rollTurn vw θ) (cutY_eq' hvw hvw1 θ v)
      (cutDelta (cdfs uw) (cdfs vw) θ) (cutDelta_nonneg huw huw1 hvw hvw1 θ) (fun t => leftIdx (cdfs uw) (cutAxis (cdfs uw) (cdfs vw) θ t))
      (fun t => ((cutIdx (cdfs vw) θ (cutAxis (cdfs uw) (cdfs vw) θ t) : ℕ) : ℤ)) ?_ (cut_row huw huw1 hvw hvw1 θ) (cut_col huw huw1 hvw hvw1 θ) θ (cut_rot huw huw1 hvw hvw1 θ) δ' hδ' i' j' z' hrow' hcol'
    intro t ht
    have hpos := cutAxis_pos huw huw1 hvw hvw1 θ ht
    have h1 := leftIdx_spec huw huw1 (hab t).1 (hab t).2
    have h2 := cutIdx_spec hvw hvw1 θ hpos (hab t).2
    exact ⟨(h1.2.1 hpos).trans_le h2.2, h2.1.trans_le h1.2.2⟩
  rcases hg with hg | hg
  · rw [dCp_eq] at hg
    refine key _ (fun k => ?_) hg
    have := leftIdx_spec huw huw1 (hb k).1 (hb k).2
    exact ⟨this.1, this.2.2⟩
  · rw [dCm_eq] at hg
    exact key _ (fun k => rightIdx_spec huw huw1 (hb k).1 (hb k).2) hg

end

end POT.Circle
