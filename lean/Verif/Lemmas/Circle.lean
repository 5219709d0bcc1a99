import Verif.Spec.Circle
import Verif.Model.Circle
import Verif.Lemmas.StrongDuality
import Mathlib.Algebra.BigOperators.Intervals
import Mathlib.Algebra.Order.BigOperators.Group.Finset

/-! # Circular distance, weighted medians and the dual of the circular 1-Wasserstein distance -/

set_option linter.unusedSectionVars false

namespace POT.Circle

open Finset Spec

variable {K : Type*} [Field K] [LinearOrder K] [IsStrictOrderedRing K] [FloorRing K]

/-! ### the distance -/

theorem circDist_le (x y : K) (k : ℤ) : circDist x y ≤ |x - y - k| := by
  unfold circDist
  have hf := Int.fract_nonneg (x - y)
  have hf1 := Int.fract_lt_one (x - y)
  have he : x - y = ⌊x - y⌋ + Int.fract (x - y) := (Int.floor_add_fract (x - y)).symm
  rcases le_or_gt k ⌊x - y⌋ with h | h
  · refine (min_le_left _ _).trans ?_
    have : (k : K) ≤ ⌊x - y⌋ := by exact_mod_cast h
    exact le_trans (by linarith) (le_abs_self _)
  · refine (min_le_right _ _).trans ?_
    have : (⌊x - y⌋ : K) + 1 ≤ k := by exact_mod_cast h
    exact le_trans (by linarith) (neg_le_abs _)

theorem circDist_att (x y : K) : ∃ k : ℤ, circDist x y = |x - y - k| := by
  unfold circDist
  have hf := Int.fract_nonneg (x - y)
  have hf1 := Int.fract_lt_one (x - y)
  have he : x - y = ⌊x - y⌋ + Int.fract (x - y) := (Int.floor_add_fract (x - y)).symm
  rcases le_total (Int.fract (x - y)) (1 - Int.fract (x - y)) with h | h
  · refine ⟨⌊x - y⌋, ?_⟩
    rw [min_eq_left h, abs_of_nonneg (by linarith)]; linarith
  · refine ⟨⌊x - y⌋ + 1, ?_⟩
    rw [min_eq_right h, abs_of_nonpos (by push_cast; linarith)]; push_cast; linarith

theorem circDist_nonneg (x y : K) : 0 ≤ circDist x y := by
  obtain ⟨k, hk⟩ := circDist_att x y
  rw [hk]; exact abs_nonneg _

theorem circDist_comm (x y : K) : circDist x y = circDist y x := by
  have h : ∀ x y : K, circDist x y ≤ circDist y x := by
    intro x y
    obtain ⟨k, hk⟩ := circDist_att y x
    refine (circDist_le x y (-k)).trans_eq ?_
    rw [hk, ← abs_neg]; push_cast; congr 1; ring
  exact le_antisymm (h x y) (h y x)

theorem circDist_triangle (x y z : K) : circDist x z ≤ circDist x y + circDist y z := by
  obtain ⟨k, hk⟩ := circDist_att x y
  obtain ⟨l, hl⟩ := circDist_att y z
  rw [hk, hl]
  refine (circDist_le x z (k + l)).trans ((le_of_eq ?_).trans (abs_add_le _ _))
  push_cast; congr 1; ring

theorem circDist_fract (x y : K) : circDist (Int.fract x) (Int.fract y) = circDist x y := by
  have h : ∀ x y : K, ∀ k l : ℤ, circDist (x + k) (y + l) ≤ circDist x y := by
    intro x y k l
    obtain ⟨r, hr⟩ := circDist_att x y
    refine (circDist_le _ _ (r + k - l)).trans_eq ?_
    rw [hr]; push_cast; congr 1; ring
  refine le_antisymm ?_ ?_
  · have := h x y (-⌊x⌋) (-⌊y⌋)
    push_cast at this
    rwa [← sub_eq_add_neg, ← sub_eq_add_neg, Int.self_sub_floor, Int.self_sub_floor] at this
  · have := h (Int.fract x) (Int.fract y) ⌊x⌋ ⌊y⌋
    rwa [Int.fract_add_floor, Int.fract_add_floor] at this

/-- between points of `[0, 1)` -/
theorem circDist_of_le {x y : K} (hx : 0 ≤ x) (hxy : x ≤ y) (hy : y < 1) : circDist x y = min (y - x) (1 - (y - x)) := by
  refine le_antisymm ?_ ?_
  · refine le_min ?_ ?_
    · have := circDist_le x y 0
      rwa [Int.cast_zero, sub_zero, abs_sub_comm, abs_of_nonneg (sub_nonneg.2 hxy)] at this
    · have := circDist_le x y (-1)
      rwa [abs_of_nonneg (by push_cast; linarith), show x - y - ((-1 : ℤ) : K) = 1 - (y - x) by push_cast; ring] at this
  · obtain ⟨k, hk⟩ := circDist_att x y
    rw [hk]
    rcases le_or_gt 0 k with h | h
    · refine (min_le_left _ _).trans ?_
      have : (0 : K) ≤ k := by exact_mod_cast h
      exact le_trans (by linarith) (neg_le_abs _)
    · refine (min_le_right _ _).trans ?_
      have : (k : K) ≤ -1 := by exact_mod_cast Int.le_sub_one_of_lt h
      exact le_trans (by linarith) (le_abs_self _)

/-! ### sequences -/

theorem abel (w φ : ℕ → K) (N : ℕ) :
    ∑ k ∈ range (N + 1), w k * φ k = ∑ k ∈ range (N + 1), (∑ l ∈ range (k + 1), w l) * (φ k - φ (k + 1)) + (∑ l ∈ range (N + 1), w l) * φ (N + 1) := by
  induction N with
  | zero => simp; ring
  | succ N ih =>
    rw [sum_range_succ, ih, sum_range_succ _ (N + 1), sum_range_succ w (N + 1)]; ring

/-- a cyclic sequence with bounded increments pairs with the signed weights to at most the integral of `|D - t|` -/
theorem pairing_le (w φ δ : ℕ → K) (N : ℕ) (t : K) (hw : ∑ l ∈ range (N + 1), w l = 0) (hcyc : φ (N + 1) = φ 0) (hφ : ∀ k ≤ N, |φ k - φ (k + 1)| ≤ δ k) :
    ∑ k ∈ range (N + 1), w k * φ k ≤ ∑ k ∈ range (N + 1), δ k * |∑ l ∈ range (k + 1), w l - t| := by
  rw [abel, hw, zero_mul, add_zero]
  have h0 : ∑ k ∈ range (N + 1), (φ k - φ (k + 1)) = 0 := by rw [sum_range_sub', hcyc, sub_self]
  have h1 : ∑ k ∈ range (N + 1), (∑ l ∈ range (k + 1), w l) * (φ k - φ (k + 1)) = ∑ k ∈ range (N + 1), (∑ l ∈ range (k + 1), w l - t) * (φ k - φ (k + 1)) := by
    simp only [sub_mul, sum_sub_distrib]
    rw [← mul_sum, h0, mul_zero, sub_zero]
  rw [h1]
  refine sum_le_sum fun k hk => (le_abs_self _).trans ?_
  rw [abs_mul, mul_comm]
  exact mul_le_mul_of_nonneg_right (hφ k (Nat.lt_succ_iff.1 (mem_range.1 hk))) (abs_nonneg _)

/-- the potential built from signs `s` whose mean is zero -/
theorem pairing_eq (w δ s : ℕ → K) (N : ℕ) (t : K) (hw : ∑ l ∈ range (N + 1), w l = 0) (hs : ∑ k ∈ range (N + 1), δ k * s k = 0)
    (hsign : ∀ k ≤ N, s k * (∑ l ∈ range (k + 1), w l - t) = |∑ l ∈ range (k + 1), w l - t|) :
    ∑ k ∈ range (N + 1), w k * (-∑ l ∈ range k, δ l * s l) = ∑ k ∈ range (N + 1), δ k * |∑ l ∈ range (k + 1), w l - t| := by
  rw [abel, hw, zero_mul, add_zero]
  have h1 : ∀ k, -∑ l ∈ range k, δ l * s l - -∑ l ∈ range (k + 1), δ l * s l = δ k * s k := fun k => by rw [sum_range_succ]; ring
  simp only [h1]
  have h2 : ∑ k ∈ range (N + 1), (∑ l ∈ range (k + 1), w l) * (δ k * s k) = ∑ k ∈ range (N + 1), (∑ l ∈ range (k + 1), w l - t) * (δ k * s k) := by
    simp only [sub_mul, sum_sub_distrib]
    rw [← mul_sum, hs, mul_zero, sub_zero]
  rw [h2]
  refine sum_congr rfl fun k hk => ?_
  rw [← hsign k (Nat.lt_succ_iff.1 (mem_range.1 hk))]; ring

theorem potential_bound (z δ s : ℕ → K) (N : ℕ) (hδ : ∀ k ≤ N, δ k = z (k + 1) - z k) (hδ0 : ∀ k ≤ N, 0 ≤ δ k) (hs1 : ∀ k ≤ N, |s k| ≤ 1)
    (hs : ∑ k ∈ range (N + 1), δ k * s k = 0) (k l : ℕ) (hkl : k ≤ l) (hl : l ≤ N) :
    |(-∑ r ∈ range k, δ r * s r) - (-∑ r ∈ range l, δ r * s r)| ≤ z l - z k ∧
    |(-∑ r ∈ range k, δ r * s r) - (-∑ r ∈ range l, δ r * s r)| ≤ z (N + 1) - z 0 - (z l - z k) := by
  have hb : ∀ a b, a ≤ b → b ≤ N + 1 → |∑ r ∈ Ico a b, δ r * s r| ≤ z b - z a := by
    intro a b hab hbN
    refine (abs_sum_le_sum_abs _ _).trans ?_
    have h1 : ∀ r ∈ Ico a b, |δ r * s r| ≤ z (r + 1) - z r := by
      intro r hr
      have hr' : r ≤ N := by have := (mem_Ico.1 hr).2; omega
      rw [abs_mul, abs_of_nonneg (hδ0 r hr'), ← hδ r hr']
      exact mul_le_of_le_one_right (hδ0 r hr') (hs1 r hr')
    exact (sum_le_sum h1).trans_eq (sum_Ico_sub z hab)
  have e : (-∑ r ∈ range k, δ r * s r) - (-∑ r ∈ range l, δ r * s r) = ∑ r ∈ Ico k l, δ r * s r := by
    rw [sum_Ico_eq_sub _ hkl]; ring
  rw [e]
  refine ⟨hb k l hkl (by omega), ?_⟩
  have h3 : ∑ r ∈ Ico k l, δ r * s r = -(∑ r ∈ Ico 0 k, δ r * s r + ∑ r ∈ Ico l (N + 1), δ r * s r) := by
    have h4 := sum_Ico_consecutive (fun r => δ r * s r) (Nat.zero_le k) hkl
    have h5 := sum_Ico_consecutive (fun r => δ r * s r) (Nat.zero_le l) (show l ≤ N + 1 by omega)
    rw [show Ico 0 (N + 1) = range (N + 1) from Nat.Ico_zero_eq_range _, hs] at h5
    linarith
  rw [h3, abs_neg]
  have h6 := hb 0 k (Nat.zero_le _) (by omega)
  have h7 := hb l (N + 1) (by omega) le_rfl
  exact (abs_add_le _ _).trans (by linarith)

/-! ### the median -/

theorem sum_Iic_mono {N : ℕ} {f : Fin (N + 1) → K} (hf : ∀ l, 0 ≤ f l) {l l' : Fin (N + 1)} (h : l ≤ l') : ∑ r ∈ Iic l, f r ≤ ∑ r ∈ Iic l', f r :=
  sum_le_sum_of_subset_of_nonneg (Iic_subset_Iic.2 h) fun r _ _ => hf r

theorem argmin_spec {N : ℕ} (f : Fin (N + 1) → K) (hf : Monotone f) (hlast : 0 ≤ f (Fin.last N)) :
    0 ≤ f (argminNonneg f) ∧ ∀ l < argminNonneg f, f l < 0 := by
  have hne : (univ.filter fun l => 0 ≤ f l ∧ ∀ l', 0 ≤ f l' → f l ≤ f l').Nonempty := by
    obtain ⟨l, hl, hmin⟩ := exists_min_image (univ.filter fun l => 0 ≤ f l) f ⟨Fin.last N, by simpa using hlast⟩
    exact ⟨l, mem_filter.2 ⟨mem_univ _, (mem_filter.1 hl).2, fun l' hl' => hmin l' (mem_filter.2 ⟨mem_univ _, hl'⟩)⟩⟩
  have e : argminNonneg f = (univ.filter fun l => 0 ≤ f l ∧ ∀ l', 0 ≤ f l' → f l ≤ f l').min' hne := by
    unfold argminNonneg; rw [dif_pos hne]
  have hm := (mem_filter.1 (min'_mem _ hne)).2
  rw [← e] at hm
  refine ⟨hm.1, fun l hl => ?_⟩
  by_contra hcon
  have h0 : 0 ≤ f l := not_lt.1 hcon
  have hmem : l ∈ univ.filter fun l => 0 ≤ f l ∧ ∀ l', 0 ≤ f l' → f l ≤ f l' :=
    mem_filter.2 ⟨mem_univ _, h0, fun l' hl' => (hf hl.le).trans (hm.2 l' hl')⟩
  have := min'_le _ l hmem
  rw [← e] at this
  exact absurd hl (not_lt.2 this)

/-- signs with zero mean at a weighted median -/
theorem median_signs {N : ℕ} (δ D : Fin (N + 1) → K) (sd : Equiv.Perm (Fin (N + 1))) (hδ : ∀ k, 0 ≤ δ k) (hsum : ∑ k, δ k = 1) (hsd : Monotone fun l => D (sd l))
    (q : Fin (N + 1)) (hq : 0 ≤ ∑ l ∈ Iic q, δ (sd l) - 1 / 2) (hq' : ∀ l < q, ∑ r ∈ Iic l, δ (sd r) - 1 / 2 < 0) :
    ∃ s : Fin (N + 1) → K, (∀ k, |s k| ≤ 1) ∧ ∑ k, δ k * s k = 0 ∧ ∀ k, s k * (D k - D (sd q)) = |D k - D (sd q)| := by
  obtain ⟨L, hL⟩ : ∃ L, L = ∑ l ∈ Iio q, δ (sd l) := ⟨_, rfl⟩
  obtain ⟨U, hU⟩ : ∃ U, U = ∑ l ∈ Ioi q, δ (sd l) := ⟨_, rfl⟩
  have hLq : ∑ l ∈ Iic q, δ (sd l) = L + δ (sd q) := by rw [hL, ← Iio_insert, sum_insert (by simp), add_comm]
  have hLlt : L < 1 / 2 := by
    by_cases hq0 : (q : ℕ) = 0
    · have : Iio q = ∅ := by
        ext l; simp only [mem_Iio, notMem_empty, iff_false, not_lt, Fin.le_def]; omega
      rw [hL, this, sum_empty]; norm_num
    · have hlt : (⟨(q : ℕ) - 1, by omega⟩ : Fin (N + 1)) < q := by rw [Fin.lt_def]; simp only; omega
      have := hq' _ hlt
      have e : Iic (⟨(q : ℕ) - 1, by omega⟩ : Fin (N + 1)) = Iio q := by
        ext l; simp only [mem_Iic, mem_Iio, Fin.le_def, Fin.lt_def]; omega
      rw [e, ← hL] at this
      linarith
  have htot : L + δ (sd q) + U = 1 := by
    rw [← hLq, hU, ← hsum, ← Equiv.sum_comp sd]
    have : (univ : Finset (Fin (N + 1))) = Iic q ∪ Ioi q := by ext l; simp [le_or_gt]
    rw [this, sum_union]
    rw [disjoint_left]
    intro l h1 h2
    exact absurd (mem_Ioi.1 h2) (not_lt.2 (mem_Iic.1 h1))
  have hpos : 0 < δ (sd q) := by linarith
  obtain ⟨σ, hσ⟩ : ∃ σ, σ = (L - U) / δ (sd q) := ⟨_, rfl⟩
  have hσ1 : |σ| ≤ 1 := by
    rw [hσ, abs_div, abs_of_pos hpos, div_le_one hpos, abs_le]
    constructor <;> linarith
  have hσδ : σ * δ (sd q) = L - U := by rw [hσ]; field_simp
  refine ⟨fun k => if sd.symm k < q then -1 else if q < sd.symm k then 1 else σ, fun k => ?_, ?_, fun k => ?_⟩
  · dsimp only
    split_ifs
    · rw [abs_neg, abs_one]
    · rw [abs_one]
    · exact hσ1
  · rw [← Equiv.sum_comp sd]
    simp only [Equiv.symm_apply_apply]
    have : (univ : Finset (Fin (N + 1))) = insert q (Iio q) ∪ Ioi q := by ext l; simp [le_iff_eq_or_lt, or_assoc]; tauto
    rw [this, sum_union, sum_insert (by simp)]
    · have h1 : ∑ l ∈ Iio q, δ (sd l) * (if l < q then -1 else if q < l then 1 else σ) = -L := by
        rw [hL, ← sum_neg_distrib]
        exact sum_congr rfl fun l hl => by rw [if_pos (mem_Iio.1 hl)]; ring
      have h2 : ∑ l ∈ Ioi q, δ (sd l) * (if l < q then -1 else if q < l then 1 else σ) = U := by
        rw [hU]
        exact sum_congr rfl fun l hl => by rw [if_neg (not_lt.2 (mem_Ioi.1 hl).le), if_pos (mem_Ioi.1 hl), mul_one]
      rw [h1, h2, if_neg (lt_irrefl q), if_neg (lt_irrefl q)]
      linarith
    · rw [disjoint_left]
      intro l h1 h2
      rcases mem_insert.1 h1 with h | h
      · rw [h] at h2; exact lt_irrefl _ (mem_Ioi.1 h2)
      · exact lt_asymm (mem_Iio.1 h) (mem_Ioi.1 h2)
  · obtain ⟨l, rfl⟩ := sd.surjective k
    dsimp only
    rw [Equiv.symm_apply_apply]
    split_ifs with h1 h2
    · have := hsd h1.le
      simp only at this
      rw [abs_of_nonpos (by linarith)]; ring
    · have := hsd h2.le
      simp only at this
      rw [abs_of_nonneg (by linarith)]; ring
    · rw [le_antisymm (not_lt.1 h2) (not_lt.1 h1), sub_self, mul_zero, abs_zero]

/-! ### conversion from `Fin` -/

/-- extension by a constant -/
def ext {N : ℕ} (c : K) (f : Fin (N + 1) → K) : ℕ → K := fun k => if h : k < N + 1 then f ⟨k, h⟩ else c

theorem ext_val {N : ℕ} (c : K) (f : Fin (N + 1) → K) (k : Fin (N + 1)) : ext c f k = f k := dif_pos k.2

theorem sum_ext {N : ℕ} (c : K) (f : Fin (N + 1) → K) : ∑ k ∈ range (N + 1), ext c f k = ∑ k, f k := by
  rw [sum_range]; exact sum_congr rfl fun k _ => ext_val c f k

theorem cdfs_eq {N : ℕ} (w : Fin (N + 1) → K) (k : Fin (N + 1)) : cdfs w k = ∑ l ∈ range (k + 1), ext 0 w l := by
  unfold cdfs
  have h : ∀ l ∈ Iic k, w l = ext 0 w l := fun l _ => (ext_val 0 w l).symm
  rw [sum_congr rfl h]
  refine sum_bij (fun l _ => (l : ℕ)) (fun l hl => ?_) (fun a _ b _ h => Fin.ext h) (fun r hr => ?_) (fun _ _ => rfl)
  · have := mem_Iic.1 hl
    rw [Fin.le_def] at this
    exact mem_range.2 (by omega)
  · have := mem_range.1 hr
    exact ⟨⟨r, by omega⟩, mem_Iic.2 (by rw [Fin.le_def]; simp only; omega), rfl⟩

theorem deltas_eq {N : ℕ} (z : Fin (N + 1) → K) (k : Fin (N + 1)) : deltas z k = ext 1 z (k + 1) - ext 1 z k := by
  rw [ext_val]; rfl

/-! ### the value -/

/-- integral of `|D - t|` over the segments found by the code -/
def levelInt {N : ℕ} (z w : Fin (N + 1) → K) (t : K) : K := ∑ k, deltas z k * |cdfs w k - t|

section
variable {N : ℕ} {z w : Fin (N + 1) → K} (hz : Monotone z) (hz0 : z 0 = 0) (hz1 : ∀ k, z k < 1) (hw : ∑ k, w k = 0)
include hz hz0 hz1

theorem deltas_nonneg (k : Fin (N + 1)) : 0 ≤ deltas z k := by
  unfold deltas
  split_ifs with h
  · exact sub_nonneg.2 (hz (by rw [Fin.le_def]; simp))
  · linarith [hz1 k]

theorem deltas_sum : ∑ k, deltas z k = 1 := by
  have : ∑ k, deltas z k = ∑ k ∈ range (N + 1), (ext 1 z (k + 1) - ext 1 z k) := by
    rw [sum_range]; exact sum_congr rfl fun k _ => deltas_eq z k
  rw [this, sum_range_sub]
  have h0 : ext 1 z 0 = z 0 := ext_val 1 z 0
  rw [h0, hz0]; simp [ext]

include hw

/-- every 1-Lipschitz function pairs with the weights to at most the level integral, at every level -/
theorem lipschitz_le (t : K) (φ : Fin (N + 1) → K) (hφ : ∀ k l, φ k - φ l ≤ circDist (z k) (z l)) : ∑ k, w k * φ k ≤ levelInt z w t := by
  have hz0' : ∀ k, 0 ≤ z k := fun k => hz0 ▸ hz (Fin.zero_le k)
  have e1 : ∑ k, w k * φ k = ∑ k ∈ range (N + 1), ext 0 w k * ext (φ 0) φ k := by
    rw [sum_range]; exact sum_congr rfl fun k _ => by rw [ext_val, ext_val]
  have e2 : levelInt z w t = ∑ k ∈ range (N + 1), ext 0 (deltas z) k * |∑ l ∈ range (k + 1), ext 0 w l - t| := by
    unfold levelInt
    rw [sum_range]; exact sum_congr rfl fun k _ => by rw [ext_val, cdfs_eq]
  rw [e1, e2]
  refine pairing_le _ _ _ N t (by rw [sum_ext]; exact hw) ?_ fun k hk => ?_
  · have h0 : ext (φ 0) φ 0 = φ 0 := ext_val (φ 0) φ 0
    rw [h0]; simp [ext]
  · have hk' : k < N + 1 := by omega
    have ek : ext (φ 0) φ k = φ ⟨k, hk'⟩ := ext_val (φ 0) φ ⟨k, hk'⟩
    have ed : ext 0 (deltas z) k = deltas z ⟨k, hk'⟩ := ext_val 0 (deltas z) ⟨k, hk'⟩
    rw [ek, ed]
    have habs : ∀ a b, |φ a - φ b| ≤ circDist (z a) (z b) := fun a b => abs_le'.2 ⟨hφ a b, by rw [circDist_comm]; linarith [hφ b a]⟩
    unfold deltas
    by_cases h : k + 1 < N + 1
    · have ek1 : ext (φ 0) φ (k + 1) = φ ⟨k + 1, h⟩ := ext_val (φ 0) φ ⟨k + 1, h⟩
      rw [ek1, dif_pos h]
      refine (habs _ _).trans ?_
      have hle : z ⟨k, hk'⟩ ≤ z ⟨k + 1, h⟩ := hz (by rw [Fin.le_def]; simp)
      rw [circDist_of_le (hz0' _) hle (hz1 _)]
      exact min_le_left _ _
    · have ek1 : ext (φ 0) φ (k + 1) = φ 0 := by simp [ext, h]
      rw [ek1, dif_neg h]
      refine (habs _ _).trans ?_
      rw [circDist_comm, circDist_of_le (hz0' _) (hz (Fin.zero_le _)) (hz1 _), hz0]
      refine (min_le_right _ _).trans (by linarith)

/-- at the median found by the code some 1-Lipschitz function attains the level integral -/
theorem lipschitz_att (sd : Equiv.Perm (Fin (N + 1))) (hsd : Monotone fun l => cdfs w (sd l)) :
    ∃ φ : Fin (N + 1) → K, (∀ k l, φ k - φ l ≤ circDist (z k) (z l)) ∧ ∑ k, w k * φ k = w1Sorted z w sd := by
  have hz0' : ∀ k, 0 ≤ z k := fun k => hz0 ▸ hz (Fin.zero_le k)
  have hδ := deltas_nonneg hz hz0 hz1
  have hmono : Monotone fun l : Fin (N + 1) => ∑ l' ∈ Iic l, deltas z (sd l') - 1 / 2 := fun l l' h =>
    sub_le_sub_right (sum_Iic_mono (f := fun r => deltas z (sd r)) (fun r => hδ _) h) _
  have hlast : 0 ≤ ∑ l' ∈ Iic (Fin.last N), deltas z (sd l') - 1 / 2 := by
    have : Iic (Fin.last N) = univ := by ext l; simp [Fin.le_last]
    rw [this, Equiv.sum_comp sd (deltas z), deltas_sum hz hz0 hz1]; norm_num
  obtain ⟨hq1, hq2⟩ := argmin_spec (fun l => ∑ l' ∈ Iic l, deltas z (sd l') - 1 / 2) hmono hlast
  obtain ⟨s, hs1, hs0, hsgn⟩ := median_signs (deltas z) (cdfs w) sd hδ (deltas_sum hz hz0 hz1) hsd _ hq1 hq2
  have hs0' : ∑ k ∈ range (N + 1), ext 0 (deltas z) k * ext 0 s k = 0 := by
    rw [← hs0, sum_range]; exact sum_congr rfl fun k _ => by rw [ext_val, ext_val]
  have hval : w1Sorted z w sd = levelInt z w (cdfs w (sd (argminNonneg fun l => ∑ l' ∈ Iic l, deltas z (sd l') - 1 / 2))) := rfl
  refine ⟨fun k => -∑ r ∈ range k, ext 0 (deltas z) r * ext 0 s r, fun k l => ?_, ?_⟩
  · have hb := potential_bound (ext 1 z) (ext 0 (deltas z)) (ext 0 s) N (fun k hk => by
        have hk' : k < N + 1 := by omega
        have := deltas_eq z ⟨k, hk'⟩
        rw [← ext_val 0 (deltas z)] at this
        exact this) (fun k hk => by
        have hk' : k < N + 1 := by omega
        have := ext_val 0 (deltas z) ⟨k, hk'⟩
        rw [show ext 0 (deltas z) k = _ from this]; exact hδ _) (fun k hk => by
        have hk' : k < N + 1 := by omega
        have := ext_val 0 s ⟨k, hk'⟩
        rw [show ext 0 s k = _ from this]; exact hs1 _) hs0'
    have hN1 : ext 1 z (N + 1) = 1 := by simp [ext]
    have h00 : ext 1 z 0 = 0 := (ext_val 1 z 0).trans hz0
    have hcore : ∀ k l : Fin (N + 1), k ≤ l → |(-∑ r ∈ range k, ext 0 (deltas z) r * ext 0 s r) - (-∑ r ∈ range l, ext 0 (deltas z) r * ext 0 s r)| ≤
        circDist (z k) (z l) := by
      intro k l hkl
      obtain ⟨h1, h2⟩ := hb k l hkl (by have := l.2; omega)
      rw [ext_val, ext_val] at h1
      rw [ext_val, ext_val, hN1, h00, sub_zero] at h2
      rw [circDist_of_le (hz0' k) (hz hkl) (hz1 l)]
      exact le_min h1 h2
    rcases le_total k l with h | h
    · exact (le_abs_self _).trans (hcore k l h)
    · rw [circDist_comm]
      refine le_trans ?_ (hcore l k h)
      rw [abs_sub_comm]
      exact le_abs_self _
  · rw [hval]
    have h1 := pairing_eq (ext 0 w) (ext 0 (deltas z)) (ext 0 s) N (cdfs w (sd (argminNonneg fun l => ∑ l' ∈ Iic l, deltas z (sd l') - 1 / 2)))
      (by rw [sum_ext]; exact hw) hs0' (fun k hk => by
        have hk' : k < N + 1 := by omega
        have e1 := ext_val 0 s ⟨k, hk'⟩
        have e2 := cdfs_eq w ⟨k, hk'⟩
        simp only at e1 e2
        rw [e1, ← e2]
        exact hsgn ⟨k, hk'⟩)
    unfold levelInt
    have e1 : ∑ k : Fin (N + 1), w k * (-∑ r ∈ range k, ext 0 (deltas z) r * ext 0 s r) = ∑ k ∈ range (N + 1), ext 0 w k * (-∑ r ∈ range k, ext 0 (deltas z) r * ext 0 s r) := by
      rw [sum_range]; exact sum_congr rfl fun k _ => by rw [ext_val]
    rw [e1, h1, sum_range]
    exact sum_congr rfl fun k _ => by rw [ext_val 0 (deltas z) k, cdfs_eq w k]

end

/-! ### from the merged sequence to couplings -/

section
variable {n m : ℕ} (uw : Fin (n + 1) → K) (vw : Fin (m + 1) → K) (su : Equiv.Perm (Fin (n + 1))) (sv : Equiv.Perm (Fin (m + 1))) (sz : Equiv.Perm (Fin (n + 1 + m + 1)))

/-- position of source sample `i` in the merged sequence -/
def posU (i : Fin (n + 1)) : Fin (n + 1 + m + 1) := sz.symm (Fin.castAdd (m + 1) (su.symm i) : Fin (n + 1 + (m + 1)))

/-- position of target sample `j` in the merged sequence -/
def posV (j : Fin (m + 1)) : Fin (n + 1 + m + 1) := sz.symm (Fin.natAdd (n + 1) (sv.symm j) : Fin (n + 1 + (m + 1)))

theorem append_posU {α : Type*} (f : Fin (n + 1) → α) (g : Fin (m + 1) → α) (i : Fin (n + 1)) :
    (Fin.append (fun i => f (su i)) (fun j => g (sv j)) : Fin (n + 1 + (m + 1)) → α) (sz (posU su sz i)) = f i := by
  unfold posU
  rw [Equiv.apply_symm_apply, Fin.append_left, Equiv.apply_symm_apply]

theorem append_posV {α : Type*} (f : Fin (n + 1) → α) (g : Fin (m + 1) → α) (j : Fin (m + 1)) :
    (Fin.append (fun i => f (su i)) (fun j => g (sv j)) : Fin (n + 1 + (m + 1)) → α) (sz (posV sv sz j)) = g j := by
  unfold posV
  rw [Equiv.apply_symm_apply, Fin.append_right, Equiv.apply_symm_apply]

theorem exists_pos (k : Fin (n + 1 + m + 1)) : (∃ i, k = posU su sz i) ∨ ∃ j, k = posV sv sz j := by
  obtain ⟨c, rfl⟩ := sz.symm.surjective k
  refine Fin.addCases (m := n + 1) (n := m + 1) (motive := fun c => (∃ i, sz.symm c = posU su sz i) ∨ ∃ j, sz.symm c = posV sv sz j) (fun i => ?_) (fun j => ?_) c
  · exact Or.inl ⟨su i, by unfold posU; rw [Equiv.symm_apply_apply]⟩
  · exact Or.inr ⟨sv j, by unfold posV; rw [Equiv.symm_apply_apply]⟩

theorem sum_merged (g : Fin (n + 1 + m + 1) → K) : ∑ k, g k = ∑ i, g (posU su sz i) + ∑ j, g (posV sv sz j) := by
  rw [← Equiv.sum_comp sz.symm]
  have h := Fin.sum_univ_add (a := n + 1) (b := m + 1) (fun c => g (sz.symm c))
  refine h.trans ?_
  rw [← Equiv.sum_comp su.symm, ← Equiv.sum_comp sv.symm]
  rfl

end

/-- the Kantorovich-Rubinstein potential of a cost that is a distance: dual feasible potentials can be replaced by one 1-Lipschitz function -/
theorem lipschitz_of_dual {n m : ℕ} (u : Fin (n + 1) → K) (v : Fin (m + 1) → K) (α : Fin (n + 1) → K) (β : Fin (m + 1) → K)
    (h : DualFeasible (fun i j => circDist (u i) (v j)) α β) :
    ∃ φ : K → K, (∀ x y, φ x - φ y ≤ circDist x y) ∧ (∀ i, α i ≤ φ (u i)) ∧ ∀ j, β j ≤ -φ (v j) := by
  have hne : (univ : Finset (Fin (m + 1))).Nonempty := ⟨0, mem_univ _⟩
  refine ⟨fun x => univ.inf' hne fun j => circDist x (v j) - β j, fun x y => ?_, fun i => ?_, fun j => ?_⟩
  · obtain ⟨j, -, hj⟩ := exists_mem_eq_inf' hne fun j => circDist y (v j) - β j
    have h1 : (univ.inf' hne fun j => circDist x (v j) - β j) ≤ circDist x (v j) - β j := inf'_le _ (mem_univ j)
    simp only
    rw [hj]
    linarith [circDist_triangle x y (v j)]
  · refine le_inf' _ _ fun j _ => ?_
    have := h i j
    simp only at this
    linarith
  · have h1 : (univ.inf' hne fun j' => circDist (v j) (v j') - β j') ≤ circDist (v j) (v j) - β j := inf'_le _ (mem_univ j)
    have h2 : circDist (v j) (v j) = 0 := by simp [circDist]
    simp only
    linarith

theorem w1_isLeast {n m : ℕ} (u : Fin (n + 1) → K) (v : Fin (m + 1) → K) (uw : Fin (n + 1) → K) (vw : Fin (m + 1) → K) (su : Equiv.Perm (Fin (n + 1)))
    (sv : Equiv.Perm (Fin (m + 1))) (sz sd : Equiv.Perm (Fin (n + 1 + m + 1))) (huw : ∀ i, 0 ≤ uw i) (hvw : ∀ j, 0 ≤ vw j) (hpos : 0 < ∑ i, uw i)
    (hsum : ∑ i, uw i = ∑ j, vw j)
    (hsz : Monotone fun k => (Fin.append (fun i => Int.fract (u (su i))) (fun j => Int.fract (v (sv j))) : Fin (n + 1 + (m + 1)) → K) (sz k))
    (hsd : Monotone fun l => cdfs (N := n + 1 + m) (fun k => (Fin.append (fun i => uw (su i)) (fun j => -vw (sv j)) : Fin (n + 1 + (m + 1)) → K) (sz k)) (sd l))
    (h0 : (∃ i, Int.fract (u i) = 0) ∨ ∃ j, Int.fract (v j) = 0) :
    IsLeast {c | ∃ P, IsCoupling uw vw P ∧ cost (fun i j => circDist (u i) (v j)) P = c} (wasserstein1Circle u v uw vw su sv sz sd) := by
  obtain ⟨z, hz⟩ : ∃ z : Fin (n + 1 + m + 1) → K, z = fun k => (Fin.append (fun i => Int.fract (u (su i))) (fun j => Int.fract (v (sv j))) : Fin (n + 1 + (m + 1)) → K) (sz k) := ⟨_, rfl⟩
  obtain ⟨w, hw⟩ : ∃ w : Fin (n + 1 + m + 1) → K, w = fun k => (Fin.append (fun i => uw (su i)) (fun j => -vw (sv j)) : Fin (n + 1 + (m + 1)) → K) (sz k) := ⟨_, rfl⟩
  rw [← hz] at hsz
  rw [← hw] at hsd
  have hres : wasserstein1Circle u v uw vw su sv sz sd = w1Sorted (N := n + 1 + m) z w sd := by rw [hz, hw]; rfl
  have zU : ∀ i, z (posU su sz i) = Int.fract (u i) := fun i => by rw [hz]; exact append_posU su sv sz (fun i => Int.fract (u i)) (fun j => Int.fract (v j)) i
  have zV : ∀ j, z (posV sv sz j) = Int.fract (v j) := fun j => by rw [hz]; exact append_posV su sv sz (fun i => Int.fract (u i)) (fun j => Int.fract (v j)) j
  have wU : ∀ i, w (posU su sz i) = uw i := fun i => by rw [hw]; exact append_posU su sv sz uw (fun j => -vw j) i
  have wV : ∀ j, w (posV sv sz j) = -vw j := fun j => by rw [hw]; exact append_posV su sv sz uw (fun j => -vw j) j
  have hz1 : ∀ k, z k < 1 := by
    intro k
    rcases exists_pos su sv sz k with ⟨i, rfl⟩ | ⟨j, rfl⟩
    · rw [zU]; exact Int.fract_lt_one _
    · rw [zV]; exact Int.fract_lt_one _
  have hznn : ∀ k, 0 ≤ z k := by
    intro k
    rcases exists_pos su sv sz k with ⟨i, rfl⟩ | ⟨j, rfl⟩
    · rw [zU]; exact Int.fract_nonneg _
    · rw [zV]; exact Int.fract_nonneg _
  have hz0 : z 0 = 0 := by
    refine le_antisymm ?_ (hznn 0)
    rcases h0 with ⟨i, hi⟩ | ⟨j, hj⟩
    · rw [← hi, ← zU i]; exact hsz (Fin.zero_le _)
    · rw [← hj, ← zV j]; exact hsz (Fin.zero_le _)
  have hpair : ∀ φ : Fin (n + 1 + m + 1) → K, ∑ k, w k * φ k = ∑ i, uw i * φ (posU su sz i) - ∑ j, vw j * φ (posV sv sz j) := by
    intro φ
    rw [sum_merged su sv sz fun k => w k * φ k]
    simp only [wU, wV, neg_mul, sum_neg_distrib, sub_eq_add_neg]
  have hw0 : ∑ k, w k = 0 := by
    have := hpair fun _ => 1
    simp only [mul_one] at this
    rw [this, hsum, sub_self]
  obtain ⟨φ, hφ, hφv⟩ := lipschitz_att hsz hz0 hz1 hw0 sd hsd
  have hlow : ∀ P, IsCoupling uw vw P → w1Sorted z w sd ≤ cost (fun i j => circDist (u i) (v j)) P := by
    intro P hP
    have hf : DualFeasible (fun i j => circDist (u i) (v j)) (fun i => φ (posU su sz i)) (fun j => -φ (posV sv sz j)) := by
      intro i j
      have := hφ (posU su sz i) (posV sv sz j)
      rw [zU, zV, circDist_fract] at this
      simp only
      linarith
    have := weak_duality hP hf
    refine le_trans (le_of_eq ?_) this
    rw [← hφv, hpair]
    unfold dualValue
    simp only [neg_mul, sum_neg_distrib, sub_eq_add_neg]
    congr 1
    · exact sum_congr rfl fun i _ => mul_comm _ _
    · exact congrArg _ (sum_congr rfl fun j _ => mul_comm _ _)
  rw [hres]
  refine ⟨?_, fun c ⟨P, hP, hc⟩ => hc ▸ hlow P hP⟩
  obtain ⟨P, α, β, hopt, hf, hv⟩ := strong_duality uw vw (fun i j => circDist (u i) (v j)) huw hvw hpos hsum
  refine ⟨P, hopt.1, le_antisymm ?_ (hlow P hopt.1)⟩
  obtain ⟨ψ, hψ, hψu, hψv⟩ := lipschitz_of_dual u v α β hf
  have hψf : ∀ x : K, ψ (Int.fract x) = ψ x := by
    intro x
    have hd : circDist (Int.fract x) x = 0 := by
      rw [← circDist_fract, Int.fract_fract, circDist]; simp
    have h1 := hψ (Int.fract x) x
    have h2 := hψ x (Int.fract x)
    rw [circDist_comm, hd] at h2
    rw [hd] at h1
    linarith
  have hval : w1Sorted z w sd = levelInt z w (cdfs w (sd (argminNonneg fun l => ∑ l' ∈ Iic l, deltas z (sd l') - 1 / 2))) := rfl
  rw [hval]
  refine le_trans ?_ (lipschitz_le hsz hz0 hz1 hw0 _ (fun k => ψ (z k)) fun k l => hψ _ _)
  rw [hpair, ← hv]
  unfold dualValue
  simp only [zU, zV, hψf]
  have h1 : ∑ i, α i * uw i ≤ ∑ i, uw i * ψ (u i) := sum_le_sum fun i _ => by
    rw [mul_comm]; exact mul_le_mul_of_nonneg_left (hψu i) (huw i)
  have h2 : ∑ j, β j * vw j ≤ -∑ j, vw j * ψ (v j) := by
    rw [← sum_neg_distrib]
    refine sum_le_sum fun j _ => ?_
    rw [mul_comm, ← mul_neg]; exact mul_le_mul_of_nonneg_left (hψv j) (hvw j)
  linarith

end POT.Circle
