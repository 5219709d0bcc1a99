import Verif.Model.Utils
import Verif.Spec.Projection
import Mathlib.Tactic.Ring
import Mathlib.Tactic.Linarith
import Mathlib.Tactic.FieldSimp
import Mathlib.Tactic.LinearCombination
import Mathlib.Algebra.BigOperators.Fin

/-! # Lemmas for the model of `ot/utils.py` -/

set_option linter.unusedSectionVars false

namespace POT.Utils

open Finset Spec

section Projection

variable {R : Type*} [Field R] [LinearOrder R] [IsStrictOrderedRing R]

/-- Filtering an initial segment by a downward closed predicate keeps an initial segment. -/
theorem filter_range_downward (p : ℕ → Bool) (n : ℕ)
    (h : ∀ k, k + 1 < n → p (k + 1) = true → p k = true) :
    ∃ r ≤ n, ((List.range n).filter p).length = r ∧ ∀ k < n, p k = true ↔ k < r := by
  induction n with
  | zero => exact ⟨0, le_rfl, rfl, fun k hk => by omega⟩
  | succ n ih =>
    obtain ⟨r, hr, hl, hp⟩ := ih fun k hk => h k (by omega)
    rw [List.range_succ, List.filter_append, List.length_append, hl]
    by_cases hn : p n = true
    · have hall : ∀ m, m ≤ n → p (n - m) = true := by
        intro m
        induction m with
        | zero => intro _; simpa using hn
        | succ m ihm =>
          intro hm
          refine h (n - (m + 1)) (by omega) ?_
          rw [show n - (m + 1) + 1 = n - m by omega]
          exact ihm (by omega)
      have hrn : r = n := by
        by_contra hc
        have := (hp r (by omega)).1 (by simpa [show n - (n - r) = r by omega] using hall (n - r) (by omega))
        omega
      refine ⟨n + 1, le_rfl, by simp [hn, hrn], fun k hk => ⟨fun _ => hk, fun _ => ?_⟩⟩
      simpa [show n - (n - k) = k by omega] using hall (n - k) (by omega)
    · refine ⟨r, by omega, by simp [hn], fun k hk => ?_⟩
      rcases Nat.lt_succ_iff_lt_or_eq.1 hk with h1 | rfl
      · exact hp k h1
      · constructor
        · exact fun hc => absurd hc hn
        · intro hc; omega

theorem take_succ_sum (u : List R) (k : ℕ) (hk : k < u.length) :
    (u.take (k + 1)).sum = (u.take k).sum + u[k] := by
  rw [List.take_succ_eq_append_getElem hk, List.sum_append, List.sum_singleton]

theorem cond_iff (u : List R) (z : R) (k : ℕ) (hk : k < u.length) :
    0 < u.getD k 0 - cssv u z k / ((k : R) + 1) ↔ (u.take k).sum - z < (k : R) * u[k] := by
  have hpos : (0 : R) < (k : R) + 1 := by positivity
  unfold cssv
  rw [sub_pos, div_lt_iff₀ hpos, take_succ_sum u k hk,
    show u.getD k 0 = u[k] by rw [List.getD_eq_getElem?_getD, List.getElem?_eq_getElem hk]; rfl]
  constructor <;> intro h <;> linarith

theorem theta_spec (u : List R) (hu : u.Pairwise (· ≥ ·)) (hne : u ≠ []) (z : R) (hz : 0 < z) :
    (u.map fun x => max (x - theta u z) 0).sum = z := by
  have hlen : 0 < u.length := List.length_pos_iff.2 hne
  have hmono : ∀ i j (hi : i < u.length) (hj : j < u.length), i ≤ j → u[j] ≤ u[i] := by
    intro i j hi hj hij
    rcases hij.lt_or_eq with h | rfl
    · exact List.pairwise_iff_getElem.1 hu i j hi hj h
    · exact le_rfl
  obtain ⟨r, hr, hl, hp⟩ := filter_range_downward
    (fun k => decide (0 < u.getD k 0 - cssv u z k / ((k : R) + 1))) u.length (by
      intro k hk h
      simp only [decide_eq_true_eq] at h ⊢
      have h1 := (cond_iff u z (k + 1) hk).1 h
      refine (cond_iff u z k (by omega)).2 ?_
      rw [take_succ_sum u k (by omega)] at h1
      have h2 := hmono k (k + 1) (by omega) hk (by omega)
      have h3 : ((k + 1 : ℕ) : R) * u[k + 1] ≤ ((k + 1 : ℕ) : R) * u[k] :=
        mul_le_mul_of_nonneg_left h2 (Nat.cast_nonneg _)
      push_cast at h1 h3
      linarith)
  have hp' : ∀ k (hk : k < u.length), (u.take k).sum - z < (k : R) * u[k] ↔ k < r := by
    intro k hk
    rw [← cond_iff u z k hk, ← hp k hk, decide_eq_true_eq]
  have hrho : rho u z = r := hl
  have hr0 : 0 < r := (hp' 0 hlen).1 (by simpa using hz)
  have hrR : (0 : R) < r := Nat.cast_pos.2 hr0
  have hth : theta u z = ((u.take r).sum - z) / r := by
    unfold theta cssv
    rw [hrho, Nat.sub_add_cancel hr0]
  have hthr : theta u z * r = (u.take r).sum - z := by
    rw [hth, div_mul_cancel₀ _ hrR.ne']
  -- below the threshold index entries exceed theta
  have hbig : ∀ k (hk : k < u.length), k < r → theta u z ≤ u[k] := by
    intro k hk hkr
    have h1 := (hp' (r - 1) (by omega)).2 (by omega)
    have h2 := take_succ_sum u (r - 1) (by omega)
    rw [Nat.sub_add_cancel hr0] at h2
    have h3 : ((r - 1 : ℕ) : R) = (r : R) - 1 := by rw [Nat.cast_sub hr0]; simp
    rw [h3] at h1
    refine le_trans ?_ (hmono k (r - 1) hk (by omega) (by omega))
    rw [hth, div_le_iff₀ hrR]
    linarith
  have hsmall : ∀ k (hk : k < u.length), r ≤ k → u[k] ≤ theta u z := by
    intro k hk hkr
    have h1 := not_lt.1 (mt (hp' r (by omega)).1 (lt_irrefl r))
    refine le_trans (hmono r k (by omega) hk hkr) ?_
    rw [hth, le_div_iff₀ hrR]
    linarith
  obtain ⟨t, htt⟩ : ∃ t, theta u z = t := ⟨_, rfl⟩
  rw [htt] at hthr hbig hsmall ⊢
  conv_lhs => rw [← List.take_append_drop r u]
  rw [List.map_append, List.sum_append]
  have e1 : ((u.take r).map fun x => max (x - t) 0) = (u.take r).map fun x => x - t := by
    refine List.map_congr_left fun x hx => ?_
    obtain ⟨k, hk, rfl⟩ := List.getElem_of_mem hx
    rw [List.length_take] at hk
    rw [List.getElem_take]
    exact max_eq_left (sub_nonneg.2 (hbig k (by omega) (by omega)))
  have e2 : ((u.drop r).map fun x => max (x - t) 0) = (u.drop r).map fun _ => 0 := by
    refine List.map_congr_left fun x hx => ?_
    obtain ⟨k, hk, rfl⟩ := List.getElem_of_mem hx
    rw [List.length_drop] at hk
    rw [List.getElem_drop]
    exact max_eq_right (sub_nonpos.2 (hsmall (r + k) (by omega) (by omega)))
  have e3 : ∀ l : List R, (l.map fun x => x - t).sum = l.sum - l.length * t := by
    intro l
    induction l with
    | nil => simp
    | cons x l ih => simp only [List.map_cons, List.sum_cons, ih, List.length_cons]; push_cast; ring
  rw [e1, e2, e3, List.length_take, min_eq_left hr]
  simp
  linarith

theorem sortDesc_sorted (l : List R) : (sortDesc l).Pairwise (· ≥ ·) := by
  unfold sortDesc
  rw [List.pairwise_reverse]
  have := List.pairwise_mergeSort (le := fun x y : R => decide (x ≤ y))
    (by intro a b c h1 h2; simp only [decide_eq_true_eq] at *; exact h1.trans h2)
    (by intro a b; simp only [Bool.or_eq_true, decide_eq_true_eq]; exact le_total a b) l
  exact this.imp fun h => by simpa using h

theorem sortDesc_perm (l : List R) : (sortDesc l).Perm l :=
  (List.reverse_perm _).trans (List.mergeSort_perm _ _)

/-- Optimality of thresholded vectors. -/
theorem threshold_nearest {ι : Type*} (s : Finset ι) (v w y : ι → R) (t : R)
    (hw : ∀ i ∈ s, w i = max (v i - t) 0) (hy : ∀ i ∈ s, 0 ≤ y i) (hs : ∑ i ∈ s, y i = ∑ i ∈ s, w i) :
    ∑ i ∈ s, (w i - v i) ^ 2 + ∑ i ∈ s, (y i - w i) ^ 2 ≤ ∑ i ∈ s, (y i - v i) ^ 2 := by
  have h0 : ∑ i ∈ s, (y i - w i) * t = 0 := by
    rw [← sum_mul, sum_sub_distrib, hs, sub_self, zero_mul]
  have : ∑ i ∈ s, ((w i - v i) ^ 2 + (y i - w i) ^ 2 - 2 * ((y i - w i) * t)) ≤ ∑ i ∈ s, (y i - v i) ^ 2 := by
    refine sum_le_sum fun i hi => ?_
    rcases le_total (v i - t) 0 with h | h
    · rw [hw i hi, max_eq_right h]
      nlinarith [mul_nonneg (hy i hi) (sub_nonneg.2 h)]
    · rw [hw i hi, max_eq_left h]
      nlinarith
  rw [sum_sub_distrib, sum_add_distrib, ← mul_sum, h0, mul_zero, sub_zero] at this
  exact this

end Projection

section Batch

theorem flatten_blocks {α : Type*} (l : List α) (bs q : ℕ) :
    ((List.range q).map fun k => slice l (k * bs) bs).flatten = l.take (q * bs) := by
  induction q with
  | zero => simp
  | succ q ih =>
    rw [List.range_succ, List.map_append, List.flatten_append, ih]
    simp only [slice, List.map_cons, List.map_nil, List.flatten_cons, List.flatten_nil, List.append_nil]
    rw [Nat.succ_mul, List.take_add]

theorem ceil_mul (n bs : ℕ) (h : 0 < bs) : n ≤ (n + bs - 1) / bs * bs := by
  have h1 := Nat.div_add_mod (n + bs - 1) bs
  have h2 := Nat.mod_lt (n + bs - 1) h
  rw [Nat.mul_comm] at h1
  omega

theorem blocks_flatten {α : Type*} (l : List α) (bs : ℕ) (h : 0 < bs) :
    ((pyRange l.length bs).map fun i => slice l i bs).flatten = l := by
  unfold pyRange
  rw [List.map_map]
  refine (flatten_blocks l bs _).trans (List.take_of_length_le ?_)
  exact ceil_mul _ _ h

end Batch

end POT.Utils
