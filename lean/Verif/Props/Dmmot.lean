import Verif.Lemmas.Dmmot
import Mathlib.Algebra.Order.Field.Rat
import Mathlib.Algebra.Field.Rat
import Mathlib.Algebra.BigOperators.Field
import Mathlib.Tactic.FinCases
import Mathlib.Tactic.NormNum
import Mathlib.Tactic.Positivity

/-! # C58: multi-marginal transport on a grid (`dmmot_monge_1dgrid_loss`, `dmmot_monge_1dgrid_optimize`) -/

set_option linter.unusedSectionVars false

namespace POT.Props

open Finset Spec Dmmot

variable {K : Type*} [Field K] [LinearOrder K] [IsStrictOrderedRing K] {d n : ℕ}

/-- the arrays given to the model, from histograms with `n` bins -/
def histArr (A : Fin (d + 1) → Fin n → K) : Fin (d + 1) → ℕ → K := fun j b => if h : b < n then A j ⟨b, h⟩ else 0

theorem histArr_val (A : Fin (d + 1) → Fin n → K) (j : Fin (d + 1)) (b : Fin n) : histArr A j b = A j b := by simp [histArr]

theorem histArr_sum (A : Fin (d + 1) → Fin n → K) (j : Fin (d + 1)) : ∑ b ∈ range n, histArr A j b = ∑ b, A j b := by
  rw [sum_range]; exact sum_congr rfl fun b _ => histArr_val A j b

/-- C58. The loop ends after at most `(d+1)(n-1)+1` turns for `d+1` histograms with `n` bins. -/
theorem C58_terminates (A : Fin (d + 1) → Fin n → K) (turns : ℕ) (ht : (d + 1) * (n - 1) + 2 ≤ turns) :
    ∃ r, loss n turns (histArr A) = some r := by
  obtain ⟨s', hs⟩ := loop_some (n := n) turns (init (histArr A)) (by simp [init]) (by simp [init]; omega)
  exact ⟨_, by unfold loss; rw [hs]; rfl⟩

section
variable {A : Fin (d + 1) → Fin n → K} {s : State K d} (h : Inv n (histArr A) s) {i : Fin (d + 1)} (hi : s.idx i = n)
include h hi

theorem rest_zero (j : Fin (d + 1)) (b : Fin n) : s.AA j b = 0 := by
  have h0 : ∑ b ∈ range n, s.AA j b = 0 := by
    rw [h.equal j i]; exact sum_eq_zero fun b hb => h.done i b (by rw [hi]; exact mem_range.1 hb)
  exact (sum_eq_zero_iff_of_nonneg fun b hb => h.rest_nonneg j b (mem_range.1 hb)).1 h0 b (mem_range.2 b.2)

theorem final_coupling : IsMultiCoupling A fun k => s.xx (up k) :=
  ⟨h.plan_nonneg, fun j b => by
    have := h.split j b
    rw [rest_zero h hi, add_zero, histArr_val] at this
    exact this⟩

theorem fill_le {j : Fin (d + 1)} {b : ℕ} (hb : b ≤ s.idx j) : fill n s j b = s.dual j b := by
  unfold fill
  split_ifs with hc
  · rw [le_antisymm hb hc.2]
  · rfl

theorem pos_le {j : Fin (d + 1)} {b : Fin n} (hb : A j b ≠ 0) : (b : ℕ) ≤ s.idx j := by
  by_contra hlt
  push Not at hlt
  refine hb ?_
  rw [← (final_coupling h hi).marginal j b]
  refine sum_eq_zero fun k hk => ?_
  by_contra hne
  have := (h.support k hne).1 j
  rw [(mem_filter.1 hk).2] at this
  omega

end

theorem dual_pairing (A : Fin (d + 1) → Fin n → K) (Q : (Fin (d + 1) → Fin n) → K) (hQ : IsMultiCoupling A Q) (z : Fin (d + 1) → Fin n → K) :
    multiDual A z = ∑ k, (∑ j, z j (k j)) * Q k := by
  have e : ∑ k, (∑ j, z j (k j)) * Q k = ∑ j, ∑ k, z j (k j) * Q k := by
    simp only [sum_mul]; exact sum_comm
  rw [e]
  refine sum_congr rfl fun j _ => ?_
  have h := sum_fiberwise (univ : Finset (Fin (d + 1) → Fin n)) (fun k => k j) (fun k => z j (k j) * Q k)
  rw [← h]
  refine sum_congr rfl fun b _ => ?_
  rw [← hQ.marginal j b, sum_mul]
  exact sum_congr rfl fun k hk => by rw [(mem_filter.1 hk).2]; ring

/-- C58. For histograms of equal mass the recorded plan has the given marginals, the returned value is its cost, no tensor with the same marginals is cheaper, and the reported dual
objective equals the value. -/
theorem C58_optimal (A : Fin (d + 1) → Fin n → K) (hA : ∀ j b, 0 ≤ A j b) (hm : ∀ j j', ∑ b, A j b = ∑ b, A j' b) (turns : ℕ) (r : Result K d)
    (hr : loss n turns (histArr A) = some r) :
    IsMultiCoupling A (fun k => r.plan fun j => k j) ∧ r.obj = multiCost (fun k : Fin (d + 1) → Fin n => r.plan fun j => k j) ∧
    (∀ Q, IsMultiCoupling A Q → r.obj ≤ multiCost Q) ∧ r.dualObj = r.obj ∧ r.dualObj = multiDual A fun j b => r.dual j b := by
  unfold loss at hr
  rw [Option.map_eq_some_iff] at hr
  obtain ⟨s, hs, rfl⟩ := hr
  obtain ⟨h, i, hi⟩ := loop_inv turns _ s (init_inv (n := n) (histArr A) (fun j b hb => by simp only [histArr, hb, dif_pos]; exact hA _ _)
    (fun j j' => by rw [histArr_sum, histArr_sum]; exact hm j j')) hs
  have hc := final_coupling h hi
  have hv : s.obj = multiCost fun k => s.xx (up k) := h.value
  have hd : ∑ j, ∑ b ∈ range n, histArr A j b * fill n s j b = multiDual A fun j b => fill n s j b := by
    unfold multiDual
    refine sum_congr rfl fun j _ => ?_
    rw [sum_range]; exact sum_congr rfl fun b _ => by rw [histArr_val]
  have hdv : multiDual A (fun j b => fill n s j b) = s.obj := by
    rw [dual_pairing A _ hc, hv]
    refine sum_congr rfl fun k _ => ?_
    by_cases hk : s.xx (up k) = 0
    · simp only [hk, mul_zero]
    · rw [sum_congr rfl fun j _ => fill_le h hi ((h.support k hk).1 j), h.slack k hk]; rfl
  refine ⟨hc, hv, fun Q hQ => ?_, hd.trans hdv, hd⟩
  show s.obj ≤ _
  rw [← hdv, dual_pairing A Q hQ]
  refine sum_le_sum fun k _ => ?_
  by_cases hk : Q k = 0
  · rw [hk, mul_zero, mul_zero]
  · refine mul_le_mul_of_nonneg_right ?_ (hQ.nonneg k)
    have hle : ∀ j, (k j : ℕ) ≤ s.idx j := fun j => pos_le h hi (b := k j) (by
      have hpos : 0 < ∑ k' with k' j = k j, Q k' :=
        sum_pos' (fun k' _ => hQ.nonneg k') ⟨k, mem_filter.2 ⟨mem_univ _, rfl⟩, lt_of_le_of_ne (hQ.nonneg k) (Ne.symm hk)⟩
      rw [hQ.marginal] at hpos
      exact hpos.ne')
    rw [sum_congr rfl fun j _ => fill_le h hi (hle j)]
    exact h.feasible k hle

/-- C58. If no histogram vanishes on the last bin, the returned dual variables are feasible in the dual program (hence optimal), and they are a subgradient of the optimal value: for any
other histograms with an optimal plan, the value grows at least by the pairing of the dual variables with the change. -/
theorem C58_dual_feasible (A : Fin (d + 1) → Fin (n + 1) → K) (hA : ∀ j b, 0 ≤ A j b) (hm : ∀ j j', ∑ b, A j b = ∑ b, A j' b) (hlast : ∀ j, 0 < A j (Fin.last n))
    (turns : ℕ) (r : Result K d) (hr : loss (n + 1) turns (histArr A) = some r) :
    MultiFeasible (fun j (b : Fin (n + 1)) => r.dual j b) ∧
    (∀ z : Fin (d + 1) → Fin (n + 1) → K, MultiFeasible z → multiDual A z ≤ r.dualObj) ∧
    ∀ (B : Fin (d + 1) → Fin (n + 1) → K) (Q : (Fin (d + 1) → Fin (n + 1)) → K), IsMultiCoupling B Q →
      ∑ j, ∑ b : Fin (n + 1), r.dual j b * (B j b - A j b) ≤ multiCost Q - r.obj := by
  have hopt := C58_optimal A hA hm turns r hr
  have hfeas : MultiFeasible (fun j (b : Fin (n + 1)) => r.dual j b) := by
    unfold loss at hr
    rw [Option.map_eq_some_iff] at hr
    obtain ⟨s, hs, rfl⟩ := hr
    obtain ⟨h, i, hi⟩ := loop_inv turns _ s (init_inv (n := n + 1) (histArr A) (fun j b hb => by simp only [histArr, hb, dif_pos]; exact hA _ _)
      (fun j j' => by rw [histArr_sum, histArr_sum]; exact hm j j')) hs
    intro k
    have hle : ∀ j, (k j : ℕ) ≤ s.idx j := fun j => by
      have h1 := pos_le h hi (hlast j).ne'
      have := (k j).2
      simp only [Fin.val_last] at h1
      omega
    have h1 : ∑ j, fill (n + 1) s j (k j) = ∑ j, s.dual j (k j) := sum_congr rfl fun j _ => fill_le h hi (hle j)
    exact h1.trans_le (h.feasible k hle)
  have hweak : ∀ (B z : Fin (d + 1) → Fin (n + 1) → K) (Q : (Fin (d + 1) → Fin (n + 1)) → K), IsMultiCoupling B Q → MultiFeasible z → multiDual B z ≤ multiCost Q := by
    intro B z Q hQ hz
    rw [dual_pairing B Q hQ]
    exact sum_le_sum fun k _ => mul_le_mul_of_nonneg_right (hz k) (hQ.nonneg k)
  refine ⟨hfeas, fun z hz => ?_, fun B Q hQ => ?_⟩
  · rw [hopt.2.2.2.1, hopt.2.1]; exact hweak A z _ hopt.1 hz
  · have h1 := hweak B _ Q hQ hfeas
    have h2 := hopt.2.2.2.2
    rw [hopt.2.2.2.1] at h2
    have h3 : ∑ j, ∑ b : Fin (n + 1), r.dual j b * (B j b - A j b) = multiDual B (fun j b => r.dual j b) - multiDual A (fun j b => r.dual j b) := by
      unfold multiDual
      rw [← sum_sub_distrib]
      refine sum_congr rfl fun j _ => ?_
      rw [← sum_sub_distrib]
      exact sum_congr rfl fun b _ => by ring
    rw [h3]; linarith

/-- C58. `renormalize` returns a probability vector unless the column is constant and not positive. -/
theorem C58_renormalize (a : Fin (n + 1) → K) (h : (∃ b c, a b ≠ a c) ∨ 0 < a 0) :
    (∀ b, 0 ≤ renormalize a b) ∧ ∑ b, renormalize a b = 1 := by
  obtain ⟨a1, ha1⟩ : ∃ a1, a1 = if univ.inf' univ_nonempty a < 0 then fun b => a b - univ.inf' univ_nonempty a else a := ⟨_, rfl⟩
  have e : renormalize a = fun b => a1 b / ∑ c, a1 c := by rw [ha1]; rfl
  have hn : ∀ b, 0 ≤ a1 b := by
    intro b
    rw [ha1]
    have := inf'_le a (mem_univ b)
    split_ifs with hc
    · exact sub_nonneg.2 this
    · exact (not_lt.1 hc).trans this
  have hpos : 0 < ∑ c, a1 c := by
    by_contra hneg
    have hz := (sum_eq_zero_iff_of_nonneg fun c _ => hn c).1 (le_antisymm (not_lt.1 hneg) (sum_nonneg fun c _ => hn c))
    have hconst : ∀ b c, a b = a c := by
      intro b c
      have h1 := hz b (mem_univ b)
      have h2 := hz c (mem_univ c)
      rw [ha1] at h1 h2
      split_ifs at h1 h2
      · linarith
      · rw [h1, h2]
    rcases h with ⟨b, c, hbc⟩ | h
    · exact hbc (hconst b c)
    · have h1 := hz 0 (mem_univ 0)
      have h3 : ¬ univ.inf' univ_nonempty a < 0 := by
        rw [not_lt]; exact le_inf' _ _ fun c _ => (hconst c 0).symm ▸ h.le
      rw [ha1, if_neg h3] at h1
      linarith
  rw [e]
  exact ⟨fun b => div_nonneg (hn b) hpos.le, by rw [← sum_div, div_self hpos.ne']⟩

/-! ## where the dual variables are wrong, and non-vacuity -/

/-- two histograms, the second concentrated on the first bin -/
def dmA : Fin 2 → Fin 3 → ℚ := fun j b => if j = 0 then 1 / 3 else if b = 0 then 1 else 0

/-- the same histograms in the other order -/
def dmB : Fin 2 → Fin 3 → ℚ := fun j b => dmA (1 - j) b

/-- C58: with trailing empty bins the returned dual variables need not be feasible (the remaining entries are filled with a constant): here they sum to `2` on the tuple `(2, 2)`, whose
cost is `0`.  `dmmot_monge_1dgrid_optimize` uses them as gradients.  With the histograms in the other order the dual variables are feasible. -/
theorem C58_dual_refuted :
    ∃ r, loss 3 10 (histArr dmA) = some r ∧ r.obj = 1 ∧ (spread (fun _ : Fin 2 => (2 : Fin 3)) : ℚ) < ∑ j, r.dual j 2 ∧
    ∃ r', loss 3 10 (histArr dmB) = some r' ∧ r'.obj = 1 ∧ MultiFeasible fun j (b : Fin 3) => r'.dual j b := by
  have h1 : ∃ r, loss 3 10 (histArr dmA) = some r := C58_terminates dmA 10 (by norm_num)
  have h2 : ∃ r, loss 3 10 (histArr dmB) = some r := C58_terminates dmB 10 (by norm_num)
  obtain ⟨r, hr⟩ := h1
  obtain ⟨r', hr'⟩ := h2
  have e1 : (loss 3 10 (histArr dmA)).map (fun r => (r.obj, ∑ j, r.dual j 2)) = some (1, 2) := by decide +kernel
  have e2 : (loss 3 10 (histArr dmB)).map (fun r => (r.obj, fun j (b : Fin 3) => r.dual j b)) = some ((1 : ℚ), fun (j : Fin 2) (b : Fin 3) => if j = 0 then -((b : ℕ) : ℚ) else ((b : ℕ) : ℚ)) := by
    decide +kernel
  rw [hr] at e1
  rw [hr'] at e2
  simp only [Option.map_some, Option.some.injEq, Prod.mk.injEq] at e1 e2
  refine ⟨r, hr, e1.1, ?_, r', hr', e2.1, ?_⟩
  · rw [e1.2]; decide +kernel
  · rw [e2.2]; unfold MultiFeasible; decide +kernel

/-- three histograms of mass one with positive last bins meet the hypotheses -/
example : ∃ r, loss 3 20 (histArr (fun j b => if j = 0 then 1 / 3 else if b = 0 then 1 / 2 else 1 / 4 : Fin 3 → Fin 3 → ℚ)) = some r ∧ 0 < r.obj := by
  have h : (loss 3 20 (histArr (fun j b => if j = 0 then 1 / 3 else if b = 0 then 1 / 2 else 1 / 4 : Fin 3 → Fin 3 → ℚ))).map (fun r => decide (0 < r.obj)) = some true := by
    decide +kernel
  rw [Option.map_eq_some_iff] at h
  obtain ⟨r, hr, h⟩ := h
  exact ⟨r, hr, of_decide_eq_true h⟩

end POT.Props
