import Verif.Model.Dmmot
import Verif.Spec.Dmmot
import Mathlib.Tactic.Linarith
import Mathlib.Tactic.Ring
import Mathlib.Algebra.Order.BigOperators.Group.Finset
import Mathlib.Algebra.BigOperators.Ring.Finset

/-! # Invariants of the greedy loop of `dmmot_monge_1dgrid_loss` -/

set_option linter.unusedSectionVars false

namespace POT.Dmmot

open Finset Spec

variable {K : Type*} [Field K] [LinearOrder K] [IsStrictOrderedRing K] {d n : ℕ}

theorem firstMin_le (vals : Fin (d + 1) → K) (j : Fin (d + 1)) : vals (firstMin vals) ≤ vals j := by
  have h := min'_mem (univ.filter fun i => ∀ j, vals i ≤ vals j) (by
    obtain ⟨i, -, hi⟩ := exists_min_image univ vals univ_nonempty
    exact ⟨i, by simpa using fun j => hi j (mem_univ j)⟩)
  exact (mem_filter.1 h).2 j

/-- the cost is Monge -/
theorem dist_monge (p q : Fin (d + 1) → ℕ) : (dist (fun j => min (p j) (q j)) : K) + dist (fun j => max (p j) (q j)) ≤ dist p + dist q := by
  have h1 : univ.sup' univ_nonempty (fun j => min (p j) (q j)) ≤ min (univ.sup' univ_nonempty p) (univ.sup' univ_nonempty q) :=
    sup'_le _ _ fun j _ => le_min ((min_le_left _ _).trans (le_sup' p (mem_univ j))) ((min_le_right _ _).trans (le_sup' q (mem_univ j)))
  have h2 : univ.sup' univ_nonempty (fun j => max (p j) (q j)) ≤ max (univ.sup' univ_nonempty p) (univ.sup' univ_nonempty q) :=
    sup'_le _ _ fun j _ => max_le_max (le_sup' p (mem_univ j)) (le_sup' q (mem_univ j))
  have h3 : min (univ.inf' univ_nonempty p) (univ.inf' univ_nonempty q) ≤ univ.inf' univ_nonempty (fun j => min (p j) (q j)) :=
    le_inf' _ _ fun j _ => min_le_min (inf'_le p (mem_univ j)) (inf'_le q (mem_univ j))
  have h4 : max (univ.inf' univ_nonempty p) (univ.inf' univ_nonempty q) ≤ univ.inf' univ_nonempty (fun j => max (p j) (q j)) :=
    le_inf' _ _ fun j _ => max_le ((inf'_le p (mem_univ j)).trans (le_max_left _ _)) ((inf'_le q (mem_univ j)).trans (le_max_right _ _))
  have h5 : univ.sup' univ_nonempty (fun j => min (p j) (q j)) + univ.sup' univ_nonempty (fun j => max (p j) (q j)) ≤
      univ.sup' univ_nonempty p + univ.sup' univ_nonempty q := (add_le_add h1 h2).trans_eq (min_add_max _ _)
  have h6 : univ.inf' univ_nonempty p + univ.inf' univ_nonempty q ≤
      univ.inf' univ_nonempty (fun j => min (p j) (q j)) + univ.inf' univ_nonempty (fun j => max (p j) (q j)) := (min_add_max _ _).symm.trans_le (add_le_add h3 h4)
  have h5' : ((univ.sup' univ_nonempty (fun j => min (p j) (q j)) : ℕ) : K) + (univ.sup' univ_nonempty (fun j => max (p j) (q j)) : ℕ) ≤
      (univ.sup' univ_nonempty p : ℕ) + (univ.sup' univ_nonempty q : ℕ) := by exact_mod_cast h5
  have h6' : ((univ.inf' univ_nonempty p : ℕ) : K) + (univ.inf' univ_nonempty q : ℕ) ≤
      (univ.inf' univ_nonempty (fun j => min (p j) (q j)) : ℕ) + (univ.inf' univ_nonempty (fun j => max (p j) (q j)) : ℕ) := by exact_mod_cast h6
  unfold dist
  linarith

/-- a tuple of bins as a tuple of indices -/
def up (k : Fin (d + 1) → Fin n) : Fin (d + 1) → ℕ := fun j => k j

theorem spread_eq (k : Fin (d + 1) → Fin n) : (spread k : K) = dist (up k) := rfl

theorem up_inj {k k' : Fin (d + 1) → Fin n} (h : up k = up k') : k = k' := funext fun j => Fin.ext (congrFun h j)

/-- mass already sent from bin `b` of histogram `j` -/
def sent (n : ℕ) (s : State K d) (j : Fin (d + 1)) (b : Fin n) : K := ∑ k : Fin (d + 1) → Fin n with k j = b, s.xx (up k)

/-- The invariant of the loop. -/
structure Inv (n : ℕ) (A : Fin (d + 1) → ℕ → K) (s : State K d) : Prop where
  le_n : ∀ j, s.idx j ≤ n
  rest_nonneg : ∀ j b, b < n → 0 ≤ s.AA j b
  plan_nonneg : ∀ k : Fin (d + 1) → Fin n, 0 ≤ s.xx (up k)
  support : ∀ k : Fin (d + 1) → Fin n, s.xx (up k) ≠ 0 → (∀ j, (k j : ℕ) ≤ s.idx j) ∧ up k ≠ s.idx
  split : ∀ j (b : Fin n), sent n s j b + s.AA j b = A j b
  done : ∀ j b, b < s.idx j → s.AA j b = 0
  equal : ∀ j j', ∑ b ∈ range n, s.AA j b = ∑ b ∈ range n, s.AA j' b
  dual_later : ∀ j b, s.idx j < b → s.dual j b = 0
  dual_idx : (∀ j, s.idx j < n) → ∑ j, s.dual j (s.idx j) = dist s.idx
  slack : ∀ k : Fin (d + 1) → Fin n, s.xx (up k) ≠ 0 → ∑ j, s.dual j (k j) = dist (up k)
  feasible : ∀ k : Fin (d + 1) → Fin n, (∀ j, (k j : ℕ) ≤ s.idx j) → ∑ j, s.dual j (k j) ≤ dist (up k)
  value : s.obj = ∑ k : Fin (d + 1) → Fin n, dist (up k) * s.xx (up k)

theorem dist_zero : (dist (fun _ : Fin (d + 1) => 0) : K) = 0 := by simp [dist]

theorem init_inv (A : Fin (d + 1) → ℕ → K) (hA : ∀ j b, b < n → 0 ≤ A j b) (hm : ∀ j j', ∑ b ∈ range n, A j b = ∑ b ∈ range n, A j' b) :
    Inv n A (init A) where
  le_n _ := Nat.zero_le _
  rest_nonneg := hA
  plan_nonneg _ := le_rfl
  support _ h := absurd rfl h
  split j b := by simp [sent, init]
  done j b h := absurd h (Nat.not_lt_zero _)
  equal := hm
  dual_later _ _ _ := rfl
  dual_idx _ := by
    have : (init A).idx = fun _ => 0 := rfl
    rw [this, dist_zero]; simp [init]
  slack _ h := absurd rfl h
  feasible k h := by
    have : up k = fun _ => 0 := funext fun j => Nat.le_zero.1 (h j)
    rw [this, dist_zero]; simp [init]
  value := by simp [init]

theorem step_inv {A : Fin (d + 1) → ℕ → K} {s : State K d} (h : Inv n A s) (hlt : ∀ j, s.idx j < n) : Inv n A (step n s) := by
  obtain ⟨i, hi⟩ : ∃ i, i = firstMin fun j => s.AA j (s.idx j) := ⟨_, rfl⟩
  obtain ⟨mv, hmv⟩ : ∃ mv, mv = s.AA i (s.idx i) := ⟨_, rfl⟩
  have hmin : ∀ j, mv ≤ s.AA j (s.idx j) := fun j => by rw [hmv, hi]; exact firstMin_le (fun j => s.AA j (s.idx j)) j
  have hmv0 : 0 ≤ mv := hmv ▸ h.rest_nonneg i _ (hlt i)
  have eidx : (step n s).idx = Function.update s.idx i (s.idx i + 1) := by rw [hi]; rfl
  have exx : (step n s).xx = Function.update s.xx s.idx mv := by rw [hmv, hi]; rfl
  have eobj : (step n s).obj = s.obj + dist s.idx * mv := by rw [hmv, hi]; rfl
  have eAA : ∀ j, (step n s).AA j = Function.update (s.AA j) (s.idx j) (s.AA j (s.idx j) - mv) := fun j => by rw [hmv, hi]; rfl
  have edual : (step n s).dual = if s.idx i + 1 < n then Function.update s.dual i (Function.update (s.dual i) (s.idx i + 1)
      (dist (step n s).idx - dist s.idx + s.dual i (s.idx i))) else s.dual := by
    have : (step n s).dual = if (step n s).idx i < n then Function.update s.dual i (Function.update (s.dual i) ((step n s).idx i)
      (s.dual i ((step n s).idx i) + (dist (step n s).idx - dist s.idx + s.dual i ((step n s).idx i - 1)))) else s.dual := by
      rw [hi]; rfl
    rw [this, eidx, Function.update_self, h.dual_later i _ (Nat.lt_succ_self _), zero_add, Nat.add_sub_cancel]
  have hidx_le : ∀ j, s.idx j ≤ (step n s).idx j := fun j => by
    rw [eidx]
    by_cases hj : j = i
    · subst hj; rw [Function.update_self]; omega
    · rw [Function.update_of_ne hj]
  have hidx_ne : ∀ j, j ≠ i → (step n s).idx j = s.idx j := fun j hj => by rw [eidx, Function.update_of_ne hj]
  have hidx_i : (step n s).idx i = s.idx i + 1 := by rw [eidx, Function.update_self]
  -- the duals below the old index are unchanged
  have hdual_old : ∀ j b, b ≤ s.idx j → (step n s).dual j b = s.dual j b := by
    intro j b hb
    rw [edual]
    split_ifs
    · by_cases hj : j = i
      · subst hj; rw [Function.update_self, Function.update_of_ne (by omega)]
      · rw [Function.update_of_ne hj]
    · rfl
  obtain ⟨k0, hk0⟩ : ∃ k0 : Fin (d + 1) → Fin n, up k0 = s.idx := ⟨fun j => ⟨s.idx j, hlt j⟩, rfl⟩
  have hxx0 : s.xx s.idx = 0 := by
    by_contra hne
    exact (h.support k0 (by rw [hk0]; exact hne)).2 hk0
  have exx' : ∀ k : Fin (d + 1) → Fin n, (step n s).xx (up k) = s.xx (up k) + if k = k0 then mv else 0 := by
    intro k
    rw [exx]
    split_ifs with hk
    · subst hk; rw [hk0, Function.update_self, hxx0, zero_add]
    · rw [Function.update_of_ne fun he => hk (up_inj (he.trans hk0.symm)), add_zero]
  have hne0 : ∀ k : Fin (d + 1) → Fin n, (step n s).xx (up k) ≠ 0 → s.xx (up k) ≠ 0 ∨ k = k0 := by
    intro k hk
    by_contra hcon
    push Not at hcon
    rw [exx', hcon.1, if_neg hcon.2, add_zero] at hk
    exact hk rfl
  have hle0 : ∀ k : Fin (d + 1) → Fin n, (step n s).xx (up k) ≠ 0 → ∀ j, (k j : ℕ) ≤ s.idx j := by
    intro k hk
    rcases hne0 k hk with h1 | h1
    · exact (h.support k h1).1
    · intro j; rw [h1, ← hk0]; exact le_rfl
  constructor
  · intro j
    by_cases hj : j = i
    · subst hj; rw [hidx_i]; exact hlt _
    · rw [hidx_ne j hj]; exact h.le_n j
  · intro j b hb
    rw [eAA]
    by_cases hbj : b = s.idx j
    · subst hbj; rw [Function.update_self]; linarith [hmin j]
    · rw [Function.update_of_ne hbj]; exact h.rest_nonneg j b hb
  · intro k
    rw [exx']
    have := h.plan_nonneg k
    split_ifs <;> linarith
  · intro k hk
    refine ⟨fun j => (hle0 k hk j).trans (hidx_le j), fun he => ?_⟩
    have h1 := hle0 k hk i
    have h2 : (k i : ℕ) = s.idx i + 1 := by rw [← hidx_i, ← he]; rfl
    omega
  · intro j b
    have h1 : sent n (step n s) j b = sent n s j b + if k0 j = b then mv else 0 := by
      unfold sent
      simp only [exx', sum_add_distrib]
      refine congrArg _ ?_
      rw [sum_ite_eq' _ k0]
      simp
    rw [h1, eAA, ← h.split j b]
    have hkj : (k0 j : ℕ) = s.idx j := congrFun hk0 j
    by_cases hb : (b : ℕ) = s.idx j
    · rw [if_pos (Fin.ext (hkj.trans hb.symm)), hb, Function.update_self]; ring
    · rw [if_neg fun he => hb (by rw [← he, hkj]), Function.update_of_ne hb, add_zero]
  · intro j b hb
    rw [eAA]
    by_cases hj : j = i
    · subst hj
      rw [hidx_i] at hb
      by_cases hbj : b = s.idx j
      · subst hbj; rw [Function.update_self, hmv, sub_self]
      · rw [Function.update_of_ne hbj]; exact h.done j b (by omega)
    · rw [hidx_ne j hj] at hb
      rw [Function.update_of_ne (by omega)]; exact h.done j b hb
  · have : ∀ j, ∑ b ∈ range n, (step n s).AA j b = ∑ b ∈ range n, s.AA j b - mv := by
      intro j
      rw [eAA, ← add_sum_erase _ _ (mem_range.2 (hlt j)), ← add_sum_erase _ (s.AA j) (mem_range.2 (hlt j)), Function.update_self,
        sum_congr rfl fun b hb => Function.update_of_ne (ne_of_mem_erase hb) _ _]
      ring
    intro j j'
    rw [this, this, h.equal j j']
  · intro j b hb
    have hb' : s.idx j < b := (hidx_le j).trans_lt hb
    rw [edual]
    split_ifs
    · by_cases hj : j = i
      · subst hj
        rw [hidx_i] at hb
        rw [Function.update_self, Function.update_of_ne (by omega)]
        exact h.dual_later _ _ hb'
      · rw [Function.update_of_ne hj]; exact h.dual_later _ _ hb'
    · exact h.dual_later _ _ hb'
  · intro hall
    have hi' : s.idx i + 1 < n := hidx_i ▸ hall i
    have h1 := h.dual_idx hlt
    rw [← add_sum_erase _ _ (mem_univ i)] at h1 ⊢
    have h2 : ∀ j ∈ univ.erase i, (step n s).dual j ((step n s).idx j) = s.dual j (s.idx j) := fun j hj => by
      rw [hidx_ne j (ne_of_mem_erase hj), hdual_old j _ le_rfl]
    rw [sum_congr rfl h2, hidx_i, edual, if_pos hi', Function.update_self, Function.update_self]
    linarith
  · intro k hk
    rw [sum_congr rfl fun j _ => hdual_old j _ (hle0 k hk j)]
    rcases hne0 k hk with h1 | h1
    · exact h.slack k h1
    · have := h.dual_idx hlt
      rw [h1, hk0, ← this]
      exact sum_congr rfl fun j _ => by rw [← hk0]; rfl
  · intro k hk
    by_cases hki : (k i : ℕ) ≤ s.idx i
    · have hk' : ∀ j, (k j : ℕ) ≤ s.idx j := fun j => by
        by_cases hj : j = i
        · subst hj; exact hki
        · rw [← hidx_ne j hj]; exact hk j
      rw [sum_congr rfl fun j _ => hdual_old j _ (hk' j)]
      exact h.feasible k hk'
    · have hki' : (k i : ℕ) = s.idx i + 1 := by have := hk i; rw [hidx_i] at this; omega
      have hi' : s.idx i + 1 < n := hki' ▸ (k i).2
      obtain ⟨k', hk'⟩ : ∃ k' : Fin (d + 1) → Fin n, up k' = fun j => min (k j : ℕ) (s.idx j) :=
        ⟨fun j => ⟨min (k j : ℕ) (s.idx j), (min_le_left _ _).trans_lt (k j).2⟩, rfl⟩
      have hmax : (fun j => max (k j : ℕ) (s.idx j)) = (step n s).idx := by
        funext j
        by_cases hj : j = i
        · subst hj; rw [hidx_i, hki']; omega
        · rw [hidx_ne j hj]
          have := hk j
          rw [hidx_ne j hj] at this
          exact max_eq_right this
      have h1 := h.feasible k' fun j => by
        have : (k' j : ℕ) = min (k j : ℕ) (s.idx j) := congrFun hk' j
        rw [this]; exact min_le_right _ _
      have h2 : (dist (fun j => min (k j : ℕ) (s.idx j)) : K) + dist (fun j => max (k j : ℕ) (s.idx j)) ≤ dist (up k) + dist s.idx := dist_monge (up k) s.idx
      rw [hmax, ← hk'] at h2
      have h3 : ∑ j, (step n s).dual j (k j) = ∑ j, s.dual j (k' j) + (dist (step n s).idx - dist s.idx) := by
        rw [← add_sum_erase _ _ (mem_univ i), ← add_sum_erase univ (fun j => s.dual j (k' j)) (mem_univ i)]
        have h4 : ∀ j ∈ univ.erase i, (step n s).dual j (k j) = s.dual j (k' j) := fun j hj => by
          have hkj := hk j
          rw [hidx_ne j (ne_of_mem_erase hj)] at hkj
          have : (k' j : ℕ) = k j := (congrFun hk' j).trans (min_eq_left hkj)
          rw [this, hdual_old j _ hkj]
        have h5 : (k' i : ℕ) = s.idx i := (congrFun hk' i).trans (min_eq_right (by omega))
        have h6 : (step n s).dual i (k i) = dist (step n s).idx - dist s.idx + s.dual i (s.idx i) := by
          rw [hki', edual, if_pos hi', Function.update_self, Function.update_self]
        rw [sum_congr rfl h4, h6, h5]; ring
      rw [h3]; linarith
  · rw [eobj, h.value]
    simp only [exx', mul_add, sum_add_distrib]
    refine congrArg _ ?_
    simp [hk0]

theorem loop_inv {A : Fin (d + 1) → ℕ → K} (t : ℕ) (s s' : State K d) (h : Inv n A s) (he : loop n t s = some s') : Inv n A s' ∧ ∃ j, s'.idx j = n := by
  induction t generalizing s with
  | zero => simp [loop] at he
  | succ t ih =>
    unfold loop at he
    split_ifs at he with hc
    · exact ih _ (step_inv h hc) he
    · push Not at hc
      obtain ⟨j, hj⟩ := hc
      cases he
      exact ⟨h, j, le_antisymm (h.le_n j) hj⟩

theorem step_idx_sum (s : State K d) : ∑ j, (step n s).idx j = ∑ j, s.idx j + 1 := by
  have e : (step n s).idx = Function.update s.idx (firstMin fun j => s.AA j (s.idx j)) (s.idx (firstMin fun j => s.AA j (s.idx j)) + 1) := rfl
  rw [e, ← add_sum_erase _ _ (mem_univ (firstMin fun j => s.AA j (s.idx j))), Function.update_self,
    sum_congr rfl fun j hj => Function.update_of_ne (ne_of_mem_erase hj) _ _, ← add_sum_erase univ s.idx (mem_univ (firstMin fun j => s.AA j (s.idx j)))]
  ring

theorem loop_some (t : ℕ) (s : State K d) (hB : ∑ j, s.idx j ≤ (d + 1) * (n - 1) + 1) (h : (d + 1) * (n - 1) + 1 < t + ∑ j, s.idx j) :
    ∃ s', loop n t s = some s' := by
  induction t generalizing s with
  | zero => omega
  | succ t ih =>
    unfold loop
    split_ifs with hc
    · refine ih _ ?_ (by rw [step_idx_sum]; omega)
      rw [step_idx_sum]
      have : ∑ j, s.idx j ≤ ∑ _j : Fin (d + 1), (n - 1) := sum_le_sum fun j _ => by have := hc j; omega
      simp at this
      omega
    · exact ⟨s, rfl⟩

end POT.Dmmot
