import Verif.Lemmas.SimplexOpt
import Mathlib.Data.Fintype.BigOperators
import Mathlib.Algebra.BigOperators.Group.Finset.Sigma
import Mathlib.Data.Nat.Cast.Order.Ring
import Mathlib.Tactic.Ring
import Mathlib.Tactic.Linarith

/-! # The cost of the artificial arcs is large enough

If a network admits a flow at all, a state of the network simplex that passes the optimality test sends nothing over artificial arcs. -/

set_option linter.unusedSectionVars false

namespace POT.Simplex

open Spec Finset

variable {R : Type*} [CommRing R] [LinearOrder R] [IsStrictOrderedRing R] {n m : ℕ} [NeZero n]

/-- among `n` consecutive half-open intervals of length `d`, one contains none of fewer than `n` values -/
theorem exists_gap {n : ℕ} (d : R) (S : Finset (Fin n)) (hS : S.card < n) (p : Fin n → R) :
    ∃ k, k < n ∧ ∀ x ∈ S, ¬ ((k : R) * d < p x ∧ p x ≤ ((k + 1 : ℕ) : R) * d) := by
  by_contra hno
  push Not at hno
  have h00 : 0 < n := lt_of_le_of_lt (Nat.zero_le _) hS
  have : Nonempty (Fin n) := ⟨⟨0, h00⟩⟩
  choose! g hgS hg1 hg2 using hno
  by_cases hd : d ≤ 0
  · have h0 : 0 < n := lt_of_le_of_lt (Nat.zero_le _) hS
    have := lt_of_lt_of_le (hg1 0 h0) (hg2 0 h0)
    push_cast at this
    linarith
  push Not at hd
  have hinj : ∀ k < n, ∀ l < n, k < l → g k ≠ g l := by
    intro k hk l hl hkl he
    have h1 := hg2 k hk
    have h2 := hg1 l hl
    rw [he] at h1
    have h3 : ((k + 1 : ℕ) : R) * d ≤ (l : R) * d := mul_le_mul_of_nonneg_right (by exact_mod_cast hkl) hd.le
    exact absurd (lt_of_lt_of_le h2 h1) (not_lt.2 h3)
  have hcard : (range n).card ≤ S.card := by
    refine card_le_card_of_injOn g (fun k hk => hgS k (mem_range.1 hk)) ?_
    intro k hk l hl he
    have hk' := mem_range.1 (by simpa using hk)
    have hl' := mem_range.1 (by simpa using hl)
    rcases lt_trichotomy k l with h | h | h
    · exact absurd he (hinj k hk' l hl' h)
    · exact h
    · exact absurd he.symm (hinj l hl' k hk' h)
  rw [card_range] at hcard
  omega

theorem netFlow_sum {V A : Type*} [DecidableEq V] [Fintype A] (src tgt : A → V) (f : A → R) (S : Finset V) :
    ∑ v ∈ S, netFlow src tgt f v = ∑ a, ((if src a ∈ S then f a else 0) - if tgt a ∈ S then f a else 0) := by
  unfold netFlow
  rw [sum_sub_distrib, sum_comm, sum_comm (s := S) (t := univ) (f := fun v a => if tgt a = v then f a else 0), ← sum_sub_distrib]
  refine sum_congr rfl fun a _ => ?_
  rw [sum_ite_eq, sum_ite_eq]

/-- the potential does not grow by more than `C + τ` along an arc -/
theorem pi_step {P : Problem n m R} {s : State (Node n) (Arc n m) R} {τ C : R} (ho : TolOpt P τ s) (hC : ∀ e, P.cost e ≤ C) (e : Fin m) :
    s.pi (some (P.tgt e)) ≤ s.pi (some (P.src e)) + (C + τ) := by
  have h := ho e
  have hc := hC e
  simp only [redCost, initNet] at h
  linarith

theorem art_source_zero {P : Problem n m R} {s : State (Node n) (Arc n m) R} (h : Good P s) {τ C : R} (hτ : 0 ≤ τ) (ho : TolOpt P τ s)
    (h0 : ∀ e, 0 ≤ P.cost e) (hC0 : 0 ≤ C) (hC : ∀ e, P.cost e ≤ C) (hart : (n : R) * (C + τ) < P.art) {f : Fin m → R}
    (hf : IsFlow P.src P.tgt P.supply f) (u : Fin n) (hu : 0 ≤ P.supply u) : s.flow (.inr u) = 0 := by
  by_contra hne
  obtain ⟨p, hp⟩ : ∃ p : R, s.pi none = p := ⟨_, rfl⟩
  -- potentials of nodes that use an artificial arc
  have hsrc : ∀ x, 0 ≤ P.supply x → s.flow (.inr x) ≠ 0 → s.pi (some x) = p := by
    intro x hx hne
    have := redCost_of_flow h hne
    simp only [redCost, initNet, if_pos hx] at this
    rw [hp] at this
    linarith
  have htgt : ∀ x, ¬ 0 ≤ P.supply x → s.flow (.inr x) ≠ 0 → s.pi (some x) = p + P.art := by
    intro x hx hne
    have := redCost_of_flow h hne
    simp only [redCost, initNet, if_neg hx] at this
    rw [hp] at this
    linarith
  have hd : 0 ≤ C + τ := by linarith
  obtain ⟨k, hk, hgap⟩ := exists_gap (C + τ) (univ.erase u) (by rw [card_erase_of_mem (mem_univ u), card_univ, Fintype.card_fin]; have := NeZero.pos n; omega)
    fun x => s.pi (some x) - p
  have hkd : (k : R) * (C + τ) ≤ n * (C + τ) := mul_le_mul_of_nonneg_right (by exact_mod_cast hk.le) hd
  have hk0 : 0 ≤ (k : R) * (C + τ) := mul_nonneg (Nat.cast_nonneg _) hd
  have hgap' : ∀ x, s.pi (some x) - p ≤ (k : R) * (C + τ) ∨ ((k + 1 : ℕ) : R) * (C + τ) < s.pi (some x) - p := by
    intro x
    by_cases hx : x = u
    · left; rw [hx, hsrc u hu hne, sub_self]; exact hk0
    · have := hgap x (mem_erase.2 ⟨hx, mem_univ x⟩)
      by_contra hcon
      push Not at hcon
      exact this hcon
  have hk1 : ((k + 1 : ℕ) : R) * (C + τ) = k * (C + τ) + (C + τ) := by push_cast; ring
  set S : Finset (Fin n) := univ.filter fun x => s.pi (some x) - p ≤ (k : R) * (C + τ) with hS
  have hmem : ∀ x, x ∈ S ↔ s.pi (some x) - p ≤ (k : R) * (C + τ) := fun x => by simp [hS]
  have huS : u ∈ S := by rw [hmem, hsrc u hu hne, sub_self]; exact hk0
  -- no arc leaves `S`
  have hout : ∀ e, P.src e ∈ S → P.tgt e ∈ S := by
    intro e he
    rw [hmem] at he ⊢
    rcases hgap' (P.tgt e) with h1 | h1
    · exact h1
    · have := pi_step ho hC e
      linarith
  -- arcs entering `S` carry nothing
  have hin : ∀ e, P.src e ∉ S → P.tgt e ∈ S → s.flow (.inl e) = 0 := by
    intro e h1 h2
    by_contra hfl
    have h3 := redCost_of_flow h hfl
    simp only [redCost, initNet] at h3
    rw [hmem] at h1 h2
    have := h0 e
    push Not at h1
    linarith
  -- what the nodes of `S` supply goes to the root
  have e1 : ∑ x ∈ S, netFlow P.src P.tgt (fun i => s.flow (.inl i)) x = 0 := by
    rw [netFlow_sum]
    refine sum_eq_zero fun e _ => ?_
    by_cases h1 : P.src e ∈ S
    · rw [if_pos h1, if_pos (hout e h1), sub_self]
    · by_cases h2 : P.tgt e ∈ S
      · rw [hin e h1 h2]; simp
      · simp [h1, h2]
  have e2 : ∑ x ∈ S, P.supply x = ∑ x ∈ S, if 0 ≤ P.supply x then s.flow (.inr x) else -s.flow (.inr x) := by
    have : ∑ x ∈ S, (P.supply x - if 0 ≤ P.supply x then s.flow (.inr x) else -s.flow (.inr x)) = 0 := by
      refine Eq.trans ?_ e1
      exact sum_congr rfl fun x _ => (good_net h x).symm
    rw [sum_sub_distrib] at this
    linarith
  have e3 : 0 < ∑ x ∈ S, P.supply x := by
    rw [e2]
    refine sum_pos' (fun x hx => ?_) ⟨u, huS, ?_⟩
    · split_ifs with hs
      · exact art_nonneg h _
      · have : s.flow (.inr x) = 0 := by
          by_contra hx0
          rw [hmem, htgt x hs hx0] at hx
          linarith
        rw [this, neg_zero]
    · rw [if_pos hu]
      exact lt_of_le_of_ne (art_nonneg h _) (Ne.symm hne)
  -- but a flow needs an arc leaving `S`
  have e4 : ∑ x ∈ S, P.supply x ≤ 0 := by
    rw [← sum_congr rfl fun x _ => hf.conserve x, netFlow_sum]
    refine sum_nonpos fun e _ => ?_
    by_cases h1 : P.src e ∈ S
    · rw [if_pos h1, if_pos (hout e h1), sub_self]
    · rw [if_neg h1]
      split_ifs
      · rw [zero_sub]; exact neg_nonpos.2 (hf.nonneg e)
      · simp
  linarith

theorem flow_sum_zero {P : Problem n m R} {f : Fin m → R} (hf : IsFlow P.src P.tgt P.supply f) : ∑ u, P.supply u = 0 := by
  rw [← sum_congr rfl fun x _ => hf.conserve x, netFlow_sum]
  simp

/-- if the network admits a flow, an accepted state uses no artificial arc -/
theorem art_zero {P : Problem n m R} {s : State (Node n) (Arc n m) R} (h : Good P s) {τ C : R} (hτ : 0 ≤ τ) (ho : TolOpt P τ s)
    (h0 : ∀ e, 0 ≤ P.cost e) (hC0 : 0 ≤ C) (hC : ∀ e, P.cost e ≤ C) (hart : (n : R) * (C + τ) < P.art) {f : Fin m → R}
    (hf : IsFlow P.src P.tgt P.supply f) (u : Fin n) : s.flow (.inr u) = 0 := by
  have hs := art_source_zero h hτ ho h0 hC0 hC hart hf
  by_cases hu : 0 ≤ P.supply u
  · exact hs u hu
  · have hr := good_root h
    rw [flow_sum_zero hf, sum_eq_zero fun x _ => by split_ifs with hx; exacts [hs x hx, rfl], zero_sub, neg_eq_zero] at hr
    have := (sum_eq_zero_iff_of_nonneg fun x _ => by split_ifs; exacts [le_refl _, art_nonneg h _]).1 hr u (mem_univ u)
    rwa [if_neg hu] at this

end POT.Simplex
