import Verif.Model.Sinkhorn
import Mathlib.Tactic.Ring
import Mathlib.Tactic.Linarith

/-! # Facts about the generic iteration loop -/

set_option linter.unusedSectionVars false

namespace POT.Sinkhorn

variable {S T : Type*} {step : S → S} {bad : S → Prop} {stop : ℕ → S → S → Prop}

/-- What the loop returns: the state after some number `k` of updates, and why it stopped there. -/
theorem loop_spec (n ii : ℕ) (s : S) : ∃ k ≤ n,
    (loop step bad stop n ii s).s = step^[k] s ∧
    (∀ l < k, ¬ bad (step^[l] s)) ∧
    (∀ l, l + 1 < k → ¬ stop (ii + l) (step^[l] s) (step^[l + 1] s)) ∧
    ((loop step bad stop n ii s).exit = .exhausted → k = n) ∧
    ((loop step bad stop n ii s).exit = .converged →
      ∃ l, k = l + 1 ∧ (loop step bad stop n ii s).niter = ii + l ∧ stop (ii + l) (step^[l] s) (step^[l + 1] s)) ∧
    ((loop step bad stop n ii s).exit = .numerical → k < n ∧ bad (step^[k] s)) := by
  induction n generalizing ii s with
  | zero => exact ⟨0, le_rfl, rfl, by simp, by simp, by simp, by simp [loop], by simp [loop]⟩
  | succ n ih =>
    unfold loop
    split_ifs with h1 h2
    · exact ⟨0, by simp, rfl, by simp, by simp, by simp, by simp, fun _ => ⟨by simp, h1⟩⟩
    · refine ⟨1, by simp, rfl, ?_, by simp, by simp, fun _ => ⟨0, rfl, rfl, h2⟩, by simp⟩
      intro l hl
      obtain rfl : l = 0 := by omega
      exact h1
    · obtain ⟨k, hk, e, hb, hs, x1, x2, x3⟩ := ih (ii + 1) (step s)
      refine ⟨k + 1, by omega, e, ?_, ?_, fun h => by rw [x1 h], ?_, ?_⟩
      · intro l hl
        cases l with
        | zero => exact h1
        | succ l => exact hb l (by omega)
      · intro l hl
        cases l with
        | zero => exact h2
        | succ l =>
          have := hs l (by omega)
          rw [show ii + 1 + l = ii + (l + 1) by omega] at this
          exact this
      · intro h
        obtain ⟨l, e1, e2, e3⟩ := x2 h
        refine ⟨l + 1, by omega, by rw [e2]; omega, ?_⟩
        rw [show ii + 1 + l = ii + (l + 1) by omega] at e3
        exact e3
      · intro h
        exact ⟨by have := (x3 h).1; omega, (x3 h).2⟩

/-- If no update meets a numerical error and the test is met within the allowed iterations, the loop ends by that test. -/
theorem loop_stops (n ii : ℕ) (s : S) (hb : ∀ l, ¬ bad (step^[l] s)) (k : ℕ) (hk : k < n)
    (hs : stop (ii + k) (step^[k] s) (step^[k + 1] s)) : (loop step bad stop n ii s).exit = .converged := by
  induction n generalizing ii s k with
  | zero => omega
  | succ n ih =>
    unfold loop
    rw [if_neg (show ¬ bad s from hb 0)]
    split_ifs with h2
    · rfl
    · cases k with
      | zero => exact absurd hs h2
      | succ k =>
        refine ih (ii + 1) (step s) (fun l => hb (l + 1)) k (by omega) ?_
        rw [show ii + 1 + k = ii + (k + 1) by omega]
        exact hs

/-- Simulation of one loop by another. `R` relates states, `R'` (stronger) relates states after at least one update. -/
theorem loop_sim {step' : T → T} {bad' : T → Prop} {stop' : ℕ → T → T → Prop} {R R' : S → T → Prop}
    (hstep : ∀ s t, R s t → R' (step s) (step' t)) (hR' : ∀ s t, R' s t → R s t) (hbad : ∀ s t, R s t → (bad s ↔ bad' t))
    (hstop : ∀ ii s t, R s t → (stop ii s (step s) ↔ stop' ii t (step' t))) (n ii : ℕ) (s : S) (t : T) (h : R s t) :
    (loop step bad stop n ii s).exit = (loop step' bad' stop' n ii t).exit ∧
    (loop step bad stop n ii s).niter = (loop step' bad' stop' n ii t).niter ∧
    R (loop step bad stop n ii s).s (loop step' bad' stop' n ii t).s ∧
    (0 < n → ¬ bad s → R' (loop step bad stop n ii s).s (loop step' bad' stop' n ii t).s) := by
  induction n generalizing ii s t with
  | zero => exact ⟨rfl, rfl, h, by simp⟩
  | succ n ih =>
    unfold loop
    by_cases h1 : bad s
    · rw [if_pos h1, if_pos ((hbad s t h).1 h1)]
      exact ⟨rfl, rfl, h, fun _ h2 => absurd h1 h2⟩
    · rw [if_neg h1, if_neg fun h2 => h1 ((hbad s t h).2 h2)]
      have hn := hstep s t h
      by_cases h2 : stop ii s (step s)
      · rw [if_pos h2, if_pos ((hstop ii s t h).1 h2)]
        exact ⟨rfl, rfl, hR' _ _ hn, fun _ _ => hn⟩
      · rw [if_neg h2, if_neg fun h3 => h2 ((hstop ii s t h).2 h3)]
        obtain ⟨a1, a2, a3, a4⟩ := ih (ii + 1) (step s) (step' t) (hR' _ _ hn)
        refine ⟨a1, a2, a3, fun _ _ => ?_⟩
        by_cases h3 : 0 < n ∧ ¬ bad (step s)
        · exact a4 h3.1 h3.2
        · rw [not_and_or, not_not] at h3
          rcases h3 with h3 | h3
          · obtain rfl : n = 0 := by omega
            exact hn
          · cases n with
            | zero => exact hn
            | succ n =>
              unfold loop
              rw [if_pos h3, if_pos ((hbad _ _ (hR' _ _ hn)).1 h3)]
              exact hn

end POT.Sinkhorn
