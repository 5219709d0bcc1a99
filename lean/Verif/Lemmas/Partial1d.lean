import Verif.Model.Partial1d
import Mathlib.Tactic.Linarith
import Mathlib.Tactic.Ring

/-! # Chain bookkeeping of `partial_wasserstein_1d` -/

set_option linter.unusedSectionVars false

namespace POT.Partial1d

/-- `s..e` is a maximal run of active positions -/
structure IsBlock (act : ℕ → Bool) (s e : ℕ) : Prop where
  le : s ≤ e
  run : ∀ p, s ≤ p → p ≤ e → act p = true
  left : ∀ q, q + 1 = s → act q = false
  right : act (e + 1) = false

/-- the chain arrays record exactly the maximal runs -/
structure ChainsOk (N : ℕ) (act : ℕ → Bool) (C : Chains) : Prop where
  bound : ∀ p, act p = true → p < N
  st : ∀ s e, C.st s = some e ↔ IsBlock act s e
  en : ∀ e s, C.en e = some s ↔ IsBlock act s e

theorem IsBlock.unique {act : ℕ → Bool} {s e e' : ℕ} (h : IsBlock act s e) (h' : IsBlock act s e') : e = e' := by
  by_contra hne
  rcases Nat.lt_or_gt_of_ne hne with hlt | hlt
  · have := h'.run (e + 1) (by have := h.le; omega) hlt
    rw [h.right] at this
    exact absurd this (by decide)
  · have := h.run (e' + 1) (by have := h'.le; omega) hlt
    rw [h'.right] at this
    exact absurd this (by decide)

theorem IsBlock.unique' {act : ℕ → Bool} {s s' e : ℕ} (h : IsBlock act s e) (h' : IsBlock act s' e) : s = s' := by
  by_contra hne
  have hle := h.le
  have hle' := h'.le
  rcases Nat.lt_or_gt_of_ne hne with hlt | hlt
  · have h1 := h.run (s' - 1) (by omega) (by omega)
    rw [h'.left (s' - 1) (by omega)] at h1
    exact absurd h1 (by decide)
  · have h1 := h'.run (s - 1) (by omega) (by omega)
    rw [h.left (s - 1) (by omega)] at h1
    exact absurd h1 (by decide)

/-- the run that ends at an active position followed by an inactive one -/
theorem exists_block_end {act : ℕ → Bool} (e : ℕ) (h1 : act e = true) (h2 : act (e + 1) = false) : ∃ s, IsBlock act s e := by
  have key : ∀ k, k ≤ e → (∀ p, k ≤ p → p ≤ e → act p = true) → ∃ s, IsBlock act s e := by
    intro k
    induction k with
    | zero => exact fun hk hact => ⟨0, hk, hact, fun q hq => by omega, h2⟩
    | succ k ih =>
      intro hk hact
      by_cases hc : act k = true
      · exact ih (by omega) fun p hp hpe => by
          rcases Nat.eq_or_lt_of_le hp with rfl | h
          · exact hc
          · exact hact p h hpe
      · refine ⟨k + 1, hk, hact, fun q hq => ?_, h2⟩
        have : q = k := by omega
        subst this
        simpa using hc
  exact key e le_rfl fun p h h' => by rwa [le_antisymm h' h]

/-- the run that starts at an active position preceded by an inactive one -/
theorem exists_block_start {act : ℕ → Bool} {N : ℕ} (hN : ∀ p, act p = true → p < N) (s : ℕ) (h1 : act s = true) (h2 : ∀ q, q + 1 = s → act q = false) :
    ∃ e, IsBlock act s e := by
  have key : ∀ k e, N - e = k → s ≤ e → (∀ p, s ≤ p → p ≤ e → act p = true) → ∃ e, IsBlock act s e := by
    intro k
    induction k with
    | zero =>
      intro e hk hs hact
      have := hN e (hact e hs le_rfl)
      omega
    | succ k ih =>
      intro e hk hs hact
      by_cases hc : act (e + 1) = true
      · refine ih (e + 1) (by omega) (by omega) fun p hp hpe => ?_
        rcases Nat.eq_or_lt_of_le hpe with rfl | h
        · exact hc
        · exact hact p hp (by omega)
      · exact ⟨e, hs, hact, h2, by simpa using hc⟩
  exact key _ s rfl le_rfl fun p h h' => by rwa [le_antisymm h' h]

/-- The effect of inserting `(i, j)` around a (possibly empty) run. -/
theorem insertChain_spec {N : ℕ} {act : ℕ → Bool} {C C0 : Chains} (h : ChainsOk N act C) {i j : ℕ} (hij : i < j) (hj : j < N) (hi0 : act i = false) (hj0 : act j = false)
    (hmid : ∀ p, i < p → p < j → act p = true) (hst : ∀ s, C0.st s = if i ≤ s ∧ s ≤ j then none else C.st s)
    (hen : ∀ s, C0.en s = if i ≤ s ∧ s ≤ j then none else C.en s) :
    ∃ C' i' j', insertChain N C0 i j = (C', i', j') ∧ i' ≤ i ∧ j ≤ j' ∧ j' < N ∧
      ChainsOk N (Function.update (Function.update act i true) j true) C' ∧ IsBlock (Function.update (Function.update act i true) j true) i' j' := by
  obtain ⟨act', hact'⟩ : ∃ act', act' = Function.update (Function.update act i true) j true := ⟨_, rfl⟩
  rw [← hact']
  have ha' : ∀ p, act' p = if p = i ∨ p = j then true else act p := by
    intro p
    rw [hact']
    simp only [Function.update_apply]
    by_cases h1 : p = j
    · simp [h1]
    · by_cases h2 : p = i
      · simp [h2]
      · simp [h1, h2]
  -- left end
  obtain ⟨i', hi', hile, hiact, hileft, hist⟩ : ∃ i', (if 0 < i ∧ i - 1 < N then (C0.en (i - 1)).getD i else i) = i' ∧ i' ≤ i ∧ (∀ p, i' ≤ p → p < i → act p = true) ∧
      (∀ q, q + 1 = i' → act q = false) ∧ C0.st i' = if i' < i then some (i - 1) else none := by
    by_cases hi : 0 < i ∧ i - 1 < N
    · rw [if_pos hi]
      have e0 : C0.en (i - 1) = C.en (i - 1) := by rw [hen, if_neg (by omega)]
      rw [e0]
      cases hc : C.en (i - 1) with
      | some s =>
        have hb := (h.en _ _).1 hc
        have := hb.le
        refine ⟨s, rfl, by omega, fun p h1 h2 => hb.run p h1 (by omega), hb.left, ?_⟩
        rw [if_pos (by omega), hst, if_neg (by omega)]
        exact (h.st _ _).2 hb
      | none =>
        refine ⟨i, rfl, le_rfl, fun p h1 h2 => by omega, fun q hq => ?_, ?_⟩
        · by_contra hne
          have hq' : q = i - 1 := by omega
          rw [hq'] at hne
          obtain ⟨s, hs⟩ := exists_block_end (act := act) (i - 1) (by simpa using hne) (by rw [show i - 1 + 1 = i by omega]; exact hi0)
          rw [(h.en _ _).2 hs] at hc
          exact absurd hc (by simp)
        · rw [if_neg (lt_irrefl _), hst, if_pos (by omega)]
    · rw [if_neg hi]
      refine ⟨i, rfl, le_rfl, fun p h1 h2 => by omega, fun q hq => by omega, ?_⟩
      rw [if_neg (lt_irrefl _), hst, if_pos (by omega)]
  -- right end
  obtain ⟨j', hj', hjle, hjN, hjact, hjright, hjen⟩ : ∃ j', (if j + 1 < N then (C0.st (j + 1)).getD j else j) = j' ∧ j ≤ j' ∧ j' < N ∧ (∀ p, j < p → p ≤ j' → act p = true) ∧
      act (j' + 1) = false ∧ C0.en j' = if j < j' then some (j + 1) else none := by
    by_cases hjj : j + 1 < N
    · rw [if_pos hjj]
      have e0 : C0.st (j + 1) = C.st (j + 1) := by rw [hst, if_neg (by omega)]
      rw [e0]
      cases hc : C.st (j + 1) with
      | some e =>
        have hb := (h.st _ _).1 hc
        have := hb.le
        refine ⟨e, rfl, by omega, h.bound e (hb.run e hb.le le_rfl), fun p h1 h2 => hb.run p (by omega) h2, hb.right, ?_⟩
        rw [if_pos (by omega), hen, if_neg (by omega)]
        exact (h.en _ _).2 hb
      | none =>
        refine ⟨j, rfl, le_rfl, hj, fun p h1 h2 => by omega, ?_, ?_⟩
        · by_contra hne
          obtain ⟨e, he⟩ := exists_block_start h.bound (j + 1) (by simpa using hne) (fun q hq => by rw [show q = j by omega]; exact hj0)
          rw [(h.st _ _).2 he] at hc
          exact absurd hc (by simp)
        · rw [if_neg (lt_irrefl _), hen, if_pos (by omega)]
    · rw [if_neg hjj]
      refine ⟨j, rfl, le_rfl, hj, fun p h1 h2 => by omega, ?_, ?_⟩
      · by_contra hne
        have := h.bound (j + 1) (by simpa using hne)
        omega
      · rw [if_neg (lt_irrefl _), hen, if_pos (by omega)]
  have hrun : ∀ p, i' ≤ p → p ≤ j' → act' p = true := by
    intro p h1 h2
    rw [ha']
    by_cases hp : p = i ∨ p = j
    · rw [if_pos hp]
    · rw [if_neg hp]
      rcases lt_or_ge p i with h3 | h3
      · exact hiact p h1 h3
      · rcases lt_or_ge p j with h4 | h4
        · exact hmid p (by omega) h4
        · exact hjact p (by omega) h2
  have hblock : IsBlock act' i' j' := by
    refine ⟨by omega, hrun, fun q hq => ?_, ?_⟩
    · rw [ha', if_neg (by omega)]
      exact hileft q hq
    · rw [ha', if_neg (by omega)]
      exact hjright
  have stNone : ∀ s, i' < s → s ≤ j' → s ≠ j + 1 → C0.st s = none := by
    intro s h1 h2 h3
    rw [hst]
    by_cases hs : i ≤ s ∧ s ≤ j
    · rw [if_pos hs]
    · rw [if_neg hs]
      cases hc : C.st s with
      | none => rfl
      | some e =>
        exfalso
        have hb := (h.st _ _).1 hc
        have h4 := hb.left (s - 1) (by omega)
        rcases lt_or_ge s i with h5 | h5
        · rw [hiact (s - 1) (by omega) (by omega)] at h4
          exact absurd h4 (by decide)
        · rw [hjact (s - 1) (by omega) (by omega)] at h4
          exact absurd h4 (by decide)
  have enNone : ∀ s, i' ≤ s → s < j' → s + 1 ≠ i → C0.en s = none := by
    intro s h1 h2 h3
    rw [hen]
    by_cases hs : i ≤ s ∧ s ≤ j
    · rw [if_pos hs]
    · rw [if_neg hs]
      cases hc : C.en s with
      | none => rfl
      | some e =>
        exfalso
        have hb := (h.en _ _).1 hc
        have h4 := hb.right
        rcases lt_or_ge s i with h5 | h5
        · rw [hiact (s + 1) (by omega) (by omega)] at h4
          exact absurd h4 (by decide)
        · rw [hjact (s + 1) (by omega) (by omega)] at h4
          exact absurd h4 (by decide)
  -- the resulting arrays
  obtain ⟨C', hC'⟩ : ∃ C' : Chains, C' = ⟨fun s => if s = i' then some j' else if i' < s ∧ s ≤ j' then none else C.st s,
      fun s => if s = j' then some i' else if i' ≤ s ∧ s < j' then none else C.en s⟩ := ⟨_, rfl⟩
  have key : ∀ st2 en1 : ℕ → Option ℕ, (∀ s, st2 s = if s = j + 1 then (if j < j' then none else Function.update C0.st i' (some j') s) else Function.update C0.st i' (some j') s) →
      (∀ s, en1 s = if s + 1 = i then (if i' < i then none else C0.en s) else C0.en s) →
      ((⟨st2, Function.update en1 j' (some i')⟩, i', j') : Chains × ℕ × ℕ) = (C', i', j') := by
    intro st2 en1 hs2 he1
    rw [hC', Prod.mk.injEq, Chains.mk.injEq]
    refine ⟨⟨?_, ?_⟩, rfl⟩
    · funext s
      rw [hs2]
      by_cases h1 : s = j + 1 ∧ j < j'
      · rw [if_pos h1.1, if_pos h1.2, if_neg (by omega), if_pos (by omega)]
      · have : (if s = j + 1 then (if j < j' then none else Function.update C0.st i' (some j') s) else Function.update C0.st i' (some j') s) = Function.update C0.st i' (some j') s := by
          by_cases h2 : s = j + 1
          · rw [if_pos h2, if_neg (by omega)]
          · rw [if_neg h2]
        rw [this]
        by_cases h2 : s = i'
        · subst h2
          rw [Function.update_self, if_pos rfl]
        · rw [Function.update_of_ne h2, if_neg h2]
          by_cases h3 : i' < s ∧ s ≤ j'
          · rw [if_pos h3]
            exact stNone s h3.1 h3.2 (by omega)
          · rw [if_neg h3, hst, if_neg (by omega)]
    · funext s
      by_cases h2 : s = j'
      · subst h2
        rw [Function.update_self, if_pos rfl]
      · rw [Function.update_of_ne h2, if_neg h2, he1]
        by_cases h1 : s + 1 = i ∧ i' < i
        · rw [if_pos h1.1, if_pos h1.2, if_pos (by omega)]
        · have : (if s + 1 = i then (if i' < i then none else C0.en s) else C0.en s) = C0.en s := by
            by_cases h2 : s + 1 = i
            · rw [if_pos h2, if_neg (by omega)]
            · rw [if_neg h2]
          rw [this]
          by_cases h3 : i' ≤ s ∧ s < j'
          · rw [if_pos h3]
            exact enNone s h3.1 h3.2 (by omega)
          · rw [if_neg h3, hen, if_neg (by omega)]
  have hins : insertChain N C0 i j = (C', i', j') := by
    unfold insertChain
    simp only [hi', hj', if_pos (show i' < N by omega), if_pos hjN]
    by_cases hc : i' < i
    · rw [if_pos hc] at hist
      simp only [hist]
      have e1 : Function.update C0.en (i - 1) none j' = C0.en j' := Function.update_of_ne (by omega) _ _
      have he1 : ∀ s, Function.update C0.en (i - 1) none s = if s + 1 = i then (if i' < i then none else C0.en s) else C0.en s := by
        intro s
        by_cases h1 : s + 1 = i
        · rw [if_pos h1, if_pos hc, show s = i - 1 by omega, Function.update_self]
        · rw [if_neg h1, Function.update_of_ne (by omega)]
      simp only [e1]
      by_cases hd : j < j'
      · rw [if_pos hd] at hjen
        simp only [hjen]
        refine key _ _ (fun s => ?_) he1
        by_cases h1 : s = j + 1
        · rw [if_pos h1, if_pos hd, h1, Function.update_self]
        · rw [if_neg h1, Function.update_of_ne h1]
      · rw [if_neg hd] at hjen
        simp only [hjen]
        refine key _ _ (fun s => ?_) he1
        rw [if_neg hd, ite_self]
    · rw [if_neg hc] at hist
      simp only [hist]
      have he1 : ∀ s, C0.en s = if s + 1 = i then (if i' < i then none else C0.en s) else C0.en s := by
        intro s
        rw [if_neg hc, ite_self]
      by_cases hd : j < j'
      · rw [if_pos hd] at hjen
        simp only [hjen]
        refine key _ _ (fun s => ?_) he1
        by_cases h1 : s = j + 1
        · rw [if_pos h1, if_pos hd, h1, Function.update_self]
        · rw [if_neg h1, Function.update_of_ne h1]
      · rw [if_neg hd] at hjen
        simp only [hjen]
        refine key _ _ (fun s => ?_) he1
        rw [if_neg hd, ite_self]
  refine ⟨C', i', j', hins, hile, hjle, hjN, ?_, hblock⟩
  -- old blocks outside the new run
  have hi'0 : ∀ q, q + 1 = i' → act' q = false := hblock.left
  have hout : ∀ s e, (s < i' ∨ j' < s) → (IsBlock act s e ↔ IsBlock act' s e) := by
    intro s e hs
    have hagree : ∀ p, p ≠ i → p ≠ j → act' p = act p := fun p h1 h2 => by rw [ha', if_neg (by omega)]
    rcases hs with hs | hs
    · have l1 : act (i' - 1) = false := hileft _ (by omega)
      have l2 : act' (i' - 1) = false := hi'0 _ (by omega)
      constructor
      · intro hb
        have he : e < i' - 1 := by
          by_contra hc
          rw [hb.run (i' - 1) (by omega) (by omega)] at l1
          exact absurd l1 (by decide)
        exact ⟨hb.le, fun p h1 h2 => by rw [hagree p (by omega) (by omega)]; exact hb.run p h1 h2,
          fun q hq => by rw [hagree q (by omega) (by omega)]; exact hb.left q hq, by rw [hagree _ (by omega) (by omega)]; exact hb.right⟩
      · intro hb
        have he : e < i' - 1 := by
          by_contra hc
          rw [hb.run (i' - 1) (by omega) (by omega)] at l2
          exact absurd l2 (by decide)
        exact ⟨hb.le, fun p h1 h2 => by rw [← hagree p (by omega) (by omega)]; exact hb.run p h1 h2,
          fun q hq => by rw [← hagree q (by omega) (by omega)]; exact hb.left q hq, by rw [← hagree _ (by omega) (by omega)]; exact hb.right⟩
    · constructor
      · intro hb
        have hle := hb.le
        have hne : s ≠ j' + 1 := by
          rintro rfl
          have := hb.run _ le_rfl hle
          rw [hjright] at this
          exact absurd this (by decide)
        exact ⟨hb.le, fun p h1 h2 => by rw [hagree p (by omega) (by omega)]; exact hb.run p h1 h2,
          fun q hq => by rw [hagree q (by omega) (by omega)]; exact hb.left q hq, by rw [hagree _ (by omega) (by omega)]; exact hb.right⟩
      · intro hb
        have hle := hb.le
        have hne : s ≠ j' + 1 := by
          rintro rfl
          have := hb.run _ le_rfl hle
          rw [hblock.right] at this
          exact absurd this (by decide)
        exact ⟨hb.le, fun p h1 h2 => by rw [← hagree p (by omega) (by omega)]; exact hb.run p h1 h2,
          fun q hq => by rw [← hagree q (by omega) (by omega)]; exact hb.left q hq, by rw [← hagree _ (by omega) (by omega)]; exact hb.right⟩
  have hin : ∀ s e, i' < s → s ≤ j' → ¬ IsBlock act' s e := by
    intro s e h1 h2 hb
    have := hb.left (s - 1) (by omega)
    rw [hrun (s - 1) (by omega) (by omega)] at this
    exact absurd this (by decide)
  refine ⟨fun p hp => ?_, fun s e => ?_, fun e s => ?_⟩
  · rw [ha'] at hp
    by_cases hc : p = i ∨ p = j
    · omega
    · rw [if_neg hc] at hp
      exact h.bound p hp
  · rw [hC']
    dsimp only
    by_cases h1 : s = i'
    · subst h1
      rw [if_pos rfl]
      constructor
      · intro he
        rw [← Option.some.inj he]
        exact hblock
      · intro hb
        rw [hblock.unique hb]
    · rw [if_neg h1]
      by_cases h2 : i' < s ∧ s ≤ j'
      · rw [if_pos h2]
        exact ⟨fun he => absurd he (by simp), fun hb => absurd hb (hin s e h2.1 h2.2)⟩
      · rw [if_neg h2, h.st]
        exact hout s e (by omega)
  · rw [hC']
    dsimp only
    by_cases h1 : e = j'
    · subst h1
      rw [if_pos rfl]
      constructor
      · intro he
        rw [← Option.some.inj he]
        exact hblock
      · intro hb
        rw [hblock.unique' hb]
    · rw [if_neg h1]
      by_cases h2 : i' ≤ e ∧ e < j'
      · rw [if_pos h2]
        refine ⟨fun he => absurd he (by simp), fun hb => ?_⟩
        have := hb.right
        rw [hrun (e + 1) (by omega) (by omega)] at this
        exact absurd this (by decide)
      · rw [if_neg h2, h.en]
        constructor
        · intro hb
          have hle := hb.le
          refine (hout s e ?_).1 hb
          by_contra hc
          have h3 : s ≤ j' ∧ i' ≤ s := by omega
          have h4 : j' < e := by omega
          have := hb.run (j' + 1) (by omega) (by omega)
          rw [hjright] at this
          exact absurd this (by decide)
        · intro hb
          have hle := hb.le
          refine (hout s e ?_).2 hb
          by_contra hc
          have h4 : j' < e := by omega
          have := hb.run (j' + 1) (by omega) (by omega)
          rw [hblock.right] at this
          exact absurd this (by decide)

end POT.Partial1d
