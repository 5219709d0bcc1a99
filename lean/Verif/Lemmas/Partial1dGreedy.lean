import Verif.Lemmas.Partial1d

/-! # The greedy insertion loop of `partial_wasserstein_1d` -/

set_option linter.unusedSectionVars false

namespace POT.Partial1d

variable {R : Type*} [Field R] [LinearOrder R] [IsStrictOrderedRing R]

/-- as many points of `x` as points of `y` -/
def Bal (isY : ℕ → Bool) (l : List ℕ) : Prop := (l.filter fun q => !isY q).length = (l.filter fun q => isY q).length

/-- cost of the monotone matching of the listed positions -/
def mc (S : Seq R) (p : ℕ) (l : List ℕ) : R :=
  (List.zipWith (fun a b => |S.z a - S.z b| ^ p) (l.filter fun q => !S.isY q) (l.filter fun q => S.isY q)).sum

/-- marginal cost of wrapping the pair `(i, j)` around the positions between -/
def margin (S : Seq R) (p i j : ℕ) : R := mc S p (interval i j) - mc S p (interval (i + 1) (j - 1))

/-- a pair that may be inserted -/
structure Valid (S : Seq R) (act : ℕ → Bool) (i j : ℕ) : Prop where
  lt : i < j
  bound : j < S.N
  left : act i = false
  right : act j = false
  opp : S.isY i ≠ S.isY j
  mid : ∀ q, i < q → q < j → act q = true

/-- a sequence of greedy insertions (newest first) with the marginal costs and the resulting active set -/
inductive Greedy (S : Seq R) (p : ℕ) : List (ℕ × ℕ) → List R → (ℕ → Bool) → Prop
  | nil : Greedy S p [] [] (fun _ => false)
  | cons {ps ms act i j} (h : Greedy S p ps ms act) (hv : Valid S act i j) (hmin : ∀ i' j', Valid S act i' j' → margin S p i j ≤ margin S p i' j') :
      Greedy S p ((i, j) :: ps) (margin S p i j :: ms) (Function.update (Function.update act i true) j true)

theorem update2 (act : ℕ → Bool) (i j q : ℕ) : Function.update (Function.update act i true) j true q = if q = i ∨ q = j then true else act q := by
  simp only [Function.update_apply]
  by_cases h1 : q = j
  · simp [h1]
  · by_cases h2 : q = i
    · simp [h2]
    · simp [h1, h2]

theorem interval_eq (s e : ℕ) (h : s ≤ e) : List.range s ++ interval s e = List.range (e + 1) := by
  unfold interval
  rw [List.range_eq_range', List.range_eq_range']
  have := List.range'_append (s := 0) (m := s) (n := e + 1 - s) (step := 1)
  simp only [Nat.one_mul, Nat.zero_add] at this
  rw [this]
  congr 1
  omega

theorem mem_interval (s e q : ℕ) : q ∈ interval s e ↔ s ≤ q ∧ q ≤ e := by
  unfold interval
  rw [List.mem_range'_1]
  omega

theorem interval_snoc (i j : ℕ) (h : i ≤ j) : interval i (j + 1) = interval i j ++ [j + 1] := by
  unfold interval
  rw [show j + 1 + 1 - i = (j + 1 - i) + 1 by omega, List.range'_concat]
  congr 2
  omega

theorem interval_cons (i j : ℕ) (h : i ≤ j) : interval i j = i :: interval (i + 1) j := by
  unfold interval
  rw [show j + 1 - i = (j + 1 - (i + 1)) + 1 by omega, List.range'_succ]

theorem interval_wrap (i j : ℕ) (h : i < j) : interval i j = i :: (interval (i + 1) (j - 1) ++ [j]) := by
  rw [interval_cons i j h.le]
  congr 1
  unfold interval
  rw [show j + 1 - (i + 1) = (j - 1 + 1 - (i + 1)) + 1 by omega, List.range'_concat]
  congr 2
  omega

theorem Bal.append {isY : ℕ → Bool} {l l' : List ℕ} (h : Bal isY l) (h' : Bal isY l') : Bal isY (l ++ l') := by
  unfold Bal at *
  simp only [List.filter_append, List.length_append]
  omega

theorem Bal.right {isY : ℕ → Bool} {l l' : List ℕ} (h : Bal isY (l ++ l')) (h' : Bal isY l) : Bal isY l' := by
  unfold Bal at *
  simp only [List.filter_append, List.length_append] at h
  omega

theorem Bal.nil {isY : ℕ → Bool} : Bal isY [] := rfl

theorem Bal.pair {isY : ℕ → Bool} {i j : ℕ} (h : isY i ≠ isY j) : Bal isY [i, j] := by
  unfold Bal
  cases h1 : isY i <;> cases h2 : isY j <;> simp_all

theorem Bal.perm {isY : ℕ → Bool} {l l' : List ℕ} (h : Bal isY l) (hp : l.Perm l') : Bal isY l' := by
  unfold Bal at *
  rw [← (hp.filter _).length_eq, ← (hp.filter _).length_eq]
  exact h

theorem mc_append (S : Seq R) (p : ℕ) {l l' : List ℕ} (h : Bal S.isY l) : mc S p (l ++ l') = mc S p l + mc S p l' := by
  unfold mc
  rw [List.filter_append, List.filter_append, List.zipWith_append h, List.sum_append]

/-- active positions below `n` -/
def actList (act : ℕ → Bool) (n : ℕ) : List ℕ := (List.range n).filter act

theorem actList_split (act : ℕ → Bool) (s e : ℕ) (h : s ≤ e + 1) (hact : ∀ q, s ≤ q → q ≤ e → act q = true) : actList act (e + 1) = actList act s ++ interval s e := by
  unfold actList
  rcases Nat.eq_or_lt_of_le h with h1 | h1
  · subst h1
    have : interval (e + 1) e = [] := by
      unfold interval
      rw [Nat.sub_self]
      rfl
    rw [this, List.append_nil]
  · rw [← interval_eq s e (by omega), List.filter_append]
    congr 1
    rw [List.filter_eq_self]
    intro q hq
    rw [mem_interval] at hq
    exact hact q hq.1 hq.2

theorem actList_succ_false (act : ℕ → Bool) (n : ℕ) (h : act n = false) : actList act (n + 1) = actList act n := by
  unfold actList
  rw [List.range_succ, List.filter_append]
  simp [h]

theorem actList_congr {act act' : ℕ → Bool} (n : ℕ) (h : ∀ q, q < n → act q = act' q) : actList act n = actList act' n := by
  unfold actList
  exact List.filter_congr fun q hq => h q (List.mem_range.1 hq)

/-- active positions from `a` on, below `n` -/
theorem actList_tail (act : ℕ → Bool) {a n : ℕ} (h : a ≤ n) : actList act n = actList act a ++ (List.range' a (n - a)).filter act := by
  unfold actList
  rw [← List.filter_append, List.range_eq_range', List.range_eq_range']
  have := List.range'_append (s := 0) (m := a) (n := n - a) (step := 1)
  simp only [Nat.one_mul, Nat.zero_add] at this
  rw [this]
  congr 2
  omega

section
variable {S : Seq R} {p : ℕ} {act : ℕ → Bool} {i j : ℕ}

/-- the active list before and after an insertion -/
theorem Valid.split (hv : Valid S act i j) (n : ℕ) (hn : j < n) :
    actList act n = actList act i ++ (interval (i + 1) (j - 1) ++ (List.range' (j + 1) (n - (j + 1))).filter act) ∧
    actList (Function.update (Function.update act i true) j true) n = actList act i ++ (interval i j ++ (List.range' (j + 1) (n - (j + 1))).filter act) := by
  have hlt := hv.lt
  constructor
  · rw [actList_tail act (show j + 1 ≤ n by omega), actList_succ_false act j hv.right, ← List.append_assoc]
    congr 1
    have h1 := actList_split act (i + 1) (j - 1) (by omega) (fun q h1 h2 => hv.mid q (by omega) (by omega))
    rw [show j - 1 + 1 = j by omega, actList_succ_false act i hv.left] at h1
    exact h1
  · rw [actList_tail _ (show j + 1 ≤ n by omega), ← List.append_assoc]
    have h1 := actList_split (Function.update (Function.update act i true) j true) i j (by omega) (fun q h1 h2 => by
      rw [update2]
      by_cases hc : q = i ∨ q = j
      · rw [if_pos hc]
      · rw [if_neg hc]
        exact hv.mid q (by omega) (by omega))
    rw [h1]
    congr 1
    · congr 1
      exact actList_congr i fun q hq => by rw [update2, if_neg (by omega)]
    · exact List.filter_congr fun q hq => by
        rw [List.mem_range'_1] at hq
        rw [update2, if_neg (by omega)]

theorem bal_wrap {isY : ℕ → Bool} (L r : List ℕ) (hlt : i < j) (ho : isY i ≠ isY j) (h : Bal isY (L ++ (interval (i + 1) (j - 1) ++ r))) : Bal isY (L ++ (interval i j ++ r)) := by
  rw [interval_wrap i j hlt]
  unfold Bal at *
  simp only [List.filter_append, List.length_append, List.filter_cons, List.filter_nil] at *
  cases h1 : isY i <;> cases h2 : isY j <;> simp_all <;> omega

end

namespace Greedy

variable {S : Seq R} {p : ℕ} {ps : List (ℕ × ℕ)} {ms : List R} {act : ℕ → Bool}

theorem length (h : Greedy S p ps ms act) : ms.length = ps.length := by
  induction h with
  | nil => rfl
  | cons _ _ _ ih => simp [ih]

theorem bound (h : Greedy S p ps ms act) : ∀ q, act q = true → q < S.N := by
  induction h with
  | nil => intro q hq; exact absurd hq (by simp)
  | @cons _ _ _ i j _ hv _ ih =>
    intro q hq
    rw [update2] at hq
    by_cases hc : q = i ∨ q = j
    · have := hv.lt
      have := hv.bound
      omega
    · rw [if_neg hc] at hq
      exact ih q hq

theorem mem (h : Greedy S p ps ms act) : ∀ q, act q = true ↔ q ∈ ps.flatMap fun ab => [ab.1, ab.2] := by
  induction h with
  | nil => intro q; simp
  | @cons _ _ _ i j _ _ _ ih =>
    intro q
    rw [update2, List.flatMap_cons, List.mem_append, ← ih q]
    by_cases hc : q = i ∨ q = j
    · rw [if_pos hc]
      simp only [List.mem_cons, List.not_mem_nil, or_false, true_iff]
      exact Or.inl hc
    · rw [if_neg hc]
      simp only [List.mem_cons, List.not_mem_nil, or_false]
      tauto

theorem nodup (h : Greedy S p ps ms act) : (ps.flatMap fun ab => [ab.1, ab.2]).Nodup := by
  induction h with
  | nil => simp
  | cons h hv _ ih =>
    rw [List.flatMap_cons, List.nodup_append]
    refine ⟨?_, ih, ?_⟩
    · have := hv.lt
      simp
      omega
    · rintro a ha b hb rfl
      have h1 := (h.mem a).2 hb
      simp only [List.mem_cons, List.not_mem_nil, or_false] at ha
      rcases ha with rfl | rfl
      · rw [hv.left] at h1
        exact absurd h1 (by decide)
      · rw [hv.right] at h1
        exact absurd h1 (by decide)

theorem types (h : Greedy S p ps ms act) : ∀ ab ∈ ps, ab.1 < ab.2 ∧ ab.2 < S.N ∧ S.isY ab.1 ≠ S.isY ab.2 := by
  induction h with
  | nil => simp
  | cons _ hv _ ih =>
    intro ab hab
    rcases List.mem_cons.1 hab with rfl | hab
    · exact ⟨hv.lt, hv.bound, hv.opp⟩
    · exact ih ab hab

/-- below an unused position the used positions are balanced -/
theorem bal (h : Greedy S p ps ms act) : ∀ q, act q = false → Bal S.isY (actList act q) := by
  induction h with
  | nil =>
    intro q _
    unfold actList
    simp [Bal]
  | @cons _ _ act i j h hv _ ih =>
    intro q hq
    rw [update2] at hq
    by_cases hc : q = i ∨ q = j
    · rw [if_pos hc] at hq
      exact absurd hq (by decide)
    · rw [if_neg hc] at hq
      have hlt := hv.lt
      rcases lt_or_ge q i with h1 | h1
      · rw [← actList_congr (act := act) q fun r hr => by rw [update2, if_neg (by omega)]]
        exact ih q hq
      · have h2 : j < q := by
          by_contra h3
          rw [hv.mid q (by omega) (by omega)] at hq
          exact absurd hq (by decide)
        obtain ⟨e1, e2⟩ := hv.split q h2
        have h3 := ih q hq
        rw [e1] at h3
        rw [e2]
        exact bal_wrap _ _ hlt hv.opp h3

theorem balN (h : Greedy S p ps ms act) : Bal S.isY (actList act S.N) := by
  refine h.bal _ ?_
  by_contra hc
  have := h.bound S.N (by simpa using hc)
  omega

/-- an insertion adds its marginal cost -/
theorem insert_cost (h : Greedy S p ps ms act) {i j : ℕ} (hv : Valid S act i j) :
    mc S p (actList (Function.update (Function.update act i true) j true) S.N) = mc S p (actList act S.N) + margin S p i j := by
  obtain ⟨e1, e2⟩ := hv.split S.N hv.bound
  have hlt := hv.lt
  have b1 := h.bal i hv.left
  have b2 : Bal S.isY (interval (i + 1) (j - 1)) := by
    have h3 := h.bal j hv.right
    have h4 := actList_split act (i + 1) (j - 1) (by omega) (fun q h1 h2 => hv.mid q (by omega) (by omega))
    rw [show j - 1 + 1 = j by omega, actList_succ_false act i hv.left] at h4
    rw [h4] at h3
    exact h3.right b1
  have b3 : Bal S.isY (interval i j) := by
    have := bal_wrap (i := i) (j := j) [] [] hlt hv.opp (by simpa using b2)
    simpa using this
  rw [e1, e2, mc_append S p b1, mc_append S p b1, mc_append S p b2, mc_append S p b3]
  unfold margin
  ring

/-- the cost of the selection is the sum of the marginal costs -/
theorem cost (h : Greedy S p ps ms act) : mc S p (actList act S.N) = ms.sum := by
  induction h with
  | nil =>
    unfold actList
    simp [mc]
  | cons h hv _ ih => rw [h.insert_cost hv, ih, List.sum_cons, add_comm]

end Greedy

/-! ## The loop -/

theorem Cand.le_total' (u v : Cand R) : Cand.le u v ∨ Cand.le v u := by
  unfold Cand.le
  rcases lt_trichotomy u.c v.c with h | h | h
  · exact Or.inl (Or.inl h)
  · rcases lt_trichotomy u.i v.i with h1 | h1 | h1
    · exact Or.inl (Or.inr ⟨h, Or.inl h1⟩)
    · rcases le_total u.j v.j with h2 | h2
      · exact Or.inl (Or.inr ⟨h, Or.inr ⟨h1, h2⟩⟩)
      · exact Or.inr (Or.inr ⟨h.symm, Or.inr ⟨h1.symm, h2⟩⟩)
    · exact Or.inr (Or.inr ⟨h.symm, Or.inl h1⟩)
  · exact Or.inr (Or.inl h)

theorem Cand.le_trans' (u v w : Cand R) (h1 : Cand.le u v) (h2 : Cand.le v w) : Cand.le u w := by
  unfold Cand.le at *
  rcases h1 with h1 | ⟨h1, h1'⟩
  · rcases h2 with h2 | ⟨h2, _⟩
    · exact Or.inl (h1.trans h2)
    · exact Or.inl (h2 ▸ h1)
  · rcases h2 with h2 | ⟨h2, h2'⟩
    · exact Or.inl (h1 ▸ h2)
    · exact Or.inr ⟨h1.trans h2, by omega⟩

instance : Std.Total (Cand.le (R := R)) := ⟨Cand.le_total'⟩
instance : IsTrans (Cand R) Cand.le := ⟨Cand.le_trans'⟩

theorem push_sorted (u : Cand R) {h : List (Cand R)} (hs : h.Pairwise Cand.le) : (push u h).Pairwise Cand.le := List.Pairwise.orderedInsert u h hs

theorem mem_push (u v : Cand R) (h : List (Cand R)) : v ∈ push u h ↔ v = u ∨ v ∈ h := List.mem_orderedInsert Cand.le

theorem push_length (u : Cand R) (h : List (Cand R)) : (push u h).length = h.length + 1 := List.orderedInsert_length Cand.le h u

/-- invariant of the loop: the heap holds exactly marginal costs and misses no insertable pair -/
structure GenInv (S : Seq R) (p : ℕ) (g : Gen R) : Prop where
  ok : ChainsOk S.N g.active g.chains
  sorted : g.heap.Pairwise Cand.le
  cand : ∀ u ∈ g.heap, u.i < u.j ∧ u.j < S.N ∧ S.isY u.i ≠ S.isY u.j ∧ (∀ q, u.i < q → q < u.j → g.active q = true) ∧ u.c = margin S p u.i u.j
  full : ∀ i j, Valid S g.active i j → ∃ u ∈ g.heap, u.i = i ∧ u.j = j
  greedy : Greedy S p g.pairs g.marg g.active

theorem insertCand_spec {S : Seq R} {p : ℕ} {D : ℕ → R} (hD : ∀ s e, s ≤ e → e < S.N → Bal S.isY (interval s e) → chainCost D s e = mc S p (interval s e))
    {g : Gen R} (h : GenInv S p g) {u : Cand R} {t : List (Cand R)} (hu : g.heap = u :: t) (h1 : g.active u.i = false) (h2 : g.active u.j = false) :
    ∃ g', insertCand S D g u t = some g' ∧ GenInv S p g' ∧ g'.heap.length ≤ g.heap.length ∧ g'.pairs = (u.i, u.j) :: g.pairs := by
  obtain ⟨hlt, hN, hopp, hmid, hc⟩ := h.cand u (by rw [hu]; exact List.mem_cons_self)
  have hv : Valid S g.active u.i u.j := ⟨hlt, hN, h1, h2, hopp, hmid⟩
  have hs := h.sorted
  rw [hu] at hs
  obtain ⟨hle, hst⟩ := List.pairwise_cons.1 hs
  have hmin : ∀ i' j', Valid S g.active i' j' → margin S p u.i u.j ≤ margin S p i' j' := by
    intro i' j' hv'
    obtain ⟨w, hw, hwi, hwj⟩ := h.full i' j' hv'
    rw [← hc, ← hwi, ← hwj, ← (h.cand w hw).2.2.2.2]
    rw [hu] at hw
    rcases List.mem_cons.1 hw with rfl | hw
    · exact le_rfl
    · rcases hle w hw with h3 | h3
      · exact h3.le
      · exact h3.1.le
  have hg : Greedy S p ((u.i, u.j) :: g.pairs) (margin S p u.i u.j :: g.marg) (Function.update (Function.update g.active u.i true) u.j true) := Greedy.cons h.greedy hv hmin
  -- the chain arrays handed to insert_new_chain
  have hC : ∃ C0 : Chains, (if u.j = u.i + 1 then some (insertChain S.N g.chains u.i u.j)
      else if g.chains.en (u.j - 1) ≠ none then
        some (insertChain S.N ⟨if u.i + 1 < S.N then Function.update g.chains.st (u.i + 1) none else g.chains.st,
          if u.j - 1 < S.N then Function.update g.chains.en (u.j - 1) none else g.chains.en⟩ u.i u.j)
      else none) = some (insertChain S.N C0 u.i u.j) ∧ (∀ s, C0.st s = if u.i ≤ s ∧ s ≤ u.j then none else g.chains.st s) ∧
      (∀ s, C0.en s = if u.i ≤ s ∧ s ≤ u.j then none else g.chains.en s) := by
    have stI : g.chains.st u.i = none := by
      cases hx : g.chains.st u.i with
      | none => rfl
      | some e =>
        have hb := (h.ok.st _ _).1 hx
        have := hb.run _ le_rfl hb.le
        rw [h1] at this
        exact absurd this (by decide)
    have stJ : g.chains.st u.j = none := by
      cases hx : g.chains.st u.j with
      | none => rfl
      | some e =>
        have hb := (h.ok.st _ _).1 hx
        have := hb.run _ le_rfl hb.le
        rw [h2] at this
        exact absurd this (by decide)
    have enI : g.chains.en u.i = none := by
      cases hx : g.chains.en u.i with
      | none => rfl
      | some e =>
        have hb := (h.ok.en _ _).1 hx
        have := hb.run _ hb.le le_rfl
        rw [h1] at this
        exact absurd this (by decide)
    have enJ : g.chains.en u.j = none := by
      cases hx : g.chains.en u.j with
      | none => rfl
      | some e =>
        have hb := (h.ok.en _ _).1 hx
        have := hb.run _ hb.le le_rfl
        rw [h2] at this
        exact absurd this (by decide)
    by_cases hj : u.j = u.i + 1
    · refine ⟨g.chains, by rw [if_pos hj], fun s => ?_, fun s => ?_⟩
      · by_cases hs : u.i ≤ s ∧ s ≤ u.j
        · rw [if_pos hs]
          rcases (show s = u.i ∨ s = u.j by omega) with rfl | rfl
          · exact stI
          · exact stJ
        · rw [if_neg hs]
      · by_cases hs : u.i ≤ s ∧ s ≤ u.j
        · rw [if_pos hs]
          rcases (show s = u.i ∨ s = u.j by omega) with rfl | rfl
          · exact enI
          · exact enJ
        · rw [if_neg hs]
    · have hblk : IsBlock g.active (u.i + 1) (u.j - 1) :=
        ⟨by omega, fun q a b => hmid q (by omega) (by omega), fun q hq => by rw [show q = u.i by omega]; exact h1, by rw [show u.j - 1 + 1 = u.j by omega]; exact h2⟩
      have hne : g.chains.en (u.j - 1) ≠ none := by rw [(h.ok.en _ _).2 hblk]; simp
      refine ⟨_, by rw [if_neg hj, if_pos hne], fun s => ?_, fun s => ?_⟩
      · dsimp only
        rw [if_pos (by omega)]
        by_cases hs : u.i ≤ s ∧ s ≤ u.j
        · rw [if_pos hs]
          by_cases hs1 : s = u.i + 1
          · rw [hs1, Function.update_self]
          · rw [Function.update_of_ne hs1]
            rcases (show s = u.i ∨ s = u.j ∨ (u.i + 1 < s ∧ s < u.j) by omega) with rfl | rfl | hm
            · exact stI
            · exact stJ
            · cases hx : g.chains.st s with
              | none => rfl
              | some e =>
                have := ((h.ok.st _ _).1 hx).left (s - 1) (by omega)
                rw [hmid (s - 1) (by omega) (by omega)] at this
                exact absurd this (by decide)
        · rw [if_neg hs, Function.update_of_ne (by omega)]
      · dsimp only
        rw [if_pos (by omega)]
        by_cases hs : u.i ≤ s ∧ s ≤ u.j
        · rw [if_pos hs]
          by_cases hs1 : s = u.j - 1
          · rw [hs1, Function.update_self]
          · rw [Function.update_of_ne hs1]
            rcases (show s = u.i ∨ s = u.j ∨ (u.i < s ∧ s + 1 < u.j) by omega) with rfl | rfl | hm
            · exact enI
            · exact enJ
            · cases hx : g.chains.en s with
              | none => rfl
              | some e =>
                have := ((h.ok.en _ _).1 hx).right
                rw [hmid (s + 1) (by omega) (by omega)] at this
                exact absurd this (by decide)
        · rw [if_neg hs, Function.update_of_ne (by omega)]
  obtain ⟨C0, hins, hst0, hen0⟩ := hC
  obtain ⟨C', i', j', hci, hi', hj', hj'N, hok, hblk⟩ := insertChain_spec h.ok hlt hN h1 h2 hmid hst0 hen0
  obtain ⟨act', hact'⟩ : ∃ act', act' = Function.update (Function.update g.active u.i true) u.j true := ⟨_, rfl⟩
  rw [← hact'] at hok hblk hg
  have ha' : ∀ q, act' q = if q = u.i ∨ q = u.j then true else g.active q := by rw [hact']; exact update2 _ _ _
  obtain ⟨H, hH⟩ : ∃ H, H = (if i' = 0 ∨ j' = S.N - 1 then t
      else if S.isY (i' - 1) ≠ S.isY (j' + 1) then push ⟨chainCost D (i' - 1) (j' + 1) - chainCost D i' j', i' - 1, j' + 1⟩ t else t) := ⟨_, rfl⟩
  refine ⟨⟨act', C', H, (u.i, u.j) :: g.pairs, u.c :: g.marg⟩, ?_, ?_, ?_, rfl⟩
  · unfold insertCand
    dsimp only at hins ⊢
    rw [hins, hci]
    dsimp only
    rw [hH, hact']
  · have hle' := hblk.le
    -- the new candidate
    have hnew : ¬ (i' = 0 ∨ j' = S.N - 1) → S.isY (i' - 1) ≠ S.isY (j' + 1) → chainCost D (i' - 1) (j' + 1) - chainCost D i' j' = margin S p (i' - 1) (j' + 1) := by
      intro hb ho
      have l0 := hblk.left (i' - 1) (by omega)
      have b0 := hg.bal (i' - 1) l0
      have b1 := hg.bal (j' + 1) hblk.right
      rw [actList_split act' i' j' (by omega) hblk.run] at b1
      have e1 := actList_succ_false act' (i' - 1) l0
      rw [show i' - 1 + 1 = i' by omega] at e1
      rw [e1] at b1
      have b2 := b1.right b0
      have b3 : Bal S.isY (interval (i' - 1) (j' + 1)) := by
        have := bal_wrap (i := i' - 1) (j := j' + 1) [] [] (by omega) ho (by
          rw [show i' - 1 + 1 = i' by omega, show j' + 1 - 1 = j' by omega]
          simpa using b2)
        simpa using this
      unfold margin
      rw [hD _ _ (by omega) (by omega) b3, hD _ _ (by omega) hj'N b2, show i' - 1 + 1 = i' by omega, show j' + 1 - 1 = j' by omega]
    have hmono : ∀ q, g.active q = true → act' q = true := by
      intro q hq
      rw [ha']
      by_cases hc : q = u.i ∨ q = u.j
      · rw [if_pos hc]
      · rw [if_neg hc, hq]
    have hsub : ∀ v ∈ t, v ∈ H := by
      intro v hv
      rw [hH]
      by_cases c1 : i' = 0 ∨ j' = S.N - 1
      · rw [if_pos c1]; exact hv
      · rw [if_neg c1]
        by_cases c2 : S.isY (i' - 1) ≠ S.isY (j' + 1)
        · rw [if_pos c2, mem_push]; exact Or.inr hv
        · rw [if_neg c2]; exact hv
    refine ⟨hok, ?_, ?_, ?_, by rw [hc]; exact hg⟩
    · dsimp only
      rw [hH]
      by_cases c1 : i' = 0 ∨ j' = S.N - 1
      · rw [if_pos c1]; exact hst
      · rw [if_neg c1]
        by_cases c2 : S.isY (i' - 1) ≠ S.isY (j' + 1)
        · rw [if_pos c2]; exact push_sorted _ hst
        · rw [if_neg c2]; exact hst
    · dsimp only
      have old : ∀ v ∈ t, v.i < v.j ∧ v.j < S.N ∧ S.isY v.i ≠ S.isY v.j ∧ (∀ q, v.i < q → q < v.j → act' q = true) ∧ v.c = margin S p v.i v.j := by
        intro v hv
        obtain ⟨a, b, c, d, e⟩ := h.cand v (by rw [hu]; exact List.mem_cons_of_mem _ hv)
        exact ⟨a, b, c, fun q hq hq' => hmono q (d q hq hq'), e⟩
      intro v hv
      rw [hH] at hv
      by_cases c1 : i' = 0 ∨ j' = S.N - 1
      · rw [if_pos c1] at hv; exact old v hv
      · rw [if_neg c1] at hv
        by_cases c2 : S.isY (i' - 1) ≠ S.isY (j' + 1)
        · rw [if_pos c2, mem_push] at hv
          rcases hv with rfl | hv
          · exact ⟨by dsimp only; omega, by dsimp only; omega, c2, fun q hq hq' => hblk.run q (by dsimp only at hq; omega) (by dsimp only at hq'; omega), hnew c1 c2⟩
          · exact old v hv
        · rw [if_neg c2] at hv; exact old v hv
    · intro a b hab
      have hl := hab.left
      have hr := hab.right
      dsimp only at hl hr
      have hla : g.active a = false := by
        by_contra hx
        rw [hmono a (by simpa using hx)] at hl
        exact absurd hl (by decide)
      have hra : g.active b = false := by
        by_contra hx
        rw [hmono b (by simpa using hx)] at hr
        exact absurd hr (by decide)
      have hlt' := hab.lt
      by_cases hin : ∀ q, a < q → q < b → g.active q = true
      · obtain ⟨w, hw, hwi, hwj⟩ := h.full a b ⟨hab.lt, hab.bound, hla, hra, hab.opp, hin⟩
        rw [hu] at hw
        rcases List.mem_cons.1 hw with rfl | hw
        · exfalso
          rw [← hwi, ha', if_pos (Or.inl rfl)] at hl
          exact absurd hl (by decide)
        · exact ⟨w, hsub w hw, hwi, hwj⟩
      · -- the gap contains `u.i` or `u.j`, hence is exactly the new run
        push Not at hin
        obtain ⟨q, hq1, hq2, hq3⟩ := hin
        have hq4 := hab.mid q hq1 hq2
        dsimp only at hq4
        rw [ha'] at hq4
        have hq5 : q = u.i ∨ q = u.j := by
          by_contra hx
          rw [if_neg hx] at hq4
          exact hq3 hq4
        have ea : a + 1 = i' := by
          rcases lt_trichotomy (a + 1) i' with hx | hx | hx
          · have := hab.mid (i' - 1) (by omega) (by omega)
            dsimp only at this
            rw [hblk.left (i' - 1) (by omega)] at this
            exact absurd this (by decide)
          · exact hx
          · rw [hblk.run a (by omega) (by omega)] at hl
            exact absurd hl (by decide)
        have eb : b = j' + 1 := by
          rcases lt_trichotomy b (j' + 1) with hx | hx | hx
          · rw [hblk.run b (by omega) (by omega)] at hr
            exact absurd hr (by decide)
          · exact hx
          · have := hab.mid (j' + 1) (by omega) (by omega)
            dsimp only at this
            rw [hblk.right] at this
            exact absurd this (by decide)
        have hbN := hab.bound
        refine ⟨⟨chainCost D (i' - 1) (j' + 1) - chainCost D i' j', i' - 1, j' + 1⟩, ?_, by dsimp only; omega, eb.symm⟩
        dsimp only
        rw [hH, if_neg (by omega), if_pos ?_, mem_push]
        · exact Or.inl rfl
        · rw [← ea, Nat.add_sub_cancel, ← eb]
          exact hab.opp
  · dsimp only
    rw [hu, hH, List.length_cons]
    by_cases c1 : i' = 0 ∨ j' = S.N - 1
    · rw [if_pos c1]; omega
    · rw [if_neg c1]
      by_cases c2 : S.isY (i' - 1) ≠ S.isY (j' + 1)
      · rw [if_pos c2, push_length]
      · rw [if_neg c2]; omega

/-- The loop never runs out of fuel nor raises, and ends with `maxIter` greedy insertions unless nothing more can be inserted. -/
theorem genLoop_spec {S : Seq R} {p : ℕ} {D : ℕ → R} (hD : ∀ s e, s ≤ e → e < S.N → Bal S.isY (interval s e) → chainCost D s e = mc S p (interval s e)) (mi : ℕ) :
    ∀ (k : ℕ) (g : Gen R), GenInv S p g → g.pairs.length ≤ mi → g.heap.length + (mi - g.pairs.length) < k →
      ∃ g', genLoop S D mi k g = .done g' ∧ Greedy S p g'.pairs g'.marg g'.active ∧ g'.pairs.length ≤ mi ∧ (g'.pairs.length = mi ∨ ∀ i j, ¬ Valid S g'.active i j) := by
  intro k
  induction k with
  | zero => intro g _ _ h; omega
  | succ k ih =>
    intro g h hle hk
    unfold genLoop
    by_cases hlt : g.pairs.length < mi
    · rw [if_pos hlt]
      cases hh : g.heap with
      | nil =>
        refine ⟨g, rfl, h.greedy, hle, Or.inr fun i j hv => ?_⟩
        obtain ⟨u, hu, _⟩ := h.full i j hv
        rw [hh] at hu
        exact absurd hu (by simp)
      | cons u t =>
        dsimp only
        have hs := h.sorted
        rw [hh] at hs hk
        rw [List.length_cons] at hk
        by_cases hact : (g.active u.i || g.active u.j) = true
        · rw [if_pos hact]
          refine ih _ ⟨h.ok, (List.pairwise_cons.1 hs).2, fun v hv => h.cand v (by rw [hh]; exact List.mem_cons_of_mem _ hv), fun i j hv => ?_, h.greedy⟩ hle (by dsimp only; omega)
          obtain ⟨w, hw, hwi, hwj⟩ := h.full i j hv
          rw [hh] at hw
          rcases List.mem_cons.1 hw with rfl | hw
          · exfalso
            have h1 := hv.left
            have h2 := hv.right
            dsimp only at h1 h2
            rw [← hwi] at h1
            rw [← hwj] at h2
            rw [h1, h2] at hact
            exact absurd hact (by decide)
          · exact ⟨w, hw, hwi, hwj⟩
        · rw [if_neg hact]
          obtain ⟨g', hg', hinv, hlen, hp⟩ := insertCand_spec hD h hh (by cases hx : g.active u.i <;> simp_all) (by cases hx : g.active u.j <;> simp_all)
          rw [hg']
          dsimp only
          rw [hh, List.length_cons] at hlen
          refine ih g' hinv ?_ ?_
          · rw [hp, List.length_cons]; omega
          · rw [hp, List.length_cons]; omega
    · rw [if_neg hlt]
      exact ⟨g, rfl, h.greedy, hle, Or.inl (by omega)⟩

end POT.Partial1d
