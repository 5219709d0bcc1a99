import Mathlib.Dynamics.PeriodicPts.Lemmas
import Mathlib.Data.List.Iterate
import Mathlib.Algebra.BigOperators.Fin
import Mathlib.Tactic.Linarith
import Verif.Model.Bsp
import Verif.Spec.Bsp

/-!
# Lemmas on the merging of bijections
-/

set_option linter.unusedSectionVars false

namespace POT.Bsp

open Function

variable {n : ℕ}

theorem foldl_add_eq {α : Type*} (f : α → ℝ) (l : List α) (a : ℝ) :
    l.foldl (fun s i => s + f i) a = a + (l.map f).sum := by
  induction l generalizing a with
  | nil => simp
  | cons x l ih => simp [ih, add_assoc]

theorem evalMatching_eq (c : Fin n → Fin n → ℝ) (T : Plan n) : evalMatching c T = Spec.bijCost c T := by
  unfold evalMatching Spec.bijCost
  rw [foldl_add_eq, zero_add, Fin.sum_univ_def]

/-- Writing the pairs of a list with distinct keys into an array. -/
theorem foldl_update_mem {α β : Type*} [DecidableEq α] (l : List (α × β)) (h : (l.map Prod.fst).Nodup) (g : α → β) :
    (∀ ab ∈ l, (l.foldl (fun T ab => update T ab.1 ab.2) g) ab.1 = ab.2) ∧
    ∀ a, a ∉ l.map Prod.fst → (l.foldl (fun T ab => update T ab.1 ab.2) g) a = g a := by
  induction l generalizing g with
  | nil => simp
  | cons x l ih =>
    simp only [List.map_cons, List.nodup_cons] at h
    obtain ⟨ih1, ih2⟩ := ih h.2 (update g x.1 x.2)
    constructor
    · intro ab hab
      rcases List.mem_cons.1 hab with rfl | hab
      · rw [List.foldl_cons, ih2 _ h.1]; simp
      · exact ih1 ab hab
    · intro a ha
      simp only [List.map_cons, List.mem_cons, not_or] at ha
      rw [List.foldl_cons, ih2 a ha.2, update_of_ne ha.1]

theorem getInverse_apply {T : Plan n} (hT : Injective T) (i : Fin n) : getInverse T (T i) = i := by
  have h := foldl_update_mem ((List.finRange n).map fun i => (T i, i))
    (by
      rw [List.map_map]
      exact (List.nodup_finRange n).map hT) id
  have h2 := h.1 (T i, i) (List.mem_map.2 ⟨i, List.mem_finRange i, rfl⟩)
  rw [List.foldl_map] at h2
  exact h2

theorem apply_getInverse {T : Plan n} (hT : Injective T) (j : Fin n) : T (getInverse T j) = j := by
  obtain ⟨i, rfl⟩ := (Finite.injective_iff_surjective.1 hT) j
  rw [getInverse_apply hT]

/-! ### Loops along a cycle -/

theorem walk_eq (sig : Plan n) : ∀ (m f : ℕ) (v : Fin n → Bool) (j : Fin n), m < f →
    (List.iterate sig j m).Nodup → (∀ x ∈ List.iterate sig j m, v x = false) →
    (sig^[m] j ∈ List.iterate sig j m ∨ v (sig^[m] j) = true) →
    walk sig f v j = (List.iterate sig j m, fun x => v x || decide (x ∈ List.iterate sig j m)) := by
  intro m
  induction m with
  | zero =>
    intro f v j hf _ _ he
    obtain ⟨f, rfl⟩ : ∃ g, f = g + 1 := ⟨f - 1, by omega⟩
    have : v j = true := by simpa using he
    simp [walk, this]
  | succ m ih =>
    intro f v j hf hn hv he
    obtain ⟨f, rfl⟩ : ∃ g, f = g + 1 := ⟨f - 1, by omega⟩
    rw [List.iterate] at hn hv he ⊢
    rw [List.nodup_cons] at hn
    have hvj : v j = false := hv j (List.mem_cons_self ..)
    rw [iterate_succ_apply] at he
    have key := ih f (update v j true) (sig j) (by omega) hn.2
      (by
        intro x hx
        have hne : x ≠ j := fun h => hn.1 (h ▸ hx)
        rw [update_of_ne hne]
        exact hv x (List.mem_cons_of_mem _ hx))
      (by
        rcases he with he | he
        · rcases List.mem_cons.1 he with he | he
          · right; rw [he]; simp
          · exact Or.inl he
        · right
          by_cases hj : sig^[m] (sig j) = j
          · rw [hj]; simp
          · rw [update_of_ne hj]; exact he)
    rw [walk, if_neg (by simp [hvj]), key]
    refine Prod.ext rfl ?_
    funext x
    by_cases hx : x = j
    · subst hx; simp
    · simp [update_of_ne hx, hx]

theorem doWhile_eq {S : Type} (body : Fin n → S → S) (sig : Plan n) (i0 : Fin n) :
    ∀ (m f : ℕ) (j : Fin n) (s : S), m < f → sig^[m + 1] j = i0 → (∀ t, t < m → sig^[t + 1] j ≠ i0) →
    doWhile body sig i0 f j s = (List.iterate sig j (m + 1)).foldl (fun s j => body j s) s := by
  intro m
  induction m with
  | zero =>
    intro f j s hf h1 _
    obtain ⟨f, rfl⟩ : ∃ g, f = g + 1 := ⟨f - 1, by omega⟩
    have : sig j = i0 := by simpa using h1
    simp [doWhile, this, List.iterate]
  | succ m ih =>
    intro f j s hf h1 h2
    obtain ⟨f, rfl⟩ : ∃ g, f = g + 1 := ⟨f - 1, by omega⟩
    have h0 : sig j ≠ i0 := by simpa using h2 0 (by omega)
    rw [doWhile, if_neg h0, ih f (sig j) (body j s) (by omega) (by rw [← iterate_succ_apply]; exact h1)
      (fun t ht => by rw [← iterate_succ_apply]; exact h2 (t + 1) (by omega))]
    rfl

/-- The cycle of `sig` through `i`. -/
noncomputable def cyc (sig : Plan n) (i : Fin n) : List (Fin n) := List.iterate sig i (minimalPeriod sig i)

/-- The set is stable under `sig`. -/
def Stable (sig : Plan n) (S : Finset (Fin n)) : Prop := ∀ x ∈ S, sig x ∈ S

section cycle
variable {sig : Plan n} (hs : Injective sig) (i : Fin n)
include hs

theorem period_pos : 0 < minimalPeriod sig i := minimalPeriod_pos_of_mem_periodicPts (hs.mem_periodicPts i)

theorem nodup_cyc : (cyc sig i).Nodup := by
  rw [cyc, ← List.range_map_iterate]
  refine List.Nodup.map_on ?_ List.nodup_range
  intro a ha b hb hab
  rw [List.mem_range] at ha hb
  exact (iterate_eq_iterate_iff_of_lt_minimalPeriod ha hb).1 hab

theorem period_le : minimalPeriod sig i ≤ n := by
  have := (nodup_cyc hs i).length_le_card
  simpa [cyc] using this

theorem mem_cyc_self : i ∈ cyc sig i := by
  rw [cyc, List.mem_iterate]
  exact ⟨0, period_pos hs i, rfl⟩

theorem cyc_stable : Stable sig (cyc sig i).toFinset := by
  intro x hx
  rw [List.mem_toFinset, cyc, List.mem_iterate] at hx ⊢
  obtain ⟨m, hm, rfl⟩ := hx
  by_cases h : m + 1 < minimalPeriod sig i
  · exact ⟨m + 1, h, by rw [iterate_succ_apply']⟩
  · refine ⟨0, period_pos hs i, ?_⟩
    rw [← iterate_succ_apply' sig m i, show m.succ = minimalPeriod sig i by omega, iterate_minimalPeriod]
    rfl

theorem Stable.iterate {S : Finset (Fin n)} (h : Stable sig S) {x : Fin n} (hx : x ∈ S) (k : ℕ) : sig^[k] x ∈ S := by
  induction k with
  | zero => exact hx
  | succ k ih => rw [iterate_succ_apply']; exact h _ ih

/-- A stable set that meets the cycle contains it. -/
theorem Stable.cyc_subset {S : Finset (Fin n)} (h : Stable sig S) {x : Fin n} (hx : x ∈ S) (hc : x ∈ cyc sig i) :
    ∀ y ∈ cyc sig i, y ∈ S := by
  rw [cyc, List.mem_iterate] at hc
  obtain ⟨m, hm, rfl⟩ := hc
  have hi : i ∈ S := by
    have := h.iterate hs hx (minimalPeriod sig i - m)
    rwa [← iterate_add_apply, Nat.sub_add_cancel hm.le, iterate_minimalPeriod] at this
  intro y hy
  rw [cyc, List.mem_iterate] at hy
  obtain ⟨k, _, rfl⟩ := hy
  exact h.iterate hs hi k

theorem Stable.iff {S : Finset (Fin n)} (h : Stable sig S) (x : Fin n) : x ∈ S ↔ sig x ∈ S := by
  refine ⟨h x, fun hx => ?_⟩
  exact h.cyc_subset hs x hx
    (by
      have := cyc_stable hs x x (List.mem_toFinset.2 (mem_cyc_self hs x))
      exact List.mem_toFinset.1 this) x (mem_cyc_self hs x)

theorem walk_cyc (v : Fin n → Bool) (hv : ∀ x ∈ cyc sig i, v x = false) :
    walk sig (n + 1) v i = (cyc sig i, fun x => v x || decide (x ∈ cyc sig i)) := by
  refine walk_eq sig _ _ v i (Nat.lt_succ_of_le (period_le hs i)) (nodup_cyc hs i) hv (Or.inl ?_)
  rw [iterate_minimalPeriod]
  exact mem_cyc_self hs i

theorem doWhile_cyc {S : Type} (body : Fin n → S → S) (s : S) :
    doWhile body sig i (n + 1) i s = (cyc sig i).foldl (fun s j => body j s) s := by
  have hp := period_pos hs i
  have hl := period_le hs i
  have := doWhile_eq body sig i (minimalPeriod sig i - 1) (n + 1) i s (by omega)
    (by rw [Nat.sub_add_cancel hp, iterate_minimalPeriod])
    (fun t ht h => by
      have := IsPeriodicPt.minimalPeriod_le (Nat.succ_pos t) (show IsPeriodicPt sig (t + 1) i from h)
      omega)
  rw [this, Nat.sub_add_cancel hp, cyc]

end cycle

/-! ### Effect of the loops on the state -/

theorem foldl_swapAt (l : List (Fin n)) (hl : l.Nodup) (s : MState n) :
    let t := l.foldl (fun s j => swapAt j s) s
    (∀ x, t.rslt x = if x ∈ l then s.Tp x else s.rslt x) ∧ (∀ x, t.Tp x = if x ∈ l then s.rslt x else s.Tp x) ∧
    (∀ x, t.C x = if x ∈ l then s.Cp x else s.C x) ∧ (∀ x, t.Cp x = if x ∈ l then s.C x else s.Cp x) ∧
    t.rsltI = s.rsltI := by
  induction l generalizing s with
  | nil => simp
  | cons j l ih =>
    rw [List.nodup_cons] at hl
    obtain ⟨h1, h2, h3, h4, h5⟩ := ih hl.2 (swapAt j s)
    simp only [List.foldl_cons]
    refine ⟨fun x => ?_, fun x => ?_, fun x => ?_, fun x => ?_, h5⟩
    all_goals
      first
        | rw [h1] | rw [h2] | rw [h3] | rw [h4]
      by_cases hx : x = j
      · subst hx; simp [swapAt, hl.1]
      · simp [swapAt, hx]

theorem foldl_setInv (l : List (Fin n)) (s : MState n) (hr : Injective s.rslt) :
    let t := l.foldl (fun s j => setInv j s) s
    t.rslt = s.rslt ∧ t.Tp = s.Tp ∧ t.C = s.C ∧ t.Cp = s.Cp ∧
    ∀ x, t.rsltI (s.rslt x) = if x ∈ l then x else s.rsltI (s.rslt x) := by
  induction l generalizing s with
  | nil => simp
  | cons j l ih =>
    obtain ⟨h1, h2, h3, h4, h5⟩ := ih (setInv j s) hr
    simp only [List.foldl_cons]
    refine ⟨h1, h2, h3, h4, fun x => ?_⟩
    have := h5 x
    change ((l.foldl (fun s j => setInv j s) (setInv j s)).rsltI (s.rslt x)) = _ at this
    rw [this]
    by_cases hx : x ∈ l
    · simp [hx]
    · by_cases hxj : x = j
      · subst hxj; simp [setInv, hx]
      · have : s.rslt x ≠ s.rslt j := fun h => hxj (hr h)
        simp [setInv, hx, hxj, update_of_ne this]

/-- Invariant of the loop over the cycles. -/
structure CInv (c : Fin n → Fin n → ℝ) (R0 T0 sig : Plan n) (s : MState n) (v : Fin n → Bool) : Prop where
  inv : ∃ W : Finset (Fin n), Stable sig W ∧ (∀ x ∈ W, v x = true) ∧
    (∀ x, s.rslt x = if x ∈ W then T0 x else R0 x) ∧ (∀ x, s.Tp x = if x ∈ W then R0 x else T0 x)
  left : ∀ x, s.rsltI (s.rslt x) = x
  C : ∀ x, s.C x = c x (s.rslt x)
  Cp : ∀ x, s.Cp x = c x (s.Tp x)
  vis : ∀ x, v x = true → v (sig x) = true
  costR : ∀ S : Finset (Fin n), Stable sig S → (∀ x ∈ S, v x = true) → ∑ x ∈ S, s.C x ≤ ∑ x ∈ S, c x (R0 x)
  costT : ∀ S : Finset (Fin n), Stable sig S → (∀ x ∈ S, v x = true) → ∑ x ∈ S, s.C x ≤ ∑ x ∈ S, c x (T0 x)

theorem choose_injective {R0 T0 sig : Plan n} (hR : Injective R0) (hT : Injective T0) (hsig : ∀ x, T0 (sig x) = R0 x)
    {W : Finset (Fin n)} (hW : Stable sig W) : Injective fun x => if x ∈ W then T0 x else R0 x := by
  have hs : Injective sig := fun x y h => hR (by rw [← hsig, ← hsig, h])
  intro x y h
  by_cases hx : x ∈ W <;> by_cases hy : y ∈ W <;> simp only [hx, hy, if_true, if_false] at h
  · exact hT h
  · rw [← hsig] at h
    have := hT h
    exact absurd ((hW.iff hs y).2 (this ▸ hx)) hy
  · rw [← hsig] at h
    have := hT h
    exact absurd ((hW.iff hs x).2 (this ▸ hy)) hx
  · exact hR h

theorem sum_list_eq (l : List (Fin n)) (hl : l.Nodup) (f : Fin n → ℝ) :
    l.foldl (fun c j => c + f j) 0 = ∑ x ∈ l.toFinset, f x := by
  rw [foldl_add_eq, zero_add, List.sum_toFinset _ hl]

theorem cycleAt_inv {c : Fin n → Fin n → ℝ} {R0 T0 sig : Plan n} (hR : Injective R0) (hT : Injective T0)
    (hsig : ∀ x, T0 (sig x) = R0 x) (st : MState n × (Fin n → Bool) × List (List (Fin n))) (i : Fin n)
    (h : CInv c R0 T0 sig st.1 st.2.1) :
    CInv c R0 T0 sig (cycleAt sig st i).1 (cycleAt sig st i).2.1 ∧
    (∀ x, st.2.1 x = true → (cycleAt sig st i).2.1 x = true) ∧
    (sig i = i ∨ (cycleAt sig st i).2.1 i = true) := by
  have hs : Injective sig := fun x y h => hR (by rw [← hsig, ← hsig, h])
  unfold cycleAt
  by_cases hv : st.2.1 i = true
  · rw [if_pos hv]; exact ⟨h, fun _ hx => hx, Or.inr hv⟩
  rw [if_neg hv]
  by_cases hf : sig i = i
  · rw [if_pos hf]; exact ⟨h, fun _ hx => hx, Or.inl hf⟩
  rw [if_neg hf]
  obtain ⟨s, v, CCs⟩ := st
  simp only at h hv ⊢
  have hnv : ∀ x ∈ cyc sig i, v x = false := by
    intro x hx
    by_contra hne
    have hvx : v x = true := by simpa using hne
    have := Stable.cyc_subset (S := Finset.univ.filter fun y => v y = true) hs i
      (fun y hy => by simp only [Finset.mem_filter, Finset.mem_univ, true_and] at hy ⊢; exact h.vis y hy)
      (x := x) (by simpa using hvx) hx i (mem_cyc_self hs i)
    simp at this
    exact hv this
  rw [walk_cyc hs i v hnv]
  simp only
  refine ⟨?_, fun x hx => by simp [hx], Or.inr (by simp [mem_cyc_self hs i])⟩
  set K := cyc sig i with hK
  have hnd := nodup_cyc hs i
  obtain ⟨W, hW, hWv, hWr, hWt⟩ := h.inv
  have hKW : ∀ x ∈ K, x ∉ W := fun x hx hxW => by
    have := hWv x hxW; rw [hnv x hx] at this; exact Bool.noConfusion this
  have hvis : ∀ x, (v x || decide (x ∈ K)) = true → (v (sig x) || decide (sig x ∈ K)) = true := by
    intro x hx
    rw [Bool.or_eq_true, decide_eq_true_eq] at hx ⊢
    rcases hx with hx | hx
    · exact Or.inl (h.vis x hx)
    · exact Or.inr (List.mem_toFinset.1 (cyc_stable hs i x (List.mem_toFinset.2 hx)))
  -- splitting a stable visited set along the new cycle
  have hsplit : ∀ S : Finset (Fin n), Stable sig S → (∀ x ∈ S, (v x || decide (x ∈ K)) = true) →
      ∀ f g : Fin n → ℝ, (∀ S : Finset (Fin n), Stable sig S → (∀ x ∈ S, v x = true) → ∑ x ∈ S, f x ≤ ∑ x ∈ S, g x) →
      (∑ x ∈ K.toFinset, f x ≤ ∑ x ∈ K.toFinset, g x) → ∑ x ∈ S, f x ≤ ∑ x ∈ S, g x := by
    intro S hS hSv f g hfg hKfg
    rw [← Finset.sum_filter_add_sum_filter_not S (fun x => v x = true) f,
      ← Finset.sum_filter_add_sum_filter_not S (fun x => v x = true) g]
    refine add_le_add (hfg _ ?_ ?_) ?_
    · intro x hx
      rw [Finset.mem_filter] at hx ⊢
      exact ⟨hS x hx.1, h.vis x hx.2⟩
    · intro x hx; exact (Finset.mem_filter.1 hx).2
    · by_cases hne : ∃ x ∈ S, x ∈ K
      · obtain ⟨x, hxS, hxK⟩ := hne
        have hsub := hS.cyc_subset hs i hxS hxK
        have : S.filter (fun x => ¬ v x = true) = K.toFinset := by
          ext y
          rw [Finset.mem_filter, List.mem_toFinset]
          constructor
          · rintro ⟨hy, hvy⟩
            have := hSv y hy
            rw [Bool.or_eq_true, decide_eq_true_eq] at this
            exact this.resolve_left hvy
          · intro hy
            exact ⟨hsub y hy, by rw [hnv y hy]; simp⟩
        rw [this]; exact hKfg
      · have : S.filter (fun x => ¬ v x = true) = ∅ := by
          ext y
          simp only [Finset.mem_filter, Finset.notMem_empty, iff_false, not_and, not_not]
          intro hy
          have := hSv y hy
          rw [Bool.or_eq_true, decide_eq_true_eq] at this
          exact this.resolve_right fun hk => hne ⟨y, hy, hk⟩
        rw [this]; simp
  have hCK : ∑ x ∈ K.toFinset, s.C x = ∑ x ∈ K.toFinset, c x (R0 x) := by
    refine Finset.sum_congr rfl fun x hx => ?_
    rw [h.C, hWr, if_neg (hKW x (List.mem_toFinset.1 hx))]
  have hCpK : ∑ x ∈ K.toFinset, s.Cp x = ∑ x ∈ K.toFinset, c x (T0 x) := by
    refine Finset.sum_congr rfl fun x hx => ?_
    rw [h.Cp, hWt, if_neg (hKW x (List.mem_toFinset.1 hx))]
  rw [sum_list_eq K hnd, sum_list_eq K hnd]
  by_cases hlt : ∑ x ∈ K.toFinset, s.Cp x < ∑ x ∈ K.toFinset, s.C x
  · rw [if_pos hlt, doWhile_cyc hs, doWhile_cyc hs, ← hK]
    obtain ⟨a1, a2, a3, a4, a5⟩ := foldl_swapAt K hnd s
    set t := K.foldl (fun s j => swapAt j s) s with ht
    have hW' : Stable sig (W ∪ K.toFinset) := by
      intro x hx
      rw [Finset.mem_union] at hx ⊢
      rcases hx with hx | hx
      · exact Or.inl (hW x hx)
      · exact Or.inr (cyc_stable hs i x hx)
    have hr' : ∀ x, t.rslt x = if x ∈ W ∪ K.toFinset then T0 x else R0 x := by
      intro x
      rw [a1, hWr, hWt]
      by_cases hx : x ∈ K
      · simp [hx, hKW x hx]
      · simp [hx]
    have ht' : ∀ x, t.Tp x = if x ∈ W ∪ K.toFinset then R0 x else T0 x := by
      intro x
      rw [a2, hWr, hWt]
      by_cases hx : x ∈ K
      · simp [hx, hKW x hx]
      · simp [hx]
    have hinj : Injective t.rslt := by
      rw [show t.rslt = _ from funext hr']
      exact choose_injective hR hT hsig hW'
    obtain ⟨b1, b2, b3, b4, b5⟩ := foldl_setInv K t hinj
    set u := K.foldl (fun s j => setInv j s) t with hu
    have hCfg : ∀ x, u.C x = if x ∈ K then s.Cp x else s.C x := fun x => by rw [b3, a3]
    have hout : ∀ S : Finset (Fin n), (∀ x ∈ S, v x = true) → ∑ x ∈ S, u.C x = ∑ x ∈ S, s.C x := by
      intro S hS
      refine Finset.sum_congr rfl fun x hx => ?_
      rw [hCfg, if_neg]
      intro hxK
      have := hS x hx; rw [hnv x hxK] at this; exact Bool.noConfusion this
    have hin : ∑ x ∈ K.toFinset, u.C x = ∑ x ∈ K.toFinset, s.Cp x := by
      refine Finset.sum_congr rfl fun x hx => ?_
      rw [hCfg, if_pos (List.mem_toFinset.1 hx)]
    refine ⟨⟨W ∪ K.toFinset, hW', ?_, fun x => by rw [b1]; exact hr' x, fun x => by rw [b2]; exact ht' x⟩,
      ?_, ?_, ?_, hvis, ?_, ?_⟩
    · intro x hx
      rw [Finset.mem_union, List.mem_toFinset] at hx
      rw [Bool.or_eq_true, decide_eq_true_eq]
      exact hx.imp (hWv x) id
    · intro x
      rw [b1, b5]
      by_cases hx : x ∈ K
      · rw [if_pos hx]
      · rw [if_neg hx, a5, a1, if_neg hx]
        exact h.left x
    · intro x
      rw [b3, b1, a3, a1]
      by_cases hx : x ∈ K
      · rw [if_pos hx, if_pos hx]; exact h.Cp x
      · rw [if_neg hx, if_neg hx]; exact h.C x
    · intro x
      rw [b4, b2, a4, a2]
      by_cases hx : x ∈ K
      · rw [if_pos hx, if_pos hx]; exact h.C x
      · rw [if_neg hx, if_neg hx]; exact h.Cp x
    · intro S hS hSv
      refine hsplit S hS hSv _ _ (fun S hS hv => ?_) ?_
      · rw [hout S hv]; exact h.costR S hS hv
      · rw [hin, ← hCK]; exact hlt.le
    · intro S hS hSv
      refine hsplit S hS hSv _ _ (fun S hS hv => ?_) ?_
      · rw [hout S hv]; exact h.costT S hS hv
      · rw [hin, ← hCpK]
  · rw [if_neg hlt]
    refine ⟨⟨W, hW, fun x hx => by rw [hWv x hx]; rfl, hWr, hWt⟩, h.left, h.C, h.Cp, hvis, ?_, ?_⟩
    · intro S hS hSv
      exact hsplit S hS hSv _ _ h.costR hCK.le
    · intro S hS hSv
      refine hsplit S hS hSv _ _ h.costT ?_
      rw [← hCpK]; exact not_lt.1 hlt

theorem cycles_inv {c : Fin n → Fin n → ℝ} {R0 T0 sig : Plan n} (hR : Injective R0) (hT : Injective T0)
    (hsig : ∀ x, T0 (sig x) = R0 x) (l : List (Fin n)) (st : MState n × (Fin n → Bool) × List (List (Fin n)))
    (h : CInv c R0 T0 sig st.1 st.2.1) :
    CInv c R0 T0 sig (l.foldl (cycleAt sig) st).1 (l.foldl (cycleAt sig) st).2.1 ∧
    (∀ x, st.2.1 x = true → (l.foldl (cycleAt sig) st).2.1 x = true) ∧
    ∀ i ∈ l, sig i = i ∨ (l.foldl (cycleAt sig) st).2.1 i = true := by
  induction l generalizing st with
  | nil => exact ⟨h, fun _ hx => hx, by simp⟩
  | cons i l ih =>
    obtain ⟨h1, h2, h3⟩ := cycleAt_inv hR hT hsig st i h
    obtain ⟨k1, k2, k3⟩ := ih _ h1
    refine ⟨k1, fun x hx => k2 x (h2 x hx), fun j hj => ?_⟩
    rcases List.mem_cons.1 hj with rfl | hj
    · exact h3.imp id (k2 _)
    · exact k3 j hj

/-! ### Local improvement -/

/-- Invariant of the local improvement. -/
structure LInv (c : Fin n → Fin n → ℝ) (s : MState n) : Prop where
  left : ∀ x, s.rsltI (s.rslt x) = x
  C : ∀ x, s.C x = c x (s.rslt x)
  Cp : ∀ x, s.Cp x = c x (s.Tp x)

theorem LInv.injective {c : Fin n → Fin n → ℝ} {s : MState n} (h : LInv c s) : Injective s.rslt :=
  fun x y hxy => by rw [← h.left x, ← h.left y, hxy]

theorem LInv.right {c : Fin n → Fin n → ℝ} {s : MState n} (h : LInv c s) (y : Fin n) : s.rslt (s.rsltI y) = y := by
  obtain ⟨x, rfl⟩ := (Finite.injective_iff_surjective.1 h.injective) y
  rw [h.left]

theorem localAt_inv {c : Fin n → Fin n → ℝ} {s : MState n} (h : LInv c s) (a : Fin n) :
    LInv c (localAt c s a) ∧ ∑ x, (localAt c s a).C x ≤ ∑ x, s.C x := by
  unfold localAt
  simp only
  by_cases h1 : a = s.rsltI (s.Tp a) ∨ s.rslt a = s.Tp a
  · rw [if_pos h1]; exact ⟨h, le_rfl⟩
  rw [if_neg h1]
  by_cases h2 : s.Cp a > s.C a + s.C (s.rsltI (s.Tp a))
  · rw [if_pos h2]; exact ⟨h, le_rfl⟩
  rw [if_neg h2]
  by_cases h3 : s.Cp a + c (s.rsltI (s.Tp a)) (s.rslt a) < s.C a + s.C (s.rsltI (s.Tp a))
  swap
  · rw [if_neg h3]; exact ⟨h, le_rfl⟩
  rw [if_pos h3]
  push Not at h1
  obtain ⟨hne, hbb⟩ := h1
  set ap := s.rsltI (s.Tp a) with hap
  have hrap : s.rslt ap = s.Tp a := h.right _
  refine ⟨⟨fun x => ?_, fun x => ?_, h.Cp⟩, ?_⟩
  · by_cases hx : x = ap
    · subst hx; simp
    · by_cases hxa : x = a
      · subst hxa
        simp only [update_of_ne hx, update_self]
        rw [update_of_ne (Ne.symm hbb), update_self]
      · simp only [update_of_ne hx, update_of_ne hxa]
        rw [update_of_ne (fun e => hxa (h.injective e)), update_of_ne (fun e => hx (h.injective (e.trans hrap.symm)))]
        exact h.left x
  · by_cases hx : x = ap
    · subst hx; simp
    · by_cases hxa : x = a
      · subst hxa; simp only [update_of_ne hx, update_self]; exact h.Cp x
      · simp only [update_of_ne hx, update_of_ne hxa]; exact h.C x
  · have e1 : ∀ f : Fin n → ℝ, ∑ x, f x = f a + (f ap + ∑ x ∈ (Finset.univ.erase a).erase ap, f x) := by
      intro f
      rw [← Finset.add_sum_erase _ _ (Finset.mem_univ a),
        ← Finset.add_sum_erase _ _ (Finset.mem_erase.2 ⟨Ne.symm hne, Finset.mem_univ ap⟩)]
    rw [e1 s.C, e1 (update _ _ _)]
    have e2 : ∑ x ∈ (Finset.univ.erase a).erase ap,
        update (update s.C a (s.Cp a)) ap (c ap (s.rslt a)) x = ∑ x ∈ (Finset.univ.erase a).erase ap, s.C x := by
      refine Finset.sum_congr rfl fun x hx => ?_
      rw [Finset.mem_erase, Finset.mem_erase] at hx
      rw [update_of_ne hx.1, update_of_ne hx.2.1]
    rw [e2, update_self, update_of_ne hne, update_self]
    linarith

theorem locals_inv {c : Fin n → Fin n → ℝ} (CCs : List (List (Fin n))) (s : MState n) (h : LInv c s) :
    LInv c (CCs.foldl (fun t CC => CC.foldl (localAt c) t) s) ∧
    ∑ x, (CCs.foldl (fun t CC => CC.foldl (localAt c) t) s).C x ≤ ∑ x, s.C x := by
  have h1 : ∀ (l : List (Fin n)) (s : MState n), LInv c s →
      LInv c (l.foldl (localAt c) s) ∧ ∑ x, (l.foldl (localAt c) s).C x ≤ ∑ x, s.C x := by
    intro l
    induction l with
    | nil => exact fun s h => ⟨h, le_rfl⟩
    | cons a l ih =>
      intro s h
      obtain ⟨k1, k2⟩ := localAt_inv h a
      obtain ⟨m1, m2⟩ := ih _ k1
      exact ⟨m1, m2.trans k2⟩
  induction CCs generalizing s with
  | nil => exact ⟨h, le_rfl⟩
  | cons CC CCs ih =>
    obtain ⟨k1, k2⟩ := h1 CC s h
    obtain ⟨m1, m2⟩ := ih _ k1
    exact ⟨m1, m2.trans k2⟩

/-! ### One plan, all plans -/

/-- Invariant of the loop over the plans. -/
structure CurOk (c : Fin n → Fin n → ℝ) (s : Cur n) : Prop where
  left : ∀ x, s.rsltI (s.rslt x) = x
  C : ∀ x, s.C x = c x (s.rslt x)

theorem CurOk.injective {c : Fin n → Fin n → ℝ} {s : Cur n} (h : CurOk c s) : Injective s.rslt :=
  fun x y hxy => by rw [← h.left x, ← h.left y, hxy]

theorem curOf_ok (c : Fin n → Fin n → ℝ) {T : Plan n} (hT : Injective T) : CurOk c (curOf c T) :=
  ⟨getInverse_apply hT, fun _ => rfl⟩

/-- The set where a mixing bijection follows `R0` is stable. -/
theorem mix_stable {R0 T0 sig ρ : Plan n} (hsig : ∀ x, T0 (sig x) = R0 x) (hρ : Injective ρ)
    (hm : ∀ x, ρ x = R0 x ∨ ρ x = T0 x) : Stable sig (Finset.univ.filter fun x => ρ x = R0 x) := by
  intro x hx
  simp only [Finset.mem_filter, Finset.mem_univ, true_and] at hx ⊢
  by_cases hf : sig x = x
  · rw [hf]; exact hx
  · rcases hm (sig x) with h | h
    · exact h
    · exact absurd (hρ (by rw [h, hsig, hx])) hf

theorem mergeOne_ok {c : Fin n → Fin n → ℝ} {s : Cur n} (h : CurOk c s) {T : Plan n} (hT : Injective T) :
    CurOk c (mergeOne c s T) ∧ ∀ ρ : Plan n, Injective ρ → (∀ x, ρ x = s.rslt x ∨ ρ x = T x) →
      ∑ x, (mergeOne c s T).C x ≤ ∑ x, c x (ρ x) := by
  have hR := h.injective
  set sig : Plan n := fun i => getInverse T (s.rslt i) with hsigdef
  have hsig : ∀ x, T (sig x) = s.rslt x := fun x => apply_getInverse hT _
  have hs : Injective sig := fun x y h => hR (by rw [← hsig, ← hsig, h])
  have h0 : CInv c s.rslt T sig ⟨s.rslt, s.rsltI, s.C, T, fun i => c i (T i)⟩ fun _ => false := by
    refine ⟨⟨∅, ?_, by simp, by simp, by simp⟩, h.left, h.C, fun _ => rfl, by simp, ?_, ?_⟩
    · intro x hx; simp at hx
    all_goals
      intro S _ hS
      have : S = ∅ := by
        ext x; simp only [Finset.notMem_empty, iff_false]; intro hx; simpa using hS x hx
      rw [this]; simp
  obtain ⟨k1, _, k3⟩ := cycles_inv hR hT hsig (List.finRange n)
    (⟨s.rslt, s.rsltI, s.C, T, fun i => c i (T i)⟩, (fun _ => false), []) h0
  set r := (List.finRange n).foldl (cycleAt sig)
    (⟨s.rslt, s.rsltI, s.C, T, fun i => c i (T i)⟩, (fun _ => false), []) with hr
  have hL : LInv c r.1 := ⟨k1.left, k1.C, k1.Cp⟩
  obtain ⟨m1, m2⟩ := locals_inv r.2.2 r.1 hL
  have heq : mergeOne c s T = ⟨(r.2.2.foldl (fun t CC => CC.foldl (localAt c) t) r.1).rslt,
    (r.2.2.foldl (fun t CC => CC.foldl (localAt c) t) r.1).rsltI,
    (r.2.2.foldl (fun t CC => CC.foldl (localAt c) t) r.1).C⟩ := rfl
  rw [heq]
  refine ⟨⟨m1.left, m1.C⟩, fun ρ hρ hm => m2.trans ?_⟩
  have hfix : ∀ x, r.2.1 x ≠ true → r.1.rslt x = s.rslt x ∧ s.rslt x = T x := by
    intro x hx
    have hf := (k3 x (List.mem_finRange x)).resolve_right hx
    obtain ⟨W, _, hWv, hWr, _⟩ := k1.inv
    refine ⟨?_, by rw [← hsig, hf]⟩
    rw [hWr, if_neg fun hW => hx (hWv x hW)]
  have hgen : ∀ S : Finset (Fin n), Stable sig S → ∀ f : Fin n → ℝ,
      (∀ S : Finset (Fin n), Stable sig S → (∀ x ∈ S, r.2.1 x = true) → ∑ x ∈ S, r.1.C x ≤ ∑ x ∈ S, f x) →
      (∀ x, r.2.1 x ≠ true → f x = c x (s.rslt x)) → ∑ x ∈ S, r.1.C x ≤ ∑ x ∈ S, f x := by
    intro S hS f hf1 hf2
    rw [← Finset.sum_filter_add_sum_filter_not S (fun x => r.2.1 x = true) r.1.C,
      ← Finset.sum_filter_add_sum_filter_not S (fun x => r.2.1 x = true) f]
    refine add_le_add (hf1 _ ?_ ?_) ?_
    · intro x hx
      rw [Finset.mem_filter] at hx ⊢
      exact ⟨hS x hx.1, k1.vis x hx.2⟩
    · intro x hx; exact (Finset.mem_filter.1 hx).2
    · refine Finset.sum_le_sum fun x hx => ?_
      rw [Finset.mem_filter] at hx
      rw [hf2 x hx.2, k1.C, (hfix x hx.2).1]
  set S := Finset.univ.filter fun x => ρ x = s.rslt x with hSdef
  have hS : Stable sig S := mix_stable hsig hρ hm
  have hSc : Stable sig Sᶜ := by
    intro x hx
    rw [Finset.mem_compl] at hx ⊢
    exact fun hx' => hx ((hS.iff hs x).2 hx')
  rw [← Finset.sum_add_sum_compl S r.1.C, ← Finset.sum_add_sum_compl S fun x => c x (ρ x)]
  refine add_le_add ?_ ?_
  · refine (hgen S hS (fun x => c x (s.rslt x)) k1.costR fun _ _ => rfl).trans (le_of_eq ?_)
    refine Finset.sum_congr rfl fun x hx => ?_
    rw [(Finset.mem_filter.1 hx).2]
  · refine (hgen Sᶜ hSc (fun x => c x (T x)) k1.costT fun x hx => by rw [(hfix x hx).2]).trans (le_of_eq ?_)
    refine Finset.sum_congr rfl fun x hx => ?_
    rw [Finset.mem_compl, hSdef, Finset.mem_filter] at hx
    rw [(hm x).resolve_left fun h => hx ⟨Finset.mem_univ x, h⟩]

theorem foldl_mergeOne_ok {c : Fin n → Fin n → ℝ} (l : List (Plan n)) (hl : ∀ T ∈ l, Injective T) {s : Cur n}
    (h : CurOk c s) :
    CurOk c (l.foldl (mergeOne c) s) ∧ ∑ x, (l.foldl (mergeOne c) s).C x ≤ ∑ x, s.C x ∧
    ∀ T ∈ l, ∑ x, (l.foldl (mergeOne c) s).C x ≤ ∑ x, c x (T x) := by
  induction l generalizing s with
  | nil => exact ⟨h, le_rfl, by simp⟩
  | cons T l ih =>
    have hT := hl T (List.mem_cons_self ..)
    obtain ⟨k1, k2⟩ := mergeOne_ok h hT
    obtain ⟨m1, m2, m3⟩ := ih (fun T hT => hl T (List.mem_cons_of_mem _ hT)) k1
    have e1 : ∑ x, (mergeOne c s T).C x ≤ ∑ x, s.C x :=
      (k2 s.rslt h.injective fun _ => Or.inl rfl).trans (le_of_eq (Finset.sum_congr rfl fun x _ => (h.C x).symm))
    refine ⟨m1, m2.trans e1, fun U hU => ?_⟩
    rcases List.mem_cons.1 hU with rfl | hU
    · exact m2.trans (k2 U hT fun _ => Or.inr rfl)
    · exact m3 U hU

theorem CurOk.cost {c : Fin n → Fin n → ℝ} {s : Cur n} (h : CurOk c s) : ∑ x, s.C x = ∑ x, c x (s.rslt x) :=
  Finset.sum_congr rfl fun x _ => h.C x

theorem bijCost_le {c : Fin n → Fin n → ℝ} {S T : Plan n} (h : ∑ x, c x (S x) ≤ ∑ x, c x (T x)) :
    Spec.bijCost c S ≤ Spec.bijCost c T :=
  div_le_div_of_nonneg_right h (Nat.cast_nonneg n)

theorem mergeRanked_ok {c : Fin n → Fin n → ℝ} {ranked : List (Plan n)} {T0 : Option (Plan n)} {R : Plan n}
    (hl : ∀ T ∈ ranked, Injective T) (h0 : ∀ T, T0 = some T → Injective T) (h : mergeRanked c ranked T0 = some R) :
    Injective R ∧ (∀ T ∈ ranked, Spec.bijCost c R ≤ Spec.bijCost c T) ∧
    ∀ T, T0 = some T → Spec.bijCost c R ≤ Spec.bijCost c T := by
  rcases T0 with _ | T
  · rcases ranked with _ | ⟨T, l⟩
    · simp [mergeRanked] at h
    · simp only [mergeRanked, Option.some.injEq] at h
      have hT := hl T (List.mem_cons_self ..)
      obtain ⟨k1, k2, k3⟩ := foldl_mergeOne_ok l (fun T hT => hl T (List.mem_cons_of_mem _ hT)) (curOf_ok c hT)
      rw [k1.cost, h] at k2 k3
      refine ⟨h ▸ k1.injective, fun U hU => ?_, by simp⟩
      rcases List.mem_cons.1 hU with rfl | hU
      · exact bijCost_le k2
      · exact bijCost_le (k3 U hU)
  · rcases ranked with _ | ⟨U, l⟩
    · simp [mergeRanked] at h
    · simp only [mergeRanked, Option.some.injEq] at h
      obtain ⟨k1, k2, k3⟩ := foldl_mergeOne_ok (U :: l) hl (curOf_ok c (h0 T rfl))
      rw [k1.cost, h] at k2 k3
      refine ⟨h ▸ k1.injective, fun V hV => bijCost_le (k3 V hV), fun V hV => ?_⟩
      cases hV
      exact bijCost_le k2

theorem Merged.ok {c : Fin n → Fin n → ℝ} {plans : List (Plan n)} {T0 : Option (Plan n)} {R : Plan n}
    (hl : ∀ T ∈ plans, Injective T) (h0 : ∀ T, T0 = some T → Injective T) (h : Merged c plans T0 R) :
    Injective R ∧ (∀ T ∈ plans, Spec.bijCost c R ≤ Spec.bijCost c T) ∧
    ∀ T, T0 = some T → Spec.bijCost c R ≤ Spec.bijCost c T := by
  obtain ⟨ranked, hr, hm⟩ := h
  obtain ⟨k1, k2, k3⟩ := mergeRanked_ok (fun T hT => hl T (hr.1.mem_iff.1 hT)) h0 hm
  exact ⟨k1, fun T hT => k2 T (hr.1.mem_iff.2 hT), k3⟩

theorem mergeOne_self {c : Fin n → Fin n → ℝ} (s : Cur n) {T : Plan n} (hT : Injective T) (h : s.rslt = T) :
    (mergeOne c s T).rslt = T := by
  have hstep : ∀ (l : List (Fin n)) (st : MState n × (Fin n → Bool) × List (List (Fin n))),
      l.foldl (cycleAt fun i => getInverse T (s.rslt i)) st = st := by
    intro l
    induction l with
    | nil => exact fun _ => rfl
    | cons i l ih =>
      intro st
      rw [List.foldl_cons]
      have : cycleAt (fun i => getInverse T (s.rslt i)) st i = st := by
        unfold cycleAt
        by_cases hv : st.2.1 i = true
        · rw [if_pos hv]
        · rw [if_neg hv, if_pos (by rw [h]; exact getInverse_apply hT i)]
      rw [this, ih]
  unfold mergeOne
  simp only
  rw [hstep]
  exact h

theorem foldl_mergeOne_self {c : Fin n → Fin n → ℝ} {T : Plan n} (hT : Injective T) (l : List (Plan n))
    (hl : ∀ U ∈ l, U = T) (s : Cur n) (h : s.rslt = T) : (l.foldl (mergeOne c) s).rslt = T := by
  induction l generalizing s with
  | nil => exact h
  | cons U l ih =>
    have hU := hl U (List.mem_cons_self ..)
    subst hU
    exact ih (fun V hV => hl V (List.mem_cons_of_mem _ hV)) _ (mergeOne_self s hT h)

theorem Merged.self {c : Fin n → Fin n → ℝ} {plans : List (Plan n)} {T0 : Option (Plan n)} {T R : Plan n}
    (hT : Injective T) (hl : ∀ U ∈ plans, U = T) (h0 : ∀ U, T0 = some U → U = T) (h : Merged c plans T0 R) :
    R = T := by
  obtain ⟨ranked, hr, hm⟩ := h
  have hl' : ∀ U ∈ ranked, U = T := fun U hU => hl U (hr.1.mem_iff.1 hU)
  rcases T0 with _ | U
  · rcases ranked with _ | ⟨U, l⟩
    · simp [mergeRanked] at hm
    · simp only [mergeRanked, Option.some.injEq] at hm
      rw [← hm]
      exact foldl_mergeOne_self hT l (fun V hV => hl' V (List.mem_cons_of_mem _ hV)) _
        (hl' U (List.mem_cons_self ..))
  · rcases ranked with _ | ⟨V, l⟩
    · simp [mergeRanked] at hm
    · simp only [mergeRanked, Option.some.injEq] at hm
      rw [← hm]
      exact foldl_mergeOne_self hT (V :: l) hl' _ (h0 U rfl)

theorem exists_merged (c : Fin n → Fin n → ℝ) (plans : List (Plan n)) (hp : plans ≠ []) (T0 : Option (Plan n)) :
    ∃ R, Merged c plans T0 R := by
  classical
  set r := plans.mergeSort fun S T => decide (evalMatching c S ≤ evalMatching c T) with hr
  have hperm : r.Perm plans := List.mergeSort_perm _ _
  have hne : r ≠ [] := fun h => hp (by rw [h] at hperm; exact hperm.symm.eq_nil)
  have hsort : r.Pairwise fun S T => evalMatching c S ≤ evalMatching c T := by
    have := List.pairwise_mergeSort (le := fun S T => decide (evalMatching c S ≤ evalMatching c T))
      (fun a b d hab hbd => by
        simp only [decide_eq_true_eq] at hab hbd ⊢
        exact hab.trans hbd)
      (fun a b => by
        simp only [Bool.or_eq_true, decide_eq_true_eq]
        exact le_total _ _) plans
    exact this.imp fun h => by simpa using h
  obtain ⟨R, hR⟩ : ∃ R, mergeRanked c r T0 = some R := by
    rcases hrr : r with _ | ⟨U, l⟩
    · exact absurd hrr hne
    · rcases T0 with _ | T
      · exact ⟨_, rfl⟩
      · exact ⟨_, rfl⟩
  exact ⟨R, r, ⟨hperm, hsort⟩, hR⟩

end POT.Bsp
