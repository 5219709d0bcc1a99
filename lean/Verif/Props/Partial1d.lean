import Verif.Spec.Matching
import Verif.Model.Partial1d
import Verif.Lemmas.Partial1dOpt
import Verif.Lemmas.PartialMatching
import Mathlib.Algebra.Order.Field.Rat
import Mathlib.Algebra.Field.Rat
import Mathlib.Tactic.NormNum
import Mathlib.Tactic.FinCases

/-!
# C47: `partial_wasserstein_1d`

For every number of pairs up to the requested one the selected points and the cumulated marginal costs solve the partial matching problem on the line.
-/

set_option linter.unusedSectionVars false

namespace POT.Props

open Spec Partial1d

variable {R : Type*} [Field R] [LinearOrder R] [IsStrictOrderedRing R]

section
variable {x y : ℕ → R} {nx ny : ℕ} {S : Seq R}

theorem greedy_drop {p : ℕ} {ps : List (ℕ × ℕ)} {ms : List R} {act : ℕ → Bool} (h : Greedy S p ps ms act) :
    ∀ d, ∃ act', Greedy S p (ps.drop d) (ms.drop d) act' := by
  induction h with
  | nil => intro d; exact ⟨_, by simpa using Greedy.nil⟩
  | cons h hv hmin ih =>
    intro d
    cases d with
    | zero => exact ⟨_, Greedy.cons h hv hmin⟩
    | succ d => simpa using ih d

/-- the point of the first sample in a pair of positions -/
def xOf (S : Seq R) (ab : ℕ × ℕ) : ℕ := if S.isY ab.1 then ab.2 else ab.1

/-- the point of the second sample in a pair of positions -/
def yOf (S : Seq R) (ab : ℕ × ℕ) : ℕ := if S.isY ab.1 then ab.1 else ab.2

theorem rowOut_eq (S : Seq R) (ab : ℕ × ℕ) (h : S.isY ab.1 ≠ S.isY ab.2) : rowOut S ab = ((S.rank (xOf S ab) : ℤ), (S.rank (yOf S ab) : ℤ)) := by
  unfold rowOut xOf yOf
  revert h
  cases S.isY ab.1 <;> cases S.isY ab.2 <;> simp

theorem gather_nat (arr : ℕ → ℕ) (n r : ℕ) : gather arr n (r : ℤ) = arr r := by
  unfold gather
  rw [if_neg (by omega), Int.toNat_natCast]

theorem filter_flatMap (S : Seq R) (ps : List (ℕ × ℕ)) (h : ∀ ab ∈ ps, S.isY ab.1 ≠ S.isY ab.2) :
    ofType S false (ps.flatMap fun ab => [ab.1, ab.2]) = ps.map (xOf S) ∧ ofType S true (ps.flatMap fun ab => [ab.1, ab.2]) = ps.map (yOf S) := by
  induction ps with
  | nil => simp [ofType]
  | cons ab ps ih =>
    obtain ⟨h1, h2⟩ := ih fun e he => h e (List.mem_cons_of_mem _ he)
    have h3 := h ab List.mem_cons_self
    unfold ofType at *
    rw [List.flatMap_cons, List.filter_append, List.filter_append, h1, h2, List.map_cons, List.map_cons]
    unfold xOf yOf
    revert h3
    cases e1 : S.isY ab.1 <;> cases e2 : S.isY ab.2 <;> simp [e1, e2]

theorem greedy_lists {p : ℕ} {ps : List (ℕ × ℕ)} {ms : List R} {act : ℕ → Bool} (h : Greedy S p ps ms act) :
    (ofType S false (actList act S.N)).Perm (ps.map (xOf S)) ∧ (ofType S true (actList act S.N)).Perm (ps.map (yOf S)) := by
  have hperm : (actList act S.N).Perm (ps.flatMap fun ab => [ab.1, ab.2]) := by
    rw [List.perm_ext_iff_of_nodup ((actList_pairwise act S.N).imp fun h => h.ne) h.nodup]
    intro q
    rw [mem_actList, ← h.mem q]
    exact ⟨fun h => h.2, fun hq => ⟨h.bound q hq, hq⟩⟩
  obtain ⟨h1, h2⟩ := filter_flatMap S ps fun ab hab => (h.types ab hab).2.2
  exact ⟨(hperm.filter _).trans (List.Perm.of_eq h1), (hperm.filter _).trans (List.Perm.of_eq h2)⟩

theorem exists_cx (S : Seq R) : ∀ n r, r < cx S n → ∃ a, a < n ∧ S.isY a = false ∧ cx S a = r := by
  intro n
  induction n with
  | zero => intro r h; simp [cx] at h
  | succ n ih =>
    intro r h
    rw [cx_succ] at h
    by_cases hr : r < cx S n
    · obtain ⟨a, h1, h2⟩ := ih r hr
      exact ⟨a, by omega, h2⟩
    · cases hY : S.isY n
      · rw [hY] at h
        simp only [Bool.false_eq_true, if_false] at h
        exact ⟨n, by omega, hY, by omega⟩
      · rw [hY] at h
        simp only [if_true] at h
        omega

theorem exists_cy (S : Seq R) : ∀ n r, r < cy S n → ∃ a, a < n ∧ S.isY a = true ∧ cy S a = r := by
  intro n
  induction n with
  | zero => intro r h; simp [cy] at h
  | succ n ih =>
    intro r h
    rw [cy_succ] at h
    by_cases hr : r < cy S n
    · obtain ⟨a, h1, h2⟩ := ih r hr
      exact ⟨a, by omega, h2⟩
    · cases hY : S.isY n
      · rw [hY] at h
        simp only [Bool.false_eq_true, if_false] at h
        omega
      · rw [hY] at h
        simp only [if_true] at h
        exact ⟨n, by omega, hY, by omega⟩

/-- two unused points of opposite type leave something to insert -/
theorem exists_valid (act : ℕ → Bool) : ∀ n a b, b - a = n → a < b → b < S.N → act a = false → act b = false → S.isY a ≠ S.isY b → ∃ i j, Valid S act i j := by
  intro n
  induction n using Nat.strong_induction_on with
  | _ n ih =>
    intro a b hn hab hb ha0 hb0 ho
    by_cases hmid : ∀ q, a < q → q < b → act q = true
    · exact ⟨a, b, hab, hb, ha0, hb0, ho, hmid⟩
    · push Not at hmid
      obtain ⟨q, hq1, hq2, hq3⟩ := hmid
      have hq0 : act q = false := by simpa using hq3
      by_cases hq : S.isY q = S.isY b
      · exact ih (q - a) (by omega) a q rfl hq1 (by omega) ha0 hq0 (by rw [hq]; exact ho)
      · exact ih (b - q) (by omega) q b rfl hq2 hb hq0 hb0 hq

theorem exists_unused {c : Bool} {act : ℕ → Bool} (h : (ofType S c (actList act S.N)).length < (ofType S c (List.range S.N)).length) : ∃ q, q < S.N ∧ S.isY q = c ∧ act q = false := by
  by_contra hc
  push Not at hc
  have : ofType S c (actList act S.N) = ofType S c (List.range S.N) := by
    unfold ofType actList
    rw [List.filter_filter]
    refine List.filter_congr fun q hq => ?_
    rw [List.mem_range] at hq
    by_cases h1 : S.isY q = c
    · have := hc q hq h1
      simp [h1]
      simpa using this
    · simp [h1]
  rw [this] at h
  exact lt_irrefl _ h

theorem greedy_full (ok : SeqOk x y nx ny S) {p : ℕ} {ps : List (ℕ × ℕ)} {ms : List R} {act : ℕ → Bool} (h : Greedy S p ps ms act) (hno : ∀ i j, ¬ Valid S act i j) :
    min nx ny ≤ ps.length := by
  by_contra hc
  push Not at hc
  obtain ⟨l1, l2⟩ := greedy_lists h
  have e1 := l1.length_eq
  have e2 := l2.length_eq
  rw [List.length_map] at e1 e2
  have t1 : (ofType S false (List.range S.N)).length = nx := by
    rw [← ok.totX]
    unfold ofType cx
    simp only [beq_false]
  have t2 : (ofType S true (List.range S.N)).length = ny := by
    rw [← ok.totY]
    unfold ofType cy
    simp only [beq_true]
  obtain ⟨a, ha, haY, ha0⟩ := exists_unused (S := S) (c := false) (act := act) (by rw [e1, t1]; omega)
  obtain ⟨b, hb, hbY, hb0⟩ := exists_unused (S := S) (c := true) (act := act) (by rw [e2, t2]; omega)
  have hne : a ≠ b := by
    rintro rfl
    rw [haY] at hbY
    exact absurd hbY (by decide)
  rcases Nat.lt_or_gt_of_ne hne with hlt | hlt
  · obtain ⟨i, j, hv⟩ := exists_valid act _ a b rfl hlt hb ha0 hb0 (by rw [haY, hbY]; decide)
    exact hno i j hv
  · obtain ⟨i, j, hv⟩ := exists_valid act _ b a rfl hlt ha hb0 ha0 (by rw [haY, hbY]; decide)
    exact hno i j hv

end

/-- what the call computes, in terms of positions -/
theorem partial1d_greedy (x y : ℕ → R) (nx ny : ℕ) (sx sy : ℕ → ℕ) (hsx : IsArgsort x nx sx) (hsy : IsArgsort y ny sy) (mi : Option ℕ) (p : ℕ) :
    ∃ (S : Seq R) (ps : List (ℕ × ℕ)) (ms : List R) (act : ℕ → Bool), SeqOk (fun k => x (sx k)) (fun k => y (sy k)) nx ny S ∧ Greedy S p ps ms act ∧
      ps.length ≤ mi.getD (min nx ny) ∧ (ps.length = mi.getD (min nx ny) ∨ min nx ny ≤ ps.length) ∧
      partial1d x y nx ny sx sy mi p = .done
        ((ps.reverse ++ List.replicate (mi.getD (min nx ny) - ps.length) (0, 0)).map fun ab => gather sx nx (rowOut S ab).1)
        ((ps.reverse ++ List.replicate (mi.getD (min nx ny) - ps.length) (0, 0)).map fun ab => gather sy ny (rowOut S ab).2)
        (ms.reverse ++ List.replicate (mi.getD (min nx ny) - ps.length) 0) := by
  have ok := mkSeq_ok (fun k => x (sx k)) (fun k => y (sy k)) nx ny (fun a b h1 h2 => hsx.sorted a b h1 h2) (fun a b h1 h2 => hsy.sorted a b h1 h2)
  obtain ⟨g, hg, hgr, hle, hend⟩ := gen_spec ok p (mi.getD (min nx ny))
  refine ⟨_, g.pairs, g.marg, g.active, ok, hgr, hle, ?_, ?_⟩
  · rcases hend with h | h
    · exact Or.inl h
    · exact Or.inr (greedy_full ok hgr h)
  · unfold partial1d
    dsimp only at hg ⊢
    rw [hg]
    simp only [List.map_map, Function.comp_def]

/-- **C47.** For every sample (ties included), every order of ties and every requested number `k ≤ min(n, m)` of pairs, the call succeeds and returns `k` distinct indices on
either side and `k` marginal costs. For every `t ≤ k`, the first `t` indices on either side can be matched with cost `∑_{s<t} marg_s`, and no matching of `t` points of the
first sample with `t` points of the second is cheaper. -/
theorem C47_partial_wasserstein_1d (x y : ℕ → R) (nx ny : ℕ) (sx sy : ℕ → ℕ) (hsx : IsArgsort x nx sx) (hsy : IsArgsort y ny sy) (mi : Option ℕ) (p k : ℕ)
    (hk : mi.getD (min nx ny) = k) (hle : k ≤ min nx ny) :
    ∃ (iX iY : List ℕ) (marg : List R), partial1d x y nx ny sx sy mi p = .done iX iY marg ∧
      iX.length = k ∧ iY.length = k ∧ marg.length = k ∧ iX.Nodup ∧ iY.Nodup ∧ (∀ i ∈ iX, i < nx) ∧ (∀ j ∈ iY, j < ny) ∧
      ∀ t, t ≤ k →
        (∃ l, IsMatching nx ny l ∧ (l.map Prod.fst).Perm (iX.take t) ∧ (l.map Prod.snd).Perm (iY.take t) ∧ matchCost x y p l = (marg.take t).sum) ∧
        (∀ l, IsMatching nx ny l → l.length = t → (marg.take t).sum ≤ matchCost x y p l) := by
  obtain ⟨S, ps, ms, act, ok, hgr, h1, h2, h3⟩ := partial1d_greedy x y nx ny sx sy hsx hsy mi p
  rw [hk] at h1 h2 h3
  have hlen : ps.length = k := by omega
  have hml := hgr.length
  simp only [hlen, Nat.sub_self, List.replicate_zero, List.append_nil] at h3
  have eX : ps.reverse.map (fun ab => gather sx nx (rowOut S ab).1) = ps.reverse.map fun ab => sx (S.rank (xOf S ab)) :=
    List.map_congr_left fun ab hab => by
      rw [rowOut_eq S ab (hgr.types ab (List.mem_reverse.1 hab)).2.2]
      exact gather_nat _ _ _
  have eY : ps.reverse.map (fun ab => gather sy ny (rowOut S ab).2) = ps.reverse.map fun ab => sy (S.rank (yOf S ab)) :=
    List.map_congr_left fun ab hab => by
      rw [rowOut_eq S ab (hgr.types ab (List.mem_reverse.1 hab)).2.2]
      exact gather_nat _ _ _
  rw [eX, eY] at h3
  -- positions and indices
  have injX : ∀ a b, a < S.N → b < S.N → S.isY a = false → S.isY b = false → sx (S.rank a) = sx (S.rank b) → a = b := by
    intro a b ha hb ha' hb' he
    obtain ⟨r1, r2⟩ := ok.rankX a ha ha'
    obtain ⟨r3, r4⟩ := ok.rankX b hb hb'
    have h5 := hsx.inj _ _ (by omega) (by omega) he
    rw [r1, r3] at h5
    by_contra hne
    rcases Nat.lt_or_gt_of_ne hne with hlt | hlt
    · have := cx_mono S (show a + 1 ≤ b by omega)
      rw [cx_succ, ha'] at this
      simp at this
      omega
    · have := cx_mono S (show b + 1 ≤ a by omega)
      rw [cx_succ, hb'] at this
      simp at this
      omega
  have injY : ∀ a b, a < S.N → b < S.N → S.isY a = true → S.isY b = true → sy (S.rank a) = sy (S.rank b) → a = b := by
    intro a b ha hb ha' hb' he
    obtain ⟨r1, r2⟩ := ok.rankY a ha ha'
    obtain ⟨r3, r4⟩ := ok.rankY b hb hb'
    have h5 := hsy.inj _ _ (by omega) (by omega) he
    rw [r1, r3] at h5
    by_contra hne
    rcases Nat.lt_or_gt_of_ne hne with hlt | hlt
    · have := cy_mono S (show a + 1 ≤ b by omega)
      rw [cy_succ, ha'] at this
      simp at this
      omega
    · have := cy_mono S (show b + 1 ≤ a by omega)
      rw [cy_succ, hb'] at this
      simp at this
      omega
  have posX : ∀ i, i < nx → ∃ a, a < S.N ∧ S.isY a = false ∧ sx (S.rank a) = i := by
    intro i hi
    have hbij : ∃ r, r < nx ∧ sx r = i := by
      have hsub : ((Finset.range nx).image sx) = Finset.range nx := by
        refine Finset.eq_of_subset_of_card_le (fun v hv => ?_) ?_
        · obtain ⟨r, hr, rfl⟩ := Finset.mem_image.1 hv
          exact Finset.mem_range.2 (hsx.lt r (Finset.mem_range.1 hr))
        · rw [Finset.card_image_of_injOn]
          intro r hr r' hr' he
          exact hsx.inj r r' (Finset.mem_range.1 (Finset.mem_coe.1 hr)) (Finset.mem_range.1 (Finset.mem_coe.1 hr')) he
      have : i ∈ (Finset.range nx).image sx := by rw [hsub]; exact Finset.mem_range.2 hi
      obtain ⟨r, hr, he⟩ := Finset.mem_image.1 this
      exact ⟨r, Finset.mem_range.1 hr, he⟩
    obtain ⟨r, hr, he⟩ := hbij
    obtain ⟨a, a1, a2, a3⟩ := exists_cx S S.N r (by rw [ok.totX]; exact hr)
    exact ⟨a, a1, a2, by rw [(ok.rankX a a1 a2).1, a3, he]⟩
  have posY : ∀ i, i < ny → ∃ a, a < S.N ∧ S.isY a = true ∧ sy (S.rank a) = i := by
    intro i hi
    have hbij : ∃ r, r < ny ∧ sy r = i := by
      have hsub : ((Finset.range ny).image sy) = Finset.range ny := by
        refine Finset.eq_of_subset_of_card_le (fun v hv => ?_) ?_
        · obtain ⟨r, hr, rfl⟩ := Finset.mem_image.1 hv
          exact Finset.mem_range.2 (hsy.lt r (Finset.mem_range.1 hr))
        · rw [Finset.card_image_of_injOn]
          intro r hr r' hr' he
          exact hsy.inj r r' (Finset.mem_range.1 (Finset.mem_coe.1 hr)) (Finset.mem_range.1 (Finset.mem_coe.1 hr')) he
      have : i ∈ (Finset.range ny).image sy := by rw [hsub]; exact Finset.mem_range.2 hi
      obtain ⟨r, hr, he⟩ := Finset.mem_image.1 this
      exact ⟨r, Finset.mem_range.1 hr, he⟩
    obtain ⟨r, hr, he⟩ := hbij
    obtain ⟨a, a1, a2, a3⟩ := exists_cy S S.N r (by rw [ok.totY]; exact hr)
    exact ⟨a, a1, a2, by rw [(ok.rankY a a1 a2).1, a3, he]⟩
  have zX : ∀ a, S.isY a = false → S.z a = x (sx (S.rank a)) := fun a ha => by rw [ok.z, ha]; rfl
  have zY : ∀ a, S.isY a = true → S.z a = y (sy (S.rank a)) := fun a ha => by rw [ok.z, ha]; rfl
  have xOfOk : ∀ ab ∈ ps, xOf S ab < S.N ∧ S.isY (xOf S ab) = false := by
    intro ab hab
    obtain ⟨t1, t2, t3⟩ := hgr.types ab hab
    unfold xOf
    cases e1 : S.isY ab.1
    · exact ⟨by simp; omega, by simpa using e1⟩
    · rw [e1] at t3
      exact ⟨by simpa using t2, by simpa using t3.symm⟩
  have yOfOk : ∀ ab ∈ ps, yOf S ab < S.N ∧ S.isY (yOf S ab) = true := by
    intro ab hab
    obtain ⟨t1, t2, t3⟩ := hgr.types ab hab
    unfold yOf
    cases e1 : S.isY ab.1
    · rw [e1] at t3
      exact ⟨by simpa using t2, by simpa using t3.symm⟩
    · exact ⟨by simp; omega, by simpa using e1⟩
  have ndX : (ps.map (xOf S)).Nodup := by
    rw [← (greedy_lists hgr).1.nodup_iff]
    exact List.Nodup.filter _ ((actList_pairwise act S.N).imp fun h => h.ne)
  have ndY : (ps.map (yOf S)).Nodup := by
    rw [← (greedy_lists hgr).2.nodup_iff]
    exact List.Nodup.filter _ ((actList_pairwise act S.N).imp fun h => h.ne)
  refine ⟨_, _, _, h3, by simp [hlen], by simp [hlen], by simp [hml, hlen], ?_, ?_, ?_, ?_, fun t ht => ⟨?_, ?_⟩⟩
  · have e : ps.reverse.map (fun ab => sx (S.rank (xOf S ab))) = ((ps.map (xOf S)).map fun a => sx (S.rank a)).reverse := by
      rw [List.map_reverse, List.map_map]; rfl
    rw [e, List.nodup_reverse]
    refine List.Nodup.map_on ?_ ndX
    intro a ha b hb he
    obtain ⟨ab, hab, rfl⟩ := List.mem_map.1 ha
    obtain ⟨cd, hcd, rfl⟩ := List.mem_map.1 hb
    exact injX _ _ (xOfOk ab hab).1 (xOfOk cd hcd).1 (xOfOk ab hab).2 (xOfOk cd hcd).2 he
  · have e : ps.reverse.map (fun ab => sy (S.rank (yOf S ab))) = ((ps.map (yOf S)).map fun a => sy (S.rank a)).reverse := by
      rw [List.map_reverse, List.map_map]; rfl
    rw [e, List.nodup_reverse]
    refine List.Nodup.map_on ?_ ndY
    intro a ha b hb he
    obtain ⟨ab, hab, rfl⟩ := List.mem_map.1 ha
    obtain ⟨cd, hcd, rfl⟩ := List.mem_map.1 hb
    exact injY _ _ (yOfOk ab hab).1 (yOfOk cd hcd).1 (yOfOk ab hab).2 (yOfOk cd hcd).2 he
  · intro i hi
    obtain ⟨ab, hab, rfl⟩ := List.mem_map.1 hi
    obtain ⟨q1, q2⟩ := xOfOk ab (List.mem_reverse.1 hab)
    obtain ⟨r1, r2⟩ := ok.rankX _ q1 q2
    exact hsx.lt _ (by omega)
  · intro i hi
    obtain ⟨ab, hab, rfl⟩ := List.mem_map.1 hi
    obtain ⟨q1, q2⟩ := yOfOk ab (List.mem_reverse.1 hab)
    obtain ⟨r1, r2⟩ := ok.rankY _ q1 q2
    exact hsy.lt _ (by omega)
  · -- the monotone matching of the first `t` pairs
    obtain ⟨act', hg'⟩ := greedy_drop hgr (k - t)
    obtain ⟨l1, l2⟩ := greedy_lists hg'
    have hbal := hg'.bal _ hg'.notN
    have ln := bal_ofType hbal true
    rw [Bool.not_true] at ln
    obtain ⟨X, hX⟩ : ∃ X, X = ofType S false (actList act' S.N) := ⟨_, rfl⟩
    obtain ⟨Y, hY⟩ : ∃ Y, Y = ofType S true (actList act' S.N) := ⟨_, rfl⟩
    rw [← hX] at l1 ln
    rw [← hY] at l2 ln
    have mX : ∀ a ∈ X, a < S.N ∧ S.isY a = false := fun a ha => by
      rw [hX, mem_ofType, mem_actList] at ha
      exact ⟨ha.1.1, ha.2⟩
    have mY : ∀ a ∈ Y, a < S.N ∧ S.isY a = true := fun a ha => by
      rw [hY, mem_ofType, mem_actList] at ha
      exact ⟨ha.1.1, ha.2⟩
    have ndX' : X.Nodup := by rw [hX]; exact List.Nodup.filter _ ((actList_pairwise act' S.N).imp fun h => h.ne)
    have ndY' : Y.Nodup := by rw [hY]; exact List.Nodup.filter _ ((actList_pairwise act' S.N).imp fun h => h.ne)
    have zf : (X.zip Y).map Prod.fst = X := List.map_fst_zip (le_of_eq ln)
    have zs : (X.zip Y).map Prod.snd = Y := List.map_snd_zip (le_of_eq ln.symm)
    have lf : ((X.zip Y).map fun e => (sx (S.rank e.1), sy (S.rank e.2))).map Prod.fst = X.map fun a => sx (S.rank a) := by
      conv_rhs => rw [← zf]
      rw [List.map_map, List.map_map]; rfl
    have ls : ((X.zip Y).map fun e => (sx (S.rank e.1), sy (S.rank e.2))).map Prod.snd = Y.map fun a => sy (S.rank a) := by
      conv_rhs => rw [← zs]
      rw [List.map_map, List.map_map]; rfl
    have memzip : ∀ e ∈ X.zip Y, e.1 ∈ X ∧ e.2 ∈ Y := fun e he => by
      constructor
      · rw [← zf]; exact List.mem_map_of_mem he
      · rw [← zs]; exact List.mem_map_of_mem he
    have tk : (ps.drop (k - t)).reverse = ps.reverse.take t := by
      rw [List.reverse_drop, hlen]
      congr 1
      omega
    have tkm : (ms.drop (k - t)).reverse = ms.reverse.take t := by
      rw [List.reverse_drop, hml, hlen]
      congr 1
      omega
    refine ⟨(X.zip Y).map fun e => (sx (S.rank e.1), sy (S.rank e.2)), ⟨?_, ?_, ?_⟩, ?_, ?_, ?_⟩
    · rw [lf]
      exact List.Nodup.map_on (fun a ha b hb he => injX a b (mX a ha).1 (mX b hb).1 (mX a ha).2 (mX b hb).2 he) ndX'
    · rw [ls]
      exact List.Nodup.map_on (fun a ha b hb he => injY a b (mY a ha).1 (mY b hb).1 (mY a ha).2 (mY b hb).2 he) ndY'
    · intro e he
      obtain ⟨f, hf, rfl⟩ := List.mem_map.1 he
      obtain ⟨f1, f2⟩ := memzip f hf
      have r1 := ok.rankX _ (mX _ f1).1 (mX _ f1).2
      have r2 := ok.rankY _ (mY _ f2).1 (mY _ f2).2
      exact ⟨hsx.lt _ (by omega), hsy.lt _ (by omega)⟩
    · rw [lf, ← List.map_take, ← tk]
      refine (l1.map _).trans ?_
      rw [List.map_map, List.map_reverse]
      exact (List.reverse_perm _).symm
    · rw [ls, ← List.map_take, ← tk]
      refine (l2.map _).trans ?_
      rw [List.map_map, List.map_reverse]
      exact (List.reverse_perm _).symm
    · rw [← tkm, List.sum_reverse, ← hg'.cost, mc_ofType S p true, Bool.not_true, ← hX, ← hY]
      unfold matchCost pc
      rw [List.map_map]
      congr 1
      refine List.map_congr_left fun e he => ?_
      obtain ⟨f1, f2⟩ := memzip e he
      simp only [Function.comp]
      rw [zX _ (mX _ f1).2, zY _ (mY _ f2).2]
  · intro l hl hlt
    obtain ⟨act', hg'⟩ := greedy_drop hgr (k - t)
    have tkm : (ms.drop (k - t)).reverse = ms.reverse.take t := by
      rw [List.reverse_drop, hml, hlen]
      congr 1
      omega
    rw [← tkm, List.sum_reverse, ← hg'.cost]
    choose! fX hX1 hX2 hX3 using posX
    choose! fY hY1 hY2 hY3 using posY
    have hcost : matchCost x y p l = pc S.z p (l.map fun e => (fX e.1, fY e.2)) := by
      unfold matchCost pc
      rw [List.map_map]
      congr 1
      refine List.map_congr_left fun e he => ?_
      obtain ⟨b1, b2⟩ := hl.bound e he
      simp only [Function.comp]
      rw [zX _ (hX2 _ b1), zY _ (hY2 _ b2), hX3 _ b1, hY3 _ b2]
    rw [hcost]
    refine hg'.opt ok.mono _ ⟨?_, ?_⟩ ?_ ?_
    · have e : (l.map fun e => (fX e.1, fY e.2)).map Prod.fst = (l.map Prod.fst).map fX := by rw [List.map_map, List.map_map]; rfl
      rw [e]
      refine List.Nodup.map_on ?_ hl.fst
      intro a ha b hb he
      obtain ⟨e1, he1, rfl⟩ := List.mem_map.1 ha
      obtain ⟨e2, he2, rfl⟩ := List.mem_map.1 hb
      rw [← hX3 _ (hl.bound e1 he1).1, ← hX3 _ (hl.bound e2 he2).1, he]
    · have e : (l.map fun e => (fX e.1, fY e.2)).map Prod.snd = (l.map Prod.snd).map fY := by rw [List.map_map, List.map_map]; rfl
      rw [e]
      refine List.Nodup.map_on ?_ hl.snd
      intro a ha b hb he
      obtain ⟨e1, he1, rfl⟩ := List.mem_map.1 ha
      obtain ⟨e2, he2, rfl⟩ := List.mem_map.1 hb
      rw [← hY3 _ (hl.bound e1 he1).2, ← hY3 _ (hl.bound e2 he2).2, he]
    · intro e he
      obtain ⟨f, hf, rfl⟩ := List.mem_map.1 he
      obtain ⟨b1, b2⟩ := hl.bound f hf
      exact ⟨hX1 _ b1, hY1 _ b2, hX2 _ b1, hY2 _ b2⟩
    · rw [List.length_map, hlt, (greedy_lists hg').2.length_eq, List.length_map, List.length_drop, hlen]
      omega

/-- **C47, the documented problem.** For every `t ≤ k` the sum of the first `t` marginal costs is a lower bound on the cost of every plan `γ ≥ 0` with `γ 1 ≤ 1`, `γᵀ 1 ≤ 1` and
total mass `t`; with `C47_partial_wasserstein_1d` (the bound is attained by a matching) it is the value of the problem stated in the documentation. -/
theorem C47_partial_wasserstein_1d_plans (x y : ℕ → R) (nx ny : ℕ) (sx sy : ℕ → ℕ) (hsx : IsArgsort x nx sx) (hsy : IsArgsort y ny sy) (mi : Option ℕ) (p k : ℕ)
    (hk : mi.getD (min nx ny) = k) (hle : k ≤ min nx ny) :
    ∃ (iX iY : List ℕ) (marg : List R), partial1d x y nx ny sx sy mi p = .done iX iY marg ∧
      ∀ t, t ≤ k → ∀ G : Fin nx → Fin ny → R, IsPartial (fun _ => 1) (fun _ => 1) G → mass G = t →
        (marg.take t).sum ≤ cost (fun (i : Fin nx) (j : Fin ny) => |x i - y j| ^ p) G := by
  obtain ⟨iX, iY, marg, h, _, _, _, _, _, _, _, h2⟩ := C47_partial_wasserstein_1d x y nx ny sx sy hsx hsy mi p k hk hle
  refine ⟨iX, iY, marg, h, fun t ht G hG hm => ?_⟩
  exact partial_ge_matching (fun i j => |x i - y j| ^ p) _ (fun l hl hlt => (h2 t ht).2 l hl hlt) G hG hm

/-- **C47, defect.** For more than `min(n, m)` requested pairs the call does not return `min(n, m, k)` indices as documented but `k`, so that on one side an index is repeated or
out of range. -/
theorem C47_padding_refuted (x y : ℕ → R) (nx ny : ℕ) (sx sy : ℕ → ℕ) (hsx : IsArgsort x nx sx) (hsy : IsArgsort y ny sy) (p k : ℕ) (hk : min nx ny < k) :
    ∃ (iX iY : List ℕ) (marg : List R), partial1d x y nx ny sx sy (some k) p = .done iX iY marg ∧ iX.length = k ∧ iY.length = k ∧ marg.length = k ∧
      ¬ (iX.Nodup ∧ iY.Nodup ∧ (∀ i ∈ iX, i < nx) ∧ ∀ j ∈ iY, j < ny) := by
  obtain ⟨S, ps, ms, act, ok, hgr, h1, h2, h3⟩ := partial1d_greedy x y nx ny sx sy hsx hsy (some k) p
  have hml := hgr.length
  simp only [Option.getD_some] at h1 h2 h3
  have hX : ((ps.reverse ++ List.replicate (k - ps.length) (0, 0)).map fun ab => gather sx nx (rowOut S ab).1).length = k := by
    simp; omega
  have hY : ((ps.reverse ++ List.replicate (k - ps.length) (0, 0)).map fun ab => gather sy ny (rowOut S ab).2).length = k := by
    simp; omega
  refine ⟨_, _, _, h3, hX, hY, by simp; omega, ?_⟩
  rintro ⟨n1, n2, b1, b2⟩
  have c1 := (List.subperm_of_subset n1 (l₂ := List.range nx) fun i hi => List.mem_range.2 (b1 i hi)).length_le
  have c2 := (List.subperm_of_subset n2 (l₂ := List.range ny) fun i hi => List.mem_range.2 (b2 i hi)).length_le
  rw [hX, List.length_range] at c1
  rw [hY, List.length_range] at c2
  omega

/-! ## A concrete case -/

/-- the example of the documentation: `x = [5, -2, 4]`, `y = [-1, 1, 3]` -/
def ex1dX : ℕ → ℚ := fun k => if k = 0 then 5 else if k = 1 then -2 else 4
/-- second sample -/
def ex1dY : ℕ → ℚ := fun k => if k = 0 then -1 else if k = 1 then 1 else 3
/-- `np.argsort` of the first sample -/
def ex1dS : ℕ → ℕ := fun k => if k = 0 then 1 else if k = 1 then 2 else 0

/-- The hypotheses of C47 are met by the example of the documentation. -/
example : ∃ (iX iY : List ℕ) (marg : List ℚ), partial1d ex1dX ex1dY 3 3 ex1dS id (some 2) 1 = .done iX iY marg ∧ iX.length = 2 := by
  have h1 : IsArgsort ex1dX 3 ex1dS := by
    refine ⟨fun k hk => ?_, fun k l hk hl h => ?_, fun k l h hl => ?_⟩
    · unfold ex1dS; split_ifs <;> omega
    · unfold ex1dS at h; split_ifs at h <;> omega
    · have : k = 0 ∧ l = 0 ∨ k = 0 ∧ l = 1 ∨ k = 0 ∧ l = 2 ∨ k = 1 ∧ l = 1 ∨ k = 1 ∧ l = 2 ∨ k = 2 ∧ l = 2 := by omega
      rcases this with ⟨rfl, rfl⟩ | ⟨rfl, rfl⟩ | ⟨rfl, rfl⟩ | ⟨rfl, rfl⟩ | ⟨rfl, rfl⟩ | ⟨rfl, rfl⟩ <;> norm_num [ex1dX, ex1dS]
  have h2 : IsArgsort ex1dY 3 id := by
    refine ⟨fun k hk => hk, fun k l hk hl h => h, fun k l h hl => ?_⟩
    have : k = 0 ∧ l = 0 ∨ k = 0 ∧ l = 1 ∨ k = 0 ∧ l = 2 ∨ k = 1 ∧ l = 1 ∨ k = 1 ∧ l = 2 ∨ k = 2 ∧ l = 2 := by omega
    rcases this with ⟨rfl, rfl⟩ | ⟨rfl, rfl⟩ | ⟨rfl, rfl⟩ | ⟨rfl, rfl⟩ | ⟨rfl, rfl⟩ | ⟨rfl, rfl⟩ <;> norm_num [ex1dY]
  obtain ⟨iX, iY, m, h, hl, _⟩ := C47_partial_wasserstein_1d ex1dX ex1dY 3 3 ex1dS id h1 h2 (some 2) 1 2 rfl (by decide)
  exact ⟨iX, iY, m, h, hl⟩

end POT.Props
