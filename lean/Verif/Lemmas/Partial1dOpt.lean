import Verif.Lemmas.Partial1dSeq
import Mathlib.Analysis.Convex.Mul

/-! # The greedy selection is optimal for every number of pairs -/

set_option linter.unusedSectionVars false

namespace POT.Partial1d

variable {R : Type*} [Field R] [LinearOrder R] [IsStrictOrderedRing R]

/-! ## Exchanging two matchings -/

/-- distinct first and distinct second components -/
def IsM (l : List (ℕ × ℕ)) : Prop := (l.map Prod.fst).Nodup ∧ (l.map Prod.snd).Nodup

theorem IsM.perm {l l' : List (ℕ × ℕ)} (h : IsM l) (hp : l.Perm l') : IsM l' := ⟨(hp.map _).nodup_iff.1 h.1, (hp.map _).nodup_iff.1 h.2⟩

/-- A larger matching augments a smaller one by one point on either side; the edges are only redistributed. -/
theorem augment : ∀ (n : ℕ) (M N : List (ℕ × ℕ)), M.length = n → IsM M → IsM N → M.length < N.length →
    ∃ M' N' i j, IsM M' ∧ IsM N' ∧ (M' ++ N').Perm (M ++ N) ∧ (M'.map Prod.fst).Perm (i :: M.map Prod.fst) ∧ (M'.map Prod.snd).Perm (j :: M.map Prod.snd) := by
  intro n
  induction n with
  | zero =>
    intro M N hn hM hN hlt
    have : M = [] := List.length_eq_zero_iff.1 hn
    subst this
    cases N with
    | nil => simp at hlt
    | cons e N =>
      refine ⟨[e], N, e.1, e.2, ⟨by simp, by simp⟩, ⟨?_, ?_⟩, by simp, by simp, by simp⟩
      · exact (List.nodup_cons.1 hN.1).2
      · exact (List.nodup_cons.1 hN.2).2
  | succ n ih =>
    intro M N hn hM hN hlt
    -- a first component of `N` not used by `M`
    have hex : ∃ e ∈ N, e.1 ∉ M.map Prod.fst := by
      by_contra hc
      push Not at hc
      have hsub : N.map Prod.fst ⊆ M.map Prod.fst := by
        intro a ha
        obtain ⟨e, he, rfl⟩ := List.mem_map.1 ha
        exact hc e he
      have := (List.subperm_of_subset hN.1 hsub).length_le
      simp at this
      omega
    obtain ⟨⟨x0, y1⟩, he, hx0⟩ := hex
    dsimp only at hx0
    obtain ⟨N1, hN1⟩ : ∃ N1, N.Perm ((x0, y1) :: N1) := ⟨N.erase (x0, y1), List.perm_cons_erase he⟩
    have hN' := hN.perm hN1
    have hN1' : IsM N1 := ⟨(List.nodup_cons.1 hN'.1).2, (List.nodup_cons.1 hN'.2).2⟩
    have hx0N : x0 ∉ N1.map Prod.fst := (List.nodup_cons.1 hN'.1).1
    have hy1N : y1 ∉ N1.map Prod.snd := (List.nodup_cons.1 hN'.2).1
    by_cases hy : y1 ∈ M.map Prod.snd
    · obtain ⟨⟨x1, y1'⟩, he1, hy'⟩ := List.mem_map.1 hy
      dsimp only at hy'
      subst hy'
      obtain ⟨M1, hM1⟩ : ∃ M1, M.Perm ((x1, y1') :: M1) := ⟨M.erase (x1, y1'), List.perm_cons_erase he1⟩
      have hM' := hM.perm hM1
      have hM1' : IsM M1 := ⟨(List.nodup_cons.1 hM'.1).2, (List.nodup_cons.1 hM'.2).2⟩
      have hx1M : x1 ∉ M1.map Prod.fst := (List.nodup_cons.1 hM'.1).1
      have hy1M : y1' ∉ M1.map Prod.snd := (List.nodup_cons.1 hM'.2).1
      have hlM := hM1.length_eq
      have hlN := hN1.length_eq
      rw [List.length_cons] at hlM hlN
      obtain ⟨M2, N2, i, j, hM2, hN2, hp, hi, hj⟩ := ih M1 N1 (by omega) hM1' hN1' (by omega)
      have hpf := hp.map Prod.fst
      have hps := hp.map Prod.snd
      rw [List.map_append, List.map_append] at hpf hps
      have hx0M1 : x0 ∉ M1.map Prod.fst := fun h => hx0 ((hM1.map Prod.fst).mem_iff.2 (by rw [List.map_cons]; exact List.mem_cons_of_mem _ h))
      have hy2 : y1' ∉ M2.map Prod.snd ++ N2.map Prod.snd := fun h => by
        rcases List.mem_append.1 (hps.mem_iff.1 h) with h | h
        · exact hy1M h
        · exact hy1N h
      have hx2 : x0 ∉ M2.map Prod.fst ++ N2.map Prod.fst := fun h => by
        rcases List.mem_append.1 (hpf.mem_iff.1 h) with h | h
        · exact hx0M1 h
        · exact hx0N h
      rw [List.mem_append, not_or] at hy2 hx2
      by_cases hx1 : x1 ∈ M2.map Prod.fst
      · have hxi : x1 = i := by
          rcases List.mem_cons.1 (hi.mem_iff.1 hx1) with h | h
          · exact h
          · exact absurd h hx1M
        subst hxi
        have hx1N : x1 ∉ N2.map Prod.fst := by
          intro h
          have hc := hpf.count_eq x1
          rw [List.count_append, List.count_append, List.count_eq_zero_of_not_mem hx1M] at hc
          have h1 := List.count_pos_iff.2 h
          have h2 := List.count_pos_iff.2 hx1
          have h3 := List.nodup_iff_count_le_one.1 hN1'.1 x1
          omega
        refine ⟨(x0, y1') :: M2, (x1, y1') :: N2, x0, j, ⟨?_, ?_⟩, ⟨?_, ?_⟩, ?_, ?_, ?_⟩
        · rw [List.map_cons, List.nodup_cons]; exact ⟨hx2.1, hM2.1⟩
        · rw [List.map_cons, List.nodup_cons]; exact ⟨hy2.1, hM2.2⟩
        · rw [List.map_cons, List.nodup_cons]; exact ⟨hx1N, hN2.1⟩
        · rw [List.map_cons, List.nodup_cons]; exact ⟨hy2.2, hN2.2⟩
        · refine List.Perm.trans ?_ (hM1.append hN1).symm
          rw [List.cons_append]
          refine ((List.perm_middle.trans (List.Perm.cons _ hp)).cons _).trans ?_
          refine (List.Perm.swap _ _ _).trans ?_
          rw [List.cons_append]
          exact List.Perm.cons _ List.perm_middle.symm
        · rw [List.map_cons]
          refine List.Perm.cons _ (hi.trans ?_)
          exact (hM1.map Prod.fst).symm
        · rw [List.map_cons]
          refine (List.Perm.cons _ hj).trans ((List.Perm.swap _ _ _).trans (List.Perm.cons _ ?_))
          exact (hM1.map Prod.snd).symm
      · refine ⟨(x1, y1') :: M2, (x0, y1') :: N2, i, j, ⟨?_, ?_⟩, ⟨?_, ?_⟩, ?_, ?_, ?_⟩
        · rw [List.map_cons, List.nodup_cons]; exact ⟨hx1, hM2.1⟩
        · rw [List.map_cons, List.nodup_cons]; exact ⟨hy2.1, hM2.2⟩
        · rw [List.map_cons, List.nodup_cons]; exact ⟨hx2.2, hN2.1⟩
        · rw [List.map_cons, List.nodup_cons]; exact ⟨hy2.2, hN2.2⟩
        · refine List.Perm.trans ?_ (hM1.append hN1).symm
          rw [List.cons_append]
          refine ((List.perm_middle.trans (List.Perm.cons _ hp)).cons _).trans ?_
          rw [List.cons_append]
          exact List.Perm.cons _ List.perm_middle.symm
        · rw [List.map_cons]
          refine (List.Perm.cons _ hi).trans ((List.Perm.swap _ _ _).trans (List.Perm.cons _ ?_))
          exact (hM1.map Prod.fst).symm
        · rw [List.map_cons]
          refine (List.Perm.cons _ hj).trans ((List.Perm.swap _ _ _).trans (List.Perm.cons _ ?_))
          exact (hM1.map Prod.snd).symm
    · refine ⟨(x0, y1) :: M, N1, x0, y1, ⟨?_, ?_⟩, hN1', ?_, by simp, by simp⟩
      · rw [List.map_cons, List.nodup_cons]; exact ⟨hx0, hM.1⟩
      · rw [List.map_cons, List.nodup_cons]; exact ⟨hy, hM.2⟩
      · rw [List.cons_append]
        exact List.perm_middle.symm.trans (List.Perm.append_left _ hN1.symm)

/-! ## Monotone matchings are optimal -/

theorem convexOn_abs_pow (p : ℕ) : ConvexOn R Set.univ fun t : R => |t| ^ p := by
  refine ⟨convex_univ, fun x _ y _ a b ha hb hab => ?_⟩
  have h2 := (convexOn_pow (𝕜 := R) p).2 (Set.mem_Ici.2 (abs_nonneg x)) (Set.mem_Ici.2 (abs_nonneg y)) ha hb hab
  refine le_trans ?_ h2
  refine pow_le_pow_left₀ (abs_nonneg _) ?_ p
  simp only [smul_eq_mul]
  refine (abs_add_le _ _).trans ?_
  rw [abs_mul, abs_mul, abs_of_nonneg ha, abs_of_nonneg hb]

theorem monge_pow (p : ℕ) {x x' y y' : R} (hx : x ≤ x') (hy : y ≤ y') : |x - y| ^ p + |x' - y'| ^ p ≤ |x - y'| ^ p + |x' - y| ^ p := by
  have hh := convexOn_abs_pow (R := R) p
  rcases eq_or_lt_of_le (show x - y' ≤ x' - y by linarith) with he | hlt
  · have h1 : x - y = x - y' := by linarith
    have h2 : x' - y' = x' - y := by linarith
    rw [h1, h2]
  · obtain ⟨t, ht⟩ : ∃ t, t = (x' - x) / ((x' - x) + (y' - y)) := ⟨_, rfl⟩
    have hd : 0 < (x' - x) + (y' - y) := by linarith
    have ht0 : 0 ≤ t := by rw [ht]; exact div_nonneg (by linarith) hd.le
    have ht1 : t ≤ 1 := by rw [ht, div_le_one hd]; linarith
    have hmul : t * ((x' - x) + (y' - y)) = x' - x := by rw [ht]; exact div_mul_cancel₀ _ hd.ne'
    have e1 : x' - y' = (1 - t) • (x - y') + t • (x' - y) := by
      simp only [smul_eq_mul]; linear_combination -hmul
    have e2 : x - y = t • (x - y') + (1 - t) • (x' - y) := by
      simp only [smul_eq_mul]; linear_combination hmul
    have c1 := hh.2 (Set.mem_univ (x - y')) (Set.mem_univ (x' - y)) (sub_nonneg.2 ht1) ht0 (by ring)
    have c2 := hh.2 (Set.mem_univ (x - y')) (Set.mem_univ (x' - y)) ht0 (sub_nonneg.2 ht1) (by ring)
    rw [← e1] at c1
    rw [← e2] at c2
    simp only [smul_eq_mul] at c1 c2
    linarith

/-- cost of a list of pairs of positions -/
def pc (z : ℕ → R) (p : ℕ) (l : List (ℕ × ℕ)) : R := (l.map fun e => |z e.1 - z e.2| ^ p).sum

theorem pc_perm (z : ℕ → R) (p : ℕ) {l l' : List (ℕ × ℕ)} (h : l.Perm l') : pc z p l = pc z p l' := (h.map _).sum_eq

theorem pc_append (z : ℕ → R) (p : ℕ) (l l' : List (ℕ × ℕ)) : pc z p (l ++ l') = pc z p l + pc z p l' := by
  unfold pc
  rw [List.map_append, List.sum_append]

theorem pc_cons (z : ℕ → R) (p : ℕ) (e : ℕ × ℕ) (l : List (ℕ × ℕ)) : pc z p (e :: l) = |z e.1 - z e.2| ^ p + pc z p l := by
  unfold pc
  rw [List.map_cons, List.sum_cons]

theorem pc_zip (z : ℕ → R) (p : ℕ) (X Y : List ℕ) : pc z p (X.zip Y) = (List.zipWith (fun a b => |z a - z b| ^ p) X Y).sum := by
  unfold pc
  rw [List.map_zip_eq_zipWith]
  rfl

theorem mono_optimal (z : ℕ → R) (p : ℕ) : ∀ (X Y : List ℕ) (l : List (ℕ × ℕ)), X.Pairwise (fun a b => z a ≤ z b) → Y.Pairwise (fun a b => z a ≤ z b) →
    (l.map Prod.fst).Perm X → (l.map Prod.snd).Perm Y → pc z p (X.zip Y) ≤ pc z p l := by
  intro X
  induction X with
  | nil =>
    intro Y l _ _ h1 _
    have : l = [] := by
      have := h1.length_eq
      simpa using this
    subst this
    simp
  | cons a X ih =>
    intro Y l hX hY h1 h2
    obtain ⟨hXa, hX'⟩ := List.pairwise_cons.1 hX
    have hlen : l.length = X.length + 1 := by simpa using h1.length_eq
    cases Y with
    | nil =>
      have := h2.length_eq
      rw [List.length_map, List.length_nil] at this
      omega
    | cons b Y =>
      obtain ⟨hYb, hY'⟩ := List.pairwise_cons.1 hY
      obtain ⟨⟨a', b'⟩, he, ha'⟩ := List.mem_map.1 (h1.mem_iff.2 List.mem_cons_self)
      dsimp only at ha'
      subst ha'
      obtain ⟨l1, hl1⟩ : ∃ l1, l.Perm ((a', b') :: l1) := ⟨l.erase (a', b'), List.perm_cons_erase he⟩
      have f1 : (l1.map Prod.fst).Perm X := by
        have := (hl1.map Prod.fst).symm.trans h1
        rw [List.map_cons] at this
        exact this.cons_inv
      have s1 : (b' :: l1.map Prod.snd).Perm (b :: Y) := by
        have := (hl1.map Prod.snd).symm.trans h2
        rwa [List.map_cons] at this
      rw [pc_perm z p hl1, pc_cons, List.zip_cons_cons, pc_cons]
      dsimp only
      by_cases hb : b = b'
      · subst hb
        have := ih Y l1 hX' hY' f1 s1.cons_inv
        linarith
      · have hbm : b ∈ l1.map Prod.snd := by
          rcases List.mem_cons.1 (s1.mem_iff.2 List.mem_cons_self) with h | h
          · exact absurd h hb
          · exact h
        obtain ⟨⟨a2, b2⟩, he2, hb2⟩ := List.mem_map.1 hbm
        dsimp only at hb2
        subst hb2
        obtain ⟨l2, hl2⟩ : ∃ l2, l1.Perm ((a2, b2) :: l2) := ⟨l1.erase (a2, b2), List.perm_cons_erase he2⟩
        have f2 : (((a2, b') :: l2).map Prod.fst).Perm X := (hl2.map Prod.fst).symm.trans f1
        have s2 : (((a2, b') :: l2).map Prod.snd).Perm Y := by
          have h3 := ((hl2.map Prod.snd).symm.cons b').trans s1
          rw [List.map_cons] at h3 ⊢
          exact ((List.Perm.swap _ _ _).trans h3).cons_inv
        have h4 := ih Y _ hX' hY' f2 s2
        rw [pc_cons] at h4
        rw [pc_perm z p hl2, pc_cons]
        dsimp only at h4 ⊢
        have m1 : z a' ≤ z a2 := hXa a2 (f2.mem_iff.1 (by simp))
        have m2 : z b2 ≤ z b' := hYb b' (s2.mem_iff.1 (by simp))
        have := monge_pow p m1 m2
        linarith

/-! ## Removing the unused points in between -/

theorem actList_insert (act : ℕ → Bool) {i : ℕ} (hi : act i = false) {n : ℕ} (hn : i < n) : (actList (Function.update act i true) n).Perm (i :: actList act n) := by
  have e1 : actList act n = actList act i ++ (List.range' (i + 1) (n - (i + 1))).filter act := by
    rw [actList_tail act (show i + 1 ≤ n by omega), actList_succ_false act i hi]
  have e2 : actList (Function.update act i true) n = actList act i ++ (i :: (List.range' (i + 1) (n - (i + 1))).filter act) := by
    rw [actList_tail _ (show i + 1 ≤ n by omega), List.append_cons]
    congr 1
    · have := actList_split (Function.update act i true) i i (by omega) (fun q h1 h2 => by rw [le_antisymm h2 h1]; exact Function.update_self _ _ _)
      rw [this]
      congr 1
      · exact actList_congr i fun q hq => Function.update_of_ne (by omega) _ _
      · unfold interval
        rw [Nat.add_sub_cancel_left]
        rfl
    · exact List.filter_congr fun q hq => by
        rw [List.mem_range'_1] at hq
        exact Function.update_of_ne (by omega) _ _
  rw [e1, e2]
  exact List.perm_middle

theorem actList_insert2 (act : ℕ → Bool) {i j : ℕ} (hij : i ≠ j) (hi : act i = false) (hj : act j = false) {n : ℕ} (hin : i < n) (hjn : j < n) :
    (actList (Function.update (Function.update act i true) j true) n).Perm (j :: i :: actList act n) :=
  (actList_insert _ (by rw [Function.update_of_ne hij.symm]; exact hj) hjn).trans ((actList_insert act hi hin).cons _)

theorem actList_pairwise (act : ℕ → Bool) (n : ℕ) : (actList act n).Pairwise (· < ·) := List.Pairwise.filter _ List.pairwise_lt_range

/-- positions of type `c` in the list -/
def ofType (S : Seq R) (c : Bool) (l : List ℕ) : List ℕ := l.filter fun q => S.isY q == c

theorem mc_ofType (S : Seq R) (p : ℕ) (c : Bool) (l : List ℕ) : mc S p l = pc S.z p ((ofType S (!c) l).zip (ofType S c l)) := by
  rw [pc_zip]
  unfold mc ofType
  cases c
  · simp only [Bool.not_false, beq_true, beq_false]
    rw [List.zipWith_comm]
    congr 2
    funext a b
    rw [abs_sub_comm]
  · simp only [Bool.not_true, beq_true, beq_false]

theorem bal_ofType {S : Seq R} {l : List ℕ} (h : Bal S.isY l) (c : Bool) : (ofType S (!c) l).length = (ofType S c l).length := by
  unfold Bal at h
  unfold ofType
  cases c
  · simp only [Bool.not_false, beq_true, beq_false]
    exact h.symm
  · simp only [Bool.not_true, beq_true, beq_false]
    exact h

/-- the selection is at most as expensive as any matching of the same size -/
def OptAt (S : Seq R) (p : ℕ) (act : ℕ → Bool) : Prop :=
  ∀ l : List (ℕ × ℕ), IsM l → (∀ e ∈ l, e.1 < S.N ∧ e.2 < S.N ∧ S.isY e.1 = false ∧ S.isY e.2 = true) →
    l.length = (ofType S true (actList act S.N)).length → mc S p (actList act S.N) ≤ pc S.z p l

theorem OptAt.any {S : Seq R} {p : ℕ} {act : ℕ → Bool} (h : OptAt S p act) (c : Bool) (l : List (ℕ × ℕ)) (hl : IsM l)
    (ht : ∀ e ∈ l, e.1 < S.N ∧ e.2 < S.N ∧ S.isY e.1 = (!c) ∧ S.isY e.2 = c) (hlen : l.length = (ofType S true (actList act S.N)).length) : mc S p (actList act S.N) ≤ pc S.z p l := by
  cases c
  · have h1 := h (l.map Prod.swap) ⟨by simpa [List.map_map, Function.comp_def] using hl.2, by simpa [List.map_map, Function.comp_def] using hl.1⟩ (fun e he => by
      obtain ⟨f, hf, rfl⟩ := List.mem_map.1 he
      obtain ⟨a, b, c, d⟩ := ht f hf
      exact ⟨b, a, d, by simpa using c⟩) (by simpa using hlen)
    refine h1.trans (le_of_eq ?_)
    unfold pc
    rw [List.map_map]
    congr 1
    refine List.map_congr_left fun e _ => ?_
    simp only [Function.comp, Prod.fst_swap, Prod.snd_swap]
    rw [abs_sub_comm]
  · exact h l hl (fun e he => by simpa using ht e he) hlen

theorem mem_ofType {S : Seq R} {c : Bool} {l : List ℕ} {q : ℕ} : q ∈ ofType S c l ↔ q ∈ l ∧ S.isY q = c := by
  unfold ofType
  rw [List.mem_filter]
  simp

theorem mem_actList {act : ℕ → Bool} {n q : ℕ} : q ∈ actList act n ↔ q < n ∧ act q = true := by
  unfold actList
  rw [List.mem_filter, List.mem_range]

/-- A pair of unused points with another unused point `q` in between can be replaced by a closer pair. -/
theorem closer {S : Seq R} (hz : ∀ p q, p ≤ q → q < S.N → S.z p ≤ S.z q) {p : ℕ} {act : ℕ → Bool} (hbalq : ∀ q, act q = false → Bal S.isY (actList act q))
    (hN : act S.N = false) (hopt : OptAt S p act) {a b q : ℕ} (haq : a < q) (hqb : q < b) (hb : b < S.N) (ha0 : act a = false) (hq0 : act q = false) (hb0 : act b = false)
    (hopp : S.isY a ≠ S.isY b) :
    (S.isY q = S.isY b ∧ mc S p (actList (Function.update (Function.update act a true) q true) S.N) ≤ mc S p (actList (Function.update (Function.update act a true) b true) S.N)) ∨
    (S.isY q = S.isY a ∧ mc S p (actList (Function.update (Function.update act q true) b true) S.N) ≤ mc S p (actList (Function.update (Function.update act a true) b true) S.N)) := by
  obtain ⟨c, hc⟩ : ∃ c, c = S.isY b := ⟨_, rfl⟩
  have hca : S.isY a = !c := by
    rw [hc]
    revert hopp
    cases S.isY a <;> cases S.isY b <;> simp
  obtain ⟨act', hact'⟩ : ∃ act', act' = Function.update (Function.update act a true) b true := ⟨_, rfl⟩
  obtain ⟨m1, hm1⟩ : ∃ m1, m1 = actList act q := ⟨_, rfl⟩
  obtain ⟨m2, hm2⟩ : ∃ m2, m2 = (List.range' q (S.N - q)).filter act := ⟨_, rfl⟩
  obtain ⟨l1, hl1⟩ : ∃ l1, l1 = actList act' q := ⟨_, rfl⟩
  obtain ⟨l2, hl2⟩ : ∃ l2, l2 = (List.range' q (S.N - q)).filter act' := ⟨_, rfl⟩
  have hm : actList act S.N = m1 ++ m2 := by rw [hm1, hm2]; exact actList_tail act (by omega)
  have hl : actList act' S.N = l1 ++ l2 := by rw [hl1, hl2]; exact actList_tail act' (by omega)
  have p1 : l1.Perm (a :: m1) := by
    rw [hl1, hm1, actList_congr (act' := Function.update act a true) q fun r hr => by rw [hact', Function.update_of_ne (by omega)]]
    exact actList_insert act ha0 haq
  have p2 : l2.Perm (b :: m2) := by
    have h1 := actList_insert2 act (show a ≠ b by omega) ha0 hb0 (show a < S.N by omega) hb
    rw [← hact', hl, hm] at h1
    have h2 : (l1 ++ l2).Perm (l1 ++ (b :: m2)) := by
      refine h1.trans ?_
      refine List.Perm.trans ?_ (List.Perm.append_right _ p1.symm)
      rw [List.cons_append]
      refine List.Perm.trans ?_ (List.Perm.cons _ List.perm_middle.symm)
      exact List.Perm.swap _ _ _
    exact (List.perm_append_left_iff _).1 h2
  have b1 : Bal S.isY m1 := by rw [hm1]; exact hbalq q hq0
  have b2 : Bal S.isY m2 := by
    have := hbalq S.N hN
    rw [hm] at this
    exact this.right b1
  have nd : (m1 ++ m2).Nodup := by rw [← hm]; exact (actList_pairwise act S.N).imp fun h => h.ne
  have bm : ∀ r ∈ m1 ++ m2, r < S.N ∧ act r = true := fun r hr => by rw [← hm] at hr; exact mem_actList.1 hr
  have lt1 : ∀ r ∈ l1, r < q := fun r hr => by rw [hl1] at hr; exact (mem_actList.1 hr).1
  have gt2 : ∀ r ∈ l2, q ≤ r ∧ r < S.N := fun r hr => by
    rw [hl2, List.mem_filter, List.mem_range'_1] at hr
    omega
  -- the two types
  obtain ⟨F1, hF1⟩ : ∃ F, F = ofType S (!c) l1 := ⟨_, rfl⟩
  obtain ⟨G1, hG1⟩ : ∃ F, F = ofType S c l1 := ⟨_, rfl⟩
  obtain ⟨F2, hF2⟩ : ∃ F, F = ofType S (!c) l2 := ⟨_, rfl⟩
  obtain ⟨G2, hG2⟩ : ∃ F, F = ofType S c l2 := ⟨_, rfl⟩
  have cne : ((!c) == c) = false := by cases c <;> rfl
  have cne' : (c == !c) = false := by cases c <;> rfl
  have pF1 : F1.Perm (a :: ofType S (!c) m1) := by
    rw [hF1]
    refine (p1.filter _).trans (List.Perm.of_eq ?_)
    rw [List.filter_cons, hca]
    simp [ofType]
  have pG1 : G1.Perm (ofType S c m1) := by
    rw [hG1]
    refine (p1.filter _).trans (List.Perm.of_eq ?_)
    rw [List.filter_cons, hca, cne]
    simp [ofType]
  have pF2 : F2.Perm (ofType S (!c) m2) := by
    rw [hF2]
    refine (p2.filter _).trans (List.Perm.of_eq ?_)
    rw [List.filter_cons, ← hc, cne']
    simp [ofType]
  have pG2 : G2.Perm (b :: ofType S c m2) := by
    rw [hG2]
    refine (p2.filter _).trans (List.Perm.of_eq ?_)
    rw [List.filter_cons, ← hc]
    simp [ofType]
  have ln1 := bal_ofType b1 c
  have ln2 := bal_ofType b2 c
  have lF1 := pF1.length_eq
  have lG1 := pG1.length_eq
  have lF2 := pF2.length_eq
  have lG2 := pG2.length_eq
  rw [List.length_cons] at lF1 lG2
  obtain ⟨F1', f, hf⟩ : ∃ F1' f, F1 = F1' ++ [f] := by
    rcases List.eq_nil_or_concat F1 with h | ⟨L, x, h⟩
    · rw [h] at lF1; simp at lF1
    · exact ⟨L, x, by simpa using h⟩
  obtain ⟨g, G2', hg⟩ : ∃ g G2', G2 = g :: G2' := by
    cases G2 with
    | nil => simp at lG2
    | cons g G => exact ⟨g, G, rfl⟩
  have lF1' : F1'.length = G1.length := by
    rw [hf, List.length_append, List.length_singleton] at lF1
    omega
  have lG2' : F2.length = G2'.length := by
    rw [hg, List.length_cons] at lG2
    omega
  have hcost : mc S p (actList act' S.N) = pc S.z p (F1'.zip G1) + |S.z f - S.z g| ^ p + pc S.z p (F2.zip G2') := by
    rw [mc_ofType S p c, hl]
    have e1 : ofType S (!c) (l1 ++ l2) = F1' ++ (f :: F2) := by
      unfold ofType at *
      rw [List.filter_append, ← hF1, ← hF2, hf, ← List.append_cons]
    have e2 : ofType S c (l1 ++ l2) = G1 ++ (g :: G2') := by
      unfold ofType at *
      rw [List.filter_append, ← hG1, ← hG2, hg]
    rw [e1, e2, List.zip_append lF1', pc_append, List.zip_cons_cons, pc_cons]
    ring
  have hC : mc S p (actList act S.N) = pc S.z p ((ofType S (!c) m1).zip (ofType S c m1)) + pc S.z p ((ofType S (!c) m2).zip (ofType S c m2)) := by
    rw [hm, mc_append S p b1, mc_ofType S p c m1, mc_ofType S p c m2]
  have hlenC : (ofType S true (actList act S.N)).length = (ofType S c m1).length + (ofType S c m2).length := by
    have h1 := bal_ofType (hbalq S.N hN) c
    have h2 : (ofType S true (actList act S.N)).length = (ofType S c (actList act S.N)).length := by
      cases c
      · exact h1
      · rfl
    rw [h2, hm]
    unfold ofType
    rw [List.filter_append, List.length_append]
  have fm : f ∈ l1 := by
    have : f ∈ F1 := by rw [hf]; simp
    rw [hF1] at this
    exact (mem_ofType.1 this).1
  have gm : g ∈ l2 := by
    have : g ∈ G2 := by rw [hg]; simp
    rw [hG2] at this
    exact (mem_ofType.1 this).1
  have zfq : S.z f ≤ S.z q := hz f q (lt1 f fm).le (by omega)
  have zqg : S.z q ≤ S.z g := hz q g (gt2 g gm).1 (gt2 g gm).2
  rw [← hact']
  have ndt : ∀ d, (ofType S d m1 ++ ofType S d m2).Nodup := by
    intro d
    unfold ofType
    rw [← List.filter_append]
    exact nd.filter _
  have zipfst : ∀ {X Y : List ℕ}, X.length = Y.length → (X.zip Y).map Prod.fst = X := fun h => List.map_fst_zip (le_of_eq h)
  have zipsnd : ∀ {X Y : List ℕ}, X.length = Y.length → (X.zip Y).map Prod.snd = Y := fun h => List.map_snd_zip (le_of_eq h.symm)
  have typeF : ∀ d, ∀ r, r ∈ ofType S d m1 ++ ofType S d m2 → r < S.N ∧ S.isY r = d := by
    intro d r hr
    rcases List.mem_append.1 hr with h | h
    · obtain ⟨h1, h2⟩ := mem_ofType.1 h
      exact ⟨(bm r (List.mem_append_left _ h1)).1, h2⟩
    · obtain ⟨h1, h2⟩ := mem_ofType.1 h
      exact ⟨(bm r (List.mem_append_right _ h1)).1, h2⟩
  have sortedOf : ∀ d act'', (ofType S d (actList act'' S.N)).Pairwise (fun a b => S.z a ≤ S.z b) := by
    intro d act''
    unfold ofType
    refine List.Pairwise.filter _ ?_
    refine List.Pairwise.imp_of_mem ?_ (actList_pairwise act'' S.N)
    intro r r' _ hr' hlt
    exact hz r r' hlt.le (mem_actList.1 hr').1
  by_cases hqc : S.isY q = c
  · left
    refine ⟨hqc.trans hc, ?_⟩
    -- the remaining right part is at least as expensive as before
    have hR : mc S p (actList act S.N) ≤ pc S.z p ((ofType S (!c) m1).zip (ofType S c m1) ++ F2.zip G2') := by
      have f1 : (((ofType S (!c) m1).zip (ofType S c m1) ++ F2.zip G2').map Prod.fst) = ofType S (!c) m1 ++ F2 := by
        rw [List.map_append, zipfst ln1, zipfst lG2']
      have s1 : (((ofType S (!c) m1).zip (ofType S c m1) ++ F2.zip G2').map Prod.snd) = ofType S c m1 ++ G2' := by
        rw [List.map_append, zipsnd ln1, zipsnd lG2']
      have pf : (ofType S (!c) m1 ++ F2).Perm (ofType S (!c) m1 ++ ofType S (!c) m2) := List.Perm.append_left _ pF2
      have sub : ∀ r ∈ G2', r = b ∨ r ∈ ofType S c m2 := fun r hr => by
        have : r ∈ G2 := by rw [hg]; exact List.mem_cons_of_mem _ hr
        exact List.mem_cons.1 (pG2.mem_iff.1 this)
      have ndG : (ofType S c m1 ++ G2').Nodup := by
        have ndG2 : G2.Nodup := by
          rw [pG2.nodup_iff, List.nodup_cons]
          refine ⟨fun h => ?_, (List.nodup_append.1 (ndt c)).2.1⟩
          have := (bm b (List.mem_append_right _ (mem_ofType.1 h).1)).2
          rw [hb0] at this
          exact absurd this (by decide)
        rw [hg, List.nodup_cons] at ndG2
        rw [List.nodup_append]
        refine ⟨(List.nodup_append.1 (ndt c)).1, ndG2.2, ?_⟩
        rintro r hr r' hr' rfl
        rcases sub r hr' with h | h
        · have := (bm r (List.mem_append_left _ (mem_ofType.1 hr).1)).2
          rw [h, hb0] at this
          exact absurd this (by decide)
        · exact (List.nodup_append.1 (ndt c)).2.2 r hr r h rfl
      refine hopt.any c _ ⟨?_, ?_⟩ ?_ ?_
      · rw [f1, pf.nodup_iff]
        exact ndt (!c)
      · rw [s1]
        exact ndG
      · intro e he
        have h1 : e.1 ∈ ofType S (!c) m1 ++ ofType S (!c) m2 := by
          rw [← pf.mem_iff, ← f1]
          exact List.mem_map_of_mem he
        have h2 : e.2 ∈ ofType S c m1 ++ G2' := by
          rw [← s1]
          exact List.mem_map_of_mem he
        obtain ⟨t1, t2⟩ := typeF _ _ h1
        have h3 : e.2 < S.N ∧ S.isY e.2 = c := by
          rcases List.mem_append.1 h2 with h | h
          · exact typeF _ _ (List.mem_append_left _ h)
          · rcases sub _ h with h | h
            · rw [h]; exact ⟨hb, hc.symm⟩
            · exact typeF _ _ (List.mem_append_right _ h)
        exact ⟨t1, h3.1, t2, h3.2⟩
      · rw [hlenC, List.length_append, List.length_zip, List.length_zip]
        omega
    -- a matching of the closer pair
    have hL : mc S p (actList (Function.update (Function.update act a true) q true) S.N) ≤
        pc S.z p (F1'.zip G1 ++ ((f, q) :: (ofType S (!c) m2).zip (ofType S c m2))) := by
      rw [mc_ofType S p c]
      have pp : (actList (Function.update (Function.update act a true) q true) S.N).Perm (q :: a :: (m1 ++ m2)) := by
        rw [← hm]
        exact actList_insert2 act (by omega) ha0 hq0 (by omega) (by omega)
      refine mono_optimal S.z p _ _ _ (sortedOf _ _) (sortedOf _ _) ?_ ?_
      · rw [List.map_append, List.map_cons, zipfst lF1', zipfst ln2]
        dsimp only
        rw [List.append_cons, ← hf]
        refine (List.Perm.append_right _ pF1).trans (List.Perm.trans ?_ (pp.filter _).symm)
        rw [List.filter_cons, List.filter_cons, List.filter_append, hca, hqc, cne']
        simp [ofType]
      · rw [List.map_append, List.map_cons, zipsnd lF1', zipsnd ln2]
        dsimp only
        refine (List.Perm.append_right _ pG1).trans (List.Perm.trans ?_ (pp.filter _).symm)
        rw [List.filter_cons, List.filter_cons, List.filter_append, hca, hqc, cne]
        simp only [BEq.rfl, if_true, Bool.false_eq_true, if_false]
        exact List.perm_middle
    rw [pc_append, pc_cons] at hL
    rw [pc_append, hC] at hR
    rw [hcost]
    dsimp only at hL
    have h5 : |S.z f - S.z q| ^ p ≤ |S.z f - S.z g| ^ p := by
      refine pow_le_pow_left₀ (abs_nonneg _) ?_ p
      rw [abs_sub_comm, abs_of_nonneg (sub_nonneg.2 zfq), abs_sub_comm, abs_of_nonneg (by linarith)]
      linarith
    linarith
  · right
    have hqc' : S.isY q = !c := by
      revert hqc
      cases S.isY q <;> cases c <;> simp
    refine ⟨hqc'.trans hca.symm, ?_⟩
    have hR : mc S p (actList act S.N) ≤ pc S.z p (F1'.zip G1 ++ (ofType S (!c) m2).zip (ofType S c m2)) := by
      have f1 : ((F1'.zip G1 ++ (ofType S (!c) m2).zip (ofType S c m2)).map Prod.fst) = F1' ++ ofType S (!c) m2 := by
        rw [List.map_append, zipfst lF1', zipfst ln2]
      have s1 : ((F1'.zip G1 ++ (ofType S (!c) m2).zip (ofType S c m2)).map Prod.snd) = G1 ++ ofType S c m2 := by
        rw [List.map_append, zipsnd lF1', zipsnd ln2]
      have ps : (G1 ++ ofType S c m2).Perm (ofType S c m1 ++ ofType S c m2) := List.Perm.append_right _ pG1
      have sub : ∀ r ∈ F1', r = a ∨ r ∈ ofType S (!c) m1 := fun r hr => by
        have : r ∈ F1 := by rw [hf]; exact List.mem_append_left _ hr
        exact List.mem_cons.1 (pF1.mem_iff.1 this)
      have ndF : (F1' ++ ofType S (!c) m2).Nodup := by
        have ndF1 : F1.Nodup := by
          rw [pF1.nodup_iff, List.nodup_cons]
          refine ⟨fun h => ?_, (List.nodup_append.1 (ndt (!c))).1⟩
          have := (bm a (List.mem_append_left _ (mem_ofType.1 h).1)).2
          rw [ha0] at this
          exact absurd this (by decide)
        rw [hf, List.nodup_append] at ndF1
        rw [List.nodup_append]
        refine ⟨ndF1.1, (List.nodup_append.1 (ndt (!c))).2.1, ?_⟩
        rintro r hr r' hr' rfl
        rcases sub r hr with h | h
        · have := (bm r (List.mem_append_right _ (mem_ofType.1 hr').1)).2
          rw [h, ha0] at this
          exact absurd this (by decide)
        · exact (List.nodup_append.1 (ndt (!c))).2.2 r h r hr' rfl
      refine hopt.any c _ ⟨?_, ?_⟩ ?_ ?_
      · rw [f1]
        exact ndF
      · rw [s1, ps.nodup_iff]
        exact ndt c
      · intro e he
        have h1 : e.1 ∈ F1' ++ ofType S (!c) m2 := by
          rw [← f1]
          exact List.mem_map_of_mem he
        have h2 : e.2 ∈ ofType S c m1 ++ ofType S c m2 := by
          rw [← ps.mem_iff, ← s1]
          exact List.mem_map_of_mem he
        obtain ⟨t1, t2⟩ := typeF _ _ h2
        have h3 : e.1 < S.N ∧ S.isY e.1 = !c := by
          rcases List.mem_append.1 h1 with h | h
          · rcases sub _ h with h | h
            · rw [h]; exact ⟨by omega, hca⟩
            · exact typeF _ _ (List.mem_append_left _ h)
          · exact typeF _ _ (List.mem_append_right _ h)
        exact ⟨h3.1, t1, h3.2, t2⟩
      · rw [hlenC, List.length_append, List.length_zip, List.length_zip]
        omega
    have hL : mc S p (actList (Function.update (Function.update act q true) b true) S.N) ≤
        pc S.z p ((ofType S (!c) m1).zip (ofType S c m1) ++ ((q, g) :: F2.zip G2')) := by
      rw [mc_ofType S p c]
      have pp : (actList (Function.update (Function.update act q true) b true) S.N).Perm (b :: q :: (m1 ++ m2)) := by
        rw [← hm]
        exact actList_insert2 act (by omega) hq0 hb0 (by omega) (by omega)
      refine mono_optimal S.z p _ _ _ (sortedOf _ _) (sortedOf _ _) ?_ ?_
      · rw [List.map_append, List.map_cons, zipfst ln1, zipfst lG2']
        dsimp only
        refine (List.Perm.append_left _ (List.Perm.cons _ pF2)).trans (List.Perm.trans ?_ (pp.filter _).symm)
        rw [List.filter_cons, List.filter_cons, List.filter_append, ← hc, hqc', cne']
        simp only [BEq.rfl, if_true, Bool.false_eq_true, if_false]
        exact List.perm_middle
      · rw [List.map_append, List.map_cons, zipsnd ln1, zipsnd lG2']
        dsimp only
        rw [← hg]
        refine (List.Perm.append_left _ pG2).trans (List.Perm.trans ?_ (pp.filter _).symm)
        rw [List.filter_cons, List.filter_cons, List.filter_append, ← hc, hqc', cne]
        simp only [BEq.rfl, if_true, Bool.false_eq_true, if_false]
        exact List.perm_middle
    rw [pc_append, pc_cons] at hL
    rw [pc_append, hC] at hR
    rw [hcost]
    dsimp only at hL
    have h5 : |S.z q - S.z g| ^ p ≤ |S.z f - S.z g| ^ p := by
      refine pow_le_pow_left₀ (abs_nonneg _) ?_ p
      rw [abs_sub_comm, abs_of_nonneg (sub_nonneg.2 zqg), abs_sub_comm, abs_of_nonneg (by linarith)]
      linarith
    linarith

namespace Greedy

variable {S : Seq R} {p : ℕ} {ps : List (ℕ × ℕ)} {ms : List R} {act : ℕ → Bool}

theorem notN (h : Greedy S p ps ms act) : act S.N = false := by
  by_contra hc
  have := h.bound S.N (by simpa using hc)
  omega

/-- any pair of unused points costs at least the cheapest insertable pair -/
theorem far (hz : ∀ p q, p ≤ q → q < S.N → S.z p ≤ S.z q) (h : Greedy S p ps ms act) (hopt : OptAt S p act) {m : R} (hm : ∀ i j, Valid S act i j → m ≤ margin S p i j) :
    ∀ n a b, b - a = n → a < b → b < S.N → act a = false → act b = false → S.isY a ≠ S.isY b →
      mc S p (actList act S.N) + m ≤ mc S p (actList (Function.update (Function.update act a true) b true) S.N) := by
  intro n
  induction n using Nat.strong_induction_on with
  | _ n ih =>
    intro a b hn hab hb ha0 hb0 ho
    by_cases hmid : ∀ q, a < q → q < b → act q = true
    · have hv : Valid S act a b := ⟨hab, hb, ha0, hb0, ho, hmid⟩
      rw [h.insert_cost hv]
      have := hm a b hv
      linarith
    · push Not at hmid
      obtain ⟨q, hq1, hq2, hq3⟩ := hmid
      have hq0 : act q = false := by simpa using hq3
      rcases closer hz h.bal h.notN hopt hq1 hq2 hb ha0 hq0 hb0 ho with ⟨h1, h2⟩ | ⟨h1, h2⟩
      · exact (ih (q - a) (by omega) a q rfl hq1 (by omega) ha0 hq0 (by rw [h1]; exact ho)).trans h2
      · exact (ih (b - q) (by omega) q b rfl hq2 hb hq0 hb0 (by rw [h1]; exact ho)).trans h2

/-- **Optimality of the greedy selection**, for every number of pairs. -/
theorem opt (hz : ∀ p q, p ≤ q → q < S.N → S.z p ≤ S.z q) (h : Greedy S p ps ms act) : OptAt S p act := by
  induction h with
  | nil =>
    intro l _ _ hlen
    have e : actList (fun _ => false) S.N = [] := by unfold actList; simp
    rw [e] at hlen ⊢
    have : l = [] := List.length_eq_zero_iff.1 (by simpa [ofType] using hlen)
    rw [this]
    simp [mc, pc]
  | @cons ps ms act i0 j0 h hv hmin hopt =>
    intro l hl ht hlen
    rw [h.insert_cost hv]
    obtain ⟨A, hA⟩ : ∃ A, A = actList act S.N := ⟨_, rfl⟩
    have hbal : Bal S.isY A := by rw [hA]; exact h.bal _ h.notN
    have ln := bal_ofType hbal true
    rw [Bool.not_true] at ln
    have hcount : (ofType S true (actList (Function.update (Function.update act i0 true) j0 true) S.N)).length = (ofType S true A).length + 1 := by
      have hlt := hv.lt
      have hb := hv.bound
      have pp := actList_insert2 act (show i0 ≠ j0 by omega) hv.left hv.right (show i0 < S.N by omega) hb
      unfold ofType
      rw [(pp.filter _).length_eq, List.filter_cons, List.filter_cons, ← hA]
      have ho := hv.opp
      revert ho
      cases S.isY i0 <;> cases S.isY j0 <;> simp
    rw [hcount] at hlen
    obtain ⟨M, hM⟩ : ∃ M, M = (ofType S false A).zip (ofType S true A) := ⟨_, rfl⟩
    have Mf : M.map Prod.fst = ofType S false A := by rw [hM]; exact List.map_fst_zip (le_of_eq ln)
    have Ms : M.map Prod.snd = ofType S true A := by rw [hM]; exact List.map_snd_zip (le_of_eq ln.symm)
    have ndA : A.Nodup := by rw [hA]; exact (actList_pairwise act S.N).imp fun h => h.ne
    have hMM : IsM M := ⟨by rw [Mf]; exact ndA.filter _, by rw [Ms]; exact ndA.filter _⟩
    have lenM : M.length = (ofType S true A).length := by rw [← Ms, List.length_map]
    obtain ⟨M', N', i, j, hM', hN', hp, hi, hj⟩ := augment _ M l rfl hMM hl (by omega)
    have typesM : ∀ e ∈ M, e.1 < S.N ∧ e.2 < S.N ∧ S.isY e.1 = false ∧ S.isY e.2 = true := by
      intro e he
      have h1 : e.1 ∈ ofType S false A := by rw [← Mf]; exact List.mem_map_of_mem he
      have h2 : e.2 ∈ ofType S true A := by rw [← Ms]; exact List.mem_map_of_mem he
      rw [mem_ofType, hA, mem_actList] at h1 h2
      exact ⟨h1.1.1, h2.1.1, h1.2, h2.2⟩
    have typesAll : ∀ e ∈ M' ++ N', e.1 < S.N ∧ e.2 < S.N ∧ S.isY e.1 = false ∧ S.isY e.2 = true := by
      intro e he
      rcases List.mem_append.1 (hp.mem_iff.1 he) with h | h
      · exact typesM e h
      · exact ht e h
    have lenM' : M'.length = M.length + 1 := by simpa using hi.length_eq
    have lenN' : N'.length = (ofType S true A).length := by
      have := hp.length_eq
      rw [List.length_append, List.length_append] at this
      omega
    have c1 := hopt N' hN' (fun e he => typesAll e (List.mem_append_right _ he)) (by rw [lenN', hA])
    have c2 : pc S.z p M' + pc S.z p N' = pc S.z p M + pc S.z p l := by rw [← pc_append, ← pc_append, pc_perm S.z p hp]
    have c3 : pc S.z p M = mc S p (actList act S.N) := by rw [hM, ← hA, mc_ofType S p true]; rfl
    -- the two new points
    have hifst : i ∈ M'.map Prod.fst := hi.mem_iff.2 List.mem_cons_self
    have hjsnd : j ∈ M'.map Prod.snd := hj.mem_iff.2 List.mem_cons_self
    obtain ⟨ei, hei, hei'⟩ := List.mem_map.1 hifst
    obtain ⟨ej, hej, hej'⟩ := List.mem_map.1 hjsnd
    have ti := typesAll ei (List.mem_append_left _ hei)
    have tj := typesAll ej (List.mem_append_left _ hej)
    rw [hei'] at ti
    rw [hej'] at tj
    have hi0 : act i = false := by
      by_contra hc
      have hin : i ∈ M.map Prod.fst := by
        rw [Mf, mem_ofType, hA, mem_actList]
        exact ⟨⟨ti.1, by simpa using hc⟩, ti.2.2.1⟩
      exact (List.nodup_cons.1 (hi.nodup_iff.1 hM'.1)).1 hin
    have hj0 : act j = false := by
      by_contra hc
      have hin : j ∈ M.map Prod.snd := by
        rw [Ms, mem_ofType, hA, mem_actList]
        exact ⟨⟨tj.2.1, by simpa using hc⟩, tj.2.2.2⟩
      exact (List.nodup_cons.1 (hj.nodup_iff.1 hM'.2)).1 hin
    have hij : i ≠ j := by
      rintro rfl
      rw [ti.2.2.1] at tj
      exact absurd tj.2.2.2 (by decide)
    have sortedOf : ∀ d act'', (ofType S d (actList act'' S.N)).Pairwise (fun a b => S.z a ≤ S.z b) := by
      intro d act''
      unfold ofType
      refine List.Pairwise.filter _ ?_
      refine List.Pairwise.imp_of_mem ?_ (actList_pairwise act'' S.N)
      intro r r' _ hr' hlt
      exact hz r r' hlt.le (mem_actList.1 hr').1
    have c4 : mc S p (actList (Function.update (Function.update act i true) j true) S.N) ≤ pc S.z p M' := by
      rw [mc_ofType S p true]
      have pp := actList_insert2 act hij hi0 hj0 ti.1 tj.2.1
      refine mono_optimal S.z p _ _ _ (sortedOf _ _) (sortedOf _ _) ?_ ?_
      · refine hi.trans (List.Perm.trans ?_ (pp.filter _).symm)
        rw [List.filter_cons, List.filter_cons, ti.2.2.1, tj.2.2.2, Mf, hA]
        simp [ofType]
      · refine hj.trans (List.Perm.trans ?_ (pp.filter _).symm)
        rw [List.filter_cons, List.filter_cons, ti.2.2.1, tj.2.2.2, Ms, hA]
        simp [ofType]
    have c5 : mc S p (actList act S.N) + margin S p i0 j0 ≤ mc S p (actList (Function.update (Function.update act i true) j true) S.N) := by
      rcases Nat.lt_or_gt_of_ne hij with hlt | hlt
      · exact h.far hz hopt hmin _ i j rfl hlt tj.2.1 hi0 hj0 (by rw [ti.2.2.1, tj.2.2.2]; decide)
      · rw [Function.update_comm hij]
        exact h.far hz hopt hmin _ j i rfl hlt ti.1 hj0 hi0 (by rw [ti.2.2.1, tj.2.2.2]; decide)
    linarith

end Greedy

end POT.Partial1d
