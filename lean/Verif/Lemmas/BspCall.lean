import Verif.Lemmas.BspRun

/-!
# Lemmas on the calls: costs, buffer of plans, existence of runs, generators
-/

set_option linter.unusedSectionVars false

namespace POT.Bsp

open Function

variable {n d : ℕ}

/-! ### Costs -/

theorem foldl_max_bounds (l : List ℝ) (a : ℝ) :
    a ≤ l.foldl max a ∧ (∀ x ∈ l, x ≤ l.foldl max a) ∧ ∀ m, a ≤ m → (∀ x ∈ l, x ≤ m) → l.foldl max a ≤ m := by
  induction l generalizing a with
  | nil => simp
  | cons b l ih =>
    obtain ⟨h1, h2, h3⟩ := ih (max a b)
    simp only [List.foldl_cons]
    refine ⟨(le_max_left a b).trans h1, ?_, ?_⟩
    · intro x hx
      rcases List.mem_cons.1 hx with rfl | hx
      · exact (le_max_right a x).trans h1
      · exact h2 x hx
    · intro m ha hm
      exact h3 m (max_le ha (hm b (List.mem_cons_self ..))) fun x hx => hm x (List.mem_cons_of_mem _ hx)

theorem maxDist_eq {x y : Vec d} {m : ℝ} (h : Spec.IsMaxDist x y m) :
    (List.ofFn fun k => |x k - y k|).foldl max 0 = m := by
  obtain ⟨h1, k, rfl⟩ := h
  obtain ⟨_, b2, b3⟩ := foldl_max_bounds (List.ofFn fun k => |x k - y k|) 0
  refine le_antisymm (b3 _ (abs_nonneg _) ?_) (b2 _ (List.mem_ofFn.2 ⟨k, rfl⟩))
  intro z hz
  obtain ⟨j, rfl⟩ := List.mem_ofFn.1 hz
  exact h1 j

theorem makeCost_eq {p : ℤ} {x y : Vec d} {c : ℝ} (h : Spec.IsGroundCost p x y c) : makeCost p x y = c := by
  unfold makeCost
  by_cases h2 : p = 2
  · rw [if_pos h2, h.2 (by omega), Spec.lpPow]
    refine Finset.sum_congr rfl fun k _ => ?_
    rw [h2, ← sq_abs]
    rfl
  · rw [if_neg h2]
    by_cases h1 : p = -1
    · rw [if_pos h1]; exact maxDist_eq (h.1 h1)
    · rw [if_neg h1, h.2 h1, Spec.lpPow]

theorem pyCost_eq {p : ℤ} {X Y : Fin n → Vec d} {c : Fin n → Fin n → ℝ}
    (h : ∀ i j, Spec.IsGroundCost p (X i) (Y j) (c i j)) (T : Plan n) : pyCost p X Y T = Spec.bijCost c T := by
  unfold pyCost Spec.bijCost
  congr 1
  by_cases h1 : p = -1
  · rw [if_pos h1]
    exact Finset.sum_congr rfl fun i _ => maxDist_eq ((h i (T i)).1 h1)
  · rw [if_neg h1]
    exact Finset.sum_congr rfl fun i _ => ((h i (T i)).2 h1).symm

theorem exists_groundCost (p : ℤ) (hp : p ≠ -1 ∨ 0 < d) (x y : Vec d) : ∃ c, Spec.IsGroundCost p x y c := by
  by_cases h1 : p = -1
  · have hd : 0 < d := hp.resolve_left fun h => h h1
    haveI : Nonempty (Fin d) := ⟨⟨0, hd⟩⟩
    obtain ⟨k, hk⟩ := Finite.exists_max fun k => |x k - y k|
    exact ⟨|x k - y k|, fun _ => ⟨hk, k, rfl⟩, fun h => absurd h1 h⟩
  · exact ⟨_, fun h => absurd h h1, fun _ => rfl⟩

/-! ### The buffer of plans -/

theorem getElem_buf (perms : List (Plan n)) (i : ℕ) (j : Fin n) :
    (perms.flatMap List.ofFn)[i * n + j.val]? = (perms[i]?).map fun T => T j := by
  induction perms generalizing i with
  | nil => simp
  | cons T l ih =>
    rw [List.flatMap_cons]
    rcases i with _ | i
    · rw [List.getElem?_append_left (by simp)]
      simp
    · rw [List.getElem?_append_right (by simp; nlinarith [j.isLt])]
      have : (i + 1) * n + j.val - (List.ofFn T).length = i * n + j.val := by
        rw [List.length_ofFn, Nat.add_mul]; omega
      rw [this, ih]
      simp

theorem readPlan_eq (hn : 0 < n) (perms : List (Plan n)) (i : ℕ) :
    readPlan (perms.flatMap List.ofFn) i = perms[i]? := by
  have hlen : (perms.flatMap List.ofFn).length = perms.length * n := by
    induction perms with
    | nil => simp
    | cons T l ih => rw [List.flatMap_cons, List.length_append, ih, List.length_ofFn, List.length_cons]; ring
  unfold readPlan
  by_cases h : i < perms.length
  · have h' : (i + 1) * n ≤ (perms.flatMap List.ofFn).length := by
      rw [hlen]; exact Nat.mul_le_mul_right n h
    rw [dif_pos h', List.getElem?_eq_getElem h]
    congr 1
    funext j
    have := getElem_buf perms i j
    rw [List.getElem?_eq_getElem h, List.getElem?_eq_getElem
      (by have := j.isLt; rw [Nat.add_mul] at h'; omega)] at this
    exact Option.some.inj this
  · rw [dif_neg, List.getElem?_eq_none (not_lt.1 h)]
    rw [hlen, not_le]
    exact Nat.mul_lt_mul_of_pos_right (by omega) hn

theorem mapM_some {α β : Type} (f : α → Option β) (g : α → β) : ∀ l : List α, (∀ a ∈ l, f a = some (g a)) →
    l.mapM f = some (l.map g)
  | [], _ => rfl
  | a :: l, h => by
    rw [List.mapM_cons, h a (List.mem_cons_self ..), mapM_some f g l fun x hx => h x (List.mem_cons_of_mem _ hx)]
    rfl

theorem mapM_none {α β : Type} (f : α → Option β) : ∀ l : List α, (∃ a ∈ l, f a = none) → l.mapM f = none
  | [], h => by simp at h
  | a :: l, h => by
    rw [List.mapM_cons]
    rcases hf : f a with _ | b
    · rfl
    · obtain ⟨x, hx, hfx⟩ := h
      rcases List.mem_cons.1 hx with rfl | hx
      · rw [hf] at hfx; simp at hfx
      · rw [mapM_none f l ⟨x, hx, hfx⟩]; rfl

theorem readPlans_eq (hn : 0 < n) (perms : List (Plan n)) :
    readPlans perms = if perms.length < n then none else some (perms.take n) := by
  unfold readPlans
  by_cases h : perms.length < n
  · rw [if_pos h]
    refine mapM_none _ _ ⟨perms.length, List.mem_range.2 h, ?_⟩
    rw [readPlan_eq hn]; simp
  · rw [if_neg h, mapM_some _ (fun i => (perms[i]?).getD id)]
    · congr 1
      refine List.ext_getElem (by simp; omega) fun i h1 h2 => ?_
      have : i < perms.length := by simp at h1; omega
      simp [this]
    · intro i hi
      rw [readPlan_eq hn]
      have : i < perms.length := by rw [List.mem_range] at hi; omega
      rw [List.getElem?_eq_getElem this]; rfl

/-! ### Existence of runs -/

theorem exists_nthElement (key : Option (Fin n → ℝ)) (k : ℕ) (L : List (Fin n)) (hk : k ≤ L.length) :
    ∃ L1 L2, NthElement key k L L1 L2 := by
  classical
  rcases key with _ | κ
  · exact ⟨L.take k, L.drop k, by rw [List.take_append_drop], by simpa using hk, by simp⟩
  · set r := L.mergeSort fun a b => decide (κ a ≤ κ b) with hr
    have hp : r.Perm L := List.mergeSort_perm _ _
    have hs : r.Pairwise fun a b => κ a ≤ κ b := by
      have := List.pairwise_mergeSort (le := fun a b => decide (κ a ≤ κ b))
        (fun a b d hab hbd => by
          simp only [decide_eq_true_eq] at hab hbd ⊢
          exact hab.trans hbd)
        (fun a b => by
          simp only [Bool.or_eq_true, decide_eq_true_eq]
          exact le_total _ _) L
      exact this.imp fun h => by simpa using h
    refine ⟨r.take k, r.drop k, by rw [List.take_append_drop]; exact hp, by simp [hp.length_eq, hk], ?_⟩
    rintro κ' hκ x hx y hy
    cases hκ
    rw [← List.take_append_drop k r, List.pairwise_append] at hs
    exact hs.2.2 x hx y hy

theorem pivot_half (ctx : Ctx d) (gap : ℕ) (h : 2 ≤ gap) : PivotOk ctx gap (gap / 2) := by
  rcases ctx with _ | _ | _
  · exact ⟨by omega, by omega⟩
  · rfl
  · rfl

theorem exists_run {P : Option (Vec d) → Prop} (X Y : Fin n → Vec d) (Q : Ctx d → Prop)
    (hQ : ∀ ctx gap, Q ctx → ∃ v ctx', Dir ctx gap v ctx' ∧ P v ∧ Q ctx') :
    ∀ (m : ℕ) (ctx : Ctx d) (LA LB : List (Fin n)), Q ctx → LA.length = m + 1 → LB.length = m + 1 →
      ∃ LA' LB', Run P X Y ctx LA LB LA' LB' := by
  intro m
  induction m using Nat.strong_induction_on with
  | _ m ih =>
    intro ctx LA LB hq hA hB
    rcases Nat.eq_zero_or_pos m with rfl | hm
    · obtain ⟨a, rfl⟩ := List.length_eq_one_iff.1 hA
      obtain ⟨b, rfl⟩ := List.length_eq_one_iff.1 hB
      exact ⟨_, _, Run.leaf ctx a b⟩
    · obtain ⟨v, ctx', hd, hP, hq'⟩ := hQ ctx LA.length hq
      obtain ⟨A1, A2, hA'⟩ := exists_nthElement (v.map fun w i => dot w (X i)) (LA.length / 2) LA (by omega)
      obtain ⟨B1, B2, hB'⟩ := exists_nthElement (v.map fun w i => dot w (Y i)) (LA.length / 2) LB (by omega)
      have eA := hA'.1.length_eq
      have eB := hB'.1.length_eq
      rw [List.length_append] at eA eB
      have lA := hA'.2.1
      have lB := hB'.2.1
      obtain ⟨A1', B1', r1⟩ := ih ((m + 1) / 2 - 1) (by omega) ctx' A1 B1 hq' (by omega) (by omega)
      obtain ⟨A2', B2', r2⟩ := ih (m - (m + 1) / 2) (by omega) ctx' A2 B2 hq' (by omega) (by omega)
      exact ⟨_, _, Run.node ctx ctx' v _ LA LB A1 A2 B1 B2 A1' A2' B1' B2' (by omega) (by omega) hd hP
        (pivot_half ctx _ (by omega)) hA' hB' r1 r2⟩

theorem exists_matching {P : Option (Vec d) → Prop} (hn : 0 < n) (X Y : Fin n → Vec d) (Q : Ctx d → Prop)
    (hQ : ∀ ctx gap, Q ctx → ∃ v ctx', Dir ctx gap v ctx' ∧ P v ∧ Q ctx') (ctx : Ctx d) (hq : Q ctx) :
    ∃ T, Matching P X Y ctx T := by
  obtain ⟨LA, LB, h⟩ := exists_run (P := P) X Y Q hQ (n - 1) ctx (List.finRange n) (List.finRange n) hq
    (by simp; omega) (by simp; omega)
  exact ⟨_, LA, LB, h, rfl⟩

theorem exists_bspot {P : Option (Vec d) → Prop} (hn : 0 < n) (X Y : Fin n → Vec d) (Q : Ctx d → Prop)
    (hQ : ∀ ctx gap, Q ctx → ∃ v ctx', Dir ctx gap v ctx' ∧ P v ∧ Q ctx') (gaussian : Bool)
    (hq : Q (if gaussian then .gauss else .plain)) {nPlans : ℕ} (hN : 0 < nPlans) (p : ℤ) (T0 : Option (Plan n)) :
    ∃ out, Bspot P X Y nPlans p T0 gaussian out := by
  obtain ⟨T, hT⟩ := exists_matching (P := P) hn X Y Q hQ _ hq
  obtain ⟨R, hR⟩ := exists_merged (fun i j => makeCost p (X i) (Y j)) (List.replicate nPlans T)
    (by simp; omega) T0
  exact ⟨(pyCost p X Y R, R, List.replicate nPlans T), by simp, fun U hU => by rw [List.eq_of_mem_replicate hU]; exact hT, hR, rfl⟩

theorem exists_mergeCall (X Y : Fin n → Vec d) (perms plans : List (Plan n)) (p : ℤ) (h : readPlans perms = some plans)
    (hp : plans ≠ []) : ∃ out, MergeCall X Y perms p out := by
  obtain ⟨R, hR⟩ := exists_merged (fun i j => makeCost p (X i) (Y j)) plans hp none
  exact ⟨(pyCost p X Y R, R), plans, h, hR, rfl⟩

/-! ### Small blocks on a line with Gaussian slicing -/

theorem orthoDir_one (g prev : Vec 1) : orthoDir g prev = none ∨ orthoDir g prev = some 0 := by
  unfold orthoDir
  by_cases h : dot prev prev = 0
  · left; rw [if_pos h]
  · right
    rw [if_neg h]
    have h0 : prev 0 * prev 0 ≠ 0 := by simpa [dot] using h
    have : (fun k => g k - dot g prev * prev k / dot prev prev) = (0 : Vec 1) := by
      funext k
      have hk : k = 0 := Subsingleton.elim _ _
      subst hk
      simp only [dot, Fin.sum_univ_one, Pi.zero_apply]
      have h1 : prev 0 ≠ 0 := fun e => h0 (by rw [e]; ring)
      field_simp
      ring
    rw [this]
    simp [normalize, dot]

theorem run_line_any (X Y : Fin n → Vec 1) :
    ∀ (m : ℕ) (ctx : Ctx 1) (LA LB LA' LB' : List (Fin n)), m < 49 → ctx ≠ .plain → LA.length = m + 1 →
      LB.length = m + 1 → LA'.Perm LA → LB'.Perm LB → Run (fun _ => True) X Y ctx LA LB LA' LB' := by
  intro m
  induction m using Nat.strong_induction_on with
  | _ m ih =>
    intro ctx LA LB LA' LB' hm49 hctx hA hB pA pB
    rcases Nat.eq_zero_or_pos m with rfl | hm
    · obtain ⟨a, rfl⟩ := List.length_eq_one_iff.1 hA
      obtain ⟨b, rfl⟩ := List.length_eq_one_iff.1 hB
      rw [List.perm_singleton.1 pA, List.perm_singleton.1 pB]
      exact Run.leaf ctx a b
    · obtain ⟨v, ctx', hd, hv, hc'⟩ : ∃ v ctx', Dir ctx LA.length v ctx' ∧ (v = none ∨ v = some 0) ∧ ctx' ≠ .plain := by
        rcases ctx with _ | prev | _
        · exact absurd rfl hctx
        · rcases prev with _ | prev
          · exact ⟨none, .ortho none, Dir.nan _, Or.inl rfl, by simp⟩
          · exact ⟨_, _, Dir.ortho _ prev 0, orthoDir_one _ _, by simp⟩
        · exact ⟨_, _, Dir.gaussSmall _ 0 0 (by omega), orthoDir_one _ _, by simp⟩
      have hkey : ∀ (Z : Fin n → Vec 1) (L L' : List (Fin n)) (k : ℕ), L'.Perm L → k ≤ L.length →
          NthElement (v.map fun w i => dot w (Z i)) k L (L'.take k) (L'.drop k) := by
        intro Z L L' k hp hk
        refine ⟨by rw [List.take_append_drop]; exact hp, by simp [hp.length_eq, hk], ?_⟩
        intro κ hκ x _ y _
        rcases hv with rfl | rfl
        · simp at hκ
        · simp only [Option.map_some, Option.some.injEq] at hκ
          rw [← hκ]; simp [dot]
      have eA := pA.length_eq
      have eB := pB.length_eq
      have r1 := ih ((m + 1) / 2 - 1) (by omega) ctx' (LA'.take (LA.length / 2)) (LB'.take (LA.length / 2)) _ _
        (by omega) hc' (by simp; omega) (by simp; omega) (List.Perm.refl _) (List.Perm.refl _)
      have r2 := ih (m - (m + 1) / 2) (by omega) ctx' (LA'.drop (LA.length / 2)) (LB'.drop (LA.length / 2)) _ _
        (by omega) hc' (by simp; omega) (by simp; omega) (List.Perm.refl _) (List.Perm.refl _)
      have := Run.node ctx ctx' v (LA.length / 2) LA LB _ _ _ _ _ _ _ _ (by omega) (by omega) hd trivial
        (pivot_half ctx _ (by omega)) (hkey X LA LA' _ pA (by omega)) (hkey Y LB LB' _ pB (by omega)) r1 r2
      rwa [List.take_append_drop, List.take_append_drop] at this

theorem matching_line_any (X Y : Fin n → Vec 1) (hn : 0 < n) (hn50 : n < 50) {T : Plan n} (hT : Bijective T) :
    Matching (fun _ => True) X Y .gauss T := by
  have hp : (List.ofFn T).Perm (List.finRange n) :=
    (List.perm_ext_iff_of_nodup (List.nodup_ofFn.2 hT.1) (List.nodup_finRange n)).2 fun x => by
      simp only [List.mem_finRange, iff_true, List.mem_ofFn]
      exact hT.2 x
  refine ⟨List.finRange n, List.ofFn T, run_line_any X Y (n - 1) .gauss _ _ _ _ (by omega) (by simp)
    (by simp; omega) (by simp; omega) (List.Perm.refl _) hp, ?_⟩
  funext i
  refine (planOf_spec (List.nodup_finRange n) (by simp) ?_).symm
  rw [List.mem_iff_getElem]
  exact ⟨i.val, by simp, by simp⟩

/-! ### Generators -/

section gen
variable {Ω Q : Type} (gen : ℕ → ℕ → Ω) (one : (ℕ → Ω) → Q × ℕ)

theorem drawPlan_some (seed : ℕ) (st : Engines) (t : ℕ) : (drawPlan gen one seed st t).2 t ≠ none := by
  simp [drawPlan]

theorem drawPlan_mono (seed : ℕ) (st : Engines) (t u : ℕ) (h : st u ≠ none) :
    (drawPlan gen one seed st t).2 u ≠ none := by
  by_cases hu : u = t
  · subst hu; exact drawPlan_some gen one seed st u
  · simpa [drawPlan, update_of_ne hu] using h

theorem drawPlans_seed (seed seed' : ℕ) (sched : List ℕ) (st : Engines) (h : ∀ t ∈ sched, st t ≠ none) :
    drawPlans gen one seed sched st = drawPlans gen one seed' sched st := by
  induction sched generalizing st with
  | nil => rfl
  | cons t ts ih =>
    have h1 : drawPlan gen one seed st t = drawPlan gen one seed' st t := by
      obtain ⟨e, he⟩ := Option.ne_none_iff_exists'.1 (h t (List.mem_cons_self ..))
      simp [drawPlan, he]
    have h2 := ih (drawPlan gen one seed' st t).2 fun u hu =>
      drawPlan_mono gen one seed' st t u (h u (List.mem_cons_of_mem _ hu))
    simp only [drawPlans, h1, h2]

theorem drawPlans_append (seed : ℕ) (s1 s2 : List ℕ) (st : Engines) :
    (drawPlans gen one seed (s1 ++ s2) st).1 =
      (drawPlans gen one seed s1 st).1 ++ (drawPlans gen one seed s2 (drawPlans gen one seed s1 st).2).1 := by
  induction s1 generalizing st with
  | nil => rfl
  | cons t ts ih => simp only [List.cons_append, drawPlans, ih]

theorem drawPlans_length (seed : ℕ) (sched : List ℕ) (st : Engines) :
    (drawPlans gen one seed sched st).1.length = sched.length := by
  induction sched generalizing st with
  | nil => rfl
  | cons t ts ih => simp only [drawPlans, List.length_cons, ih]

theorem drawPlans_drawn (seed : ℕ) (sched : List ℕ) (st : Engines) (t : ℕ) (h : st t ≠ none ∨ t ∈ sched) :
    (drawPlans gen one seed sched st).2 t ≠ none := by
  induction sched generalizing st with
  | nil => simpa [drawPlans] using h
  | cons u ts ih =>
    simp only [drawPlans]
    refine ih _ ?_
    rcases h with h | h
    · exact Or.inl (drawPlan_mono gen one seed st u t h)
    · rcases List.mem_cons.1 h with rfl | h
      · exact Or.inl (drawPlan_some gen one seed st t)
      · exact Or.inr h

theorem drawPlans_items (seed : ℕ) (sched : List ℕ) (st : Engines) (cnt : ℕ → ℕ)
    (h : ∀ t, (st t).getD (seed, 0) = (seed, Spec.streamPos one (gen seed) (cnt t))) (i : ℕ) (t : ℕ)
    (hi : sched[i]? = some t) :
    (drawPlans gen one seed sched st).1[i]? =
      some (Spec.streamItem one (gen seed) (cnt t + (sched.take i).count t)) := by
  induction sched generalizing st cnt i with
  | nil => simp at hi
  | cons u ts ih =>
    rcases i with _ | i
    · simp only [List.getElem?_cons_zero, Option.some.injEq] at hi
      subst hi
      simp [drawPlans, drawPlan, h, Spec.streamItem]
    · simp only [List.getElem?_cons_succ] at hi
      have := ih (drawPlan gen one seed st u).2 (update cnt u (cnt u + 1))
        (by
          intro w
          by_cases hw : w = u
          · subst hw; simp [drawPlan, h, Spec.streamPos]
          · simp only [drawPlan, update_of_ne hw]; exact h w) i hi
      simp only [drawPlans, List.getElem?_cons_succ, this, List.take_succ_cons]
      congr 2
      by_cases ht : t = u
      · subst ht; simp; omega
      · rw [update_of_ne ht, List.count_cons_of_ne (Ne.symm ht)]

end gen

end POT.Bsp
