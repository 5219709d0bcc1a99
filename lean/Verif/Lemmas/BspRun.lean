import Mathlib.Data.Fin.Tuple.Sort
import Mathlib.Data.Prod.Lex
import Mathlib.Algebra.BigOperators.Field
import Verif.Lemmas.Bsp
import Verif.Lemmas.Monge
import Verif.Lemmas.Emd1d

/-!
# Lemmas on binary space partition matchings
-/

set_option linter.unusedSectionVars false

namespace POT.Bsp

open Function

variable {n d : ℕ}

theorem Run.perm {P : Option (Vec d) → Prop} {X Y : Fin n → Vec d} {ctx : Ctx d} {LA LB LA' LB' : List (Fin n)}
    (h : Run P X Y ctx LA LB LA' LB') : LA'.Perm LA ∧ LB'.Perm LB ∧ LA'.length = LB'.length := by
  induction h with
  | leaf ctx a b => exact ⟨List.Perm.refl _, List.Perm.refl _, rfl⟩
  | node ctx ctx' v k LA LB A1 A2 B1 B2 A1' A2' B1' B2' hlen hlen' hd hP hk hA hB _ _ ih1 ih2 =>
    refine ⟨(ih1.1.append ih2.1).trans hA.1, (ih1.2.1.append ih2.2.1).trans hB.1, ?_⟩
    rw [List.length_append, List.length_append, ih1.2.2, ih2.2.2]

theorem planOf_spec {LA LB : List (Fin n)} (hA : LA.Nodup) (hl : LA.length = LB.length) {a b : Fin n}
    (h : (a, b) ∈ LA.zip LB) : planOf LA LB a = b := by
  have := (foldl_update_mem (LA.zip LB) (by rw [List.map_fst_zip (by omega)]; exact hA)
    fun i => (⟨0, i.pos⟩ : Fin n)).1 (a, b) h
  exact this

theorem exists_zip {LA LB : List (Fin n)} (hl : LA.length = LB.length) {a : Fin n} (h : a ∈ LA) :
    ∃ b, (a, b) ∈ LA.zip LB := by
  rw [← List.map_fst_zip (l₁ := LA) (l₂ := LB) (by omega), List.mem_map] at h
  obtain ⟨⟨x, y⟩, hm, rfl⟩ := h
  exact ⟨y, hm⟩

theorem exists_zip' {LA LB : List (Fin n)} (hl : LA.length = LB.length) {b : Fin n} (h : b ∈ LB) :
    ∃ a, (a, b) ∈ LA.zip LB := by
  rw [← List.map_snd_zip (l₁ := LA) (l₂ := LB) (by omega), List.mem_map] at h
  obtain ⟨⟨x, y⟩, hm, rfl⟩ := h
  exact ⟨x, hm⟩

theorem planOf_bijective {LA LB : List (Fin n)} (hA : LA.Perm (List.finRange n)) (hB : LB.Perm (List.finRange n)) :
    Bijective (planOf LA LB) := by
  have hl : LA.length = LB.length := by rw [hA.length_eq, hB.length_eq]
  have hs : Surjective (planOf LA LB) := by
    intro b
    obtain ⟨a, hab⟩ := exists_zip' (LA := LA) hl (hB.mem_iff.2 (List.mem_finRange b))
    exact ⟨a, planOf_spec (hA.nodup_iff.2 (List.nodup_finRange n)) hl hab⟩
  exact Finite.surjective_iff_bijective.1 hs

theorem Matching.bijective {P : Option (Vec d) → Prop} {X Y : Fin n → Vec d} {ctx : Ctx d} {T : Plan n}
    (h : Matching P X Y ctx T) : Bijective T := by
  obtain ⟨LA, LB, hr, rfl⟩ := h
  exact planOf_bijective hr.perm.1 hr.perm.2.1

/-! ### Similarities -/

theorem nthElement_unique {k : ℕ} {L L' A1 A2 B1 B2 : List (Fin n)} {κ κ' : Fin n → ℝ} (hL : L.Perm L')
    (hn : L.Nodup) (hA : NthElement (some κ) k L A1 A2) (hB : NthElement (some κ') k L' B1 B2)
    (hmono : ∀ i j, κ' i ≤ κ' j → κ i ≤ κ j) (hinj : Injective κ) : A1.Perm B1 ∧ A2.Perm B2 := by
  obtain ⟨pA, lA, oA⟩ := hA
  obtain ⟨pB, lB, oB⟩ := hB
  have nA : (A1 ++ A2).Nodup := pA.nodup_iff.2 hn
  have pAB : (A1 ++ A2).Perm (B1 ++ B2) := pA.trans (hL.trans pB.symm)
  have nB : (B1 ++ B2).Nodup := pAB.nodup_iff.1 nA
  have nA1 : A1.Nodup := nA.of_append_left
  have nB1 : B1.Nodup := nB.of_append_left
  have hsub : A1.toFinset ⊆ B1.toFinset := by
    by_contra hne
    obtain ⟨a, ha, hab⟩ := Finset.not_subset.1 hne
    rw [List.mem_toFinset] at ha hab
    have hcard : A1.toFinset.card = B1.toFinset.card := by
      rw [List.toFinset_card_of_nodup nA1, List.toFinset_card_of_nodup nB1, lA, lB]
    have hne' : ¬ B1.toFinset ⊆ A1.toFinset := fun h =>
      hab (List.mem_toFinset.1 ((Finset.eq_of_subset_of_card_le h hcard.le) ▸ List.mem_toFinset.2 ha))
    obtain ⟨b, hb, hba⟩ := Finset.not_subset.1 hne'
    rw [List.mem_toFinset] at hb hba
    have ha2 : a ∈ B2 := (List.mem_append.1 (pAB.mem_iff.1 (List.mem_append_left _ ha))).resolve_left hab
    have hb2 : b ∈ A2 := (List.mem_append.1 (pAB.mem_iff.2 (List.mem_append_left _ hb))).resolve_left hba
    have h1 := oA κ rfl a ha b hb2
    have h2 := hmono _ _ (oB κ' rfl b hb a ha2)
    exact hab (hinj (le_antisymm h1 h2) ▸ hb)
  have heq : A1.toFinset = B1.toFinset := Finset.eq_of_subset_of_card_le hsub
    (by rw [List.toFinset_card_of_nodup nA1, List.toFinset_card_of_nodup nB1, lA, lB])
  have p1 : A1.Perm B1 := (List.perm_ext_iff_of_nodup nA1 nB1).2 fun x => by
    rw [← List.mem_toFinset, ← List.mem_toFinset, heq]
  exact ⟨p1, (List.perm_append_left_iff B1).1 ((p1.symm.append_right A2).trans pAB)⟩

theorem Run.similar {P : Option (Vec d) → Prop} {X Y : Fin n → Vec d}
    (hP : ∀ v, P v → ∃ w, v = some w ∧ Injective (fun i => dot w (X i)) ∧
      ∀ i j, dot w (Y i) ≤ dot w (Y j) → dot w (X i) ≤ dot w (X j))
    {ctx : Ctx d} {LA LB LA' LB' : List (Fin n)} (h : Run P X Y ctx LA LB LA' LB') (hp : LA.Perm LB)
    (hn : LA.Nodup) : LA' = LB' := by
  induction h with
  | leaf ctx a b => exact List.perm_singleton.1 hp
  | node ctx ctx' v k LA LB A1 A2 B1 B2 A1' A2' B1' B2' hlen hlen' hd hv hk hA hB _ _ ih1 ih2 =>
    obtain ⟨w, rfl, hinj, hmono⟩ := hP v hv
    have hnA : (A1 ++ A2).Nodup := hA.1.nodup_iff.2 hn
    obtain ⟨p1, p2⟩ := nthElement_unique hp hn hA hB hmono hinj
    rw [ih1 p1 hnA.of_append_left, ih2 p2 hnA.of_append_right]

theorem planOf_self {L : List (Fin n)} (h : L.Perm (List.finRange n)) : planOf L L = id := by
  funext i
  refine planOf_spec (h.nodup_iff.2 (List.nodup_finRange n)) rfl ?_
  have hi : i ∈ L := h.mem_iff.2 (List.mem_finRange i)
  obtain ⟨k, hk, rfl⟩ := List.getElem_of_mem hi
  rw [List.mem_iff_getElem]
  exact ⟨k, by simpa using hk, by simp⟩

theorem dot_affine (w x t : Vec d) (s : ℝ) : dot w (fun k => s * x k + t k) = s * dot w x + dot w t := by
  unfold dot
  rw [Finset.mul_sum, ← Finset.sum_add_distrib]
  exact Finset.sum_congr rfl fun k _ => by ring

/-! ### Points on a line -/

/-- Order of the two lists on a line: pairs met in the run are ordered the same way, up or down. -/
theorem Run.line {P : Option (Vec 1) → Prop} {X Y : Fin n → Vec 1}
    (hP : ∀ v, P v → ∃ w, v = some w ∧ w 0 ≠ 0)
    {ctx : Ctx 1} {LA LB LA' LB' : List (Fin n)} (h : Run P X Y ctx LA LB LA' LB') :
    ∀ p ∈ LA'.zip LB', ∀ q ∈ LA'.zip LB', X p.1 0 < X q.1 0 → Y p.2 0 ≤ Y q.2 0 := by
  induction h with
  | leaf ctx a b =>
    intro p hp q hq hlt
    simp at hp hq
    subst hp; subst hq
    exact absurd hlt (lt_irrefl _)
  | node ctx ctx' v k LA LB A1 A2 B1 B2 A1' A2' B1' B2' hlen hlen' hd hv hk hA hB r1 r2 ih1 ih2 =>
    obtain ⟨w, rfl, hw⟩ := hP v hv
    rw [List.zip_append r1.perm.2.2]
    have hdot : ∀ x : Vec 1, dot w x = w 0 * x 0 := fun x => by simp [dot]
    have cross : ∀ p ∈ A1'.zip B1', ∀ q ∈ A2'.zip B2', w 0 * X p.1 0 ≤ w 0 * X q.1 0 ∧ w 0 * Y p.2 0 ≤ w 0 * Y q.2 0 := by
      intro p hp q hq
      obtain ⟨p1, p2⟩ := List.of_mem_zip hp
      obtain ⟨q1, q2⟩ := List.of_mem_zip hq
      have h1 := hA.2.2 _ rfl _ (r1.perm.1.mem_iff.1 p1) _ (r2.perm.1.mem_iff.1 q1)
      have h2 := hB.2.2 _ rfl _ (r1.perm.2.1.mem_iff.1 p2) _ (r2.perm.2.1.mem_iff.1 q2)
      simp only [hdot] at h1 h2
      exact ⟨h1, h2⟩
    intro p hp q hq hlt
    rcases List.mem_append.1 hp with hp | hp <;> rcases List.mem_append.1 hq with hq | hq
    · exact ih1 p hp q hq hlt
    · obtain ⟨c1, c2⟩ := cross p hp q hq
      rcases lt_or_gt_of_ne hw with hneg | hpos
      · exact absurd ((mul_le_mul_left_of_neg hneg).1 c1) (not_le.2 hlt)
      · exact le_of_mul_le_mul_left c2 hpos
    · obtain ⟨c1, c2⟩ := cross q hq p hp
      rcases lt_or_gt_of_ne hw with hneg | hpos
      · exact (mul_le_mul_left_of_neg hneg).1 c2
      · exact absurd (le_of_mul_le_mul_left c1 hpos) (not_le.2 hlt)
    · exact ih2 p hp q hq hlt

theorem Matching.comonotone {P : Option (Vec 1) → Prop} {X Y : Fin n → Vec 1}
    (hP : ∀ v, P v → ∃ w, v = some w ∧ w 0 ≠ 0) {ctx : Ctx 1} {T : Plan n} (h : Matching P X Y ctx T) :
    ∀ i j, X i 0 < X j 0 → Y (T i) 0 ≤ Y (T j) 0 := by
  obtain ⟨LA, LB, hr, rfl⟩ := h
  obtain ⟨pA, pB, hl⟩ := hr.perm
  have nA : LA.Nodup := pA.nodup_iff.2 (List.nodup_finRange n)
  intro i j hij
  obtain ⟨a, ha⟩ := exists_zip hl (pA.mem_iff.2 (List.mem_finRange i))
  obtain ⟨b, hb⟩ := exists_zip hl (pA.mem_iff.2 (List.mem_finRange j))
  rw [planOf_spec nA hl ha, planOf_spec nA hl hb]
  exact hr.line hP _ ha _ hb hij

theorem bijectionPlan_coupling {T : Plan n} (hT : Bijective T) :
    Spec.IsCoupling (fun _ => 1 / (n : ℝ)) (fun _ => 1 / (n : ℝ)) (Spec.bijectionPlan T) where
  nonneg i j := by
    unfold Spec.bijectionPlan
    split_ifs
    · positivity
    · exact le_rfl
  row i := by simp [Spec.bijectionPlan]
  col j := by
    obtain ⟨i, rfl⟩ := hT.2 j
    unfold Spec.bijectionPlan
    rw [Finset.sum_eq_single i]
    · simp
    · intro k _ hk
      exact if_neg fun h => hk (hT.1 h)
    · simp

theorem cost_bijectionPlan (c : Fin n → Fin n → ℝ) (T : Plan n) :
    Spec.cost c (Spec.bijectionPlan T) = Spec.bijCost c T := by
  unfold Spec.cost Spec.bijectionPlan Spec.bijCost
  rw [Finset.sum_div]
  refine Finset.sum_congr rfl fun i _ => ?_
  simp only [ite_mul, zero_mul, Finset.sum_ite_eq, Finset.mem_univ, if_true]
  ring

/-- A comonotone bijection between two families of reals is an optimal plan for a convex cost. -/
theorem isOptimal_of_line {x y : Fin n → ℝ} {T : Plan n} (hT : Bijective T) (h : ∀ i j, x i < x j → y (T i) ≤ y (T j))
    {φ : ℝ → ℝ} (hφ : ConvexOn ℝ Set.univ φ) :
    Spec.IsOptimal (fun _ => 1 / (n : ℝ)) (fun _ => 1 / (n : ℝ)) (fun i j => φ (x i - y j)) (Spec.bijectionPlan T) := by
  classical
  let key : Fin n → ℝ ×ₗ ℝ := fun i => toLex (x i, y (T i))
  let e := Tuple.sort key
  have he : Monotone (key ∘ e) := Tuple.monotone_sort key
  have hx : ∀ i j, i ≤ j → x (e i) ≤ x (e j) := by
    intro i j hij
    have := he hij
    rcases (Prod.Lex.toLex_le_toLex).1 this with h | h
    · exact h.le
    · exact h.1.le
  have hy : ∀ i j, i ≤ j → y (T (e i)) ≤ y (T (e j)) := by
    intro i j hij
    have := he hij
    rcases (Prod.Lex.toLex_le_toLex).1 this with h' | h'
    · exact h _ _ h'
    · exact h'.2
  let f : Fin n ≃ Fin n := e.trans (Equiv.ofBijective T hT)
  have hopt : Spec.IsOptimal (fun _ => 1 / (n : ℝ)) (fun _ => 1 / (n : ℝ))
      (fun i j => φ (x (e i) - y (f j))) (Spec.bijectionPlan (id : Plan n)) := by
    refine Spec.isOptimal_of_comonotone (bijectionPlan_coupling bijective_id) ?_ ?_
    · intro i i' j j' hi hj
      unfold Spec.bijectionPlan
      by_cases h1 : id i = j
      · right
        rw [if_neg]
        intro h2
        simp only [id] at h1 h2
        subst h1; subst h2
        exact absurd hi (not_lt.2 hj.le)
      · left; rw [if_neg h1]
    · intro i i' j j' hi hj
      exact Emd1d.monge_of_convex hφ (hx i i' hi) (hy j j' hj)
  have := hopt.reindex e.symm f.symm
  simp only [Equiv.apply_symm_apply] at this
  have heq : (fun i j => Spec.bijectionPlan (id : Plan n) (e.symm i) (f.symm j)) = Spec.bijectionPlan T := by
    funext i j
    unfold Spec.bijectionPlan
    refine if_congr ?_ rfl rfl
    obtain ⟨k, rfl⟩ := f.surjective j
    rw [id, Equiv.symm_apply_apply, Equiv.symm_apply_eq]
    change i = e k ↔ T i = T (e k)
    exact hT.1.eq_iff.symm
  rw [heq] at this
  exact this

end POT.Bsp
