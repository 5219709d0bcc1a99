import Verif.Model.SimplexRun
import Verif.Lemmas.SimplexPivot2
import Mathlib.Data.Fintype.Powerset
import Mathlib.Data.Fintype.Option
import Mathlib.Data.Fintype.Sum
import Mathlib.Algebra.BigOperators.Fin
import Mathlib.Algebra.Order.AbsoluteValue.Basic

/-! # Whole runs of the network simplex -/

set_option linter.unusedSectionVars false

namespace POT.Simplex

open Spec POT.Tree Relation

/-! ### Potentials are determined by the tree -/

section better
variable {V A R : Type*} [DecidableEq V] [DecidableEq A] [Fintype A] [CommRing R] [LinearOrder R] [IsStrictOrderedRing R]
variable {net : Net V A R} {root : V} {supply : V → R}

/-- progress made by a pivot -/
def Better (net : Net V A R) (s s' : State V A R) : Prop :=
  flowCost net.cost s'.flow < flowCost net.cost s.flow ∨ (flowCost net.cost s'.flow = flowCost net.cost s.flow ∧ s.pi < s'.pi)

theorem Better.trans {s s' s'' : State V A R} (h1 : Better net s s') (h2 : Better net s' s'') : Better net s s'' := by
  rcases h1 with h1 | ⟨h1, h1'⟩ <;> rcases h2 with h2 | ⟨h2, h2'⟩
  · exact Or.inl (h2.trans h1)
  · exact Or.inl (by rw [h2]; exact h1)
  · exact Or.inl (by rw [← h1]; exact h2)
  · exact Or.inr ⟨h2.trans h1, h1'.trans h2'⟩

/-- the set of tree arcs -/
def treeSet (s : State V A R) : Finset A := Finset.univ.filter fun a => s.state a = .tree

theorem pi_of_tree {s s' : State V A R} {L L' : List V} (h : Inv net root supply s L) (h' : Inv net root supply s' L')
    (ht : treeSet s = treeSet s') : s.pi = s'.pi := by
  funext v
  induction h.tree.root_anc v using ReflTransGen.head_induction_on with
  | refl => rw [h.piRoot, h'.piRoot]
  | head h1 h2 ih =>
    rename_i a c
    have e1 := h.pot a c h1
    have hmem : s.pred a ∈ treeSet s := by
      simp [treeSet, h.treeState a c h1]
    rw [ht] at hmem
    have hst : s'.state (s.pred a) = .tree := by simpa [treeSet] using hmem
    obtain ⟨w, r, hw, hwe⟩ := h'.treeArc _ hst
    have e2 := h'.pot w r hw
    rw [hwe] at e2
    have harc := h.arc a c h1
    unfold redCost at e1 e2
    by_cases hf : s.forward a
    · rw [if_pos hf] at harc
      rw [harc.1, harc.2] at e1 e2
      linarith
    · rw [if_neg hf] at harc
      rw [harc.1, harc.2] at e1 e2
      linarith

/-- the cost of a basic flow is determined by its potentials -/
theorem cost_of_pi [Fintype V] {s : State V A R} {L : List V} (h : Inv net root supply s L) :
    flowCost net.cost s.flow = -∑ v, s.pi v * supply v := by
  have h1 : ∑ a, redCost net s a * s.flow a = 0 := by
    refine Finset.sum_eq_zero fun a _ => ?_
    by_cases ha : s.state a = .tree
    · obtain ⟨v, q, hv, rfl⟩ := h.treeArc a ha
      rw [h.pot v q hv]; ring
    · rw [(h.nontree a ha).2]; ring
  have key : ∑ a, (s.pi (net.src a) - s.pi (net.tgt a)) * s.flow a = ∑ v, s.pi v * supply v := by
    have : ∀ v, s.pi v * supply v
        = ∑ a, ((if net.src a = v then s.pi v * s.flow a else 0) - if net.tgt a = v then s.pi v * s.flow a else 0) := by
      intro v
      rw [← h.conserve v]
      unfold netFlow
      rw [mul_sub, Finset.mul_sum, Finset.mul_sum, ← Finset.sum_sub_distrib]
      simp only [mul_ite, mul_zero]
    rw [Finset.sum_congr rfl fun v _ => this v, Finset.sum_comm]
    refine Finset.sum_congr rfl fun a _ => ?_
    rw [Finset.sum_sub_distrib, Finset.sum_ite_eq, Finset.sum_ite_eq]
    simp
    ring
  rw [← key]
  unfold flowCost
  have : ∑ a, redCost net s a * s.flow a = ∑ a, net.cost a * s.flow a + ∑ a, (s.pi (net.src a) - s.pi (net.tgt a)) * s.flow a := by
    rw [← Finset.sum_add_distrib]
    refine Finset.sum_congr rfl fun a _ => ?_
    unfold redCost; ring
  rw [this] at h1
  linarith

theorem Better.treeSet_ne [Fintype V] {s s' : State V A R} {L L' : List V} (h : Inv net root supply s L) (h' : Inv net root supply s' L')
    (hb : Better net s s') : treeSet s ≠ treeSet s' := by
  intro ht
  have hpi := pi_of_tree h h' ht
  have hc : flowCost net.cost s'.flow = flowCost net.cost s.flow := by rw [cost_of_pi h, cost_of_pi h', hpi]
  rcases hb with hb | ⟨_, hb⟩
  · rw [hc] at hb; exact lt_irrefl _ hb
  · rw [hpi] at hb; exact lt_irrefl _ hb

/-- a list of states each better than the ones before is short -/
theorem better_chain_length [Fintype V] (l : List (State V A R)) (hl : l.Pairwise (Better net))
    (hI : ∀ s ∈ l, ∃ L, Inv net root supply s L) : l.length ≤ 2 ^ Fintype.card A := by
  have hnd : (l.map treeSet).Nodup := by
    rw [List.Nodup, List.pairwise_map]
    refine List.Pairwise.imp_of_mem ?_ hl
    intro a b ha hb hab
    obtain ⟨L, hL⟩ := hI a ha
    obtain ⟨L', hL'⟩ := hI b hb
    exact hab.treeSet_ne hL hL'
  have := List.Nodup.length_le_card hnd
  rw [List.length_map, Fintype.card_finset] at this
  exact this

end better

/-! ### Block search -/

section search
variable {E R : Type*} [Ring R] [LinearOrder R] [IsStrictOrderedRing R]

theorem searchLoop_spec (viol : E → R) (scale : Option E → R) (eps : R) (bs : ℕ) (es : List E) (mn : R) (ia : Option E) (cnt : ℕ) :
    let r := searchLoop viol scale eps bs es mn ia cnt
    ((r.min = mn ∧ r.inArc = ia) ∨ (r.min < mn ∧ ∃ e ∈ es, r.inArc = some e ∧ viol e = r.min)) ∧
    (r.stop = none → ∀ e ∈ es, r.min ≤ viol e) ∧ (∀ e, r.stop = some e → e ∈ es ∧ r.min < -eps * scale r.inArc) := by
  induction es generalizing mn ia cnt with
  | nil => simp [searchLoop]
  | cons a es ih =>
    simp only [searchLoop]
    set mn' := if viol a < mn then viol a else mn with hmn'
    set ia' := if viol a < mn then some a else ia with hia'
    have hle : mn' ≤ mn ∧ mn' ≤ viol a := by
      rw [hmn']; split_ifs with h
      · exact ⟨h.le, le_refl _⟩
      · exact ⟨le_refl _, not_lt.1 h⟩
    have hcase : (mn' = mn ∧ ia' = ia) ∨ (mn' < mn ∧ ia' = some a ∧ viol a = mn') := by
      rw [hmn', hia']; split_ifs with h
      · exact Or.inr ⟨h, rfl, rfl⟩
      · exact Or.inl ⟨rfl, rfl⟩
    -- the recursive calls
    have hrec : ∀ cnt', let r := searchLoop viol scale eps bs es mn' ia' cnt'
        ((r.min = mn ∧ r.inArc = ia) ∨ (r.min < mn ∧ ∃ e ∈ a :: es, r.inArc = some e ∧ viol e = r.min)) ∧
        (r.stop = none → ∀ e ∈ a :: es, r.min ≤ viol e) ∧ (∀ e, r.stop = some e → e ∈ a :: es ∧ r.min < -eps * scale r.inArc) := by
      intro cnt'
      obtain ⟨h1, h2, h3⟩ := ih mn' ia' cnt'
      dsimp only at h1 h2 h3 ⊢
      set r := searchLoop viol scale eps bs es mn' ia' cnt' with hr
      have hrle : r.min ≤ mn' := by
        rcases h1 with h | h
        · exact h.1.le
        · exact h.1.le
      refine ⟨?_, ?_, fun e he => ⟨List.mem_cons_of_mem _ (h3 e he).1, (h3 e he).2⟩⟩
      · rcases h1 with ⟨h4, h5⟩ | ⟨h4, e, he, h5, h6⟩
        · rcases hcase with ⟨h7, h8⟩ | ⟨h7, h8, h9⟩
          · exact Or.inl ⟨h4.trans h7, h5.trans h8⟩
          · exact Or.inr ⟨by rw [h4]; exact h7, a, by simp, by rw [h5, h8], by rw [h9, h4]⟩
        · exact Or.inr ⟨lt_of_lt_of_le h4 hle.1, e, List.mem_cons_of_mem _ he, h5, h6⟩
      · intro hst e he
        rcases List.mem_cons.1 he with rfl | he
        · exact le_trans hrle hle.2
        · exact h2 hst e he
    split_ifs with hc1 hc2
    · dsimp only
      refine ⟨?_, by simp, ?_⟩
      · rcases hcase with h | ⟨h7, h8, h9⟩
        · exact Or.inl h
        · exact Or.inr ⟨h7, a, by simp, h8, h9⟩
      · intro e he
        cases he
        exact ⟨by simp, hc2⟩
    · exact hrec bs
    · exact hrec (cnt - 1)

theorem mem_scan {m : ℕ} (k : ℕ) (e : Fin m) : e ∈ (List.finRange m).drop k ++ (List.finRange m).take k := by
  have : e ∈ (List.finRange m).take k ++ (List.finRange m).drop k := by
    rw [List.take_append_drop]; exact List.mem_finRange e
  rw [List.mem_append] at this ⊢
  exact this.symm

/-- The search stops only if all arcs pass the test. -/
theorem findEnteringArc_none {m : ℕ} (viol : Fin m → R) (scale : Option (Fin m) → R) (eps : R) (bs : ℕ) (r : Rule m)
    (h : findEnteringArc viol scale eps bs r = none) :
    ∃ ia, (∀ e, -eps * scale ia ≤ viol e) ∧ ((∃ e, viol e < 0) → ∃ e, ia = some e ∧ ∀ e', viol e ≤ viol e') := by
  unfold findEnteringArc at h
  have hs := searchLoop_spec viol scale eps bs ((List.finRange m).drop r.nextArc ++ (List.finRange m).take r.nextArc) 0 r.inArc bs
  dsimp only at hs h
  set s := searchLoop viol scale eps bs ((List.finRange m).drop r.nextArc ++ (List.finRange m).take r.nextArc) 0 r.inArc bs
  obtain ⟨h1, h2, _⟩ := hs
  cases hst : s.stop with
  | some e => rw [hst] at h; cases h
  | none =>
    rw [hst] at h
    dsimp only at h
    split_ifs at h with hle
    refine ⟨s.inArc, fun e => le_trans hle (h2 hst e (mem_scan _ e)), ?_⟩
    rintro ⟨e, he⟩
    rcases h1 with ⟨h3, _⟩ | ⟨h3, e', _, h4, h5⟩
    · have := h2 hst e (mem_scan _ e)
      rw [h3] at this
      exact absurd he (not_lt.2 this)
    · exact ⟨e', h4, fun e'' => by rw [h5]; exact h2 hst e'' (mem_scan _ e'')⟩

/-- An arc that is returned violates the test. -/
theorem findEnteringArc_some {m : ℕ} (viol : Fin m → R) (scale : Option (Fin m) → R) (eps : R) (heps : 0 ≤ eps)
    (hscale : ∀ ia, 0 ≤ scale ia) (bs : ℕ) (r r' : Rule m)
    (h : findEnteringArc viol scale eps bs r = some r') :
    ∃ e, r'.inArc = some e ∧ viol e < 0 ∧ viol e < -eps * scale (some e) := by
  unfold findEnteringArc at h
  have hs := searchLoop_spec viol scale eps bs ((List.finRange m).drop r.nextArc ++ (List.finRange m).take r.nextArc) 0 r.inArc bs
  dsimp only at hs h
  set s := searchLoop viol scale eps bs ((List.finRange m).drop r.nextArc ++ (List.finRange m).take r.nextArc) 0 r.inArc bs
  obtain ⟨h1, _, h3⟩ := hs
  have key : s.min < -eps * scale s.inArc → ∃ e, s.inArc = some e ∧ viol e < 0 ∧ viol e < -eps * scale (some e) := by
    intro hlt
    have hneg : s.min < 0 := lt_of_lt_of_le hlt (by
      have := mul_nonneg heps (hscale s.inArc)
      rw [neg_mul]; exact neg_nonpos.2 this)
    rcases h1 with ⟨h4, _⟩ | ⟨h4, e, _, h5, h6⟩
    · rw [h4] at hneg; exact absurd hneg (lt_irrefl _)
    · exact ⟨e, h5, by rw [h6]; exact h4, by rw [h6, ← h5]; exact hlt⟩
  cases hst : s.stop with
  | some e =>
    rw [hst] at h
    cases h
    exact key (h3 e hst).2
  | none =>
    rw [hst] at h
    dsimp only at h
    split_ifs at h with hle
    cases h
    exact key (not_le.1 hle)

end search

/-! ### The initial basis -/

section init
variable {R : Type*} [CommRing R] [LinearOrder R] [IsStrictOrderedRing R] {n m : ℕ} [NeZero n]

/-- supplies of all nodes including the root -/
def extSupply (P : Problem n m R) : Node n → R
  | none => -∑ u, P.supply u
  | some u => P.supply u

/-- initial depth first order -/
def initList (n : ℕ) : List (Node n) := none :: (List.finRange n).map some

theorem initList_length (n : ℕ) : (initList n).length = n + 1 := by simp [initList]

theorem init_anc (P : Problem n m R) (u : Fin n) (x : Node n) : Anc (initState P).parent (some u) x ↔ x = some u := by
  constructor
  · intro h
    rcases anc_iff.1 h with h | ⟨q, h1, h2⟩
    · exact h.symm
    · cases x with
      | none => cases h1
      | some v =>
        have : q = none := by
          have : (initState P).parent (some v) = some none := rfl
          rw [this] at h1; exact (Option.some.inj h1).symm
        subst this
        have := anc_none (root := none) (p := (initState P).parent) rfl h2
        cases this
  · rintro rfl; exact anc_refl _

theorem init_root_anc (P : Problem n m R) (x : Node n) : Anc (initState P).parent none x := by
  cases x with
  | none => exact anc_refl _
  | some v => exact anc_parent (p := (initState P).parent) (v := none) (w := some v) rfl

theorem init_walk (P : Problem n m R) (k : ℕ) (hk : k ≤ n) :
    Walk (initState P).thread (if h : k < n then some ⟨k, h⟩ else none) (((List.finRange n).drop k).map some) none := by
  induction hd : n - k generalizing k with
  | zero =>
    have : k = n := by omega
    subst this
    rw [dif_neg (lt_irrefl _), List.drop_eq_nil_of_le (by simp)]
    rfl
  | succ d ih =>
    have hlt : k < n := by omega
    rw [List.drop_eq_getElem_cons (by simpa using hlt), dif_pos hlt, List.map_cons]
    refine ⟨by simp, ?_⟩
    have h1 : (initState P).thread (some ((List.finRange n)[k]'(by simpa using hlt))) = if h : k + 1 < n then some ⟨k + 1, h⟩ else none := by
      simp [initState]
    rw [h1]
    exact ih (k + 1) hlt (by omega)

theorem init_tree (P : Problem n m R) : TreeRep none (initState P).parent (initState P).thread (initState P).revThread
    (initState P).succNum (initState P).lastSucc (initList n) := by
  have hn : 0 < n := Nat.pos_of_ne_zero (NeZero.ne n)
  refine ⟨rfl, init_root_anc P, ?_, ?_, ?_, ?_, ?_⟩
  · unfold initList
    rw [List.nodup_cons]
    refine ⟨by simp, (List.nodup_finRange n).map (Option.some_injective _)⟩
  · intro x
    cases x with
    | none => simp [initList]
    | some v => simp [initList]
  · refine ⟨rfl, ?_⟩
    have := init_walk P 0 (by omega)
    rw [dif_pos hn, List.drop_zero] at this
    have h0 : (initState P).thread none = some ⟨0, hn⟩ := rfl
    rw [h0]
    exact this
  · intro x
    cases x with
    | none =>
      have : (initState P).thread none = some (0 : Fin n) := rfl
      rw [this]
      simp [initState]
    | some u =>
      by_cases hu : u.val + 1 < n
      · have : (initState P).thread (some u) = some ⟨u.val + 1, hu⟩ := by simp [initState, hu]
        rw [this]
        simp [initState]
      · have : (initState P).thread (some u) = none := by simp [initState, hu]
        rw [this]
        have h1 : (initState P).revThread none = some ⟨n - 1, Nat.sub_one_lt (NeZero.ne n)⟩ := rfl
        rw [h1]
        congr 1
        ext
        have := u.isLt
        simp
        omega
  · intro u
    cases u with
    | none =>
      refine ⟨[], (List.finRange n).map some, [], by simp [initList], ?_, ?_, ?_⟩
      · intro x
        refine ⟨fun _ => init_root_anc P x, fun _ => ?_⟩
        cases x with
        | none => simp
        | some v => simp
      · have h1 : (initState P).lastSucc none = some ⟨n - 1, Nat.sub_one_lt (NeZero.ne n)⟩ := rfl
        rw [h1]
        have hne : (List.finRange n) ≠ [] := by
          intro h'
          have := congrArg List.length h'
          simp at this
          omega
        rw [List.getLast?_cons, List.getLast?_map, List.getLast?_eq_getElem?, List.getElem?_eq_getElem (by simp; omega)]
        simp
      · simp [initState]
    | some k =>
      obtain ⟨l1, l2, hl⟩ := List.append_of_mem (List.mem_finRange k)
      refine ⟨none :: l1.map some, [], l2.map some, ?_, ?_, ?_, ?_⟩
      · simp [initList, hl]
      · intro x
        rw [init_anc]; simp
      · simp [initState]
      · simp [initState]

theorem init_inv (P : Problem n m R) : Inv (initNet P) none (extSupply P) (initState P) (initList n) := by
  refine ⟨⟨init_tree P, ?_, ?_, ?_, ?_, ?_, ?_, ?_, rfl⟩, ?_⟩
  · intro v q hv
    cases v with
    | none => cases hv
    | some u =>
      have hq : q = none := (Option.some.inj hv).symm
      subst hq
      by_cases hu : 0 ≤ P.supply u <;> simp [initState, initNet, hu]
  · intro v q hv
    cases v with
    | none => cases hv
    | some u => rfl
  · intro a ha
    cases a with
    | inl i => cases ha
    | inr u => exact ⟨some u, none, rfl, rfl⟩
  · intro a ha
    cases a with
    | inl i => exact ⟨rfl, rfl⟩
    | inr u => exact absurd rfl ha
  · intro a
    cases a with
    | inl i => exact le_refl _
    | inr u =>
      show 0 ≤ if 0 ≤ P.supply u then P.supply u else -P.supply u
      split_ifs with h
      · exact h
      · exact neg_nonneg.2 (not_le.1 h).le
  · intro v
    unfold netFlow
    rw [Fintype.sum_sum_type, Fintype.sum_sum_type]
    have z1 : ∑ i : Fin m, (if (initNet P).src (Sum.inl i) = v then (initState P).flow (Sum.inl i) else 0) = 0 :=
      Finset.sum_eq_zero fun i _ => by simp [initState]
    have z2 : ∑ i : Fin m, (if (initNet P).tgt (Sum.inl i) = v then (initState P).flow (Sum.inl i) else 0) = 0 :=
      Finset.sum_eq_zero fun i _ => by simp [initState]
    rw [z1, z2, zero_add, zero_add, ← Finset.sum_sub_distrib]
    cases v with
    | none =>
      show _ = -∑ u, P.supply u
      rw [← Finset.sum_neg_distrib]
      refine Finset.sum_congr rfl fun u _ => ?_
      by_cases hu : 0 ≤ P.supply u <;> simp [initState, initNet, hu]
    | some w =>
      show _ = P.supply w
      rw [Finset.sum_eq_single w]
      · by_cases hu : 0 ≤ P.supply w <;> simp [initState, initNet, hu]
      · intro u _ hne
        by_cases hu : 0 ≤ P.supply u <;> simp [initNet, hu, hne]
      · intro h'; exact absurd (Finset.mem_univ _) h'
  · intro v q hv
    cases v with
    | none => cases hv
    | some u =>
      by_cases hu : 0 ≤ P.supply u <;> simp [initState, initNet, hu, redCost]
  · intro v q hv
    cases v with
    | none => cases hv
    | some u =>
      intro h0
      by_contra hu
      have hu' : ¬ 0 ≤ P.supply u := by simpa [initState] using hu
      have : (initState P).flow (.inr u) = -P.supply u := by simp [initState, hu']
      rw [show (initState P).pred (some u) = .inr u from rfl, this] at h0
      exact hu' (by rw [neg_eq_zero.1 h0])

end init

/-! ### Runs -/

section runs
variable {R : Type*} [CommRing R] [LinearOrder R] [IsStrictOrderedRing R] {n m : ℕ} [NeZero n]

/-- The reachable states: invariant for some depth first list. -/
def Good (P : Problem n m R) (s : State (Node n) (Arc n m) R) : Prop :=
  ∃ L : List (Node n), L.length = n + 1 ∧ Inv (initNet P) none (extSupply P) s L

theorem init_good (P : Problem n m R) : Good P (initState P) := ⟨initList n, initList_length n, init_inv P⟩

/-- every real arc goes from a node with nonnegative supply to one with negative supply -/
def Bipartite (P : Problem n m R) : Prop := ∀ i, 0 ≤ P.supply (P.src i) ∧ P.supply (P.tgt i) < 0

theorem bipartite_acyclic (P : Problem n m R) (hb : Bipartite P) :
    ∃ ht : Node n → ℕ, ∀ a, ht ((initNet P).src a) < ht ((initNet P).tgt a) := by
  refine ⟨fun v => match v with | none => 1 | some u => if 0 ≤ P.supply u then 0 else 2, fun a => ?_⟩
  cases a with
  | inl i =>
    have h1 := (hb i).1
    have h2 := not_le.2 (hb i).2
    simp [initNet, h1, h2]
  | inr u =>
    by_cases hu : 0 ≤ P.supply u <;> simp [initNet, hu]

theorem pivot_good (P : Problem n m R) {s : State (Node n) (Arc n m) R} (hs : Good P s) {e : Arc n m}
    (hv : violation (initNet P) s e < 0) :
    (pivot (initNet P) (2 * (n + 1) + 2) s e = some .unbounded ∧ ¬ Bipartite P) ∨
    ∃ s', pivot (initNet P) (2 * (n + 1) + 2) s e = some (.next s') ∧ Good P s' ∧ Better (initNet P) s s' := by
  obtain ⟨L, hL, hI⟩ := hs
  rcases pivot_spec hI hv (2 * (n + 1) + 2) (by omega) with ⟨h1, h2⟩ | ⟨s', L', h1, h2, h3, h4⟩
  · refine Or.inl ⟨h1, fun hb => ?_⟩
    obtain ⟨ht, h⟩ := bipartite_acyclic P hb
    exact h2 ht h
  · refine Or.inr ⟨s', h1, ⟨L', by rw [h3, hL], h2⟩, ?_⟩
    rcases h4 with h4 | ⟨h4, h5⟩
    · exact Or.inl h4
    · exact Or.inr ⟨by rw [h4], h5⟩

theorem initialPivots_good (P : Problem n m R) (arcs : List (Fin m)) {s : State (Node n) (Arc n m) R} (hs : Good P s) :
    (initialPivots P (2 * (n + 1) + 2) arcs s = some .unbounded ∧ ¬ Bipartite P) ∨
    ∃ s', initialPivots P (2 * (n + 1) + 2) arcs s = some (.next s') ∧ Good P s' := by
  induction arcs generalizing s with
  | nil => exact Or.inr ⟨s, rfl, hs⟩
  | cons e es ih =>
    rw [initialPivots]
    split_ifs with h
    · exact ih hs
    · rcases pivot_good P hs (not_le.1 h) with ⟨h1, h2⟩ | ⟨s', h1, h2, _⟩
      · rw [h1]; exact Or.inl ⟨rfl, h2⟩
      · rw [h1]; exact ih h2

theorem searchScale_nonneg (P : Problem n m R) (junk : R) (s : State (Node n) (Arc n m) R) (ia : Option (Fin m)) :
    0 ≤ searchScale P junk s ia := by
  cases ia with
  | none => exact abs_nonneg _
  | some e =>
    unfold searchScale
    dsimp only
    split_ifs <;> exact abs_nonneg _

/-- What a finished main loop has established. -/
def LoopPost (P : Problem n m R) (junk eps : R) (maxIter : ℕ) (st : Status) (s : State (Node n) (Arc n m) R) : Prop :=
  match st with
  | .optimal => Good P s ∧ ∃ τ, 0 ≤ τ ∧ (τ = 0 ∨ ∃ e, τ = eps * searchScale P junk s (some e)) ∧
      ∀ e : Fin m, -τ ≤ violation (initNet P) s (.inl e)
  | .maxIter => Good P s ∧ 0 < maxIter
  | .unbounded => ¬ Bipartite P
  | .infeasible => False

theorem mainLoop_spec (P : Problem n m R) (junk eps : R) (heps : 0 ≤ eps) (bs maxIter : ℕ) (k : ℕ) (iters : ℕ) (r : Rule m)
    {s : State (Node n) (Arc n m) R} (hs : Good P s) :
    (mainLoop P junk eps bs maxIter (2 * (n + 1) + 2) k iters r s = none ∧
      ∃ l : List (State (Node n) (Arc n m) R), l.length = k ∧ l.Pairwise (Better (initNet P)) ∧ ∀ s' ∈ l, Good P s' ∧ Better (initNet P) s s') ∨
    ∃ st s', mainLoop P junk eps bs maxIter (2 * (n + 1) + 2) k iters r s = some (st, s') ∧ LoopPost P junk eps maxIter st s' := by
  induction k generalizing iters r s with
  | zero => exact Or.inl ⟨rfl, [], rfl, by simp, by simp⟩
  | succ k ih =>
    rw [mainLoop]
    cases hfe : findEnteringArc (fun e => violation (initNet P) s (.inl e)) (searchScale P junk s) eps bs r with
    | none =>
      obtain ⟨ia, h1, h2⟩ := findEnteringArc_none _ _ _ _ _ hfe
      refine Or.inr ⟨.optimal, s, rfl, hs, ?_⟩
      by_cases hneg : ∃ e : Fin m, violation (initNet P) s (.inl e) < 0
      · obtain ⟨e, he, _⟩ := h2 hneg
        refine ⟨eps * searchScale P junk s ia, mul_nonneg heps (searchScale_nonneg P junk s ia), Or.inr ⟨e, by rw [he]⟩, fun e' => ?_⟩
        rw [← neg_mul]; exact h1 e'
      · push Not at hneg
        exact ⟨0, le_refl _, Or.inl rfl, fun e' => by rw [neg_zero]; exact hneg e'⟩
    | some r' =>
      dsimp only
      split_ifs with hit
      · exact Or.inr ⟨.maxIter, s, rfl, hs, hit.1⟩
      · obtain ⟨e, h1, h2, _⟩ := findEnteringArc_some _ _ _ heps (searchScale_nonneg P junk s) _ _ _ hfe
        rw [h1]
        dsimp only
        rcases pivot_good P hs h2 with ⟨h3, h4⟩ | ⟨s', h3, h4, h5⟩
        · rw [h3]
          exact Or.inr ⟨.unbounded, s, rfl, h4⟩
        · rw [h3]
          dsimp only
          rcases ih (iters + 1) r' h4 with ⟨h6, l, h7, h8, h9⟩ | h6
          · refine Or.inl ⟨h6, s' :: l, by simp [h7], ?_, ?_⟩
            · rw [List.pairwise_cons]
              exact ⟨fun x hx => (h9 x hx).2, h8⟩
            · intro x hx
              rcases List.mem_cons.1 hx with rfl | hx
              · exact ⟨h4, h5⟩
              · exact ⟨(h9 x hx).1, h5.trans (h9 x hx).2⟩
          · exact Or.inr h6

/-- The main loop stops within `2 ^ (number of arcs)` turns. -/
theorem mainLoop_stops (P : Problem n m R) (junk eps : R) (heps : 0 ≤ eps) (bs maxIter : ℕ) (k : ℕ) (hk : 2 ^ (m + n) < k) (iters : ℕ) (r : Rule m)
    {s : State (Node n) (Arc n m) R} (hs : Good P s) :
    ∃ st s', mainLoop P junk eps bs maxIter (2 * (n + 1) + 2) k iters r s = some (st, s') ∧ LoopPost P junk eps maxIter st s' := by
  rcases mainLoop_spec P junk eps heps bs maxIter k iters r hs with ⟨_, l, h1, h2, h3⟩ | h
  · have := better_chain_length l h2 (root := none) (supply := extSupply P) fun s' hs' => by
      obtain ⟨⟨L, _, hL⟩, _⟩ := h3 s' hs'
      exact ⟨L, hL⟩
    rw [h1] at this
    simp at this
    omega
  · exact h

end runs

end POT.Simplex
