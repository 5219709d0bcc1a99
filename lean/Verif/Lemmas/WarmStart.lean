import Verif.Lemmas.WarmTree
import Verif.Lemmas.SimplexRun

/-! # The state built by `warmstartInit` is a feasible spanning tree solution -/

set_option linter.unusedSectionVars false

namespace POT.Simplex

open Spec POT.Tree Relation Finset

variable {R : Type*} [CommRing R] [LinearOrder R] [IsStrictOrderedRing R] {n m : ℕ}

/-! ### Breadth first search -/

/-- the arc above `u` joins `u` to its parent -/
def NodeOk (P : Problem n m R) (b : Bfs n m) (u : Fin n) : Prop :=
  (b.parent u = none ∧ b.pred u = .inr u ∧ b.forward u = decide (0 ≤ P.supply u)) ∨
  ∃ v e, b.parent u = some v ∧ b.pred u = .inl e ∧ v ∈ b.visited ∧ b.visited.idxOf v < b.visited.idxOf u ∧
    ((b.forward u = true ∧ P.src e = u ∧ P.tgt e = v) ∨ (b.forward u = false ∧ P.src e = v ∧ P.tgt e = u))

/-- invariant of the search -/
structure BfsOk (P : Problem n m R) (b : Bfs n m) : Prop where
  nodup : b.visited.Nodup
  node : ∀ u ∈ b.visited, NodeOk P b u

theorem BfsOk.extend {P : Problem n m R} {b : Bfs n m} (h : BfsOk P b) {x : Fin n} (hx : x ∉ b.visited) (par : Option (Fin n)) (pr : Arc n m) (fw : Bool)
    (hnew : (par = none ∧ pr = .inr x ∧ fw = decide (0 ≤ P.supply x)) ∨ ∃ v e, par = some v ∧ pr = .inl e ∧ v ∈ b.visited ∧
      ((fw = true ∧ P.src e = x ∧ P.tgt e = v) ∨ (fw = false ∧ P.src e = v ∧ P.tgt e = x))) :
    BfsOk P ⟨b.visited ++ [x], Function.update b.parent x par, Function.update b.pred x pr, Function.update b.forward x fw⟩ := by
  refine ⟨?_, fun u hu => ?_⟩
  · rw [List.nodup_append]
    refine ⟨h.nodup, by simp, ?_⟩
    intro a ha c hc
    rw [List.mem_singleton] at hc
    rintro rfl
    exact hx (hc ▸ ha)
  · rw [List.mem_append, List.mem_singleton] at hu
    by_cases hux : u = x
    · subst hux
      unfold NodeOk
      dsimp only
      simp only [Function.update_self]
      rcases hnew with h1 | ⟨v, e, h1, h2, h3, h4⟩
      · exact Or.inl h1
      · refine Or.inr ⟨v, e, h1, h2, by simp [h3], ?_, h4⟩
        rw [List.idxOf_append_of_mem h3, List.idxOf_append_of_notMem hx]
        have := List.idxOf_lt_length_of_mem h3
        omega
    · have hu' : u ∈ b.visited := hu.resolve_right hux
      unfold NodeOk
      dsimp only
      simp only [Function.update_of_ne hux]
      rcases h.node u hu' with h1 | ⟨v, e, h1, h2, h3, h4, h5⟩
      · exact Or.inl h1
      · refine Or.inr ⟨v, e, h1, h2, by simp [h3], ?_, h5⟩
        rwa [List.idxOf_append_of_mem h3, List.idxOf_append_of_mem hu']

theorem bfsVisit_ok {P : Problem n m R} {v : Fin n} {acc : Bfs n m × List (Fin n)} {x : Fin n × Fin m} (h : BfsOk P acc.1) (hv : v ∈ acc.1.visited)
    (hq : ∀ u ∈ acc.2, u ∈ acc.1.visited) (hx : (P.src x.2 = v ∧ x.1 = P.tgt x.2) ∨ (P.tgt x.2 = v ∧ x.1 = P.src x.2)) :
    BfsOk P (bfsVisit P v acc x).1 ∧ (∀ u ∈ acc.1.visited, u ∈ (bfsVisit P v acc x).1.visited) ∧
      ∀ u ∈ (bfsVisit P v acc x).2, u ∈ (bfsVisit P v acc x).1.visited := by
  unfold bfsVisit
  split_ifs with hvis
  · exact ⟨h, fun u hu => hu, hq⟩
  · refine ⟨h.extend hvis _ _ _ (Or.inr ⟨v, x.2, rfl, rfl, hv, ?_⟩), fun u hu => by simp [hu], fun u hu => ?_⟩
    · rcases hx with ⟨h1, h2⟩ | ⟨h1, h2⟩
      · right
        refine ⟨decide_eq_false fun h3 => hvis ?_, h1, h2.symm⟩
        rw [← h3, h1]; exact hv
      · left
        exact ⟨decide_eq_true h2.symm, h2.symm, h1⟩
    · simp only [List.mem_append, List.mem_singleton] at hu ⊢
      rcases hu with hu | hu
      · exact Or.inl (hq u hu)
      · exact Or.inr hu

theorem treeAdj_mem {P : Problem n m R} {arcs : List (Fin m)} {v : Fin n} {x : Fin n × Fin m} (hx : x ∈ treeAdj P arcs v) :
    (P.src x.2 = v ∧ x.1 = P.tgt x.2) ∨ (P.tgt x.2 = v ∧ x.1 = P.src x.2) := by
  unfold treeAdj at hx
  rw [List.mem_flatMap] at hx
  obtain ⟨e, _, he⟩ := hx
  rw [List.mem_append] at he
  rcases he with he | he
  · split_ifs at he with h
    · rw [List.mem_singleton] at he; subst he; exact Or.inl ⟨h, rfl⟩
    · cases he
  · split_ifs at he with h
    · rw [List.mem_singleton] at he; subst he; exact Or.inr ⟨h, rfl⟩
    · cases he

theorem bfsFold_ok {P : Problem n m R} {v : Fin n} (l : List (Fin n × Fin m))
    (hl : ∀ x ∈ l, (P.src x.2 = v ∧ x.1 = P.tgt x.2) ∨ (P.tgt x.2 = v ∧ x.1 = P.src x.2)) {acc : Bfs n m × List (Fin n)}
    (h : BfsOk P acc.1) (hv : v ∈ acc.1.visited) (hq : ∀ u ∈ acc.2, u ∈ acc.1.visited) :
    BfsOk P (l.foldl (bfsVisit P v) acc).1 ∧ (∀ u ∈ acc.1.visited, u ∈ (l.foldl (bfsVisit P v) acc).1.visited) ∧
      ∀ u ∈ (l.foldl (bfsVisit P v) acc).2, u ∈ (l.foldl (bfsVisit P v) acc).1.visited := by
  induction l generalizing acc with
  | nil => exact ⟨h, fun u hu => hu, hq⟩
  | cons x l ih =>
    rw [List.foldl_cons]
    obtain ⟨h1, h2, h3⟩ := bfsVisit_ok h hv hq (hl x (by simp))
    obtain ⟨h4, h5, h6⟩ := ih (fun y hy => hl y (by simp [hy])) h1 (h2 v hv) h3
    exact ⟨h4, fun u hu => h5 u (h2 u hu), h6⟩

theorem bfsLoop_ok {P : Problem n m R} {arcs : List (Fin m)} (k : ℕ) (q : List (Fin n)) (b : Bfs n m) (h : BfsOk P b) (hq : ∀ u ∈ q, u ∈ b.visited) :
    BfsOk P (bfsLoop P arcs k q b) ∧ ∀ u ∈ b.visited, u ∈ (bfsLoop P arcs k q b).visited := by
  induction k generalizing q b with
  | zero => exact ⟨h, fun u hu => hu⟩
  | succ k ih =>
    cases q with
    | nil => exact ⟨h, fun u hu => hu⟩
    | cons v q =>
      rw [bfsLoop]
      obtain ⟨h1, h2, h3⟩ := bfsFold_ok (treeAdj P arcs v) (fun x hx => treeAdj_mem hx) (acc := (b, q)) h (hq v (by simp)) (fun u hu => hq u (by simp [hu]))
      obtain ⟨h4, h5⟩ := ih _ _ h1 h3
      exact ⟨h4, fun u hu => h5 u (h2 u hu)⟩

theorem bfsRep_ok {P : Problem n m R} {arcs : List (Fin m)} {b : Bfs n m} (h : BfsOk P b) (u : Fin n) :
    BfsOk P (bfsRep P arcs b u) ∧ (∀ x ∈ b.visited, x ∈ (bfsRep P arcs b u).visited) ∧ u ∈ (bfsRep P arcs b u).visited := by
  unfold bfsRep
  split_ifs with hu
  · exact ⟨h, fun x hx => hx, hu⟩
  · obtain ⟨h1, h2⟩ := bfsLoop_ok (arcs := arcs) n [u] _ (h.extend hu none (.inr u) (decide (0 ≤ P.supply u)) (Or.inl ⟨rfl, rfl, rfl⟩)) (by simp)
    exact ⟨h1, fun x hx => h2 x (by simp [hx]), h2 u (by simp)⟩

theorem bfs_ok (P : Problem n m R) (arcs : List (Fin m)) : BfsOk P (bfs P arcs) ∧ ∀ u, u ∈ (bfs P arcs).visited := by
  have key : ∀ (l : List (Fin n)) (b : Bfs n m), BfsOk P b → BfsOk P (l.foldl (bfsRep P arcs) b) ∧
      (∀ x ∈ b.visited, x ∈ (l.foldl (bfsRep P arcs) b).visited) ∧ ∀ u ∈ l, u ∈ (l.foldl (bfsRep P arcs) b).visited := by
    intro l
    induction l with
    | nil => intro b h; exact ⟨h, fun x hx => hx, by simp⟩
    | cons a l ih =>
      intro b h
      obtain ⟨h1, h2, h3⟩ := bfsRep_ok (arcs := arcs) h a
      obtain ⟨h4, h5, h6⟩ := ih _ h1
      refine ⟨h4, fun x hx => h5 x (h2 x hx), fun u hu => ?_⟩
      rcases List.mem_cons.1 hu with rfl | hu
      · exact h5 _ h3
      · exact h6 u hu
  obtain ⟨h1, _, h3⟩ := key (List.finRange n) ⟨[], fun _ => none, fun u => .inr u, fun _ => true⟩ ⟨by simp, by simp⟩
  exact ⟨h1, fun u => h3 u (List.mem_finRange u)⟩

/-- the order of the search ranks the nodes -/
theorem bfs_ranked (P : Problem n m R) (arcs : List (Fin m)) : Ranked (bfs P arcs).parent (fun u => (bfs P arcs).visited.idxOf u) := by
  obtain ⟨h1, h2⟩ := bfs_ok P arcs
  refine ⟨fun u v huv => ?_, fun u => ?_⟩
  · rcases h1.node u (h2 u) with ⟨h3, _⟩ | ⟨v', e, h3, _, _, h4, _⟩
    · rw [h3] at huv; cases huv
    · rw [h3] at huv
      cases huv
      exact h4
  · have h3 := List.idxOf_lt_length_of_mem (h2 u)
    have h4 := h1.nodup.length_le_card
    rw [Fintype.card_fin] at h4
    omega

/-! ### The tree during STEP 5 -/

/-- every node hangs on its parent of the search by the arc of the search, or on the root by its artificial arc -/
structure PushTree (P : Problem n m R) (b : Bfs n m) (c : Push n m R) : Prop where
  node : ∀ u, (c.parent u = none ∧ c.pred u = .inr u) ∨
    (c.parent u = b.parent u ∧ c.pred u = b.pred u ∧ c.forward u = b.forward u ∧ b.parent u ≠ none)

theorem pred_injective {P : Problem n m R} {b : Bfs n m} (hb : BfsOk P b) (hv : ∀ u, u ∈ b.visited) {c : Push n m R} (hc : PushTree P b c) :
    Function.Injective c.pred := by
  intro u w huw
  have real : ∀ x, b.parent x ≠ none → ∃ v e, b.parent x = some v ∧ b.pred x = .inl e ∧ b.visited.idxOf v < b.visited.idxOf x ∧
      ((P.src e = x ∧ P.tgt e = v) ∨ (P.src e = v ∧ P.tgt e = x)) := by
    intro x hx
    rcases hb.node x (hv x) with ⟨h, _⟩ | ⟨v, e, h1, h2, _, h4, h5⟩
    · exact absurd h hx
    · exact ⟨v, e, h1, h2, h4, h5.imp (fun h => h.2) fun h => h.2⟩
  rcases hc.node u with ⟨_, h1⟩ | ⟨_, h1, _, hu⟩ <;> rcases hc.node w with ⟨_, h2⟩ | ⟨_, h2, _, hw⟩
  · rw [h1, h2] at huw; exact Sum.inr_injective huw
  · obtain ⟨v, e, _, h3, _⟩ := real w hw
    rw [h1, h2, h3] at huw; cases huw
  · obtain ⟨v, e, _, h3, _⟩ := real u hu
    rw [h1, h2, h3] at huw; cases huw
  · obtain ⟨v, e, _, h3, r1, d1⟩ := real u hu
    obtain ⟨v', e', _, h4, r2, d2⟩ := real w hw
    rw [h1, h2, h3, h4] at huw
    have := Sum.inl_injective huw
    subst this
    by_contra hne
    rcases d1 with ⟨a1, a2⟩ | ⟨a1, a2⟩ <;> rcases d2 with ⟨b1, b2⟩ | ⟨b1, b2⟩
    · exact hne (a1.symm.trans b1)
    · rw [← a1, ← a2, b1, b2] at r1
      rw [← b1, ← b2] at r2
      rw [b1, b2] at r2
      omega
    · rw [← a1, ← a2, b1, b2] at r1
      rw [b1] at a1
      rw [b2] at a2
      omega
    · exact hne (a2.symm.trans b2)

/-- what STEP 5 has established after the nodes `A` -/
structure PushOk (P : Problem n m R) (b : Bfs n m) (A : List (Node n)) (c : Push n m R) : Prop extends PushTree P b c where
  todo : ∀ u, some u ∉ A → c.parent u = b.parent u ∧ c.pred u = b.pred u ∧ c.forward u = b.forward u
  done : ∀ u, some u ∈ A → 0 ≤ c.flow (c.pred u) ∧ c.flow (c.pred u) = if c.forward u then c.net (some u) else -c.net (some u)
  balance : ∀ y, c.net y = (match y with | none => 0 | some i => P.supply i) + ((A.filter fun x => liftParent c.parent x = some y).map c.net).sum
  rest : ∀ a, (∀ u, some u ∈ A → c.pred u ≠ a) → c.flow a = 0
  count : 0 < c.ejected ∨ c.parent = b.parent
  turned : ∀ u, b.parent u ≠ none → b.forward u = true → 0 ≤ P.supply u → c.pred u = .inr u → c.forward u = false

theorem pushStep_ok {P : Problem n m R} {b : Bfs n m} (hb : BfsOk P b) (hv : ∀ u, u ∈ b.visited) {A : List (Node n)} {c : Push n m R} (h : PushOk P b A c)
    {u : Fin n} (hu : some u ∉ A) (hroot : none ∉ A) (hq : b.parent u ∉ A) (hqu : b.parent u ≠ some u) :
    PushOk P b (A ++ [some u]) (pushStep P c (some u)) := by
  have hinj := pred_injective hb hv h.toPushTree
  obtain ⟨t1, t2, t3⟩ := h.todo u hu
  unfold pushStep
  dsimp only
  by_cases hf : 0 ≤ signedNet c (c.forward u) u
  · -- the arc is kept
    rw [if_pos hf]
    have hqA : c.parent u ∉ A := t1 ▸ hq
    have hqu' : c.parent u ≠ some u := t1 ▸ hqu
    have hnetA : ∀ x ∈ A, Function.update c.net (c.parent u) (c.net (c.parent u) + c.net (some u)) x = c.net x := by
      intro x hx
      rw [Function.update_of_ne]
      rintro rfl; exact hqA hx
    have hnetu : Function.update c.net (c.parent u) (c.net (c.parent u) + c.net (some u)) (some u) = c.net (some u) :=
      Function.update_of_ne (Ne.symm hqu') _ _
    refine ⟨⟨h.node⟩, fun w hw => h.todo w fun h' => hw (by simp [h']), fun w hw => ?_, fun y => ?_, fun a ha => ?_, h.count, h.turned⟩
    · dsimp only
      by_cases hwu : w = u
      · subst hwu
        rw [Function.update_self, hnetu]
        exact ⟨hf, rfl⟩
      · have hwA : some w ∈ A := by simpa [hwu] using hw
        rw [Function.update_of_ne (fun h' => hwu (hinj h')), hnetA _ hwA]
        exact h.done w hwA
    · dsimp only
      rw [List.filter_append, List.map_append, List.sum_append]
      have e1 : (A.filter fun x => liftParent c.parent x = some y).map (Function.update c.net (c.parent u) (c.net (c.parent u) + c.net (some u)))
          = (A.filter fun x => liftParent c.parent x = some y).map c.net :=
        List.map_congr_left fun x hx => hnetA x (List.mem_filter.1 hx).1
      rw [e1]
      by_cases hy : c.parent u = y
      · subst hy
        have : [some u].filter (fun x => liftParent c.parent x = some (c.parent u)) = [some u] := by simp [liftParent]
        rw [this, List.map_singleton, List.sum_singleton, hnetu, Function.update_self, ← add_assoc, ← h.balance (c.parent u)]
      · rw [Function.update_of_ne (Ne.symm hy), h.balance y]
        have : [some u].filter (fun x => liftParent c.parent x = some y) = [] := by simp [liftParent, hy]
        rw [this]; simp
    · dsimp only
      have h1 : c.pred u ≠ a := ha u (by simp)
      rw [Function.update_of_ne (Ne.symm h1)]
      exact h.rest a fun w hw => ha w (by simp [hw])
  · -- the node is cut off
    rw [if_neg hf]
    have hnetA : ∀ x, x ≠ none → Function.update c.net none (c.net none + c.net (some u)) x = c.net x := fun x hx => Function.update_of_ne hx _ _
    have hparA : ∀ x ∈ A, liftParent (Function.update c.parent u none) x = liftParent c.parent x := by
      intro x hx
      cases x with
      | none => rfl
      | some w =>
        have : w ≠ u := by rintro rfl; exact hu hx
        simp [liftParent, this]
    have hinr : ∀ w, c.pred w = .inr u → w = u := by
      intro w hw
      rcases h.node w with ⟨_, h1⟩ | ⟨_, h1, _, h2⟩
      · rw [h1] at hw; exact Sum.inr_injective hw
      · rcases hb.node w (hv w) with ⟨h3, _⟩ | ⟨_, _, _, h3, _⟩
        · exact absurd h3 h2
        · rw [h1, h3] at hw; cases hw
    refine ⟨⟨fun w => ?_⟩, fun w hw => ?_, fun w hw => ?_, fun y => ?_, fun a ha => ?_, Or.inl (Nat.succ_pos _), fun w h1 h2 h3 h4 => ?_⟩
    · dsimp only
      by_cases hwu : w = u
      · subst hwu; left; simp
      · simp only [Function.update_of_ne hwu]; exact h.node w
    · have hwu : w ≠ u := by rintro rfl; exact hw (by simp)
      dsimp only
      simp only [Function.update_of_ne hwu]
      exact h.todo w fun h' => hw (by simp [h'])
    · dsimp only
      rw [hnetA (some w) (by simp)]
      by_cases hwu : w = u
      · subst hwu
        simp only [Function.update_self]
        generalize decide (0 ≤ P.supply w) = fw
        unfold signedNet
        cases fw <;> split_ifs <;> simp_all <;> linarith
      · have hwA : some w ∈ A := by simpa [hwu] using hw
        simp only [Function.update_of_ne hwu]
        have hw1 : c.pred w ≠ .inr u := fun h' => hwu (hinr w h')
        have hw2 : c.pred w ≠ c.pred u := fun h' => hwu (hinj h')
        rw [Function.update_of_ne hw1]
        have hfl : cutFlow c (c.pred u) (c.pred w) = c.flow (c.pred w) := by
          cases hpu : c.pred u with
          | inl e => rw [hpu] at hw2; exact Function.update_of_ne hw2 _ _
          | inr _ => rfl
        rw [hfl]
        exact h.done w hwA
    · dsimp only
      rw [List.filter_append, List.map_append, List.sum_append]
      have e0 : (A.filter fun x => liftParent (Function.update c.parent u none) x = some y) = A.filter fun x => liftParent c.parent x = some y :=
        List.filter_congr fun x hx => by rw [hparA x hx]
      have e1 : (A.filter fun x => liftParent c.parent x = some y).map (Function.update c.net none (c.net none + c.net (some u)))
          = (A.filter fun x => liftParent c.parent x = some y).map c.net :=
        List.map_congr_left fun x hx => hnetA x (by rintro rfl; exact hroot (List.mem_filter.1 hx).1)
      rw [e0, e1]
      cases y with
      | none =>
        have : [some u].filter (fun x => liftParent (Function.update c.parent u none) x = some none) = [some u] := by simp [liftParent]
        rw [this, List.map_singleton, List.sum_singleton, hnetA (some u) (by simp), Function.update_self, ← add_assoc, ← h.balance none]
      | some i =>
        have : [some u].filter (fun x => liftParent (Function.update c.parent u none) x = some (some i)) = [] := by simp [liftParent]
        rw [this, hnetA _ (by simp), h.balance (some i)]; simp
    · dsimp only
      have h1 : a ≠ .inr u := by
        rintro rfl
        exact ha u (by simp) (by simp)
      rw [Function.update_of_ne h1]
      have h2 : ∀ w, some w ∈ A → c.pred w ≠ a := by
        intro w hw
        have hwu : w ≠ u := by rintro rfl; exact hu hw
        have := ha w (by simp [hw])
        simpa [Function.update_of_ne hwu] using this
      have h3 := h.rest a h2
      cases hpu : c.pred u with
      | inr _ => exact h3
      | inl e =>
        change Function.update c.flow (.inl e) 0 a = 0
        by_cases hae : a = .inl e
        · rw [hae, Function.update_self]
        · rw [Function.update_of_ne hae, h3]
    · dsimp only at h4 ⊢
      by_cases hwu : w = u
      · subst hwu
        rw [t3, h2] at hf
        rw [Function.update_self, decide_eq_true h3, if_pos (not_le.1 hf)]
        rfl
      · rw [Function.update_of_ne hwu] at h4 ⊢
        exact h.turned w h1 h2 h3 h4

/-- STEP 5 over a list of nodes -/
theorem pushFold_ok {P : Problem n m R} {b : Bfs n m} (hb : BfsOk P b) (hv : ∀ u, u ∈ b.visited) (M : List (Node n)) (hM : M.Nodup) (hroot : none ∉ M)
    (hord : ∀ A x B, M = A ++ x :: B → ∀ q, liftParent b.parent x = some q → q ∉ A ++ [x]) :
    PushOk P b M (M.foldl (pushStep P)
      ⟨fun u => match u with | none => 0 | some i => P.supply i, b.parent, b.pred, b.forward, fun _ => 0, 0⟩) := by
  induction M using List.reverseRecOn with
  | nil =>
    refine ⟨⟨fun u => ?_⟩, fun u _ => ⟨rfl, rfl, rfl⟩, by simp, fun y => by simp, fun _ _ => rfl, Or.inr rfl, fun u h1 _ _ h2 => ?_⟩
    · rcases hb.node u (hv u) with ⟨h1, h2, _⟩ | ⟨v, e, h1, _⟩
      · exact Or.inl ⟨h1, h2⟩
      · exact Or.inr ⟨rfl, rfl, rfl, by rw [h1]; simp⟩
    · rcases hb.node u (hv u) with ⟨h3, _⟩ | ⟨v, e, _, h3, _⟩
      · exact absurd h3 h1
      · exact absurd (h3.symm.trans h2) (by simp)
  | append_singleton A x ih =>
    have ih' := ih (List.nodup_append.1 hM).1 (fun h => hroot (by simp [h])) fun A' z B h => hord A' z (B ++ [x]) (by rw [h]; simp)
    rw [List.foldl_append, List.foldl_cons, List.foldl_nil]
    cases x with
    | none => exact absurd (by simp) hroot
    | some u =>
      have h1 := hord A (some u) [] rfl (b.parent u) rfl
      refine pushStep_ok hb hv ih' ?_ (fun h => hroot (by simp [h])) (fun h => h1 (by simp [h])) fun h => h1 (by simp [h])
      intro h
      exact (List.disjoint_of_nodup_append hM) h (by simp)

/-- everything about the result of STEP 5 -/
theorem pushUp_ok (P : Problem n m R) (arcs : List (Fin m)) :
    ∃ M : List (Node n), M.Nodup ∧ (∀ u : Fin n, some u ∈ M) ∧ none ∉ M ∧ PushOk P (bfs P arcs) M (pushUp P (bfs P arcs)) := by
  obtain ⟨hb, hv⟩ := bfs_ok P arcs
  have hr := bfs_ranked P arcs
  have hnd := nodup_subT hr none
  have hs := subT_eq hr none
  set p := (bfs P arcs).parent with hp
  set T := (childList p none).flatMap (subT p) with hT
  refine ⟨T.reverse, List.nodup_reverse.2 ?_, fun u => ?_, ?_, ?_⟩
  · rw [hs] at hnd; exact (List.nodup_cons.1 hnd).2
  · have := (mem_subT hr none (some u)).2 (root_anc_lift hr _)
    rw [hs] at this
    simpa using this
  · rw [hs] at hnd; simpa using (List.nodup_cons.1 hnd).1
  · have h1 : pushUp P (bfs P arcs) = T.reverse.foldl (pushStep P)
        ⟨fun u => match u with | none => 0 | some i => P.supply i, (bfs P arcs).parent, (bfs P arcs).pred, (bfs P arcs).forward, fun _ => 0, 0⟩ := by
      unfold pushUp
      rw [← hp, preorder_eq hr, hs, List.reverse_cons, List.foldl_append]
      rfl
    rw [h1]
    refine pushFold_ok hb hv _ ?_ ?_ fun A x B h q hq => ?_
    · rw [hs] at hnd; exact List.nodup_reverse.2 (List.nodup_cons.1 hnd).2
    · rw [hs] at hnd; simpa using (List.nodup_cons.1 hnd).1
    · refine reverse_order hr (B := B ++ [none]) ?_ q hq
      rw [hs, List.reverse_cons, h]; simp

/-! ### Potentials -/

theorem potStep_ok (cost : Arc n m → R) {p : Fin n → Option (Fin n)} {rk : Fin n → ℕ} (hr : Ranked p rk) (pred : Fin n → Arc n m) (fw : Fin n → Bool) :
    treePotentials cost p pred fw (preorder p) none = 0 ∧ ∀ u, treePotentials cost p pred fw (preorder p) (some u) =
      if fw u then treePotentials cost p pred fw (preorder p) (p u) - cost (pred u) else treePotentials cost p pred fw (preorder p) (p u) + cost (pred u) := by
  rw [preorder_eq hr]
  have hnd := nodup_subT hr none
  have key : ∀ A B, subT p none = A ++ B → A.foldl (potStep cost p pred fw) (fun _ => 0) none = 0 ∧ ∀ u, some u ∈ A →
      A.foldl (potStep cost p pred fw) (fun _ => 0) (some u) =
        if fw u then A.foldl (potStep cost p pred fw) (fun _ => 0) (p u) - cost (pred u) else A.foldl (potStep cost p pred fw) (fun _ => 0) (p u) + cost (pred u) := by
    intro A
    induction A using List.reverseRecOn with
    | nil => intro B _; exact ⟨rfl, by simp⟩
    | append_singleton A x ih =>
      intro B hB
      have hB' : subT p none = A ++ x :: B := by rw [hB]; simp
      obtain ⟨h1, h2⟩ := ih _ hB'
      rw [List.foldl_append, List.foldl_cons, List.foldl_nil]
      set F := A.foldl (potStep cost p pred fw) (fun _ => 0) with hF
      cases x with
      | none => exact ⟨h1, fun u hu => h2 u (by simpa using hu)⟩
      | some i =>
        have hiA : some i ∉ A := by
          rw [hB'] at hnd
          intro h
          exact (List.disjoint_of_nodup_append hnd) h (by simp)
        simp only [potStep]
        refine ⟨by rw [Function.update_of_ne (by simp)]; exact h1, fun u hu => ?_⟩
        have hpar : ∀ w, (some w ∈ A ∨ w = i) → p w ≠ some i := by
          intro w hw h
          rcases hw with hw | rfl
          · obtain ⟨A1, A2, hA⟩ := List.append_of_mem hw
            have := parent_before hr (A := A1) (B := A2 ++ some i :: B) (x := some w) (q := p w) (by rw [hB', hA]; simp) rfl
            rw [h] at this
            exact hiA (by rw [hA]; simp [this])
          · exact absurd (hr.lt w w h) (lt_irrefl _)
        by_cases hui : u = i
        · subst hui
          rw [Function.update_self, Function.update_of_ne (hpar u (Or.inr rfl))]
        · have huA : some u ∈ A := by simpa [hui] using hu
          have : (some u : Node n) ≠ some i := by simpa using hui
          rw [Function.update_of_ne this, Function.update_of_ne (hpar u (Or.inl huA))]
          exact h2 u huA
  obtain ⟨h1, h2⟩ := key (subT p none) [] (by simp)
  exact ⟨h1, fun u => h2 u ((mem_subT hr none _).2 (root_anc_lift hr _))⟩

/-! ### The state -/

variable [NeZero n]

/-- the network in which artificial arcs have the directions `d` -/
def turnedNet (P : Problem n m R) (d : Fin n → Bool) : Net (Node n) (Arc n m) R where
  src
    | .inl i => some (P.src i)
    | .inr u => if d u then some u else none
  tgt
    | .inl i => some (P.tgt i)
    | .inr u => if d u then none else some u
  cost := (initNet P).cost

theorem netFlow_total {V A : Type*} [DecidableEq V] [Fintype V] [Fintype A] (src tgt : A → V) (f : A → R) : ∑ v, netFlow src tgt f v = 0 := by
  unfold netFlow
  rw [Finset.sum_sub_distrib, Finset.sum_comm, Finset.sum_comm (f := fun v a => if tgt a = v then f a else 0)]
  simp

/-- **The warm start gives a feasible spanning tree solution** of the network in which some artificial arcs are turned around. -/
theorem warm_inv (P : Problem n m R) (cand : List (Fin m)) :
    ∃ (d : Fin n → Bool) (L : List (Node n)), (Bipartite P → ∀ u, 0 ≤ P.supply u → (bfs P (treeArcs P cand)).parent u ≠ none → d u = false) ∧
      L.length = n + 1 ∧ InvW (turnedNet P d) none (extSupply P) (warmState P cand) L := by
  obtain ⟨hb, hv⟩ := bfs_ok P (treeArcs P cand)
  have hr0 := bfs_ranked P (treeArcs P cand)
  obtain ⟨M, hMn, hMm, hMr, hc⟩ := pushUp_ok P (treeArcs P cand)
  unfold warmState
  dsimp only
  set b := bfs P (treeArcs P cand) with hbdef
  set c := pushUp P b with hcdef
  have hl : (if 0 < c.ejected then preorder c.parent else preorder b.parent) = preorder c.parent := by
    rcases hc.count with h | h
    · rw [if_pos h]
    · rw [h]; simp
  have hp : (if 0 < c.ejected then c.parent else b.parent) = c.parent := by
    rcases hc.count with h | h
    · rw [if_pos h]
    · rw [h]; simp
  rw [hl, hp]
  have hinj := pred_injective hb hv hc.toPushTree
  have hr : Ranked c.parent (fun u => b.visited.idxOf u) := by
    refine ⟨fun u v huv => ?_, hr0.bound⟩
    rcases hc.node u with ⟨h, _⟩ | ⟨h, _⟩
    · rw [h] at huv; cases huv
    · rw [h] at huv; exact hr0.lt u v huv
  have hT := warm_treeRep hr
  obtain ⟨pi0, pi1⟩ := potStep_ok (initNet P).cost hr c.pred c.forward
  -- directions of the artificial arcs
  set d : Fin n → Bool := fun u => if c.pred u = .inr u then c.forward u else false with hd
  have harc : ∀ u : Fin n, if c.forward u then (turnedNet P d).src (c.pred u) = some u ∧ (turnedNet P d).tgt (c.pred u) = c.parent u
      else (turnedNet P d).src (c.pred u) = c.parent u ∧ (turnedNet P d).tgt (c.pred u) = some u := by
    intro u
    rcases hc.node u with ⟨h1, h2⟩ | ⟨h1, h2, h3, h4⟩
    · have hdu : d u = c.forward u := by simp only [hd, h2, if_true]
      rw [h1, h2]
      unfold turnedNet
      dsimp only
      rw [hdu]
      split_ifs <;> simp
    · rcases hb.node u (hv u) with ⟨h5, _⟩ | ⟨v, e, h5, h6, _, _, h7⟩
      · exact absurd h5 h4
      · rw [h1, h2, h3, h5, h6]
        unfold turnedNet
        dsimp only
        rcases h7 with ⟨a1, a2, a3⟩ | ⟨a1, a2, a3⟩
        · rw [a1, a2, a3]; simp
        · rw [a1, a2, a3]; simp
  have hzero : ∀ a, a ∉ Set.range c.pred → c.flow a = 0 := fun a ha => hc.rest a fun u _ h => ha ⟨u, h⟩
  have hflow : ∀ u, 0 ≤ c.flow (c.pred u) ∧ c.flow (c.pred u) = if c.forward u then c.net (some u) else -c.net (some u) := fun u => hc.done u (hMm u)
  have hsum : ∀ y : Node n, ((M.filter fun x => liftParent c.parent x = some y).map c.net).sum = ∑ u, if c.parent u = y then c.net (some u) else 0 := by
    intro y
    have h1 : M.Perm ((List.finRange n).map some) := by
      rw [List.perm_ext_iff_of_nodup hMn ((List.nodup_finRange n).map (Option.some_injective _))]
      intro x
      cases x with
      | none => simp [hMr]
      | some u => simp [hMm u]
    rw [((h1.filter _).map _).sum_eq, ← List.sum_ofFn, List.ofFn_eq_map]
    generalize List.finRange n = l
    induction l with
    | nil => simp
    | cons a l ih =>
      rw [List.map_cons, List.filter_cons, List.map_cons, List.sum_cons, ← ih]
      by_cases h : c.parent a = y
      · simp [liftParent, h]
      · simp [liftParent, h]
  have hconR : ∀ u : Fin n, netFlow (turnedNet P d).src (turnedNet P d).tgt c.flow (some u) = P.supply u := by
    intro v
    unfold netFlow
    rw [← Finset.sum_sub_distrib]
    rw [← Fintype.sum_of_injective c.pred hinj (fun u => (if (some u : Node n) = some v then c.net (some u) else 0) - if c.parent u = some v then c.net (some u) else 0)]
    · rw [Finset.sum_sub_distrib, ← hsum (some v)]
      have h1 := hc.balance (some v)
      dsimp only at h1
      have h2 : ∑ u, (if (some u : Node n) = some v then c.net (some u) else 0) = c.net (some v) := by simp
      rw [h2]
      linarith
    · intro a ha
      rw [hzero a ha]; simp
    · intro u
      have h1 := harc u
      rw [(hflow u).2]
      cases hfw : c.forward u with
      | true =>
        rw [hfw] at h1
        simp only [if_true] at h1 ⊢
        rw [h1.1, h1.2]
      | false =>
        rw [hfw] at h1
        simp only [Bool.false_eq_true, if_false] at h1 ⊢
        rw [h1.1, h1.2]
        split_ifs <;> ring
  refine ⟨d, preorder c.parent, fun hbip u hu hpar => ?_, by rw [preorder_eq hr]; exact subT_root_length hr, ⟨hT, ?_, ?_, ?_, ?_, ?_, ?_, ?_, pi0⟩⟩
  · simp only [hd]
    split_ifs with h1
    · refine hc.turned u hpar ?_ hu h1
      rcases hb.node u (hv u) with ⟨h2, _⟩ | ⟨v, e, _, _, _, _, ⟨h2, _⟩ | ⟨_, _, h2⟩⟩
      · exact absurd h2 hpar
      · exact h2
      · have := (hbip e).2
        rw [h2] at this
        exact absurd hu (not_le.2 this)
    · rfl
  · intro v q hvq
    cases v with
    | none => cases hvq
    | some u =>
      have : c.parent u = q := Option.some.inj hvq
      subst this
      exact harc u
  · intro v q hvq
    cases v with
    | none => cases hvq
    | some u => exact if_pos ⟨u, rfl⟩
  · intro a ha
    dsimp only at ha
    split_ifs at ha with h
    obtain ⟨u, hu⟩ := h
    exact ⟨some u, c.parent u, rfl, hu⟩
  · intro a ha
    dsimp only at ha ⊢
    split_ifs at ha ⊢ with h
    · exact absurd rfl ha
    · exact ⟨rfl, hzero a fun ⟨u, hu⟩ => h ⟨u, hu⟩⟩
  · intro a
    dsimp only
    by_cases h : a ∈ Set.range c.pred
    · obtain ⟨u, rfl⟩ := h
      exact (hflow u).1
    · rw [hzero a h]
  · intro v
    cases v with
    | some u => exact hconR u
    | none =>
      have h1 := netFlow_total (turnedNet P d).src (turnedNet P d).tgt c.flow
      rw [Fintype.sum_option, Finset.sum_congr rfl fun u _ => hconR u] at h1
      dsimp only [extSupply]
      linarith
  · intro v q hvq
    cases v with
    | none => cases hvq
    | some u =>
      have : c.parent u = q := Option.some.inj hvq
      subst this
      have h1 := harc u
      have h2 := pi1 u
      unfold redCost
      dsimp only
      cases hfw : c.forward u with
      | true =>
        rw [hfw] at h1 h2
        simp only [if_true] at h1 h2
        rw [h1.1, h1.2, h2]
        simp only [turnedNet]
        ring
      | false =>
        rw [hfw] at h1 h2
        simp only [Bool.false_eq_true, if_false] at h1 h2
        rw [h1.1, h1.2, h2]
        simp only [turnedNet]
        ring

end POT.Simplex
