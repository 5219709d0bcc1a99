import Verif.Lemmas.Arcs
import Verif.Lemmas.SimplexOpt
import Verif.Lemmas.Transport
import Mathlib.Data.Fintype.EquivFin
import Mathlib.Algebra.BigOperators.Fin
import Mathlib.Algebra.BigOperators.GroupWithZero.Action

/-! # From the transport problem to the network and back -/

set_option linter.unusedSectionVars false

namespace POT.Simplex

open Spec Finset

/-! ### Writing loops -/

section writes
variable {κ ι α : Type*} [DecidableEq κ]

theorem foldl_update_of_notMem (l : List ι) (key : ι → κ) (val : ι → α) (f0 : κ → α) (x : κ) (hx : ∀ k ∈ l, key k ≠ x) :
    l.foldl (fun f k => Function.update f (key k) (val k)) f0 x = f0 x := by
  induction l generalizing f0 with
  | nil => rfl
  | cons a l ih =>
    rw [List.foldl_cons, ih _ fun k hk => hx k (List.mem_cons_of_mem _ hk)]
    rw [Function.update_of_ne (Ne.symm (hx a (by simp)))]

theorem foldl_update_of_mem (l : List ι) (hl : l.Nodup) (key : ι → κ) (val : ι → α) (f0 : κ → α)
    (hinj : ∀ k ∈ l, ∀ k' ∈ l, key k = key k' → k = k') (k : ι) (hk : k ∈ l) :
    l.foldl (fun f k => Function.update f (key k) (val k)) f0 (key k) = val k := by
  induction l generalizing f0 with
  | nil => cases hk
  | cons a l ih =>
    rw [List.foldl_cons]
    rw [List.nodup_cons] at hl
    rcases List.mem_cons.1 hk with rfl | hk'
    · rw [foldl_update_of_notMem, Function.update_self]
      intro k' hk' he
      have := hinj k' (List.mem_cons_of_mem _ hk') k (by simp) he
      rw [this] at hk'
      exact hl.1 hk'
    · exact ih hl.2 _ (fun x hx y hy => hinj x (List.mem_cons_of_mem _ hx) y (List.mem_cons_of_mem _ hy)) hk'

end writes

/-! ### The problem -/

theorem finProd_divNat {n m : ℕ} (x : Fin n × Fin m) : (finProdFinEquiv x).divNat = x.1 := by
  have := finProdFinEquiv.symm_apply_apply x
  exact congrArg Prod.fst this

theorem finProd_modNat {n m : ℕ} (x : Fin n × Fin m) : (finProdFinEquiv x).modNat = x.2 := by
  have := finProdFinEquiv.symm_apply_apply x
  exact congrArg Prod.snd this

section problem
variable {R : Type*} [CommRing R] [LinearOrder R] [IsStrictOrderedRing R]

theorem endpoints_arcId {N n : ℕ} [NeZero n] (mixing : Bool) (f : Fin N → Fin n) (k : Fin N) :
    endpoints mixing f (arcId mixing N k.val) = nodeId (f k) := by
  unfold endpoints
  rw [storePositions_eq]
  have hz : (List.map (fun k : Fin N => arcId mixing N k.val) (List.finRange N).reverse).zip (List.finRange N).reverse
      = (List.finRange N).reverse.map fun k => (arcId mixing N k.val, k) := by
    generalize (List.finRange N).reverse = l
    induction l with
    | nil => rfl
    | cons a l ih => simp only [List.map_cons, List.zip_cons_cons, ih]
  rw [hz, List.foldl_map]
  exact foldl_update_of_mem (List.finRange N).reverse (by rw [List.nodup_reverse]; exact List.nodup_finRange N)
    (fun k : Fin N => arcId mixing N k.val) (fun k => nodeId (f k)) _
    (fun x _ y _ h => Fin.ext (arcId_inj x.isLt y.isLt h)) k (by simp)

/-- the permutation of the arcs made by `getArcID` -/
noncomputable def arcPerm (mixing : Bool) (N : ℕ) : Fin N ≃ Fin N :=
  Equiv.ofBijective (fun k => ⟨arcId mixing N k.val, arcId_lt k.isLt⟩)
    (Finite.injective_iff_bijective.1 fun x y h => Fin.ext (arcId_inj x.isLt y.isLt (congrArg Fin.val h)))

theorem arcPerm_val (mixing : Bool) {N : ℕ} (k : Fin N) : (arcPerm mixing N k).val = arcId mixing N k.val := rfl

theorem costArray_arcPerm {N : ℕ} (mixing : Bool) (c : Fin N → R) (k : Fin N) : costArray mixing c (arcPerm mixing N k) = c k := by
  unfold costArray
  cases mixing with
  | true =>
    rw [if_pos rfl]
    exact foldl_update_of_mem (List.finRange N) (List.nodup_finRange N) (fun k : Fin N => arcId true N k.val) c _
      (fun x _ y _ h => Fin.ext (arcId_inj x.isLt y.isLt h)) k (by simp)
  | false =>
    rw [if_neg (by decide)]
    show c (Fin.rev _) = c k
    congr 1
    ext
    rw [Fin.val_rev, arcPerm_val]
    simp [arcId]
    have := k.isLt
    omega

/-- position of the arc between source `i` and target `j` -/
noncomputable def arcAt (mixing : Bool) (n m : ℕ) : Fin n × Fin m ≃ Fin (n * m) := finProdFinEquiv.trans (arcPerm mixing (n * m))

/-- internal number of the source and target nodes -/
def nodeAt (n m : ℕ) : Fin n ⊕ Fin m ≃ Fin (n + m) := finSumFinEquiv.trans Fin.revPerm

variable {n m : ℕ} [NeZero (n + m)] (mixing : Bool) (wa : Fin n → R) (wb : Fin m → R) (D : Fin n → Fin m → R) {art : R}

theorem bip_src (x : Fin n × Fin m) : (bipNet mixing wa wb D art).src (arcAt mixing n m x) = nodeAt n m (.inl x.1) := by
  have h := endpoints_arcId mixing (fun k : Fin (n * m) => Fin.castAdd m k.divNat) (finProdFinEquiv x)
  rw [finProd_divNat] at h
  exact h

theorem bip_tgt (x : Fin n × Fin m) : (bipNet mixing wa wb D art).tgt (arcAt mixing n m x) = nodeAt n m (.inr x.2) := by
  have h := endpoints_arcId mixing (fun k : Fin (n * m) => Fin.natAdd n k.modNat) (finProdFinEquiv x)
  rw [finProd_modNat] at h
  exact h

theorem bip_cost (x : Fin n × Fin m) : (bipNet mixing wa wb D art).cost (arcAt mixing n m x) = D x.1 x.2 := by
  have h := costArray_arcPerm mixing (fun k : Fin (n * m) => D k.divNat k.modNat) (finProdFinEquiv x)
  rw [finProd_divNat, finProd_modNat] at h
  exact h

theorem bip_supply_inl (i : Fin n) : (bipNet mixing wa wb D art).supply (nodeAt n m (.inl i)) = wa i := by
  simp [bipNet, nodeAt, nodeId]

theorem bip_supply_inr (j : Fin m) : (bipNet mixing wa wb D art).supply (nodeAt n m (.inr j)) = -wb j := by
  simp [bipNet, nodeAt, nodeId]

theorem bip_supply_sum : ∑ u, (bipNet mixing wa wb D art).supply u = ∑ i, wa i - ∑ j, wb j := by
  rw [← Equiv.sum_comp (nodeAt n m), Fintype.sum_sum_type]
  simp only [bip_supply_inl, bip_supply_inr, Finset.sum_neg_distrib]
  ring

variable (hwa : ∀ i, 0 < wa i) (hwb : ∀ j, 0 < wb j)
include hwa hwb

theorem bip_bipartite : Bipartite (bipNet mixing wa wb D art) := by
  intro e
  obtain ⟨x, rfl⟩ := (arcAt mixing n m).surjective e
  rw [bip_src, bip_tgt, bip_supply_inl, bip_supply_inr]
  exact ⟨(hwa _).le, neg_lt_zero.2 (hwb _)⟩

theorem bip_complete (u v : Fin (n + m)) (hu : 0 ≤ (bipNet mixing wa wb D art).supply u) (hv : (bipNet mixing wa wb D art).supply v < 0) :
    ∃ e, (bipNet mixing wa wb D art).src e = u ∧ (bipNet mixing wa wb D art).tgt e = v := by
  obtain ⟨x, rfl⟩ := (nodeAt n m).surjective u
  obtain ⟨y, rfl⟩ := (nodeAt n m).surjective v
  cases x with
  | inr j => rw [bip_supply_inr] at hu; have := hwb j; linarith
  | inl i =>
    cases y with
    | inl i' => rw [bip_supply_inl] at hv; have := hwa i'; linarith
    | inr j => exact ⟨arcAt mixing n m (i, j), bip_src mixing wa wb D (i, j), bip_tgt mixing wa wb D (i, j)⟩

omit hwa hwb in
theorem bip_row (f : Fin (n * m) → R) (i : Fin n) :
    netFlow (bipNet mixing wa wb D art).src (bipNet mixing wa wb D art).tgt f (nodeAt n m (.inl i)) = ∑ j, f (arcAt mixing n m (i, j)) := by
  unfold netFlow
  rw [← Equiv.sum_comp (arcAt mixing n m), ← Equiv.sum_comp (arcAt mixing n m)]
  simp only [bip_src, bip_tgt, EmbeddingLike.apply_eq_iff_eq, Sum.inl.injEq, reduceCtorEq, if_false, Finset.sum_const_zero, sub_zero]
  rw [Fintype.sum_prod_type, Finset.sum_eq_single i]
  · simp
  · intro i' _ hne; simp [hne]
  · intro h; exact absurd (Finset.mem_univ _) h

omit hwa hwb in
theorem bip_col (f : Fin (n * m) → R) (j : Fin m) :
    netFlow (bipNet mixing wa wb D art).src (bipNet mixing wa wb D art).tgt f (nodeAt n m (.inr j)) = -∑ i, f (arcAt mixing n m (i, j)) := by
  unfold netFlow
  rw [← Equiv.sum_comp (arcAt mixing n m), ← Equiv.sum_comp (arcAt mixing n m)]
  simp only [bip_src, bip_tgt, EmbeddingLike.apply_eq_iff_eq, Sum.inr.injEq, reduceCtorEq, if_false, Finset.sum_const_zero, zero_sub, neg_inj]
  rw [Fintype.sum_prod_type]
  refine Finset.sum_congr rfl fun i _ => ?_
  simp

/-- the plan on the support -/
noncomputable def planOf (n m : ℕ) (flow : Arc (n + m) (n * m) → R) : Fin n → Fin m → R := fun i j => flow (.inl (arcAt mixing n m (i, j)))

theorem plan_row {s : State (Node (n + m)) (Arc (n + m) (n * m)) R} (h : SoftGood (bipNet mixing wa wb D art) s) (i : Fin n) :
    ∑ j, planOf mixing n m s.flow i j = wa i - s.flow (.inr (nodeAt n m (.inl i))) := by
  have := h.net (nodeAt n m (.inl i))
  rw [bip_row, bip_supply_inl, if_pos (hwa i).le] at this
  exact this

theorem plan_col {s : State (Node (n + m)) (Arc (n + m) (n * m)) R} (h : SoftGood (bipNet mixing wa wb D art) s) (j : Fin m) :
    ∑ i, planOf mixing n m s.flow i j = wb j - s.flow (.inr (nodeAt n m (.inr j))) := by
  have := h.net (nodeAt n m (.inr j))
  have hneg : ¬ 0 ≤ -wb j := by have := hwb j; linarith
  rw [bip_col, bip_supply_inr, if_neg hneg] at this
  have h2 : ∑ i, planOf mixing n m s.flow i j = ∑ i, s.flow (.inl (arcAt mixing n m (i, j))) := rfl
  rw [h2]
  linarith

omit hwa hwb in
theorem plan_nonneg {s : State (Node (n + m)) (Arc (n + m) (n * m)) R} (h : SoftGood (bipNet mixing wa wb D art) s) (i : Fin n) (j : Fin m) :
    0 ≤ planOf mixing n m s.flow i j := h.nonneg _

/-- dual potentials read off the node potentials -/
def alphaOf (n m : ℕ) (pi : Node (n + m) → R) (i : Fin n) : R := -pi (some (nodeAt n m (.inl i)))
/-- dual potentials read off the node potentials -/
def betaOf (n m : ℕ) (pi : Node (n + m) → R) (j : Fin m) : R := pi (some (nodeAt n m (.inr j)))

omit hwa hwb in
theorem plan_dual {s : State (Node (n + m)) (Arc (n + m) (n * m)) R} {τ : R} (ho : TolOpt (bipNet mixing wa wb D art) τ s) (i : Fin n) (j : Fin m) :
    alphaOf n m s.pi i + betaOf n m s.pi j ≤ D i j + τ := by
  have := ho (arcAt mixing n m (i, j))
  unfold redCost at this
  simp only [initNet, bip_src, bip_tgt, bip_cost] at this
  unfold alphaOf betaOf
  linarith

omit hwa hwb in
theorem plan_slack {s : State (Node (n + m)) (Arc (n + m) (n * m)) R} (h : SoftGood (bipNet mixing wa wb D art) s) (i : Fin n) (j : Fin m)
    (hne : planOf mixing n m s.flow i j ≠ 0) : alphaOf n m s.pi i + betaOf n m s.pi j = D i j := by
  have := h.slack _ hne
  unfold redCost at this
  simp only [initNet, bip_src, bip_tgt, bip_cost] at this
  unfold alphaOf betaOf
  linarith

omit hwa hwb [NeZero (n + m)] in
theorem shift_spec [NeZero (n + m)] (pi : Node (n + m) → R) : ∃ c, (∀ i, alphaOf n m (shiftPotentials pi) i = alphaOf n m pi i + c) ∧
    ∀ j, betaOf n m (shiftPotentials pi) j = betaOf n m pi j - c := by
  unfold shiftPotentials alphaOf betaOf
  dsimp only
  split_ifs with h
  · exact ⟨_, fun i => by dsimp only; ring, fun j => rfl⟩
  · exact ⟨0, fun i => by ring, fun j => by ring⟩

end problem

/-! ### The greatest cost -/

section maxcost
variable {R : Type*} [CommRing R] [LinearOrder R] [IsStrictOrderedRing R]

theorem maxFold_spec {m : ℕ} (cost : Fin m → R) (l : List (Fin m)) (hl : ∀ i ∈ l, i.val ≠ 0) (x : R) :
    let r := l.foldl (fun mx i => if i.val = 0 ∨ mx < cost i then cost i else mx) x
    x ≤ r ∧ (∀ i ∈ l, cost i ≤ r) ∧ (r = x ∨ ∃ i, r = cost i) := by
  induction l generalizing x with
  | nil => simp
  | cons a l ih =>
    simp only [List.foldl_cons]
    have ha := hl a (by simp)
    have := ih (fun i hi => hl i (List.mem_cons_of_mem _ hi)) (if a.val = 0 ∨ x < cost a then cost a else x)
    dsimp only at this
    generalize List.foldl (fun mx i => if i.val = 0 ∨ mx < cost i then cost i else mx) (if a.val = 0 ∨ x < cost a then cost a else x) l = r at *
    obtain ⟨h1, h2, h3⟩ := this
    have hstart : x ≤ (if a.val = 0 ∨ x < cost a then cost a else x) ∧ cost a ≤ (if a.val = 0 ∨ x < cost a then cost a else x) := by
      split_ifs with h
      · exact ⟨(h.resolve_left ha).le, le_refl _⟩
      · push Not at h; exact ⟨le_refl _, h.2⟩
    refine ⟨hstart.1.trans h1, ?_, ?_⟩
    · intro i hi
      rcases List.mem_cons.1 hi with rfl | hi
      · exact hstart.2.trans h1
      · exact h2 i hi
    · rcases h3 with h3 | h3
      · rw [h3]
        split_ifs
        · exact Or.inr ⟨a, rfl⟩
        · exact Or.inl rfl
      · exact Or.inr h3

theorem maxRealArcCost_spec {m : ℕ} (cost : Fin m → R) : (∀ i, cost i ≤ maxRealArcCost cost) ∧ (0 < m → ∃ i, maxRealArcCost cost = cost i) := by
  unfold maxRealArcCost
  cases m with
  | zero => exact ⟨fun i => i.elim0, fun h => absurd h (lt_irrefl _)⟩
  | succ m =>
    rw [List.finRange_succ, List.foldl_cons, if_pos (Or.inl (by simp))]
    have hl : ∀ i ∈ (List.finRange m).map Fin.succ, i.val ≠ 0 := by
      intro i hi
      obtain ⟨k, _, rfl⟩ := List.mem_map.1 hi
      simp
    obtain ⟨h1, h2, h3⟩ := maxFold_spec cost _ hl (cost 0)
    refine ⟨fun i => ?_, fun _ => ?_⟩
    · cases i using Fin.cases with
      | zero => exact h1
      | succ k => exact h2 _ (List.mem_map.2 ⟨k, List.mem_finRange k, rfl⟩)
    · rcases h3 with h3 | h3
      · exact ⟨0, h3⟩
      · exact h3

end maxcost

/-! ### Supports -/

section support
variable {R : Type*} [CommRing R] [LinearOrder R] [IsStrictOrderedRing R] {n1 n2 : ℕ}

theorem posIdx_nodup (w : Fin n1 → R) : (posIdx w).Nodup := (List.nodup_finRange n1).filter _

theorem mem_posIdx (w : Fin n1 → R) (x : Fin n1) : x ∈ posIdx w ↔ 0 < w x := by simp [posIdx]

theorem posIdx_pos (w : Fin n1 → R) (i : Fin (posIdx w).length) : 0 < w ((posIdx w).get i) := (mem_posIdx w _).1 (List.get_mem _ _)

theorem sum_posIdx (w : Fin n1 → R) (F : Fin n1 → R) (h : ∀ x, ¬ 0 < w x → F x = 0) :
    ∑ x, F x = ∑ i : Fin (posIdx w).length, F ((posIdx w).get i) := by
  have h1 : ∑ i : Fin (posIdx w).length, F ((posIdx w).get i) = ((posIdx w).map F).sum := by
    rw [← List.sum_ofFn]
    congr 1
    conv_rhs => rw [← List.ofFn_get (posIdx w)]
    rw [List.map_ofFn]
    rfl
  rw [h1, ← List.sum_toFinset F (posIdx_nodup w)]
  symm
  refine Finset.sum_subset (Finset.subset_univ _) fun x _ hx => h x fun hpos => hx ?_
  rw [List.mem_toFinset, mem_posIdx]
  exact hpos

theorem scatter_get (ind : List (Fin n1)) (hn : ind.Nodup) (val : Fin ind.length → R) (k : Fin ind.length) :
    scatter ind val (ind.get k) = val k := by
  unfold scatter
  exact foldl_update_of_mem (List.finRange ind.length) (List.nodup_finRange _) (fun k => ind.get k) val _
    (fun x _ y _ h => hn.injective_get h) k (List.mem_finRange k)

theorem scatter_notMem (ind : List (Fin n1)) (val : Fin ind.length → R) (x : Fin n1) (hx : x ∉ ind) : scatter ind val x = 0 := by
  unfold scatter
  rw [foldl_update_of_notMem]
  intro k _ he
  exact hx (he ▸ List.get_mem _ _)

/-- the extraction loop -/
theorem extract_fold {K : Type*} (full : Bool) (D : Fin n1 → Fin n2 → R) (l : List K) (hl : l.Nodup) (key : K → Fin n1 × Fin n2)
    (hkey : Function.Injective key) (f : K → R) (acc : R × (Fin n1 → Fin n2 → R)) (hz : ∀ k ∈ l, acc.2 (key k).1 (key k).2 = 0) :
    let r := l.foldl (fun (acc : R × (Fin n1 → Fin n2 → R)) k =>
      if full ∧ f k = 0 then acc
      else (acc.1 + f k * D (key k).1 (key k).2, Function.update acc.2 (key k).1 (Function.update (acc.2 (key k).1) (key k).2 (f k)))) acc
    r.1 = acc.1 + (l.map fun k => f k * D (key k).1 (key k).2).sum ∧ (∀ k ∈ l, r.2 (key k).1 (key k).2 = f k) ∧
      ∀ x y, (∀ k ∈ l, key k ≠ (x, y)) → r.2 x y = acc.2 x y := by
  induction l generalizing acc with
  | nil => simp
  | cons a l ih =>
    rw [List.nodup_cons] at hl
    simp only [List.foldl_cons]
    set acc' : R × (Fin n1 → Fin n2 → R) := if full ∧ f a = 0 then acc
      else (acc.1 + f a * D (key a).1 (key a).2, Function.update acc.2 (key a).1 (Function.update (acc.2 (key a).1) (key a).2 (f a))) with hacc'
    have hupd : ∀ x y, acc'.2 x y = if key a = (x, y) then f a else acc.2 x y := by
      intro x y
      rw [hacc']
      split_ifs with h1 h2 h2
      · have := hz a (by simp)
        rw [h2] at this
        rw [this, h1.2]
      · rfl
      · rw [h2]; simp
      · dsimp only
        by_cases hx : (key a).1 = x
        · subst hx
          rw [Function.update_self]
          by_cases hy : (key a).2 = y
          · subst hy; exact absurd rfl h2
          · rw [Function.update_of_ne (Ne.symm hy)]
        · rw [Function.update_of_ne (Ne.symm hx)]
    have hcost : acc'.1 = acc.1 + f a * D (key a).1 (key a).2 := by
      rw [hacc']
      split_ifs with h1
      · rw [h1.2]; ring
      · rfl
    have hz' : ∀ k ∈ l, acc'.2 (key k).1 (key k).2 = 0 := by
      intro k hk
      rw [hupd, if_neg, hz k (List.mem_cons_of_mem _ hk)]
      intro he
      have : a = k := hkey (by rw [he])
      exact hl.1 (this ▸ hk)
    obtain ⟨h1, h2, h3⟩ := ih hl.2 acc' hz'
    refine ⟨?_, ?_, ?_⟩
    · rw [h1, hcost, List.map_cons, List.sum_cons]; ring
    · intro k hk
      rcases List.mem_cons.1 hk with rfl | hk
      · by_cases hkl : ∃ k' ∈ l, key k' = ((key k).1, (key k).2)
        · obtain ⟨k', hk', he⟩ := hkl
          have : k' = k := hkey he
          exact absurd (this ▸ hk') hl.1
        · push Not at hkl
          rw [h3 _ _ hkl, hupd, if_pos rfl]
      · exact h2 k hk
    · intro x y hxy
      rw [h3 x y fun k hk => hxy k (List.mem_cons_of_mem _ hk), hupd, if_neg (hxy a (by simp))]

theorem extractPlan_spec (full mixing : Bool) (D : Fin n1 → Fin n2 → R) (indI : List (Fin n1)) (indJ : List (Fin n2)) (hI : indI.Nodup) (hJ : indJ.Nodup)
    (flow : Fin (indI.length * indJ.length) → R) :
    let e := extractPlan full mixing D indI indJ flow
    (∀ i j, e.2 (indI.get i) (indJ.get j) = flow (arcAt mixing _ _ (i, j))) ∧
    (∀ x y, x ∉ indI ∨ y ∉ indJ → e.2 x y = 0) ∧
    e.1 = ∑ i, ∑ j, flow (arcAt mixing _ _ (i, j)) * D (indI.get i) (indJ.get j) := by
  have hkey : Function.Injective fun k : Fin (indI.length * indJ.length) => (indI.get k.divNat, indJ.get k.modNat) := by
    intro k k' h
    have h1 : k.divNat = k'.divNat := hI.injective_get (congrArg Prod.fst h)
    have h2 : k.modNat = k'.modNat := hJ.injective_get (congrArg Prod.snd h)
    have : finProdFinEquiv.symm k = finProdFinEquiv.symm k' := Prod.ext h1 h2
    exact finProdFinEquiv.symm.injective this
  have hread : ∀ k : Fin (indI.length * indJ.length), readAt flow (arcId mixing (indI.length * indJ.length) k.val)
      = flow (arcPerm mixing _ k) := by
    intro k
    unfold readAt
    rw [dif_pos (arcId_lt k.isLt)]
    rfl
  have hspec := extract_fold full D (List.finRange (indI.length * indJ.length)).reverse
    (by rw [List.nodup_reverse]; exact List.nodup_finRange _) _ hkey (fun k => readAt flow (arcId mixing (indI.length * indJ.length) k.val))
    (0, fun _ _ => 0) (fun _ _ => rfl)
  obtain ⟨h1, h2, h3⟩ := hspec
  refine ⟨fun i j => ?_, fun x y hxy => ?_, ?_⟩
  · have := h2 (finProdFinEquiv (i, j)) (by simp)
    simp only [finProd_divNat, finProd_modNat] at this
    rw [hread] at this
    exact this
  · refine h3 x y fun k _ he => ?_
    rcases hxy with h | h
    · have h4 : indI.get k.divNat = x := congrArg Prod.fst he
      exact h (h4 ▸ List.get_mem indI k.divNat)
    · have h4 : indJ.get k.modNat = y := congrArg Prod.snd he
      exact h (h4 ▸ List.get_mem indJ k.modNat)
  · refine h1.trans ?_
    rw [zero_add, List.map_reverse, List.sum_reverse, ← List.ofFn_eq_map, List.sum_ofFn, ← Fintype.sum_prod_type', ← Equiv.sum_comp finProdFinEquiv]
    refine Finset.sum_congr rfl fun x _ => ?_
    dsimp only
    rw [finProd_divNat, finProd_modNat, hread]
    rfl

end support

end POT.Simplex
