import Verif.Lemmas.EmdWrap

/-! # C11, C12: numbering of the arcs of the dense bipartite graph -/

set_option linter.unusedSectionVars false

namespace POT.Props

open Simplex

/-! ### C11 -/

/-- **C11**.  Arc numbers and pairs (source `i`, target `n1 + j`) determine each other, and the numbers are exactly `0, …, n1 n2 - 1`. -/
theorem C11_arc_bijection (n1 n2 : ℕ) :
    (∀ i j, i < n1 → j < n2 → fbArc n2 i j < n1 * n2 ∧ fbSource n2 (fbArc n2 i j) = i ∧ fbTarget n1 n2 (fbArc n2 i j) = n1 + j) ∧
    ∀ k, k < n1 * n2 → fbSource n2 k < n1 ∧ n1 ≤ fbTarget n1 n2 k ∧ fbTarget n1 n2 k < n1 + n2 ∧
      fbArc n2 (fbSource n2 k) (fbTarget n1 n2 k - n1) = k := by
  unfold fbArc fbSource fbTarget
  refine ⟨fun i j hi hj => ⟨?_, ?_, ?_⟩, fun k hk => ?_⟩
  · calc i * n2 + j < i * n2 + n2 := by omega
      _ = (i + 1) * n2 := by ring
      _ ≤ n1 * n2 := Nat.mul_le_mul_right _ hi
  · rw [Nat.add_comm, Nat.add_mul_div_right _ _ (by omega), Nat.div_eq_of_lt hj, Nat.zero_add]
  · rw [Nat.add_comm (i * n2), Nat.add_mul_mod_self_right, Nat.mod_eq_of_lt hj, Nat.add_comm]
  · have hn2 : 0 < n2 := by
      rcases Nat.eq_zero_or_pos n2 with h | h
      · subst h; simp at hk
      · exact h
    refine ⟨(Nat.div_lt_iff_lt_mul hn2).2 hk, by omega, ?_, ?_⟩
    · have := Nat.mod_lt k hn2; omega
    · rw [Nat.add_sub_cancel, Nat.mul_comm, Nat.div_add_mod]

theorem outLoop_eq (n2 i : ℕ) (r fuel : ℕ) (hr : r < n2) (hf : r + 1 < fuel) :
    fbOutLoop n2 fuel ((i * n2 + r : ℕ) : ℤ) = (List.range (r + 1)).reverse.map fun t => ((i * n2 + t : ℕ) : ℤ) := by
  induction r generalizing fuel with
  | zero =>
    obtain ⟨f, rfl⟩ : ∃ f, fuel = f + 2 := ⟨fuel - 2, by omega⟩
    have h1 : ((i * n2 + 0 : ℕ) : ℤ) % (n2 : ℤ) = 0 := by push_cast; simp
    rw [fbOutLoop, if_neg (by omega), if_pos h1, fbOutLoop, if_pos (by omega)]
    rfl
  | succ r ih =>
    obtain ⟨f, rfl⟩ : ∃ f, fuel = f + 1 := ⟨fuel - 1, by omega⟩
    have h1 : ¬ ((i * n2 + (r + 1) : ℕ) : ℤ) % (n2 : ℤ) = 0 := by
      rw [← Int.natCast_mod, Nat.add_comm, Nat.add_mul_mod_self_right, Nat.mod_eq_of_lt hr]
      omega
    have h2 : ((i * n2 + (r + 1) : ℕ) : ℤ) - 1 = ((i * n2 + r : ℕ) : ℤ) := by push_cast; ring
    rw [fbOutLoop, if_neg (by omega), if_neg h1, h2, ih f (by omega) (by omega), List.range_succ (n := r + 1), List.reverse_append]
    rfl

theorem inLoop_eq (n2 j : ℕ) (i fuel : ℕ) (hj : j < n2) (hf : i + 1 < fuel) :
    fbInLoop n2 fuel ((i * n2 + j : ℕ) : ℤ) = (List.range (i + 1)).reverse.map fun t => ((t * n2 + j : ℕ) : ℤ) := by
  induction i generalizing fuel with
  | zero =>
    obtain ⟨f, rfl⟩ : ∃ f, fuel = f + 2 := ⟨fuel - 2, by omega⟩
    have h1 : ((0 * n2 + j : ℕ) : ℤ) - n2 < 0 := by push_cast; omega
    rw [fbInLoop, if_neg (by omega), if_pos h1, fbInLoop, if_pos rfl]
    rfl
  | succ i ih =>
    obtain ⟨f, rfl⟩ : ∃ f, fuel = f + 1 := ⟨fuel - 1, by omega⟩
    have h2 : (((i + 1) * n2 + j : ℕ) : ℤ) - n2 = ((i * n2 + j : ℕ) : ℤ) := by push_cast; ring
    rw [fbInLoop, if_neg (by omega), h2, if_neg (by omega), ih f (by omega), List.range_succ (n := i + 1), List.reverse_append]
    rfl

/-- **C11**, out-arcs.  `firstOut`/`nextOut` visit each arc that leaves `node` exactly once, and no other arc. -/
theorem C11_out_arcs (n1 n2 : ℕ) (h1 : 0 < n1) (h2 : 0 < n2) (node : ℕ) :
    (fbOutArcs n1 n2 node).Nodup ∧ ∀ x, x ∈ fbOutArcs n1 n2 node ↔ ∃ k : ℕ, x = k ∧ k < n1 * n2 ∧ fbSource n2 k = node := by
  unfold fbOutArcs
  by_cases hn : n1 ≤ node
  · rw [if_pos hn]
    have : fbOutLoop (↑n2) (n1 * n2 + 1) (-1) = [] := by rw [fbOutLoop, if_pos rfl]
    rw [this]
    refine ⟨List.nodup_nil, fun x => ⟨(fun h => by cases h), ?_⟩⟩
    rintro ⟨k, _, hk, hs⟩
    have := ((C11_arc_bijection n1 n2).2 k hk).1
    omega
  · rw [if_neg hn]
    have e : ((node + 1) * n2 - 1 : ℤ) = ((node * n2 + (n2 - 1) : ℕ) : ℤ) := by
      push_cast [Nat.cast_sub (show 1 ≤ n2 from h2)]; ring
    have hf : n2 ≤ n1 * n2 := Nat.le_mul_of_pos_left _ h1
    rw [e, outLoop_eq n2 node (n2 - 1) (n1 * n2 + 1) (by omega) (by omega)]
    constructor
    · refine List.Nodup.map (fun x y h => ?_) (List.nodup_reverse.2 List.nodup_range)
      omega
    · intro x
      rw [List.mem_map]
      constructor
      · rintro ⟨t, ht, rfl⟩
        have ht' : t < n2 := by simp at ht; omega
        obtain ⟨q1, q2, _⟩ := (C11_arc_bijection n1 n2).1 node t (by omega) ht'
        exact ⟨_, rfl, q1, q2⟩
      · rintro ⟨k, rfl, hk, hs⟩
        refine ⟨k % n2, ?_, ?_⟩
        · have := Nat.mod_lt k h2; simp; omega
        · unfold fbSource at hs
          rw [← hs, Nat.mul_comm, Nat.div_add_mod]

/-- **C11**, in-arcs.  `firstIn`/`nextIn` visit each arc that enters `node` exactly once, and no other arc. -/
theorem C11_in_arcs (n1 n2 : ℕ) (h1 : 0 < n1) (h2 : 0 < n2) (node : ℕ) (hnode : node < n1 + n2) :
    (fbInArcs n1 n2 node).Nodup ∧ ∀ x, x ∈ fbInArcs n1 n2 node ↔ ∃ k : ℕ, x = k ∧ k < n1 * n2 ∧ fbTarget n1 n2 k = node := by
  unfold fbInArcs
  by_cases hn : node < n1
  · rw [if_pos hn]
    have : fbInLoop (↑n2) (n1 * n2 + 1) (-1) = [] := by rw [fbInLoop, if_pos rfl]
    rw [this]
    refine ⟨List.nodup_nil, fun x => ⟨(fun h => by cases h), ?_⟩⟩
    rintro ⟨k, _, hk, hs⟩
    have := ((C11_arc_bijection n1 n2).2 k hk).2.1
    omega
  · rw [if_neg hn]
    obtain ⟨j, rfl⟩ : ∃ j, node = n1 + j := ⟨node - n1, by omega⟩
    have hj : j < n2 := by omega
    have e : ((n1 * n2 : ℤ) + (n1 + j : ℕ) - (n1 + n2)) = (((n1 - 1) * n2 + j : ℕ) : ℤ) := by
      push_cast [Nat.cast_sub (show 1 ≤ n1 from h1)]; ring
    have hf : n1 ≤ n1 * n2 := Nat.le_mul_of_pos_right _ h2
    rw [e, inLoop_eq n2 j (n1 - 1) (n1 * n2 + 1) hj (by omega)]
    constructor
    · refine List.Nodup.map (fun x y h => ?_) (List.nodup_reverse.2 List.nodup_range)
      have : x * n2 = y * n2 := by omega
      exact Nat.eq_of_mul_eq_mul_right h2 this
    · intro x
      rw [List.mem_map]
      constructor
      · rintro ⟨t, ht, rfl⟩
        have ht' : t < n1 := by simp at ht; omega
        obtain ⟨q1, _, q3⟩ := (C11_arc_bijection n1 n2).1 t j ht' hj
        exact ⟨_, rfl, q1, q3⟩
      · rintro ⟨k, rfl, hk, hs⟩
        refine ⟨k / n2, ?_, ?_⟩
        · have := (Nat.div_lt_iff_lt_mul h2).2 hk; simp; omega
        · unfold fbTarget at hs
          have : k % n2 = j := by omega
          rw [← this, Nat.mul_comm, Nat.div_add_mod]

/-- **C11**, arcs.  `first`/`next` visit every arc exactly once. -/
theorem C11_all_arcs (n1 n2 : ℕ) : (fbArcs n1 n2).Nodup ∧ ∀ k, k ∈ fbArcs n1 n2 ↔ k < n1 * n2 := by
  unfold fbArcs
  exact ⟨List.nodup_reverse.2 List.nodup_range, fun k => by simp⟩

section
variable {R : Type*} [CommRing R] [LinearOrder R] [IsStrictOrderedRing R] {n m : ℕ}

theorem pos_arcAt (mixing : Bool) (i : Fin n) (j : Fin m) (p : Fin (n * m)) (hp : p.val = arcId mixing (n * m) (fbArc m i j)) :
    p = arcAt mixing n m (i, j) := by
  apply Fin.ext
  rw [hp]
  show _ = arcId mixing (n * m) (finProdFinEquiv (i, j)).val
  rw [finProdFinEquiv_apply_val]
  unfold fbArc
  dsimp only
  congr 1
  rw [Nat.add_comm, Nat.mul_comm]

/-- **C11**, costs.  At the position of the arc `i → j` the solver holds the source node of `i`, the target node of `j` and the cost `D i j`, with and
without mixing of the arcs. -/
theorem C11_costs_match [NeZero (n + m)] (mixing : Bool) (wa : Fin n → R) (wb : Fin m → R) (D : Fin n → Fin m → R) (i : Fin n) (j : Fin m)
    (p : Fin (n * m)) (hp : p.val = arcId mixing (n * m) (fbArc m i j)) :
    ((bipProblem mixing wa wb D).src p).val = n + m - 1 - i ∧ ((bipProblem mixing wa wb D).tgt p).val = n + m - 1 - (n + j) ∧
    (bipProblem mixing wa wb D).cost p = D i j := by
  rw [pos_arcAt mixing i j p hp, bip_src, bip_tgt, bip_cost]
  refine ⟨?_, ?_, rfl⟩
  · simp [nodeAt, Fin.val_rev]; omega
  · simp [nodeAt, Fin.val_rev]; omega

/-- **C11**, plan.  Extraction writes into `G` at (`r`-th kept row, `c`-th kept column) the flow found at the position of the arc `r → c`, and leaves zero
everywhere else. -/
theorem C11_plan_written (full mixing : Bool) (D : Fin n → Fin m → R) (indI : List (Fin n)) (indJ : List (Fin m)) (hI : indI.Nodup) (hJ : indJ.Nodup)
    (flow : Fin (indI.length * indJ.length) → R) :
    (∀ (r : Fin indI.length) (c : Fin indJ.length) (p : Fin (indI.length * indJ.length)),
      p.val = arcId mixing (indI.length * indJ.length) (fbArc indJ.length r c) →
      (extractPlan full mixing D indI indJ flow).2 (indI.get r) (indJ.get c) = flow p) ∧
    ∀ x y, x ∉ indI ∨ y ∉ indJ → (extractPlan full mixing D indI indJ flow).2 x y = 0 := by
  obtain ⟨h1, h2, _⟩ := extractPlan_spec full mixing D indI indJ hI hJ flow
  refine ⟨fun r c p hp => ?_, h2⟩
  rw [h1, pos_arcAt mixing r c p hp]
end

/-! ### C12 -/

/-- **C12**.  The strided storing loop of `reset` visits every position below the number of arcs exactly once, for all numbers of arcs and all strides. -/
theorem C12_mixing_permutes (K N : ℕ) (hK : 0 < K) : (mixLoop K N N 0 0).Nodup ∧ ∀ p, p ∈ mixLoop K N N 0 0 ↔ p < N := by
  have e : mixLoop K N N 0 0 = (List.range N).map (Simplex.sequence K N) := by
    rw [mixLoop_eq hK N 0 (by omega) 0 0 (fun _ => by simp [Simplex.sequence]) (fun _ => by simp [Simplex.sequence]), List.range_eq_range']
  have hnd : ((List.range N).map (Simplex.sequence K N)).Nodup := by
    refine List.Nodup.map_on (fun x hx y hy h => ?_) List.nodup_range
    exact sequence_inj hK (List.mem_range.1 hx) (List.mem_range.1 hy) h
  have hsub : ((List.range N).map (Simplex.sequence K N)).toFinset ⊆ Finset.range N := by
    intro p hp
    simp only [List.mem_toFinset, List.mem_map, List.mem_range] at hp
    obtain ⟨k, hk, rfl⟩ := hp
    exact Finset.mem_range.2 (sequence_lt hK hk)
  have heq := Finset.eq_of_subset_of_card_le hsub (by rw [List.toFinset_card_of_nodup hnd]; simp)
  rw [e]
  refine ⟨hnd, fun p => ?_⟩
  rw [← List.mem_toFinset, heq, Finset.mem_range]

/-- **C12**, closed form.  The `t`-th arc that `reset` stores goes to position `sequence t`; so the arc with number `k` (the graph lists them downwards) is
at the position that `getArcID` computes. -/
theorem C12_closed_form (K N : ℕ) (hK : 0 < K) : ∀ t (h : t < (mixLoop K N N 0 0).length), (mixLoop K N N 0 0)[t] = Simplex.sequence K N t := by
  have e : mixLoop K N N 0 0 = (List.range N).map (Simplex.sequence K N) := by
    rw [mixLoop_eq hK N 0 (by omega) 0 0 (fun _ => by simp [Simplex.sequence]) (fun _ => by simp [Simplex.sequence]), List.range_eq_range']
  intro t h
  simp [e]

/-- **C12**, lookup.  `getArcID` agrees with the storing loop: position `arcId k` is where the loop puts arc `k`. -/
theorem C12_getArcID (mixing : Bool) (N k : ℕ) (hk : k < N) : (storePositions mixing N)[N - 1 - k]? = some (arcId mixing N k) := by
  rw [storePositions_eq]
  have : N - 1 - k < (List.map (fun k : Fin N => arcId mixing N k.val) (List.finRange N).reverse).length := by simp; omega
  rw [List.getElem?_eq_getElem this]
  simp
  congr 1
  omega

/-- **C12**, `getArcID` is a bijection of `0, …, N-1`. -/
theorem C12_arcId_bijective (mixing : Bool) (N : ℕ) :
    (∀ k, k < N → arcId mixing N k < N) ∧ (∀ k l, k < N → l < N → arcId mixing N k = arcId mixing N l → k = l) ∧
    ∀ p, p < N → ∃ k, k < N ∧ arcId mixing N k = p := by
  refine ⟨fun k hk => arcId_lt hk, fun k l hk hl h => arcId_inj hk hl h, fun p hp => ?_⟩
  obtain ⟨k, hk⟩ := (arcPerm mixing N).surjective ⟨p, hp⟩
  exact ⟨k.val, k.isLt, congrArg Fin.val hk⟩

/-- 23 arcs with stride 10: three long and seven short columns -/
example : mixLoop 10 23 23 0 0 = [0, 10, 20, 1, 11, 21, 2, 12, 22, 3, 13, 4, 14, 5, 15, 6, 16, 7, 17, 8, 18, 9, 19] := by decide
example : fbOutArcs 2 3 1 = [5, 4, 3] ∧ fbInArcs 2 3 3 = [4, 1] := by decide

end POT.Props
