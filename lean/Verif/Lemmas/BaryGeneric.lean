import Verif.Lemmas.Gluing
import Verif.Lemmas.Barycenter

/-! # Lemmas for `free_support_barycenter_generic_costs` and `_clean_discrete_measure` -/

set_option linter.unusedSectionVars false

namespace POT.Bary

open Finset Spec

variable {K : Type*} [Field K] [LinearOrder K] [IsStrictOrderedRing K]

/-! ### the number of points found by the gluing -/

theorem addWeight_len {α : Type*} [DecidableEq α] (jj : α) (v : K) (l : List (α × K)) : (addWeight jj v l).length ≤ l.length + 1 := by
  induction l with
  | nil => simp [addWeight]
  | cons e l ih =>
    obtain ⟨j, x⟩ := e
    have e1 : addWeight jj v ((j, x) :: l) = if j = jj then (j, x + v) :: l else (j, x) :: addWeight jj v l := rfl
    rw [e1]
    split_ifs
    · simp
    · simpa using ih

theorem foldl_len {α : Type*} [DecidableEq α] (out acc : List (α × K)) : (out.foldl (fun acc e => addWeight e.1 e.2 acc) acc).length ≤ acc.length + out.length := by
  induction out generalizing acc with
  | nil => simp
  | cons e out ih =>
    rw [List.foldl_cons, List.length_cons]
    have := ih (addWeight e.1 e.2 acc)
    have := addWeight_len e.1 e.2 acc
    omega

section
variable {κ : ℕ} {n : Fin (κ + 1) → ℕ}

theorem glueRow_len (fuel : ℕ) (u : K) (L : ∀ k : Fin (κ + 1), List (Fin (n k) × K)) (hp : ∀ k, ∀ e ∈ L k, 0 < e.2) (hu : ∀ k, wsum (fun _ => True) (L k) = u) (out) (ho : glueRow fuel u L = some out)
    (hu0 : 0 < u) : out.length + κ ≤ ∑ k, (L k).length := by
  induction fuel generalizing u L out with
  | zero => simp [glueRow] at ho
  | succ fuel ih =>
    unfold glueRow at ho
    split_ifs at ho with h
    · obtain ⟨hd, hhd⟩ : ∃ hd : ∀ k, Fin (n k) × K, hd = fun k => (L k).head (h.2 k) := ⟨_, rfl⟩
      have hdk : ∀ k, (L k).head (h.2 k) = hd k := fun k => by rw [hhd]
      simp only [← hhd] at ho
      have hspec := fun k => advance_spec (headMin hd) (L k) (h.2 k) (by rw [hdk]; exact headMin_le hd k) (hp k)
      obtain ⟨o, ho1, rfl⟩ := Option.map_eq_some_iff.1 ho
      have hu' : ∀ k, wsum (fun _ => True) (advance (headMin hd) (L k)) = u - headMin hd := fun k => by
        have := ((hspec k).2.2.2 (fun _ => True)).1 trivial
        rw [hu k] at this
        linarith
      have hlt : ∑ k, (advance (headMin hd) (L k)).length < ∑ k, (L k).length := by
        obtain ⟨k, hk⟩ := headMin_att hd
        exact sum_lt_sum (fun k _ => (hspec k).2.1) ⟨k, mem_univ _, (hspec k).2.2.1 (by rw [hdk, hk])⟩
      rw [List.length_cons]
      by_cases h0 : 0 < u - headMin hd
      · have := ih _ _ (fun k => (hspec k).1) hu' o ho1 h0
        omega
      · have ho2 : o = [] := by
          cases fuel with
          | zero => simp [glueRow] at ho1
          | succ fuel =>
            unfold glueRow at ho1
            rw [dif_neg fun hh => h0 hh.1] at ho1
            exact (Option.some.inj ho1).symm
        have hlen : ∑ k : Fin (κ + 1), 1 ≤ ∑ k, (L k).length := sum_le_sum fun k _ => List.length_pos_iff.2 (h.2 k)
        rw [ho2]
        simp at hlen ⊢
        omega
    · exfalso
      apply h
      refine ⟨hu0, fun k hk => ?_⟩
      have := hu k
      rw [hk, wsum_nil] at this
      exact hu0.ne this

theorem glueRows_len {I : Type*} (fuel : ℕ) (pi : ∀ k : Fin (κ + 1), I → Fin (n k) → K) (a : I → K) (h0 : ∀ k i j, 0 ≤ pi k i j) (ha : ∀ k i, ∑ j, pi k i j = a i) (ha0 : ∀ i, 0 < a i) (is : List I)
    (acc out) (ho : glueRows fuel pi a is acc = some out) : out.length + is.length * κ ≤ acc.length + (is.map fun i => ∑ k, (positives (pi k i)).length).sum := by
  induction is generalizing acc with
  | nil => simp [glueRows] at ho; simp [ho]
  | cons i is ih =>
    unfold glueRows at ho
    obtain ⟨o, h1, h2⟩ := Option.bind_eq_some_iff.1 ho
    have h3 := ih _ h2
    have h4 := glueRow_len fuel (a i) _ (fun k e he => positives_mem _ he) (fun k => by rw [wsum_positives _ (h0 k i)]; simp [ha]) o h1 (ha0 i)
    have h5 := foldl_len o acc
    rw [List.map_cons, List.sum_cons, List.length_cons, Nat.add_mul]
    omega

theorem glue_len {r : ℕ} (fuel : ℕ) (pi : ∀ k : Fin (κ + 1), Fin r → Fin (n k) → K) (h0 : ∀ k i j, 0 ≤ pi k i j) (ha : ∀ k i, ∑ j, pi k i j = ∑ j, pi 0 i j) (ha0 : ∀ i, 0 < ∑ j, pi 0 i j) (out)
    (ho : glue fuel pi = some out) : out.length + r * κ ≤ ∑ k, ∑ i, (univ.filter fun j => 0 < pi k i j).card := by
  have := glueRows_len fuel pi _ h0 ha ha0 (List.finRange r) [] out ho
  rw [List.length_finRange, List.length_nil, zero_add, ← Fin.sum_univ_def, sum_comm] at this
  refine this.trans (le_of_eq ?_)
  refine sum_congr rfl fun k _ => sum_congr rfl fun i _ => ?_
  unfold positives
  rw [List.length_map]
  have e : (univ.filter fun j => 0 < pi k i j) = ((List.finRange (n k)).filter fun j => 0 < pi k i j).toFinset := by
    ext j; simp
  rw [e, List.toFinset_card_of_nodup (List.Nodup.filter _ (List.nodup_finRange _))]

end

/-! ### the clean-up -/

section
variable {n : ℕ} (a : Fin n → K)

/-- the invariant: the entries of `out` gather the indices mapped to them -/
structure CleanInv (R : Fin n → Fin n → Prop) (idx : Fin n → Option ℕ) (out : List (Fin n × K)) : Prop where
  lt : ∀ i l, idx i = some l → ∃ h : l < out.length, R (out[l]).1 i
  sum : ∀ l (h : l < out.length), (out[l]).2 = ∑ i ∈ univ.filter (fun i => idx i = some l), a i
  self : ∀ l (h : l < out.length), idx (out[l]).1 = some l

variable {R : Fin n → Fin n → Prop}

theorem CleanInv.push (hrefl : ∀ i, R i i) {idx out} (h : CleanInv a R idx out) {i} (hi : idx i = none) : CleanInv a R (Function.update idx i (some out.length)) (out ++ [(i, a i)]) := by
  refine ⟨fun j l hj => ?_, fun l hl => ?_, fun l hl => ?_⟩
  · by_cases hji : j = i
    · subst hji
      rw [Function.update_self] at hj
      have := Option.some.inj hj
      subst this
      exact ⟨by simp, by simpa using hrefl j⟩
    · rw [Function.update_of_ne hji] at hj
      obtain ⟨h1, h2⟩ := h.lt j l hj
      refine ⟨by simp; omega, ?_⟩
      rw [List.getElem_append_left h1]; exact h2
  · by_cases hlo : l < out.length
    · rw [List.getElem_append_left hlo, h.sum l hlo]
      refine sum_congr (filter_congr fun j _ => ?_) fun _ _ => rfl
      by_cases hji : j = i
      · subst hji; rw [Function.update_self, hi]; simp; omega
      · rw [Function.update_of_ne hji]
    · have hle : l = out.length := by simp at hl; omega
      subst hle
      rw [List.getElem_append_right (le_refl _)]
      simp only [Nat.sub_self, List.getElem_cons_zero]
      rw [sum_eq_single i]
      · intro j hj hji
        exfalso
        have := (mem_filter.1 hj).2
        rw [Function.update_of_ne hji] at this
        obtain ⟨h1, _⟩ := h.lt j _ this
        omega
      · intro hni
        exact absurd (mem_filter.2 ⟨mem_univ i, by simp⟩) hni
  · by_cases hlo : l < out.length
    · rw [List.getElem_append_left hlo]
      have := h.self l hlo
      rw [Function.update_of_ne]
      · exact this
      · intro e; rw [e, hi] at this; simp at this
    · have hle : l = out.length := by simp at hl; omega
      subst hle
      rw [List.getElem_append_right (le_refl _)]
      simp

theorem CleanInv.merge (htrans : ∀ i j k, R i j → R j k → R i k) {idx out} (h : CleanInv a R idx out) {i j l} (hi : idx i = some l) (hij : R i j) (hj : idx j = none) :
    CleanInv a R (Function.update idx j (some l)) (out.modify l fun e => (e.1, e.2 + a j)) := by
  obtain ⟨hl, hr⟩ := h.lt i l hi
  have fst : ∀ l' (h1 : l' < (out.modify l fun e => (e.1, e.2 + a j)).length), ((out.modify l fun e => (e.1, e.2 + a j))[l']).1 = (out[l']'(by simpa using h1)).1 := by
    intro l' h1
    rw [List.getElem_modify]; split_ifs <;> rfl
  refine ⟨fun q l' hq => ?_, fun l' hl' => ?_, fun l' hl' => ?_⟩
  · by_cases hqj : q = j
    · subst hqj
      rw [Function.update_self] at hq
      have := Option.some.inj hq
      subst this
      exact ⟨by simpa using hl, by rw [fst]; exact htrans _ _ _ hr hij⟩
    · rw [Function.update_of_ne hqj] at hq
      obtain ⟨h1, h2⟩ := h.lt q l' hq
      exact ⟨by simpa using h1, by rw [fst]; exact h2⟩
  · have hl2 : l' < out.length := by simpa using hl'
    rw [List.getElem_modify]
    by_cases hll : l = l'
    · subst hll
      rw [if_pos rfl]
      simp only
      rw [h.sum l hl]
      have e : univ.filter (fun q => Function.update idx j (some l) q = some l) = insert j (univ.filter fun q => idx q = some l) := by
        ext q
        by_cases hqj : q = j
        · subst hqj; simp
        · simp [Function.update_of_ne hqj, hqj]
      rw [e, sum_insert (by simp [hj]), add_comm]
    · rw [if_neg hll, h.sum l' hl2]
      refine sum_congr (filter_congr fun q _ => ?_) fun _ _ => rfl
      by_cases hqj : q = j
      · subst hqj; rw [Function.update_self, hj]; simp [hll]
      · rw [Function.update_of_ne hqj]
  · rw [fst, Function.update_of_ne]
    · exact h.self l' _
    · intro e
      have := h.self l' (by simpa using hl')
      rw [e, hj] at this
      simp at this

/-- the rest of a row, once its own index is known -/
theorem cleanLoop_rest (htrans : ∀ i j k, R i j → R j k → R i k) (i : Fin n) (t : List (Fin n)) (ht : ∀ j ∈ t, R i j) (rest : List (Fin n × Fin n)) (idx out) (h : CleanInv a R idx out) (hi : idx i ≠ none) :
    ∃ idx' out', cleanLoop a (t.map (fun j => (i, j)) ++ rest) idx out = cleanLoop a rest idx' out' ∧ CleanInv a R idx' out' ∧ (∀ j ∈ t, idx' j ≠ none) ∧ (∀ j, idx j ≠ none → idx' j ≠ none) ∧
      out'.map Prod.fst = out.map Prod.fst := by
  induction t generalizing idx out with
  | nil => exact ⟨idx, out, rfl, h, by simp, fun _ h => h, rfl⟩
  | cons j t ih =>
    obtain ⟨l, hl⟩ := Option.ne_none_iff_exists'.1 hi
    rw [List.map_cons, List.cons_append]
    have e : cleanLoop a ((i, j) :: (t.map (fun j => (i, j)) ++ rest)) idx out =
      if idx j = none then cleanLoop a (t.map (fun j => (i, j)) ++ rest) (Function.update idx j (some l)) (out.modify l fun e => (e.1, e.2 + a j)) else cleanLoop a (t.map (fun j => (i, j)) ++ rest) idx out := by
      rw [cleanLoop, hl]
    rw [e]
    split_ifs with hj
    · obtain ⟨idx', out', h1, h2, h3, h4, h5⟩ := ih (fun q hq => ht q (List.mem_cons_of_mem _ hq)) _ _ (h.merge a htrans hl (ht j List.mem_cons_self) hj) (by
        rw [Function.update_of_ne (by rintro rfl; rw [hj] at hl; simp at hl)]; exact hi)
      refine ⟨idx', out', h1, h2, ?_, fun q hq => h4 q ?_, ?_⟩
      · intro q hq
        rcases List.mem_cons.1 hq with rfl | hq
        · exact h4 _ (by simp)
        · exact h3 q hq
      · by_cases hqj : q = j
        · subst hqj; simp
        · rw [Function.update_of_ne hqj]; exact hq
      · rw [h5]
        refine List.ext_getElem (by simp) fun l' h1 h2 => ?_
        simp only [List.getElem_map, List.getElem_modify]
        split_ifs <;> rfl
    · obtain ⟨idx', out', h1, h2, h3, h4, h5⟩ := ih (fun q hq => ht q (List.mem_cons_of_mem _ hq)) _ _ h hi
      refine ⟨idx', out', h1, h2, ?_, h4, h5⟩
      intro q hq
      rcases List.mem_cons.1 hq with rfl | hq
      · exact h4 _ hj
      · exact h3 q hq

variable (near : Fin n → Fin n → Bool)

/-- the pairs of one row -/
def rowPairs (i : Fin n) : List (Fin n) := (List.finRange n).filter fun j => near i j && decide (i ≤ j)

theorem closePairs_eq : closePairs near = (List.finRange n).flatMap fun i => (rowPairs near i).map fun j => (i, j) := by
  unfold closePairs rowPairs
  generalize List.finRange n = l0
  have : ∀ l : List (Fin n), (l.flatMap fun i => l0.map fun j => (i, j)).filter (fun e => near e.1 e.2 && decide (e.1 ≤ e.2)) = l.flatMap fun i => (l0.filter fun j => near i j && decide (i ≤ j)).map fun j => (i, j) := by
    intro l
    induction l with
    | nil => rfl
    | cons i l ih => rw [List.flatMap_cons, List.flatMap_cons, List.filter_append, ih, List.filter_map]; rfl
  exact this l0

theorem rowPairs_head (hrefl : ∀ i, near i i = true) (i : Fin n) : ∃ t, rowPairs near i = i :: t ∧ ∀ j, i < j → near i j = true → j ∈ t := by
  have hmem : i ∈ rowPairs near i := List.mem_filter.2 ⟨List.mem_finRange i, by simp [hrefl]⟩
  have hall : ∀ j ∈ rowPairs near i, i ≤ j := fun j hj => by have := (List.mem_filter.1 hj).2; simp at this; exact this.2
  have hpw : (rowPairs near i).Pairwise (· < ·) := (List.pairwise_lt_finRange n).filter _
  have hin : ∀ j, i < j → near i j = true → j ∈ rowPairs near i := fun j h1 h2 => List.mem_filter.2 ⟨List.mem_finRange j, by simp [h2, h1.le]⟩
  cases hL : rowPairs near i with
  | nil => rw [hL] at hmem; simp at hmem
  | cons x t =>
    rw [hL] at hmem hpw hall hin
    have hx : i = x := by
      rcases List.mem_cons.1 hmem with h | h
      · exact h
      · have := List.rel_of_pairwise_cons hpw h
        have := hall x List.mem_cons_self
        omega
    subst hx
    refine ⟨t, rfl, fun j h1 h2 => ?_⟩
    rcases List.mem_cons.1 (hin j h1 h2) with h | h
    · omega
    · exact h

theorem cleanLoop_rows (hrefl : ∀ i, near i i = true) (hR : ∀ i j, near i j = true → R i j) (htrans : ∀ i j k, R i j → R j k → R i k) (suf : List (Fin n)) (hs : suf.Pairwise (· < ·))
    (hup : ∀ x ∈ suf, ∀ y, x ≤ y → y ∈ suf) (idx out) (h : CleanInv a R idx out) (hdone : ∀ r, r ∉ suf → ∀ j, r ≤ j → near r j = true → idx j ≠ none) (hrep : ∀ e ∈ out, e.1 ∉ suf)
    (hd : (out.map Prod.fst).Pairwise fun r r' => near r r' = false) :
    ∃ idx' out', cleanLoop a (suf.flatMap fun i => (rowPairs near i).map fun j => (i, j)) idx out = out' ∧ CleanInv a R idx' out' ∧ (∀ j, idx' j ≠ none) ∧ (out'.map Prod.fst).Pairwise fun r r' => near r r' = false := by
  induction suf generalizing idx out with
  | nil => exact ⟨idx, out, rfl, h, fun j => hdone j (by simp) j (le_refl _) (hrefl j), hd⟩
  | cons i suf ih =>
    rw [List.flatMap_cons]
    obtain ⟨t, ht, ht2⟩ := rowPairs_head near hrefl i
    have htR : ∀ j ∈ t, R i j := fun j hj => by
      have : j ∈ rowPairs near i := by rw [ht]; exact List.mem_cons_of_mem _ hj
      have := (List.mem_filter.1 this).2
      simp at this
      exact hR i j this.1
    have hRR : ∀ i, R i i := fun i => hR i i (hrefl i)
    -- state once index `i` is known
    obtain ⟨idx1, out1, e1, inv1, hi1, hmono1, hrep1, hd1⟩ : ∃ idx1 out1, cleanLoop a ((rowPairs near i).map (fun j => (i, j)) ++ suf.flatMap fun i => (rowPairs near i).map fun j => (i, j)) idx out =
        cleanLoop a (t.map (fun j => (i, j)) ++ suf.flatMap fun i => (rowPairs near i).map fun j => (i, j)) idx1 out1 ∧ CleanInv a R idx1 out1 ∧ idx1 i ≠ none ∧ (∀ j, idx j ≠ none → idx1 j ≠ none) ∧
        (∀ e ∈ out1, e.1 ∉ suf) ∧ (out1.map Prod.fst).Pairwise fun r r' => near r r' = false := by
      have hns : i ∉ suf := fun hc => lt_irrefl _ (List.rel_of_pairwise_cons hs hc)
      rw [ht, List.map_cons, List.cons_append]
      cases hi : idx i with
      | none =>
        refine ⟨_, _, by rw [cleanLoop, hi], h.push a hRR hi, by simp, fun j hj => ?_, ?_, ?_⟩
        · rw [Function.update_of_ne (by rintro rfl; exact hj hi)]; exact hj
        · intro e he
          rcases List.mem_append.1 he with he | he
          · exact fun hc => hrep e he (List.mem_cons_of_mem _ hc)
          · rw [List.mem_singleton] at he; rw [he]; exact hns
        · rw [List.map_append, List.pairwise_append]
          refine ⟨hd, by simp, ?_⟩
          intro r hr r' hr'
          simp at hr'
          rw [hr']
          obtain ⟨e, he, rfl⟩ := List.mem_map.1 hr
          by_contra hc
          refine hdone e.1 (hrep e he) i ?_ (by simpa using hc) hi
          by_contra hlt
          exact hrep e he (hup i List.mem_cons_self _ (not_le.1 hlt).le)
      | some l =>
        refine ⟨idx, out, ?_, h, by simp [hi], fun _ h => h, fun e he hc => hrep e he (List.mem_cons_of_mem _ hc), hd⟩
        rw [cleanLoop, hi]
        simp only
        rw [if_neg (by simp)]
    rw [e1]
    obtain ⟨idx2, out2, e2, inv2, hi2, hmono2, hfst⟩ := cleanLoop_rest a htrans i t htR (suf.flatMap fun i => (rowPairs near i).map fun j => (i, j)) idx1 out1 inv1 hi1
    rw [e2]
    refine ih (List.Pairwise.of_cons hs) ?_ idx2 out2 inv2 ?_ ?_ (by rw [hfst]; exact hd1)
    · intro x hx y hxy
      rcases List.mem_cons.1 (hup x (List.mem_cons_of_mem _ hx) y hxy) with h | h
      · have := List.rel_of_pairwise_cons hs hx
        omega
      · exact h
    · intro r hr j hrj hnear
      by_cases hri : r = i
      · subst hri
        rcases eq_or_lt_of_le hrj with rfl | hlt
        · exact hmono2 _ hi1
        · exact hi2 j (ht2 j hlt hnear)
      · exact hmono2 j (hmono1 j (hdone r (by simp [hri, hr]) j hrj hnear))
    · intro e he
      have : e.1 ∈ out1.map Prod.fst := by rw [← hfst]; exact List.mem_map_of_mem he
      obtain ⟨e', he', hee⟩ := List.mem_map.1 this
      rw [← hee]; exact hrep1 e' he'

/-- what the clean-up computes: representatives that are pairwise far, every index assigned to one of them, weights added up -/
theorem clean_spec (hrefl : ∀ i, near i i = true) (hR : ∀ i j, near i j = true → R i j) (htrans : ∀ i j k, R i j → R j k → R i k) :
    ∃ idx : Fin n → Fin (clean near a).length, (∀ i, R ((clean near a).get (idx i)).1 i) ∧ (∀ t, ((clean near a).get t).2 = ∑ i ∈ univ.filter (fun i => idx i = t), a i) ∧
      (∀ t, idx ((clean near a).get t).1 = t) ∧ ((clean near a).map Prod.fst).Pairwise fun r r' => near r r' = false := by
  obtain ⟨idx, out, h1, h2, h3, h4⟩ := cleanLoop_rows a near hrefl hR htrans (List.finRange n) (List.pairwise_lt_finRange n) (fun _ _ y _ => List.mem_finRange y) (fun _ => none) []
    ⟨by simp, by simp, by simp⟩ (fun r hr => absurd (List.mem_finRange r) hr) (by simp) (by simp)
  have h5 : clean near a = out := by unfold clean; rw [closePairs_eq]; exact h1
  rw [h5]
  choose f hf using fun i => Option.ne_none_iff_exists'.1 (h3 i)
  choose g1 g2 using fun i => h2.lt i (f i) (hf i)
  refine ⟨fun i => ⟨f i, g1 i⟩, fun i => g2 i, fun t => ?_, fun t => ?_, h4⟩
  · rw [List.get_eq_getElem, h2.sum t t.2]
    refine sum_congr (filter_congr fun i _ => ?_) fun _ _ => rfl
    rw [hf i, Fin.ext_iff, Option.some.injEq]
  · have := h2.self t t.2
    rw [hf] at this
    exact Fin.ext (Option.some.inj this)

end

end POT.Bary
