import Verif.Lemmas.Barycenter
import Mathlib.Algebra.BigOperators.Group.List.Basic
import Mathlib.Algebra.Order.BigOperators.Group.List

/-! # The north-west gluing of plans -/

set_option linter.unusedSectionVars false

namespace POT.Bary

open Finset Spec

variable {K : Type*} [Field K] [LinearOrder K] [IsStrictOrderedRing K]

/-- mass of the entries whose key satisfies `p` -/
def wsum {α : Type*} (p : α → Prop) [DecidablePred p] (l : List (α × K)) : K := (l.map fun e => if p e.1 then e.2 else 0).sum

section
variable {α : Type*} (p : α → Prop) [DecidablePred p]

@[simp] theorem wsum_nil : wsum (K := K) p [] = 0 := rfl

@[simp] theorem wsum_cons (e : α × K) (l : List (α × K)) : wsum p (e :: l) = (if p e.1 then e.2 else 0) + wsum p l := rfl

theorem wsum_append (l l' : List (α × K)) : wsum p (l ++ l') = wsum p l + wsum p l' := by unfold wsum; rw [List.map_append, List.sum_append]

theorem wsum_nonneg (l : List (α × K)) (h : ∀ e ∈ l, 0 ≤ e.2) : 0 ≤ wsum p l := by
  induction l with
  | nil => simp
  | cons e l ih =>
    rw [wsum_cons]
    have := ih fun e he => h e (List.mem_cons_of_mem _ he)
    have h2 := h e List.mem_cons_self
    split_ifs <;> linarith

theorem wsum_addWeight [DecidableEq α] (jj : α) (v : K) (l : List (α × K)) : wsum p (addWeight jj v l) = wsum p l + if p jj then v else 0 := by
  induction l with
  | nil => simp [addWeight]
  | cons e l ih =>
    obtain ⟨j, x⟩ := e
    unfold addWeight
    split_ifs with h hp hp
    · subst h; simp [hp]; ring
    · subst h; simp [hp]
    · simp only [wsum_cons, ih, hp, if_true]; ring
    · simp only [wsum_cons, ih, hp, if_false]; ring

theorem wsum_foldl [DecidableEq α] (out acc : List (α × K)) : wsum p (out.foldl (fun acc e => addWeight e.1 e.2 acc) acc) = wsum p acc + wsum p out := by
  induction out generalizing acc with
  | nil => simp
  | cons e out ih => rw [List.foldl_cons, ih, wsum_addWeight, wsum_cons]; ring

/-- exchanging a sum over keys with the list -/
theorem sum_wsum [Fintype α] [DecidableEq α] (f : α → K) (l : List (α × K)) : ∑ x, wsum (fun y => y = x) l * f x = (l.map fun e => e.2 * f e.1).sum := by
  induction l with
  | nil => simp
  | cons e l ih =>
    simp only [wsum_cons, add_mul, sum_add_distrib, ih, List.map_cons, List.sum_cons]
    congr 1
    rw [sum_eq_single e.1 (fun x _ hx => by rw [if_neg (Ne.symm hx), zero_mul]) (by simp)]
    simp

theorem wsum_fiber {β : Type*} [Fintype α] [DecidableEq α] [DecidableEq β] (g : α → β) (b : β) (l : List (α × K)) : ∑ x ∈ univ.filter (fun x => g x = b), wsum (fun y => y = x) l = wsum (fun y => g y = b) l := by
  have := sum_wsum (fun x => if g x = b then (1 : K) else 0) l
  rw [sum_filter]
  simp only [mul_ite, mul_one, mul_zero] at this
  rw [this]; rfl

end

theorem addWeight_mem {α : Type*} [DecidableEq α] {jj : α} {v : K} {l : List (α × K)} {e : α × K} (h : e ∈ addWeight jj v l) : e.1 = jj ∨ e.1 ∈ l.map Prod.fst := by
  induction l with
  | nil => simp [addWeight] at h; left; rw [h]
  | cons x l ih =>
    obtain ⟨j, y⟩ := x
    unfold addWeight at h
    split_ifs at h with hj
    · rcases List.mem_cons.1 h with rfl | h
      · left; exact hj
      · right; exact List.mem_map_of_mem (List.mem_cons_of_mem _ h)
    · rcases List.mem_cons.1 h with rfl | h
      · right; simp
      · rcases ih h with h | h
        · exact Or.inl h
        · right; rw [List.map_cons]; exact List.mem_cons_of_mem _ h

theorem addWeight_inv {α : Type*} [DecidableEq α] (jj : α) {v : K} (hv : 0 < v) (l : List (α × K)) (hn : (l.map Prod.fst).Nodup) (hp : ∀ e ∈ l, 0 < e.2) :
    ((addWeight jj v l).map Prod.fst).Nodup ∧ ∀ e ∈ addWeight jj v l, 0 < e.2 := by
  induction l with
  | nil => simp [addWeight, hv]
  | cons x l ih =>
    obtain ⟨j, y⟩ := x
    rw [List.map_cons, List.nodup_cons] at hn
    have hy := hp (j, y) List.mem_cons_self
    have hl : ∀ e ∈ l, 0 < e.2 := fun e he => hp e (List.mem_cons_of_mem _ he)
    obtain ⟨i1, i2⟩ := ih hn.2 hl
    unfold addWeight
    split_ifs with hj
    · refine ⟨by rw [List.map_cons, List.nodup_cons]; exact hn, ?_⟩
      intro e he
      rcases List.mem_cons.1 he with rfl | he
      · simp only at hy ⊢; linarith
      · exact hl e he
    · refine ⟨?_, ?_⟩
      · rw [List.map_cons, List.nodup_cons]
        refine ⟨fun hc => ?_, i1⟩
        obtain ⟨e, he, heq⟩ := List.mem_map.1 hc
        rcases addWeight_mem he with h | h
        · exact hj (by rw [← h, heq])
        · rw [heq] at h; exact hn.1 h
      · intro e he
        rcases List.mem_cons.1 he with rfl | he
        · exact hy
        · exact i2 e he

theorem foldl_inv {α : Type*} [DecidableEq α] (out : List (α × K)) (ho : ∀ e ∈ out, 0 < e.2) (acc : List (α × K)) (hn : (acc.map Prod.fst).Nodup) (hp : ∀ e ∈ acc, 0 < e.2) :
    ((out.foldl (fun acc e => addWeight e.1 e.2 acc) acc).map Prod.fst).Nodup ∧ ∀ e ∈ out.foldl (fun acc e => addWeight e.1 e.2 acc) acc, 0 < e.2 := by
  induction out generalizing acc with
  | nil => exact ⟨hn, hp⟩
  | cons x out ih =>
    rw [List.foldl_cons]
    obtain ⟨h1, h2⟩ := addWeight_inv x.1 (ho x List.mem_cons_self) acc hn hp
    exact ih (fun e he => ho e (List.mem_cons_of_mem _ he)) _ h1 h2

/-! ### rows -/

theorem positives_mem {m : ℕ} (row : Fin m → K) {e} (he : e ∈ positives row) : 0 < e.2 := by
  unfold positives at he
  obtain ⟨j, hj, rfl⟩ := List.mem_map.1 he
  simpa using (List.mem_filter.1 hj).2

theorem positives_len {m : ℕ} (row : Fin m → K) : (positives row).length ≤ m := by
  unfold positives
  rw [List.length_map]
  exact (List.length_filter_le _ _).trans (by simp)

theorem wsum_positives {m : ℕ} (row : Fin m → K) (hr : ∀ j, 0 ≤ row j) (p : Fin m → Prop) [DecidablePred p] : wsum p (positives row) = ∑ j, if p j then row j else 0 := by
  rw [Fin.sum_univ_def]
  unfold positives wsum
  rw [List.map_map]
  generalize List.finRange m = l
  induction l with
  | nil => simp
  | cons j l ih =>
    rw [List.map_cons, List.sum_cons, ← ih]
    by_cases hj : 0 < row j
    · rw [List.filter_cons_of_pos (by simpa using hj), List.map_cons, List.sum_cons]; rfl
    · rw [List.filter_cons_of_neg (by simpa using hj), le_antisymm (not_lt.1 hj) (hr j)]; simp

section
variable {κ : ℕ} {n : Fin (κ + 1) → ℕ}

theorem headMin_le (h : ∀ k : Fin (κ + 1), Fin (n k) × K) (k) : headMin h ≤ (h k).2 := inf'_le _ (mem_univ k)

theorem headMin_att (h : ∀ k : Fin (κ + 1), Fin (n k) × K) : ∃ k, headMin h = (h k).2 := by
  obtain ⟨k, -, hk⟩ := exists_mem_eq_inf' (univ_nonempty (α := Fin (κ + 1))) fun k => (h k).2
  exact ⟨k, hk⟩

theorem wsum_all {α : Type*} (l : List (α × K)) : wsum (fun _ => True) l = (l.map Prod.snd).sum := by simp [wsum]

theorem sum_pos_nil {α : Type*} (l : List (α × K)) (hp : ∀ e ∈ l, 0 < e.2) (hs : wsum (fun _ => True) l ≤ 0) : l = [] := by
  cases l with
  | nil => rfl
  | cons e l =>
    exfalso
    rw [wsum_cons] at hs
    have := wsum_nonneg (fun _ => True) l fun e he => (hp e (List.mem_cons_of_mem _ he)).le
    have := hp e List.mem_cons_self
    simp at hs
    linarith

/-- effect of one turn on one of the lists -/
theorem advance_spec {m : ℕ} (v : K) (l : List (Fin m × K)) (hl : l ≠ []) (hv : v ≤ (l.head hl).2) (hp : ∀ e ∈ l, 0 < e.2) :
    (∀ e ∈ advance v l, 0 < e.2) ∧ (advance v l).length ≤ l.length ∧ ((l.head hl).2 = v → (advance v l).length < l.length) ∧
    ∀ (p : Fin m → Prop) [DecidablePred p], (p (l.head hl).1 → wsum p l = v + wsum p (advance v l)) ∧ (¬ p (l.head hl).1 → wsum p l = wsum p (advance v l)) := by
  cases l with
  | nil => exact absurd rfl hl
  | cons e t =>
    obtain ⟨j, x⟩ := e
    simp only [List.head_cons] at hv ⊢
    have e1 : advance v ((j, x) :: t) = if x - v = 0 then t else (j, x - v) :: t := rfl
    rw [e1]
    split_ifs with hx
    · refine ⟨fun e he => hp e (List.mem_cons_of_mem _ he), by simp, fun _ => by simp, fun p _ => ?_⟩
      rw [wsum_cons]
      simp only
      constructor <;> intro hpj
      · rw [if_pos hpj, show x = v by linarith]
      · rw [if_neg hpj, zero_add]
    · refine ⟨?_, by simp, fun h => absurd (by rw [h, sub_self]) hx, fun p _ => ?_⟩
      · intro e he
        rcases List.mem_cons.1 he with rfl | he
        · simp only
          exact lt_of_le_of_ne (by linarith) (Ne.symm hx)
        · exact hp e (List.mem_cons_of_mem _ he)
      · rw [wsum_cons, wsum_cons]
        simp only
        constructor <;> intro hpj
        · rw [if_pos hpj, if_pos hpj]; ring
        · rw [if_neg hpj, if_neg hpj]

/-- the inner loop uses up the rows of all plans -/
theorem glueRow_spec (fuel : ℕ) (u : K) (L : ∀ k : Fin (κ + 1), List (Fin (n k) × K)) (hp : ∀ k, ∀ e ∈ L k, 0 < e.2) (hu : ∀ k, wsum (fun _ => True) (L k) = u) (hf : ∑ k, (L k).length < fuel) :
    ∃ out, glueRow fuel u L = some out ∧ (∀ e ∈ out, 0 < e.2) ∧ ∀ k (p : Fin (n k) → Prop) [DecidablePred p], wsum (fun jj => p (jj k)) out = wsum p (L k) := by
  induction fuel generalizing u L with
  | zero => omega
  | succ fuel ih =>
    unfold glueRow
    split_ifs with h
    · obtain ⟨hd, hhd⟩ : ∃ hd : ∀ k, Fin (n k) × K, hd = fun k => (L k).head (h.2 k) := ⟨_, rfl⟩
      have hdk : ∀ k, (L k).head (h.2 k) = hd k := fun k => by rw [hhd]
      simp only [← hhd]
      have hspec := fun k => advance_spec (headMin hd) (L k) (h.2 k) (by rw [hdk]; exact headMin_le hd k) (hp k)
      have hvpos : 0 < headMin hd := by
        obtain ⟨k, hk⟩ := headMin_att hd
        rw [hk, ← hdk]
        exact hp k _ (List.head_mem _)
      obtain ⟨out, ho, hop, hom⟩ := ih (u - headMin hd) (fun k => advance (headMin hd) (L k)) (fun k => (hspec k).1) (fun k => by
        have := ((hspec k).2.2.2 (fun _ => True)).1 trivial
        rw [hu k] at this
        linarith) (by
        refine lt_of_lt_of_le (sum_lt_sum (g := fun k => (L k).length) (fun k _ => (hspec k).2.1) ?_) (by omega)
        obtain ⟨k, hk⟩ := headMin_att hd
        exact ⟨k, mem_univ _, (hspec k).2.2.1 (by rw [hdk, hk])⟩)
      refine ⟨_, by rw [ho]; rfl, ?_, fun k p _ => ?_⟩
      · intro e he
        rcases List.mem_cons.1 he with rfl | he
        · exact hvpos
        · exact hop e he
      · have h2 := (hspec k).2.2.2 p
        rw [wsum_cons, hom]
        simp only
        by_cases hpj : p ((L k).head (h.2 k)).1
        · rw [if_pos hpj, h2.1 hpj]
        · rw [if_neg hpj, h2.2 hpj, zero_add]
    · refine ⟨[], rfl, by simp, fun k p _ => ?_⟩
      have hu0 : u ≤ 0 := by
        by_contra hc
        apply h
        refine ⟨not_le.1 hc, fun k hk => ?_⟩
        have := hu k
        rw [hk, wsum_nil] at this
        exact hc (le_of_eq this.symm)
      rw [sum_pos_nil (L k) (hp k) (by rw [hu k]; exact hu0)]
      simp

/-- the loop over the rows -/
theorem glueRows_spec {I : Type*} (fuel : ℕ) (pi : ∀ k : Fin (κ + 1), I → Fin (n k) → K) (a : I → K) (h0 : ∀ k i j, 0 ≤ pi k i j) (ha : ∀ k i, ∑ j, pi k i j = a i) (hf : ∑ k, n k < fuel) (is : List I)
    (acc : List ((∀ k, Fin (n k)) × K)) (hn : (acc.map Prod.fst).Nodup) (hp : ∀ e ∈ acc, 0 < e.2) :
    ∃ out, glueRows fuel pi a is acc = some out ∧ (out.map Prod.fst).Nodup ∧ (∀ e ∈ out, 0 < e.2) ∧
      ∃ g : I → List ((∀ k, Fin (n k)) × K), (∀ i, ∀ e ∈ g i, 0 < e.2) ∧ (∀ i k (p : Fin (n k) → Prop) [DecidablePred p], wsum (fun jj => p (jj k)) (g i) = ∑ j, if p j then pi k i j else 0) ∧
        ∀ (p : (∀ k, Fin (n k)) → Prop) [DecidablePred p], wsum p out = wsum p acc + (is.map fun i => wsum p (g i)).sum := by
  have hrow : ∀ i, ∃ o, (glueRow fuel (a i) fun k => positives (pi k i)) = some o ∧ (∀ e ∈ o, 0 < e.2) ∧ ∀ k (p : Fin (n k) → Prop) [DecidablePred p], wsum (fun jj => p (jj k)) o = ∑ j, if p j then pi k i j else 0 := by
    intro i
    obtain ⟨o, h1, h2, h3⟩ := glueRow_spec fuel (a i) (fun k => positives (pi k i)) (fun k e he => positives_mem _ he) (fun k => by rw [wsum_positives _ (h0 k i)]; simp [ha])
      (lt_of_le_of_lt (sum_le_sum fun k _ => positives_len _) hf)
    exact ⟨o, h1, h2, fun k p _ => by rw [h3, wsum_positives _ (h0 k i)]⟩
  choose g hg1 hg2 hg3 using hrow
  have main : ∀ (is : List I) (acc : List ((∀ k, Fin (n k)) × K)), (acc.map Prod.fst).Nodup → (∀ e ∈ acc, 0 < e.2) →
      ∃ out, glueRows fuel pi a is acc = some out ∧ (out.map Prod.fst).Nodup ∧ (∀ e ∈ out, 0 < e.2) ∧ ∀ (p : (∀ k, Fin (n k)) → Prop) [DecidablePred p], wsum p out = wsum p acc + (is.map fun i => wsum p (g i)).sum := by
    intro is
    induction is with
    | nil => exact fun acc hn hp => ⟨acc, rfl, hn, hp, fun p _ => by simp⟩
    | cons i is ih =>
      intro acc hn hp
      unfold glueRows
      rw [hg1 i, Option.bind_some]
      obtain ⟨h1, h2⟩ := foldl_inv (g i) (hg2 i) acc hn hp
      obtain ⟨out, o1, o2, o3, o4⟩ := ih _ h1 h2
      refine ⟨out, o1, o2, o3, fun p _ => ?_⟩
      rw [o4, wsum_foldl, List.map_cons, List.sum_cons]; ring
  obtain ⟨out, o1, o2, o3, o4⟩ := main is acc hn hp
  exact ⟨out, o1, o2, o3, g, hg2, fun i k p _ => hg3 i k p, fun p _ => o4 p⟩

/-- what `NorthWestMMGluing` returns -/
theorem glue_spec {r : ℕ} (fuel : ℕ) (pi : ∀ k : Fin (κ + 1), Fin r → Fin (n k) → K) (h0 : ∀ k i j, 0 ≤ pi k i j) (ha : ∀ k i, ∑ j, pi k i j = ∑ j, pi 0 i j) (hf : ∑ k, n k < fuel) :
    ∃ out, glue fuel pi = some out ∧ (out.map Prod.fst).Nodup ∧ (∀ e ∈ out, 0 < e.2) ∧
      ∃ γ : Fin r → (∀ k, Fin (n k)) → K, (∀ i jj, 0 ≤ γ i jj) ∧ (∀ jj, ∑ i, γ i jj = wsum (fun y => y = jj) out) ∧ ∀ i k j, ∑ jj ∈ univ.filter (fun jj : ∀ k, Fin (n k) => jj k = j), γ i jj = pi k i j := by
  obtain ⟨out, o1, o2, o3, g, g1, g2, g3⟩ := glueRows_spec fuel pi (fun i => ∑ j, pi 0 i j) h0 ha hf (List.finRange r) [] (by simp) (by simp)
  refine ⟨out, o1, o2, o3, fun i jj => wsum (fun y => y = jj) (g i), fun i jj => wsum_nonneg _ _ fun e he => (g1 i e he).le, fun jj => ?_, fun i k j => ?_⟩
  · rw [g3, Fin.sum_univ_def]; simp
  · rw [wsum_fiber (fun jj : ∀ k, Fin (n k) => jj k) j (g i), g2 i k (fun y => y = j)]; simp

end

end POT.Bary
