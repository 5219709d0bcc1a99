import Verif.Model.Emd1d
import Verif.Lemmas.Monge
import Mathlib.Analysis.Convex.SpecificFunctions.Basic
import Mathlib.Analysis.Convex.Mul
import Mathlib.Analysis.Normed.Module.Convex
import Mathlib.Algebra.BigOperators.Module
import Mathlib.Algebra.BigOperators.Intervals

set_option linter.unusedSectionVars false

namespace POT.Emd1d

variable {R : Type*}

/-! ## Safety of the loop for arbitrary arithmetic -/

structure SafeInv (n m : ℕ) (s : State R) : Prop where
  hi : s.i < n
  hj : s.j < m
  len : s.out.length = s.i + s.j
  rng : ∀ e ∈ s.out, e.2.1 < n ∧ e.2.2 < m

theorem step_safe (A : Arith R) {n m : ℕ} (uw vw : ℕ → R) (M : ℕ → ℕ → R) {s : State R}
    (h : SafeInv n m s) :
    (∃ s', step A n m uw vw M s = .next s' ∧ SafeInv n m s' ∧ s'.i + s'.j = s.i + s.j + 1) ∨
    (∃ out c, step A n m uw vw M s = .done out c ∧ out.length = s.i + s.j + 1 ∧
      ∀ e ∈ out, e.2.1 < n ∧ e.2.2 < m) := by
  obtain ⟨hi, hj, len, rng⟩ := h
  have hr : ∀ w : R, ∀ e ∈ s.out ++ [(w, s.i, s.j)], e.2.1 < n ∧ e.2.2 < m := by
    intro w e he
    rcases List.mem_append.1 he with he | he
    · exact rng e he
    · rw [List.mem_singleton] at he
      subst he
      exact ⟨hi, hj⟩
  unfold step
  rw [if_neg (by omega), if_neg (by omega)]
  dsimp only
  split_ifs with h1 h2 h3 h4 h5
  · exact Or.inr ⟨_, _, rfl, by simp [len], hr _⟩
  · omega
  · exact Or.inl ⟨_, rfl, ⟨by simp; omega, hj, by simp [len]; omega, hr _⟩, by simp; omega⟩
  · exact Or.inr ⟨_, _, rfl, by simp [len], hr _⟩
  · omega
  · exact Or.inl ⟨_, rfl, ⟨hi, by simp; omega, by simp [len]; omega, hr _⟩, by simp; omega⟩

theorem run_safe (A : Arith R) {n m : ℕ} (uw vw : ℕ → R) (M : ℕ → ℕ → R) :
    ∀ (fuel : ℕ) (s : State R), SafeInv n m s → n + m ≤ s.i + s.j + 1 + fuel →
      ∃ out c, run A n m uw vw M fuel s = some (.ok (out, c)) ∧ 1 ≤ out.length ∧
        out.length ≤ n + m - 1 ∧ ∀ e ∈ out, e.2.1 < n ∧ e.2.2 < m := by
  intro fuel
  induction fuel with
  | zero =>
    intro s h hf
    have := h.hi; have := h.hj; omega
  | succ fuel ih =>
    intro s h hf
    have hi := h.hi; have hj := h.hj
    unfold run
    rcases step_safe A uw vw M h with ⟨s', hs, hinv, hsum⟩ | ⟨out, c, hs, hlen, hr⟩
    · rw [hs]
      exact ih s' hinv (by omega)
    · rw [hs]
      exact ⟨out, c, rfl, by omega, by omega, hr⟩

theorem run_mono (A : Arith R) {n m : ℕ} (uw vw : ℕ → R) (M : ℕ → ℕ → R) :
    ∀ (fuel k : ℕ) (s : State R) r, run A n m uw vw M fuel s = some r →
      run A n m uw vw M (fuel + k) s = some r := by
  intro fuel
  induction fuel with
  | zero => intro k s r h; simp [run] at h
  | succ fuel ih =>
    intro k s r h
    rw [show fuel + 1 + k = (fuel + k) + 1 by omega]
    unfold run at h ⊢
    split at h <;> simp_all

theorem run_fuel_unique (A : Arith R) {n m : ℕ} (uw vw : ℕ → R) (M : ℕ → ℕ → R) {f g : ℕ} {s : State R} {r r'}
    (h : run A n m uw vw M f s = some r) (h' : run A n m uw vw M g s = some r') : r = r' := by
  have h1 := run_mono A uw vw M f g s r h
  have h2 := run_mono A uw vw M g f s r' h'
  rw [show g + f = f + g by omega, h1] at h2
  exact Option.some.inj h2

/-! ## Pairing of a coordinate list with a test function -/

section Pair
variable [CommRing R]

/-- `∑ G_k φ(i_k, j_k)` over the entries of a coordinate list. -/
def pair (out : List (Entry R)) (φ : ℕ → ℕ → R) : R := (out.map fun e => e.1 * φ e.2.1 e.2.2).sum

@[simp] theorem pair_nil (φ : ℕ → ℕ → R) : pair [] φ = 0 := rfl
@[simp] theorem pair_cons (e : Entry R) (out) (φ : ℕ → ℕ → R) :
    pair (e :: out) φ = e.1 * φ e.2.1 e.2.2 + pair out φ := by simp [pair]
@[simp] theorem pair_append (o o' : List (Entry R)) (φ : ℕ → ℕ → R) :
    pair (o ++ o') φ = pair o φ + pair o' φ := by simp [pair]

theorem dense_cons (e : Entry R) (out : List (Entry R)) (i j : ℕ) :
    dense (e :: out) i j = (if e.2.1 = i ∧ e.2.2 = j then e.1 else 0) + dense out i j := by
  unfold dense
  by_cases h : e.2.1 = i ∧ e.2.2 = j <;> simp [h]

theorem pair_eq_dense {n m : ℕ} (φ : ℕ → ℕ → R) : ∀ (out : List (Entry R)),
    (∀ e ∈ out, e.2.1 < n ∧ e.2.2 < m) →
    pair out φ = ∑ i ∈ Finset.range n, ∑ j ∈ Finset.range m, dense out i j * φ i j
  | [], _ => by simp [dense]
  | e :: out, h => by
    have ih := pair_eq_dense φ out fun e he => h e (List.mem_cons_of_mem _ he)
    have he := h e List.mem_cons_self
    rw [pair_cons, ih]
    simp only [dense_cons, add_mul, Finset.sum_add_distrib]
    congr 1
    have : ∀ i j, (if e.2.1 = i ∧ e.2.2 = j then e.1 else 0) * φ i j
        = if e.2.1 = i then (if e.2.2 = j then e.1 * φ i j else 0) else 0 := by
      intro i j
      by_cases h1 : e.2.1 = i <;> by_cases h2 : e.2.2 = j <;> simp [h1, h2]
    simp only [this]
    rw [Finset.sum_eq_single e.2.1]
    · simp [he.2]
    · intro b _ hb
      simp [Ne.symm hb]
    · intro hn
      exact absurd (Finset.mem_range.2 he.1) hn

end Pair

/-! ## Exact arithmetic: marginals, monotone support, cost -/

section Exact
variable [Field R] [LinearOrder R] [IsStrictOrderedRing R]

open Finset

/-- Loop invariant of the exact loop. -/
structure ExInv (n m : ℕ) (u v : ℕ → R) (M : ℕ → ℕ → R) (s : State R) : Prop where
  safe : SafeInv n m s
  wi : 0 ≤ s.wi
  wj : 0 ≤ s.wj
  bal : s.wi + ∑ k ∈ Ico (s.i + 1) n, u k = s.wj + ∑ k ∈ Ico (s.j + 1) m, v k
  row : ∀ φ : ℕ → R, pair s.out (fun i _ => φ i) + s.wi * φ s.i + ∑ k ∈ Ico (s.i + 1) n, u k * φ k
      = ∑ k ∈ range n, u k * φ k
  col : ∀ ψ : ℕ → R, pair s.out (fun _ j => ψ j) + s.wj * ψ s.j + ∑ k ∈ Ico (s.j + 1) m, v k * ψ k
      = ∑ k ∈ range m, v k * ψ k
  nonneg : ∀ e ∈ s.out, 0 ≤ e.1
  le : ∀ e ∈ s.out, e.2.1 ≤ s.i ∧ e.2.2 ≤ s.j
  mono : s.out.Pairwise fun e f => e.2.1 ≤ f.2.1 ∧ e.2.2 ≤ f.2.2
  cost : s.cost = pair s.out M

/-- What the exact loop delivers. -/
structure ExOut (n m : ℕ) (u v : ℕ → R) (M : ℕ → ℕ → R) (out : List (Entry R)) (c : R) : Prop where
  rng : ∀ e ∈ out, e.2.1 < n ∧ e.2.2 < m
  row : ∀ φ : ℕ → R, pair out (fun i _ => φ i) = ∑ k ∈ range n, u k * φ k
  col : ∀ ψ : ℕ → R, pair out (fun _ j => ψ j) = ∑ k ∈ range m, v k * ψ k
  nonneg : ∀ e ∈ out, 0 ≤ e.1
  mono : out.Pairwise fun e f => e.2.1 ≤ f.2.1 ∧ e.2.2 ≤ f.2.2
  cost : c = pair out M

theorem step_exact {n m : ℕ} {u v : ℕ → R} {M : ℕ → ℕ → R} (hu : ∀ k < n, 0 ≤ u k) (hv : ∀ k < m, 0 ≤ v k)
    {s : State R} (h : ExInv n m u v M s) :
    (∃ s', step (Arith.exact R) n m u v M s = .next s' ∧ ExInv n m u v M s' ∧ s'.i + s'.j = s.i + s.j + 1) ∨
    (∃ out c, step (Arith.exact R) n m u v M s = .done out c ∧ ExOut n m u v M out c) := by
  have hsafe := step_safe (Arith.exact R) u v M h.safe
  obtain ⟨⟨hi, hj, len, rng⟩, hwi, hwj, bal, row, col, nonneg, le, mono, hcost⟩ := h
  have hvs : 0 ≤ ∑ k ∈ Ico (s.j + 1) m, v k :=
    sum_nonneg fun k hk => hv k (mem_Ico.1 hk).2
  have hus : 0 ≤ ∑ k ∈ Ico (s.i + 1) n, u k :=
    sum_nonneg fun k hk => hu k (mem_Ico.1 hk).2
  have hnn : ∀ w : R, 0 ≤ w → ∀ e ∈ s.out ++ [(w, s.i, s.j)], 0 ≤ e.1 := by
    intro w hw e he
    rcases List.mem_append.1 he with he | he
    · exact nonneg e he
    · rw [List.mem_singleton] at he; subst he; exact hw
  have hmono : ∀ w : R, (s.out ++ [(w, s.i, s.j)]).Pairwise
      fun e f => e.2.1 ≤ f.2.1 ∧ e.2.2 ≤ f.2.2 := by
    intro w
    rw [List.pairwise_append]
    refine ⟨mono, List.pairwise_singleton _ _, ?_⟩
    intro e he f hf
    rw [List.mem_singleton] at hf; subst hf
    exact le e he
  have hrng : ∀ w : R, ∀ e ∈ s.out ++ [(w, s.i, s.j)], e.2.1 ≤ s.i ∧ e.2.2 ≤ s.j := by
    intro w e he
    rcases List.mem_append.1 he with he | he
    · exact le e he
    · rw [List.mem_singleton] at he; subst he; exact ⟨le_rfl, le_rfl⟩
  unfold step at hsafe ⊢
  rw [if_neg (by omega), if_neg (by omega)] at hsafe ⊢
  simp only [Arith.exact, decide_eq_true_eq] at hsafe ⊢
  by_cases hc : s.wi < s.wj ∨ s.j = m - 1
  · rw [if_pos hc] at hsafe ⊢
    by_cases hn : s.i + 1 = n
    · rw [if_pos hn] at hsafe ⊢
      right
      refine ⟨_, _, rfl, ?_, ?_, ?_, hnn _ hwi, hmono _, by simp [hcost, mul_comm]⟩
      · intro e he
        have := hrng _ e he
        omega
      · intro φ
        rw [← row φ]; simp [hn]
      · intro ψ
        have hjm : s.j = m - 1 := by
          rcases hc with hc | hc
          · exfalso
            simp only [hn, Ico_self, sum_empty, add_zero] at bal
            linarith
          · exact hc
        have hjm' : s.j + 1 = m := by omega
        have hw : s.wi = s.wj := by simpa [hn, hjm'] using bal
        rw [← col ψ]; simp [hjm', hw]
    · rw [if_neg hn, if_neg (by omega)] at hsafe ⊢
      left
      rcases hsafe with ⟨s', hs', hinv, hsum⟩ | ⟨out, c, hs, _⟩
      · obtain rfl : _ = s' := by injection hs'
        refine ⟨_, rfl, ⟨hinv, hu _ (by omega), ?_, ?_, ?_, ?_, hnn _ hwi, ?_, hmono _, ?_⟩, hsum⟩
        · simp only [sub_nonneg]
          rcases hc with hc | hc
          · exact hc.le
          · have : s.j + 1 = m := by omega
            simp only [this, Ico_self, sum_empty, add_zero] at bal
            linarith
        · have := sum_eq_sum_Ico_succ_bot (show s.i + 1 < n by omega) u
          simp only
          linarith
        · intro φ
          have := sum_eq_sum_Ico_succ_bot (show s.i + 1 < n by omega) fun k => u k * φ k
          rw [← row φ]
          simp only [pair_append, pair_cons, pair_nil]
          linarith
        · intro ψ
          rw [← col ψ]
          simp only [pair_append, pair_cons, pair_nil]
          ring
        · intro e he
          have := hrng _ e he
          exact ⟨by simp only; omega, this.2⟩
        · simp [hcost, mul_comm]
      · cases hs
  · rw [if_neg hc] at hsafe ⊢
    push Not at hc
    rw [if_neg (by omega), if_neg (by omega)] at hsafe ⊢
    left
    rcases hsafe with ⟨s', hs', hinv, hsum⟩ | ⟨out, c, hs, _⟩
    · obtain rfl : _ = s' := by injection hs'
      refine ⟨_, rfl, ⟨hinv, sub_nonneg.2 hc.1, hv _ (by omega), ?_, ?_, ?_, hnn _ hwj, ?_, hmono _, ?_⟩, hsum⟩
      · have := sum_eq_sum_Ico_succ_bot (show s.j + 1 < m by omega) v
        simp only
        linarith
      · intro φ
        rw [← row φ]
        simp only [pair_append, pair_cons, pair_nil]
        ring
      · intro ψ
        have := sum_eq_sum_Ico_succ_bot (show s.j + 1 < m by omega) fun k => v k * ψ k
        rw [← col ψ]
        simp only [pair_append, pair_cons, pair_nil]
        linarith
      · intro e he
        have := hrng _ e he
        exact ⟨this.1, by simp only; omega⟩
      · simp [hcost, mul_comm]
    · cases hs

theorem run_exact {n m : ℕ} {u v : ℕ → R} {M : ℕ → ℕ → R} (hu : ∀ k < n, 0 ≤ u k) (hv : ∀ k < m, 0 ≤ v k) :
    ∀ (fuel : ℕ) (s : State R), ExInv n m u v M s → n + m ≤ s.i + s.j + 1 + fuel →
      ∃ out c, run (Arith.exact R) n m u v M fuel s = some (.ok (out, c)) ∧ ExOut n m u v M out c := by
  intro fuel
  induction fuel with
  | zero =>
    intro s h hf
    have := h.safe.hi; have := h.safe.hj; omega
  | succ fuel ih =>
    intro s h hf
    unfold run
    rcases step_exact hu hv h with ⟨s', hs, hinv, hsum⟩ | ⟨out, c, hs, ho⟩
    · rw [hs]
      exact ih s' hinv (by omega)
    · rw [hs]
      exact ⟨out, c, rfl, ho⟩

theorem emd1dSorted_exact {n m : ℕ} {u v : ℕ → R} {M : ℕ → ℕ → R} (hn : 0 < n) (hm : 0 < m)
    (hu : ∀ k < n, 0 ≤ u k) (hv : ∀ k < m, 0 ≤ v k) (hs : ∑ k ∈ range n, u k = ∑ k ∈ range m, v k) :
    ∃ out c, emd1dSorted (Arith.exact R) 0 n m u v M (n + m - 1) = some (.ok (out, c)) ∧
      ExOut n m u v M out c := by
  unfold emd1dSorted
  rw [if_neg (by omega)]
  have h1 : ∀ f : ℕ → R, f 0 + ∑ k ∈ Ico (0 + 1) n, f k = ∑ k ∈ range n, f k := by
    intro f
    rw [range_eq_Ico, ← sum_eq_sum_Ico_succ_bot hn]
  have h2 : ∀ f : ℕ → R, f 0 + ∑ k ∈ Ico (0 + 1) m, f k = ∑ k ∈ range m, f k := by
    intro f
    rw [range_eq_Ico, ← sum_eq_sum_Ico_succ_bot hm]
  refine run_exact hu hv _ _ ⟨⟨hn, hm, rfl, by simp⟩, hu 0 hn, hv 0 hm, ?_, ?_, ?_, by simp, by simp,
    by simp, by simp⟩ (by simp; omega)
  · simp only; rw [h1, h2, hs]
  · intro φ; simp only [pair_nil, zero_add]; rw [← h1 fun k => u k * φ k]
  · intro ψ; simp only [pair_nil, zero_add]; rw [← h2 fun k => v k * ψ k]

theorem exists_of_dense_ne_zero {out : List (Entry R)} {i j : ℕ} (h : dense out i j ≠ 0) :
    ∃ e ∈ out, e.2.1 = i ∧ e.2.2 = j := by
  by_contra hc
  push Not at hc
  apply h
  unfold dense
  rw [List.filter_eq_nil_iff.2]
  · simp
  · intro e he
    simpa using hc e he

theorem dense_nonneg {out : List (Entry R)} (h : ∀ e ∈ out, 0 ≤ e.1) (i j : ℕ) : 0 ≤ dense out i j := by
  unfold dense
  apply List.sum_nonneg
  intro x hx
  obtain ⟨e, he, rfl⟩ := List.mem_map.1 hx
  exact h e (List.mem_filter.1 he).1

theorem ExOut.rowsum {n m : ℕ} {u v : ℕ → R} {M : ℕ → ℕ → R} {out c} (h : ExOut n m u v M out c)
    {i : ℕ} (hi : i < n) : ∑ j ∈ range m, dense out i j = u i := by
  have h1 := h.row fun k => if k = i then 1 else 0
  rw [pair_eq_dense _ _ h.rng] at h1
  simp only [mul_ite, mul_one, mul_zero] at h1
  rw [sum_eq_single i] at h1
  · simpa [hi] using h1
  · intro k _ hk; simp [hk]
  · intro hk; simp at hk; omega

theorem ExOut.colsum {n m : ℕ} {u v : ℕ → R} {M : ℕ → ℕ → R} {out c} (h : ExOut n m u v M out c)
    {j : ℕ} (hj : j < m) : ∑ i ∈ range n, dense out i j = v j := by
  have h1 := h.col fun k => if k = j then 1 else 0
  rw [pair_eq_dense _ _ h.rng, sum_comm] at h1
  simp only [mul_ite, mul_one, mul_zero] at h1
  rw [sum_eq_single j] at h1
  · simpa [hj] using h1
  · intro k _ hk; simp [hk]
  · intro hk; simp at hk; omega

theorem ExOut.comono {n m : ℕ} {u v : ℕ → R} {M : ℕ → ℕ → R} {out c} (h : ExOut n m u v M out c)
    {i i' j j' : ℕ} (hi : i < i') (hj : j' < j) : dense out i j = 0 ∨ dense out i' j' = 0 := by
  by_contra hc
  push Not at hc
  obtain ⟨e, he, rfl, rfl⟩ := exists_of_dense_ne_zero hc.1
  obtain ⟨f, hf, rfl, rfl⟩ := exists_of_dense_ne_zero hc.2
  have hp : out.Pairwise fun e f => (e.2.1 ≤ f.2.1 ∧ e.2.2 ≤ f.2.2) ∨ (f.2.1 ≤ e.2.1 ∧ f.2.2 ≤ e.2.2) :=
    h.mono.imp fun h => Or.inl h
  have : Std.Symm fun e f : Entry R => (e.2.1 ≤ f.2.1 ∧ e.2.2 ≤ f.2.2) ∨ (f.2.1 ≤ e.2.1 ∧ f.2.2 ≤ e.2.2) :=
    ⟨fun _ _ h => h.symm⟩
  have h3 := List.Pairwise.forall_of_forall (R := fun e f : Entry R =>
    (e.2.1 ≤ f.2.1 ∧ e.2.2 ≤ f.2.2) ∨ (f.2.1 ≤ e.2.1 ∧ f.2.2 ≤ e.2.2))
    (fun x _ => Or.inl ⟨le_rfl, le_rfl⟩) hp he hf
  omega

theorem ExOut.isCoupling {n m : ℕ} {u v : ℕ → R} {M : ℕ → ℕ → R} {out c} (h : ExOut n m u v M out c) :
    Spec.IsCoupling (fun i : Fin n => u i) (fun j : Fin m => v j) fun i j => dense out i j where
  nonneg i j := dense_nonneg h.nonneg _ _
  row i := by rw [← h.rowsum i.2, ← Fin.sum_univ_eq_sum_range]
  col j := by rw [← h.colsum j.2, ← Fin.sum_univ_eq_sum_range (fun i => dense out i j)]

theorem ExOut.cost_eq {n m : ℕ} {u v : ℕ → R} {M : ℕ → ℕ → R} {out c} (h : ExOut n m u v M out c) :
    c = Spec.cost (fun (i : Fin n) (j : Fin m) => M i j) fun i j => dense out i j := by
  rw [h.cost, pair_eq_dense _ _ h.rng, ← Fin.sum_univ_eq_sum_range
    (fun i => ∑ j ∈ range m, dense out i j * M i j)]
  unfold Spec.cost
  refine sum_congr rfl fun i _ => ?_
  rw [← Fin.sum_univ_eq_sum_range]

theorem ExOut.isOptimal {n m : ℕ} {u v : ℕ → R} {M : ℕ → ℕ → R} {out c} (h : ExOut n m u v M out c)
    (hM : ∀ i i' j j', i ≤ i' → i' < n → j ≤ j' → j' < m → M i j + M i' j' ≤ M i j' + M i' j) :
    Spec.IsOptimal (fun i : Fin n => u i) (fun j : Fin m => v j) (fun i j => M i j)
      fun i j => dense out i j :=
  Spec.isOptimal_of_comonotone h.isCoupling (fun _ _ _ _ hi hj => h.comono hi hj)
    fun i i' j j' hi hj => hM i i' j j' hi i'.2 hj j'.2

end Exact

/-! ## Convex costs of the difference are Monge -/

theorem monge_of_convex {h : ℝ → ℝ} (hh : ConvexOn ℝ Set.univ h) {x x' y y' : ℝ} (hx : x ≤ x') (hy : y ≤ y') :
    h (x - y) + h (x' - y') ≤ h (x - y') + h (x' - y) := by
  rcases eq_or_lt_of_le (show x - y' ≤ x' - y by linarith) with he | hlt
  · have h1 : x - y = x - y' := by linarith
    have h2 : x' - y' = x' - y := by linarith
    rw [h1, h2]
  · set t : ℝ := (x' - x) / ((x' - x) + (y' - y)) with ht
    have hd : 0 < (x' - x) + (y' - y) := by linarith
    have ht0 : 0 ≤ t := div_nonneg (by linarith) hd.le
    have ht1 : t ≤ 1 := by rw [ht, div_le_one hd]; linarith
    have hmul : t * ((x' - x) + (y' - y)) = x' - x := div_mul_cancel₀ _ hd.ne'
    have e1 : x' - y' = (1 - t) • (x - y') + t • (x' - y) := by
      simp only [smul_eq_mul]; linear_combination -hmul
    have e2 : x - y = t • (x - y') + (1 - t) • (x' - y) := by
      simp only [smul_eq_mul]; linear_combination hmul
    have c1 := hh.2 (Set.mem_univ (x - y')) (Set.mem_univ (x' - y)) (sub_nonneg.2 ht1) ht0 (by ring)
    have c2 := hh.2 (Set.mem_univ (x - y')) (Set.mem_univ (x' - y)) ht0 (sub_nonneg.2 ht1) (by ring)
    rw [← e1] at c1
    rw [← e2] at c2
    simp only [smul_eq_mul] at c1 c2
    linarith

theorem convex_abs_rpow {p : ℝ} (hp : 1 ≤ p) : ConvexOn ℝ Set.univ fun t : ℝ => |t| ^ p := by
  have h1 : ConvexOn ℝ Set.univ fun t : ℝ => |t| := convexOn_univ_norm (E := ℝ)
  refine ⟨convex_univ, fun x _ y _ a b ha hb hab => ?_⟩
  have hc := h1.2 (Set.mem_univ x) (Set.mem_univ y) ha hb hab
  have h2 := (convexOn_rpow hp).2 (Set.mem_Ici.2 (abs_nonneg x)) (Set.mem_Ici.2 (abs_nonneg y)) ha hb hab
  exact (Real.rpow_le_rpow (abs_nonneg _) hc (by linarith)).trans h2

/-- The convex function of the difference behind each metric. -/
theorem metric_convex (μ : Metric) {p : ℝ} (hp : 1 ≤ p) :
    ∃ h : ℝ → ℝ, ConvexOn ℝ Set.univ h ∧ ∀ x y, metricCost μ p x y = h (x - y) := by
  cases μ
  · refine ⟨fun t => t ^ 2, even_two.convexOn_pow, fun x y => ?_⟩
    simp only [metricCost]; ring
  · exact ⟨fun t => |t|, by simpa using convex_abs_rpow le_rfl, fun x y => rfl⟩
  · exact ⟨fun t => |t|, by simpa using convex_abs_rpow le_rfl, fun x y => rfl⟩
  · exact ⟨fun t => |t| ^ p, convex_abs_rpow hp, fun x y => rfl⟩

/-! ## The quantile plan -/

section Quantile

/-- `∑_k (q_k - q_{k-1}) ψ(q_k)` with `q_{-1} = b`. -/
noncomputable def teles (ψ : ℝ → ℝ) : ℝ → List ℝ → ℝ
  | _, [] => 0
  | b, q :: qs => (q - b) * ψ q + teles ψ q qs

/-- last grid point -/
def lastOf : ℝ → List ℝ → ℝ
  | b, [] => b
  | _, q :: qs => lastOf q qs

theorem teles_ind_le (c : ℝ) : ∀ (qs : List ℝ) (b : ℝ), c ≤ b → (b :: qs).Pairwise (· ≤ ·) →
    teles (fun q => if c < q then 1 else 0) b qs = lastOf b qs - b
  | [], b, _, _ => by simp [teles, lastOf]
  | q :: qs, b, hc, hs => by
    have hs' := List.pairwise_cons.1 hs
    have hbq : b ≤ q := hs'.1 q List.mem_cons_self
    rw [teles, lastOf, teles_ind_le c qs q (hc.trans hbq) hs'.2]
    by_cases h : c < q
    · simp [h]
    · have : q = b := le_antisymm ((not_lt.1 h).trans hc) hbq
      simp [this]

theorem teles_ind_mem (c : ℝ) : ∀ (qs : List ℝ) (b : ℝ), c ∈ b :: qs → (b :: qs).Pairwise (· ≤ ·) →
    teles (fun q => if c < q then 1 else 0) b qs = lastOf b qs - c
  | [], b, hc, hs => by
    rw [List.mem_singleton] at hc
    rw [teles_ind_le c _ _ hc.le hs, hc]
  | q :: qs, b, hc, hs => by
    rcases List.mem_cons.1 hc with hc | hc
    · rw [teles_ind_le c _ _ hc.le hs, hc]
    · have hs' := List.pairwise_cons.1 hs
      have hqc : q ≤ c := by
        rcases List.mem_cons.1 hc with h | h
        · exact h.ge
        · exact (List.pairwise_cons.1 hs'.2).1 c h
      rw [teles, lastOf, teles_ind_mem c qs q hc hs'.2]
      simp [hqc]

theorem teles_one : ∀ (qs : List ℝ) (b : ℝ), teles (fun _ => 1) b qs = lastOf b qs - b
  | [], b => by simp [teles, lastOf]
  | q :: qs, b => by rw [teles, lastOf, teles_one]; ring

theorem teles_add (f g : ℝ → ℝ) : ∀ (qs : List ℝ) (b : ℝ),
    teles (fun q => f q + g q) b qs = teles f b qs + teles g b qs
  | [], b => by simp [teles]
  | q :: qs, b => by simp only [teles]; rw [teles_add]; ring

theorem teles_smul (k : ℝ) (f : ℝ → ℝ) : ∀ (qs : List ℝ) (b : ℝ),
    teles (fun q => k * f q) b qs = k * teles f b qs
  | [], b => by simp [teles]
  | q :: qs, b => by simp only [teles]; rw [teles_smul]; ring

theorem teles_sum {ι : Type*} (s : Finset ι) (f : ι → ℝ → ℝ) (qs : List ℝ) (b : ℝ) :
    teles (fun q => ∑ i ∈ s, f i q) b qs = ∑ i ∈ s, teles (f i) b qs := by
  classical
  induction s using Finset.induction_on with
  | empty =>
    simp only [Finset.sum_empty]
    have := teles_smul 0 (fun _ => 0) qs b
    simpa using this
  | insert a s ha ih =>
    simp only [Finset.sum_insert ha]
    rw [teles_add, ih]

theorem teles_congr {f g : ℝ → ℝ} : ∀ (qs : List ℝ) (b : ℝ), (∀ q ∈ qs, f q = g q) →
    teles f b qs = teles g b qs
  | [], b, _ => rfl
  | q :: qs, b, h => by
    simp only [teles]
    rw [teles_congr qs q fun x hx => h x (List.mem_cons_of_mem _ hx), h q List.mem_cons_self]

/-- pairing of the quantile plan is a telescoping sum -/
theorem pair_zip (f g : ℝ → ℕ) (φ : ℕ → ℕ → ℝ) : ∀ (qs : List ℝ) (b : ℝ),
    pair (List.zipWith (fun d q => (d, f q, g q)) (List.zipWith (fun q q' => q' - q) (b :: qs) qs) qs) φ
      = teles (fun q => φ (f q) (g q)) b qs
  | [], b => by simp [teles]
  | q :: qs, b => by
    rw [List.zipWith_cons_cons, List.zipWith_cons_cons, pair_cons, pair_zip f g φ qs q, teles]

theorem lastOf_mem : ∀ (qs : List ℝ) (b : ℝ), qs ≠ [] → lastOf b qs ∈ qs
  | [], _, h => absurd rfl h
  | [q], _, _ => by simp [lastOf]
  | q :: q' :: qs, _, _ => by
    rw [lastOf]
    exact List.mem_cons_of_mem _ (lastOf_mem (q' :: qs) q (by simp))

theorem le_lastOf : ∀ (qs : List ℝ) (b : ℝ), (b :: qs).Pairwise (· ≤ ·) → ∀ x ∈ b :: qs, x ≤ lastOf b qs
  | [], b, _, x, hx => by simp at hx; simp [lastOf, hx]
  | q :: qs, b, hs, x, hx => by
    have hs' := List.pairwise_cons.1 hs
    rw [lastOf]
    have hq := le_lastOf qs q hs'.2 q List.mem_cons_self
    rcases List.mem_cons.1 hx with rfl | hx
    · exact (hs'.1 q List.mem_cons_self).trans hq
    · exact le_lastOf qs q hs'.2 x hx

theorem countP_cumsum {w : ℕ → ℝ} (q : ℝ) : ∀ {n : ℕ}, (∀ k < n, 0 ≤ w k) → ∀ i < n,
    (i < (cumsum w n).countP (· < q) ↔ ∑ k ∈ Finset.range (i + 1), w k < q) := by
  intro n
  induction n with
  | zero => intro _ i hi; omega
  | succ n ih =>
    intro hw i hi
    have ih' := ih (fun k hk => hw k (by omega))
    have hcs : cumsum w (n + 1) = cumsum w n ++ [∑ k ∈ Finset.range (n + 1), w k] := by
      simp [cumsum, List.range_succ]
    have hlen : (cumsum w n).length = n := by simp [cumsum]
    have hle : (cumsum w n).countP (· < q) ≤ n := by
      have := List.countP_le_length (p := fun x => decide (x < q)) (l := cumsum w n)
      omega
    have hmono : ∀ i < n, ∑ k ∈ Finset.range (i + 1), w k ≤ ∑ k ∈ Finset.range (n + 1), w k := by
      intro i hi
      refine Finset.sum_le_sum_of_subset_of_nonneg (Finset.range_subset_range.2 (by omega)) fun k hk _ => ?_
      exact hw k (Finset.mem_range.1 hk)
    rw [hcs, List.countP_append]
    by_cases hlast : ∑ k ∈ Finset.range (n + 1), w k < q
    · -- all are below q
      have hall : (cumsum w n).countP (· < q) = n := by
        refine le_antisymm hle ?_
        by_contra hlt
        push Not at hlt
        have hn : 0 < n := by omega
        have := (ih' (n - 1) (by omega)).2 (lt_of_le_of_lt (hmono (n - 1) (by omega)) hlast)
        omega
      have h1 : ([∑ k ∈ Finset.range (n + 1), w k] : List ℝ).countP (· < q) = 1 := by
        simp [hlast]
      rw [hall, h1]
      constructor
      · intro _
        rcases Nat.lt_succ_iff_lt_or_eq.1 hi with h | h
        · exact lt_of_le_of_lt (hmono i h) hlast
        · rw [h]; exact hlast
      · intro _; exact hi
    · have h1 : ([∑ k ∈ Finset.range (n + 1), w k] : List ℝ).countP (· < q) = 0 := by
        simpa using hlast
      rw [h1, add_zero]
      rcases Nat.lt_succ_iff_lt_or_eq.1 hi with h | h
      · exact ih' i h
      · subst h
        constructor
        · intro h; omega
        · intro h; exact absurd h hlast

theorem quantileIdx_lt {q : ℝ} {cws : List ℝ} {n : ℕ} (hn : 0 < n) : quantileIdx q cws n < n := by
  unfold quantileIdx; omega

theorem quantileIdx_mono {q q' : ℝ} (h : q ≤ q') (cws : List ℝ) (n : ℕ) :
    quantileIdx q cws n ≤ quantileIdx q' cws n := by
  unfold quantileIdx
  refine min_le_min ?_ le_rfl
  refine List.countP_mono_left fun x _ hx => ?_
  simp only [decide_eq_true_eq] at hx ⊢
  linarith

theorem lt_quantileIdx {w : ℕ → ℝ} {n : ℕ} (hw : ∀ k < n, 0 ≤ w k) {i : ℕ} (hi : i + 1 < n) (q : ℝ) :
    i < quantileIdx q (cumsum w n) n ↔ ∑ k ∈ Finset.range (i + 1), w k < q := by
  unfold quantileIdx
  rw [← countP_cumsum q hw i (by omega), lt_min_iff]
  constructor
  · exact fun h => h.1
  · exact fun h => ⟨h, by omega⟩

theorem eq_sum_steps (φ : ℕ → ℝ) (n : ℕ) {t : ℕ} (ht : t < n) :
    φ t = φ 0 + ∑ i ∈ Finset.range (n - 1), (φ (i + 1) - φ i) * if i < t then 1 else 0 := by
  have h1 : ∑ i ∈ Finset.range (n - 1), (φ (i + 1) - φ i) * (if i < t then (1 : ℝ) else 0)
      = ∑ i ∈ Finset.range t, (φ (i + 1) - φ i) := by
    rw [← Finset.sum_subset (Finset.range_subset_range.2 (show t ≤ n - 1 by omega))]
    · refine Finset.sum_congr rfl fun i hi => ?_
      simp [Finset.mem_range.1 hi]
    · intro i _ hi
      simp only [Finset.mem_range] at hi
      simp [hi]
  rw [h1, Finset.sum_range_sub]; ring

/-- marginal of a quantile step function over a grid containing its jumps -/
theorem teles_quantile {w : ℕ → ℝ} {n : ℕ} (hn : 0 < n) (hw : ∀ k < n, 0 ≤ w k) (qs : List ℝ)
    (hs : (0 :: qs).Pairwise (· ≤ ·)) (hmem : ∀ x ∈ cumsum w n, x ∈ qs)
    (hlast : lastOf 0 qs = ∑ k ∈ Finset.range n, w k) (φ : ℕ → ℝ) :
    teles (fun q => φ (quantileIdx q (cumsum w n) n)) 0 qs = ∑ k ∈ Finset.range n, w k * φ k := by
  have h1 : teles (fun q => φ (quantileIdx q (cumsum w n) n)) 0 qs =
      teles (fun q => φ 0 * 1 + ∑ i ∈ Finset.range (n - 1), (φ (i + 1) - φ i) *
        if ∑ k ∈ Finset.range (i + 1), w k < q then 1 else 0) 0 qs := by
    refine teles_congr qs 0 fun q _ => ?_
    rw [eq_sum_steps φ n (quantileIdx_lt hn), mul_one]
    congr 1
    refine Finset.sum_congr rfl fun i hi => ?_
    rw [Finset.mem_range] at hi
    simp only [lt_quantileIdx hw (show i + 1 < n by omega)]
  rw [h1, teles_add, teles_smul, teles_one, teles_sum, hlast]
  have h2 : ∀ i ∈ Finset.range (n - 1), teles (fun q => (φ (i + 1) - φ i) *
      if ∑ k ∈ Finset.range (i + 1), w k < q then 1 else 0) 0 qs
      = (φ (i + 1) - φ i) * (∑ k ∈ Finset.range n, w k - ∑ k ∈ Finset.range (i + 1), w k) := by
    intro i hi
    rw [Finset.mem_range] at hi
    rw [teles_smul, teles_ind_mem _ _ _ _ hs, hlast]
    apply List.mem_cons_of_mem
    apply hmem
    exact List.mem_map.2 ⟨i, List.mem_range.2 (by omega), rfl⟩
  rw [Finset.sum_congr rfl h2]
  have h3 := Finset.sum_range_by_parts φ w n
  simp only [smul_eq_mul] at h3
  have h4 : ∑ i ∈ Finset.range n, w i * φ i = ∑ i ∈ Finset.range n, φ i * w i :=
    Finset.sum_congr rfl fun _ _ => mul_comm _ _
  rw [h4, h3]
  simp only [mul_sub, Finset.sum_sub_distrib]
  rw [← Finset.sum_mul, Finset.sum_range_sub]
  ring

theorem mergeSort_pairwise (l : List ℝ) : (l.mergeSort (· ≤ ·)).Pairwise (· ≤ ·) := by
  have := List.pairwise_mergeSort (le := fun a b : ℝ => decide (a ≤ b))
    (fun a b c h1 h2 => by simp only [decide_eq_true_eq] at *; linarith)
    (fun a b => by simpa using le_total a b) l
  simpa using this

theorem wasserstein1dSorted_exOut {n m : ℕ} {u v : ℕ → ℝ} {M : ℕ → ℕ → ℝ} (hn : 0 < n) (hm : 0 < m)
    (hu : ∀ k < n, 0 ≤ u k) (hv : ∀ k < m, 0 ≤ v k)
    (hs : ∑ k ∈ Finset.range n, u k = ∑ k ∈ Finset.range m, v k) :
    ExOut n m u v M (wasserstein1dSorted n m u v M).1 (wasserstein1dSorted n m u v M).2 := by
  set qs := (cumsum u n ++ cumsum v m).mergeSort (· ≤ ·) with hqs
  have hmem : ∀ x, x ∈ qs ↔ x ∈ cumsum u n ∨ x ∈ cumsum v m := by
    intro x; rw [hqs, List.mem_mergeSort, List.mem_append]
  have hcum : ∀ (w : ℕ → ℝ) (k : ℕ), (∀ i < k, 0 ≤ w i) → ∀ x ∈ cumsum w k,
      0 ≤ x ∧ x ≤ ∑ i ∈ Finset.range k, w i := by
    intro w k hw x hx
    obtain ⟨i, hi, rfl⟩ := List.mem_map.1 hx
    rw [List.mem_range] at hi
    constructor
    · exact Finset.sum_nonneg fun j hj => hw j (by rw [Finset.mem_range] at hj; omega)
    · refine Finset.sum_le_sum_of_subset_of_nonneg (Finset.range_subset_range.2 (by omega)) fun j hj _ => ?_
      exact hw j (Finset.mem_range.1 hj)
  have h0 : ∀ x ∈ qs, 0 ≤ x := by
    intro x hx
    rcases (hmem x).1 hx with h | h
    · exact (hcum u n hu x h).1
    · exact (hcum v m hv x h).1
  have hsort : (0 :: qs).Pairwise (· ≤ ·) := List.pairwise_cons.2 ⟨h0, mergeSort_pairwise _⟩
  have hT : ∑ k ∈ Finset.range n, u k ∈ qs := by
    rw [hmem]; left
    refine List.mem_map.2 ⟨n - 1, List.mem_range.2 (by omega), ?_⟩
    rw [show n - 1 + 1 = n by omega]
  have hlast : lastOf 0 qs = ∑ k ∈ Finset.range n, u k := by
    refine le_antisymm ?_ (le_lastOf qs 0 hsort _ (List.mem_cons_of_mem _ hT))
    rcases (hmem _).1 (lastOf_mem qs 0 (List.ne_nil_of_mem hT)) with h | h
    · exact (hcum u n hu _ h).2
    · rw [hs]; exact (hcum v m hv _ h).2
  have hplan : (wasserstein1dSorted n m u v M).1 =
      List.zipWith (fun d q => (d, quantileIdx q (cumsum u n) n, quantileIdx q (cumsum v m) m))
        (List.zipWith (fun q q' => q' - q) (0 :: qs) qs) qs := rfl
  have hval : (wasserstein1dSorted n m u v M).2 = pair (wasserstein1dSorted n m u v M).1 M := rfl
  -- structural facts on the zipped list
  have hstruct : ∀ (qs : List ℝ) (b : ℝ), (b :: qs).Pairwise (· ≤ ·) →
      ∀ e ∈ List.zipWith (fun d q => (d, quantileIdx q (cumsum u n) n, quantileIdx q (cumsum v m) m))
        (List.zipWith (fun q q' => q' - q) (b :: qs) qs) qs,
        0 ≤ e.1 ∧ ∃ q ∈ qs, e.2 = (quantileIdx q (cumsum u n) n, quantileIdx q (cumsum v m) m) := by
    intro qs
    induction qs with
    | nil => intro b _ e he; simp at he
    | cons q qs ih =>
      intro b hb e he
      have hb' := List.pairwise_cons.1 hb
      rw [List.zipWith_cons_cons, List.zipWith_cons_cons] at he
      rcases List.mem_cons.1 he with rfl | he
      · exact ⟨sub_nonneg.2 (hb'.1 q List.mem_cons_self), q, List.mem_cons_self, rfl⟩
      · obtain ⟨h1, q', hq', h2⟩ := ih q hb'.2 e he
        exact ⟨h1, q', List.mem_cons_of_mem _ hq', h2⟩
  have hpw : ∀ (qs : List ℝ) (b : ℝ), (b :: qs).Pairwise (· ≤ ·) →
      (List.zipWith (fun d q => (d, quantileIdx q (cumsum u n) n, quantileIdx q (cumsum v m) m))
        (List.zipWith (fun q q' => q' - q) (b :: qs) qs) qs).Pairwise
        fun e f => e.2.1 ≤ f.2.1 ∧ e.2.2 ≤ f.2.2 := by
    intro qs
    induction qs with
    | nil => intro b _; simp
    | cons q qs ih =>
      intro b hb
      have hb' := List.pairwise_cons.1 hb
      rw [List.zipWith_cons_cons, List.zipWith_cons_cons, List.pairwise_cons]
      refine ⟨fun f hf => ?_, ih q hb'.2⟩
      obtain ⟨_, q', hq', h2⟩ := hstruct qs q hb'.2 f hf
      have hle := (List.pairwise_cons.1 hb'.2).1 q' hq'
      rw [h2]
      exact ⟨quantileIdx_mono hle _ _, quantileIdx_mono hle _ _⟩
  refine ⟨?_, ?_, ?_, ?_, ?_, hval⟩
  · intro e he
    rw [hplan] at he
    obtain ⟨_, q', _, h2⟩ := hstruct qs 0 hsort e he
    rw [h2]
    exact ⟨quantileIdx_lt hn, quantileIdx_lt hm⟩
  · intro φ
    rw [hplan, pair_zip]
    exact teles_quantile hn hu qs hsort (fun x hx => (hmem x).2 (Or.inl hx)) hlast φ
  · intro ψ
    rw [hplan, pair_zip]
    exact teles_quantile hm hv qs hsort (fun x hx => (hmem x).2 (Or.inr hx)) (hlast.trans hs) ψ
  · intro e he
    rw [hplan] at he
    exact (hstruct qs 0 hsort e he).1
  · rw [hplan]; exact hpw qs 0 hsort

end Quantile

end POT.Emd1d
