import Verif.Model.Barycenter
import Verif.Spec.Barycenter
import Mathlib.Algebra.BigOperators.Field
import Mathlib.Tactic.Ring
import Mathlib.Tactic.Linarith
import Mathlib.Tactic.FieldSimp

/-! # Lemmas for `ot/lp/_barycenter_solvers.py` -/

set_option linter.unusedSectionVars false

namespace POT.Bary

open Finset Spec

variable {K : Type*} [Field K] [LinearOrder K] [IsStrictOrderedRing K]

/-! ### the linear program -/

section
variable {N n : ℕ}

theorem sum_eye (i : Fin (n + 1)) (f : Fin (n + 1) → K) : ∑ j : Fin (n + 1), eye (K := K) (i : ℕ) j * f j = f i := by
  unfold eye
  rw [sum_eq_single i]
  · simp
  · intro j _ hj; rw [if_neg (fun h => hj (Fin.ext h.symm)), zero_mul]
  · simp

theorem lpA_row (x : LpVar N n → K) (s : Fin (N + 1)) (k : Fin (n + 1)) : ∑ v, lpA (.inl (s, k)) v * x v = ∑ l, x (.inl (s, k, l)) := by
  rw [Fintype.sum_sum_type, Fintype.sum_prod_type]
  simp only [Fintype.sum_prod_type, lpA, zero_mul, sum_const_zero, add_zero, mul_one]
  rw [sum_eq_single s (fun s' _ hs => by simp [Ne.symm hs]) (by simp)]
  simp only [if_true]
  simp only [← mul_sum]
  exact sum_eye k fun k' => ∑ l, x (.inl (s, k', l))

theorem lpA_col0 (x : LpVar N n → K) (l : Fin (n + 1)) : ∑ v, lpA (.inr (.inl l)) v * x v = ∑ k, x (.inl (0, k, l)) - x (.inr l) := by
  rw [Fintype.sum_sum_type, Fintype.sum_prod_type]
  simp only [Fintype.sum_prod_type, lpA, one_mul, neg_mul, sum_neg_distrib]
  rw [sum_eye l fun l' => x (.inr l'), sum_eq_single 0 (fun s' _ hs => by simp [hs]) (by simp)]
  simp only [if_true]
  rw [← sub_eq_add_neg]
  congr 1
  exact sum_congr rfl fun k _ => sum_eye l fun l' => x (.inl (0, k, l'))

theorem lpA_col (x : LpVar N n → K) (s : Fin N) (l : Fin n) : ∑ v, lpA (.inr (.inr (s, l))) v * x v = ∑ k, x (.inl (s.succ, k, l.castSucc)) - x (.inr l.castSucc) := by
  have e : ∀ f : Fin (n + 1) → K, ∑ j : Fin (n + 1), eye (K := K) (l : ℕ) j * f j = f l.castSucc := fun f => by rw [← sum_eye l.castSucc f]; rfl
  rw [Fintype.sum_sum_type, Fintype.sum_prod_type]
  simp only [Fintype.sum_prod_type, lpA, one_mul, neg_mul, sum_neg_distrib]
  rw [e fun l' => x (.inr l'), sum_eq_single s.succ (fun s' _ hs => by simp [Ne.symm hs]) (by simp)]
  simp only [if_true]
  rw [← sub_eq_add_neg]
  congr 1
  exact sum_congr rfl fun k _ => e fun l' => x (.inl (s.succ, k, l'))

theorem lpC_eq (M : Fin (n + 1) → Fin (n + 1) → K) (w : Fin (N + 1) → K) (x : LpVar N n → K) : ∑ v, lpC M w v * x v = ∑ s, w s * cost M fun k l => x (.inl (s, k, l)) := by
  rw [Fintype.sum_sum_type, Fintype.sum_prod_type]
  simp only [Fintype.sum_prod_type, lpC, zero_mul, sum_const_zero, add_zero, cost, mul_sum]
  exact sum_congr rfl fun s _ => sum_congr rfl fun k _ => sum_congr rfl fun l _ => by ring

/-- the feasible points are the families of plans to a common histogram -/
theorem lp_feasible_iff (A : Fin (n + 1) → Fin (N + 1) → K) (hA : ∀ s, ∑ k, A k s = ∑ k, A k 0) (x : LpVar N n → K) :
    ((∀ v, 0 ≤ x v) ∧ ∀ e, ∑ v, lpA e v * x v = lpB A e) ↔ ∀ s, IsCoupling (fun k => A k s) (lpOut x) fun k l => x (.inl (s, k, l)) := by
  constructor
  · rintro ⟨h0, he⟩ s
    have hrow : ∀ s k, ∑ l, x (.inl (s, k, l)) = A k s := fun s k => by rw [← lpA_row]; exact he (.inl (s, k))
    have hcol0 : ∀ l, ∑ k, x (.inl (0, k, l)) = x (.inr l) := fun l => by
      have := he (.inr (.inl l)); rw [lpA_col0] at this; exact sub_eq_zero.1 this
    refine ⟨fun k l => h0 _, fun k => hrow s k, ?_⟩
    refine Fin.cases (motive := fun s => ∀ l, ∑ k, x (.inl (s, k, l)) = lpOut x l) hcol0 (fun s => ?_) s
    have hcol : ∀ l : Fin n, ∑ k, x (.inl (s.succ, k, l.castSucc)) = x (.inr l.castSucc) := fun l => by
      have := he (.inr (.inr (s, l))); rw [lpA_col] at this; exact sub_eq_zero.1 this
    -- the missing column follows from the total mass
    have htot : ∑ l, ∑ k, x (.inl (s.succ, k, l)) = ∑ l, x (.inr l) := by
      rw [sum_comm]
      simp only [hrow, hA s.succ]
      rw [← sum_congr rfl fun l _ => hcol0 l, sum_comm]
      simp only [hrow]
    rw [Fin.sum_univ_castSucc, Fin.sum_univ_castSucc (f := fun l => x (.inr l))] at htot
    simp only [hcol] at htot
    intro l
    refine Fin.lastCases ?_ (fun l => hcol l) l
    exact add_left_cancel htot
  · intro h
    refine ⟨?_, ?_⟩
    · rintro (⟨s, k, l⟩ | l)
      · exact (h s).nonneg k l
      · have := (h 0).col l
        unfold lpOut at this
        rw [← this]
        exact sum_nonneg fun k _ => (h 0).nonneg k l
    · rintro (⟨s, k⟩ | l | ⟨s, l⟩)
      · rw [lpA_row]; exact (h s).row k
      · rw [lpA_col0]; exact sub_eq_zero.2 ((h 0).col l)
      · rw [lpA_col]; exact sub_eq_zero.2 ((h s.succ).col l.castSucc)

end

/-! ### free support -/

section
variable {N k d : ℕ} {n : Fin N → ℕ}

/-- replacing a point by the weighted mean of its images lowers the weighted quadratic cost by the weighted square of the move -/
theorem mean_identity (w : Fin N → K) (hw : ∑ s, w s = 1) (T : ∀ s, Fin k → Fin (n s) → K) (Y : ∀ s, Fin (n s) → Fin d → K) (b : Fin k → K) (hb : ∀ i, b i ≠ 0) (hrow : ∀ s i, ∑ j, T s i j = b i)
    (X X' : Fin k → Fin d → K) (hX' : ∀ i c, X' i c = ∑ s, w s * 1 / b i * ∑ j, T s i j * Y s j c) :
    ∑ s, w s * cost (sqMat X (Y s)) (T s) = ∑ s, w s * cost (sqMat X' (Y s)) (T s) + ∑ i, b i * ∑ c, (X' i c - X i c) ^ 2 := by
  have hmean : ∀ i c, ∑ s, w s * ∑ j, T s i j * (X' i c - Y s j c) = 0 := by
    intro i c
    have h1 : ∀ s, w s * ∑ j, T s i j * (X' i c - Y s j c) = w s * (b i * X' i c) - w s * ∑ j, T s i j * Y s j c := fun s => by
      rw [← hrow s i, ← mul_sub, sum_mul, ← sum_sub_distrib]
      congr 1
      exact sum_congr rfl fun j _ => by ring
    simp only [h1]
    rw [sum_sub_distrib, ← sum_mul, hw, one_mul, hX' i c, mul_sum, sub_eq_zero]
    refine sum_congr rfl fun s _ => ?_
    have := hb i
    field_simp
  have key : ∀ i c, ∑ s, w s * ∑ j, T s i j * (X i c - Y s j c) ^ 2 = ∑ s, w s * ∑ j, T s i j * (X' i c - Y s j c) ^ 2 + b i * (X' i c - X i c) ^ 2 := by
    intro i c
    have h1 : ∀ s, w s * ∑ j, T s i j * (X i c - Y s j c) ^ 2 = w s * ∑ j, T s i j * (X' i c - Y s j c) ^ 2 + 2 * (X i c - X' i c) * (w s * ∑ j, T s i j * (X' i c - Y s j c)) + w s * (b i * (X' i c - X i c) ^ 2) := fun s => by
      rw [← hrow s i, sum_mul]
      simp only [mul_sum, ← sum_add_distrib]
      exact sum_congr rfl fun j _ => by ring
    simp only [h1]
    rw [sum_add_distrib, sum_add_distrib, ← mul_sum, hmean, ← sum_mul, hw]; ring
  have e : ∀ Z : Fin k → Fin d → K, ∑ s, w s * cost (sqMat Z (Y s)) (T s) = ∑ i, ∑ c, ∑ s, w s * ∑ j, T s i j * (Z i c - Y s j c) ^ 2 := by
    intro Z
    have : ∀ s, w s * cost (sqMat Z (Y s)) (T s) = ∑ i, ∑ c, w s * ∑ j, T s i j * (Z i c - Y s j c) ^ 2 := fun s => by
      unfold cost sqMat
      rw [mul_sum]
      refine sum_congr rfl fun i _ => ?_
      rw [← mul_sum]
      congr 1
      rw [sum_comm]
      exact sum_congr rfl fun j _ => mul_sum _ _ _
    simp only [this]
    rw [sum_comm]
    exact sum_congr rfl fun i _ => sum_comm
  rw [e X, e X', ← sum_add_distrib]
  refine sum_congr rfl fun i _ => ?_
  rw [mul_sum, ← sum_add_distrib]
  exact sum_congr rfl fun c _ => key i c

variable (emd : ∀ s : Fin N, (Fin k → K) → (Fin (n s) → K) → (Fin k → Fin (n s) → K) → (Fin k → Fin (n s) → K))
  (Y : ∀ s, Fin (n s) → Fin d → K) (a : ∀ s, Fin (n s) → K) (b : Fin k → K) (w : Fin N → K)
  (hemd : ∀ s X, IsOptimal b (a s) (sqMat X (Y s)) (emd s b (a s) (sqMat X (Y s)))) (hb : ∀ i, 0 < b i) (hw0 : ∀ s, 0 ≤ w s) (hw : ∑ s, w s = 1)

/-- the barycenter energy at given positions, computed with the solver's plans -/
def energy (X : Fin k → Fin d → K) : K := ∑ s, w s * cost (sqMat X (Y s)) (emd s b (a s) (sqMat X (Y s)))

include hemd hb hw0 hw in
theorem energy_step (X : Fin k → Fin d → K) : energy emd Y a b w (fsbStep emd Y a b w X) + ∑ i, b i * ∑ c, (fsbStep emd Y a b w X i c - X i c) ^ 2 ≤ energy emd Y a b w X := by
  unfold energy
  rw [mean_identity w hw (fun s => emd s b (a s) (sqMat X (Y s))) Y b (fun i => (hb i).ne') (fun s i => (hemd s X).1.row i) X (fsbStep emd Y a b w X) (fun i c => rfl)]
  refine add_le_add_left (sum_le_sum fun s _ => mul_le_mul_of_nonneg_left ((hemd s _).2 _ (hemd s X).1) (hw0 s)) _

include hemd hw0 in
theorem energy_nonneg (X : Fin k → Fin d → K) : 0 ≤ energy emd Y a b w X :=
  sum_nonneg fun s _ => mul_nonneg (hw0 s) (sum_nonneg fun i _ => sum_nonneg fun j _ => mul_nonneg ((hemd s X).1.nonneg i j) (sum_nonneg fun c _ => sq_nonneg _))

include hemd hb hw0 hw in
/-- along the loop the energy pays for the displacements -/
theorem fsbLoop_energy {β : K} (hβ : ∀ i, β ≤ b i) (stopThr : K) (m : ℕ) (disp : K) (X : Fin k → Fin d → K) :
    energy emd Y a b w (fsbLoop emd Y a b w stopThr m disp X).1 + β * (fsbLoop emd Y a b w stopThr m disp X).2.sum ≤ energy emd Y a b w X := by
  induction m generalizing disp X with
  | zero => simp [fsbLoop]
  | succ m ih =>
    unfold fsbLoop
    split_ifs with h
    · simp only [List.sum_cons]
      have h1 := ih (displacement X (fsbStep emd Y a b w X)) (fsbStep emd Y a b w X)
      have h2 := energy_step emd Y a b w hemd hb hw0 hw X
      have h3 : β * displacement X (fsbStep emd Y a b w X) ≤ ∑ i, b i * ∑ c, (fsbStep emd Y a b w X i c - X i c) ^ 2 := by
        unfold displacement
        rw [mul_sum]
        exact sum_le_sum fun i _ => mul_le_mul_of_nonneg_right (hβ i) (sum_nonneg fun c _ => sq_nonneg _)
      linarith
    · simp

/-- all recorded displacements but the last exceed the threshold -/
theorem fsbLoop_list (stopThr : K) (m : ℕ) (disp : K) (X : Fin k → Fin d → K) (hd : stopThr < disp) :
    (∀ x ∈ (fsbLoop emd Y a b w stopThr m disp X).2.dropLast, stopThr < x) ∧
    ((fsbLoop emd Y a b w stopThr m disp X).2.length = m ∨ ∃ x, (fsbLoop emd Y a b w stopThr m disp X).2.getLast? = some x ∧ x ≤ stopThr) ∧ (fsbLoop emd Y a b w stopThr m disp X).2.length ≤ m := by
  induction m generalizing disp X with
  | zero => simp [fsbLoop]
  | succ m ih =>
    unfold fsbLoop
    rw [if_pos hd]
    obtain ⟨X', hX'⟩ : ∃ X', X' = fsbStep emd Y a b w X := ⟨_, rfl⟩
    simp only [← hX']
    by_cases h2 : stopThr < displacement X X'
    · obtain ⟨i1, i2, i3⟩ := ih (displacement X X') X' h2
      obtain ⟨L, hL⟩ : ∃ L, L = (fsbLoop emd Y a b w stopThr m (displacement X X') X').2 := ⟨_, rfl⟩
      simp only [← hL] at i1 i2 i3 ⊢
      refine ⟨?_, ?_, by simp; exact i3⟩
      · cases L with
        | nil => simp
        | cons y L =>
          rw [List.dropLast_cons_of_ne_nil (by simp)]
          intro x hx
          rcases List.mem_cons.1 hx with rfl | hx
          · exact h2
          · exact i1 x hx
      · rcases i2 with i2 | ⟨x, hx, hxs⟩
        · left; simp [i2]
        · right
          refine ⟨x, ?_, hxs⟩
          cases L with
          | nil => simp at hx
          | cons y L => rw [List.getLast?_cons_cons]; exact hx
    · have e : fsbLoop emd Y a b w stopThr m (displacement X X') X' = (X', []) := by
        cases m with
        | zero => rfl
        | succ m => unfold fsbLoop; rw [if_neg h2]
      rw [e]
      refine ⟨by simp, Or.inr ⟨_, rfl, not_lt.1 h2⟩, by simp⟩

end

end POT.Bary
