import Verif.Model.Coot
import Verif.Spec.Coot

set_option linter.unusedSectionVars false

/-! # Lemmas for co-optimal transport -/

namespace POT.Coot

open Finset POT.Spec

variable {R : Type*} [Field R] [LinearOrder R] [IsStrictOrderedRing R]
variable {I J A B : Type*} [Fintype I] [Fintype J] [Fintype A] [Fintype B]

/-- expansion of a double sum of squares against a coupling -/
theorem sq_expand {w : A → R} {v : B → R} {Q : A → B → R} (h : IsCoupling w v Q) (x : A → R) (y : B → R) :
    ∑ a, ∑ b, (x a - y b) ^ 2 * Q a b = (∑ a, x a ^ 2 * w a) + (∑ b, y b ^ 2 * v b) - ∑ b, (∑ a, 2 * x a * Q a b) * y b := by
  have e1 : ∑ a, x a ^ 2 * w a = ∑ a, ∑ b, x a ^ 2 * Q a b := by
    refine sum_congr rfl fun a _ => ?_; rw [← h.row a, mul_sum]
  have e2 : ∑ b, y b ^ 2 * v b = ∑ a, ∑ b, y b ^ 2 * Q a b := by
    rw [sum_comm]; refine sum_congr rfl fun b _ => ?_; rw [← h.col b, mul_sum]
  have e3 : ∑ b, (∑ a, 2 * x a * Q a b) * y b = ∑ a, ∑ b, 2 * x a * Q a b * y b := by
    rw [sum_comm]; refine sum_congr rfl fun b _ => ?_; rw [sum_mul]
  rw [e1, e2, e3]
  simp only [← sum_add_distrib, ← sum_sub_distrib]
  refine sum_congr rfl fun a _ => sum_congr rfl fun b _ => ?_
  ring

theorem costSamp_eq (p : Problem R I J A B) {Q : A → B → R} (h : IsCoupling p.wxFeat p.wyFeat Q) (i : I) (j : J) :
    p.costSamp Q i j = ∑ a, ∑ b, (p.X i a - p.Y j b) ^ 2 * Q a b + p.aS * p.mS i j := by
  rw [sq_expand h]; simp only [Problem.costSamp, Problem.xySqr]; ring

theorem costFeat_eq (p : Problem R I J A B) {P : I → J → R} (h : IsCoupling p.wxSamp p.wySamp P) (a : A) (b : B) :
    p.costFeat P a b = ∑ i, ∑ j, (p.X i a - p.Y j b) ^ 2 * P i j + p.aF * p.mF a b := by
  rw [sq_expand h (fun i => p.X i a) (fun j => p.Y j b)]; simp only [Problem.costFeat, Problem.xySqrT]; ring

theorem cost_costSamp (p : Problem R I J A B) {Q : A → B → R} (h : IsCoupling p.wxFeat p.wyFeat Q) (P : I → J → R) :
    cost (p.costSamp Q) P = cootCost p.X p.Y P Q + p.aS * cost p.mS P := by
  simp only [cost, cootCost, costSamp_eq p h, mul_sum, ← sum_add_distrib, mul_add]
  refine sum_congr rfl fun i _ => sum_congr rfl fun j _ => ?_
  congr 1
  · refine sum_congr rfl fun a _ => sum_congr rfl fun b _ => ?_; ring
  · ring

theorem cootCost_swap (X : I → A → R) (Y : J → B → R) (P : I → J → R) (Q : A → B → R) :
    cootCost X Y P Q = ∑ a, ∑ b, ∑ i, ∑ j, (X i a - Y j b) ^ 2 * P i j * Q a b := by
  unfold cootCost
  have h1 : ∀ i, ∑ j, ∑ a, ∑ b, (X i a - Y j b) ^ 2 * P i j * Q a b = ∑ a, ∑ b, ∑ j, (X i a - Y j b) ^ 2 * P i j * Q a b := by
    intro i
    rw [sum_comm]; refine sum_congr rfl fun a _ => ?_; rw [sum_comm]
  simp only [h1]
  rw [sum_comm]; refine sum_congr rfl fun a _ => ?_; rw [sum_comm]

theorem cost_costFeat (p : Problem R I J A B) {P : I → J → R} (h : IsCoupling p.wxSamp p.wySamp P) (Q : A → B → R) :
    cost (p.costFeat P) Q = cootCost p.X p.Y P Q + p.aF * cost p.mF Q := by
  rw [cootCost_swap]
  simp only [cost, costFeat_eq p h, mul_sum, ← sum_add_distrib, mul_add]
  refine sum_congr rfl fun a _ => sum_congr rfl fun b _ => ?_
  congr 1
  · refine sum_congr rfl fun i _ => sum_congr rfl fun j _ => ?_; ring
  · ring

/-- The penalty on the sample plan in the code. -/
def Problem.penS (p : Problem R I J A B) (P : I → J → R) : R := p.aS * cost p.mS P + p.epsSamp * p.klSamp P
/-- The penalty on the feature plan in the code. -/
def Problem.penF (p : Problem R I J A B) (Q : A → B → R) : R := p.aF * cost p.mF Q + p.epsFeat * p.klFeat Q

/-- The objective. -/
def Problem.obj (p : Problem R I J A B) : (I → J → R) → (A → B → R) → R := coOtObjective p.X p.Y p.penS p.penF

theorem value_eq (p : Problem R I J A B) {P : I → J → R} (h : IsCoupling p.wxSamp p.wySamp P) (Q : A → B → R) :
    p.value P Q = p.obj P Q := by
  have h1 : ∑ a, ∑ b, p.costFeat P a b * Q a b = cost (p.costFeat P) Q := by
    unfold cost; exact sum_congr rfl fun a _ => sum_congr rfl fun b _ => mul_comm _ _
  have h2 : ∑ i, ∑ j, p.mS i j * P i j = cost p.mS P := by
    unfold cost; exact sum_congr rfl fun a _ => sum_congr rfl fun b _ => mul_comm _ _
  have e : ∀ (e x y : R), (if e ≠ 0 then y + e * x else y) = y + e * x := by
    intro e x y
    by_cases he : e = 0
    · simp [he]
    · simp [he]
  unfold Problem.value
  simp only [e]
  rw [h1, h2, cost_costFeat p h]
  simp only [Problem.obj, coOtObjective, Problem.penS, Problem.penF]
  ring

/-- What the two inner solvers are assumed to do. -/
structure Problem.Exact (p : Problem R I J A B) : Prop where
  samp : ∀ C, IsPenOptimal p.wxSamp p.wySamp (fun P => p.epsSamp * p.klSamp P) C (p.solveSamp C)
  feat : ∀ C, IsPenOptimal p.wxFeat p.wyFeat (fun P => p.epsFeat * p.klFeat P) C (p.solveFeat C)

theorem samp_step (p : Problem R I J A B) (hp : p.Exact) {Q : A → B → R} (hQ : IsCoupling p.wxFeat p.wyFeat Q)
    {P : I → J → R} (hP : IsCoupling p.wxSamp p.wySamp P) :
    p.obj (p.solveSamp (p.costSamp Q)) Q ≤ p.obj P Q := by
  have := (hp.samp (p.costSamp Q)).2 P hP
  simp only [cost_costSamp p hQ] at this
  simp only [Problem.obj, coOtObjective, Problem.penS]
  linarith

theorem feat_step (p : Problem R I J A B) (hp : p.Exact) {P : I → J → R} (hP : IsCoupling p.wxSamp p.wySamp P)
    {Q : A → B → R} (hQ : IsCoupling p.wxFeat p.wyFeat Q) :
    p.obj P (p.solveFeat (p.costFeat P)) ≤ p.obj P Q := by
  have := (hp.feat (p.costFeat P)).2 Q hQ
  simp only [cost_costFeat p hP] at this
  simp only [Problem.obj, coOtObjective, Problem.penF]
  linarith

theorem step_piS (p : Problem R I J A B) (s) : (p.step s).piS = p.solveSamp (p.costSamp s.piF) := by
  unfold Problem.step; simp only; split_ifs <;> rfl
theorem step_piF (p : Problem R I J A B) (s) : (p.step s).piF = p.solveFeat (p.costFeat (p.step s).piS) := by
  rw [step_piS]; unfold Problem.step; simp only; split_ifs <;> rfl
theorem step_idx (p : Problem R I J A B) (s) : (p.step s).idx = s.idx + 1 := by
  unfold Problem.step; simp only; split_ifs <;> rfl
theorem step_dist (p : Problem R I J A B) (s) : (p.step s).dist =
    if s.idx % p.evalBcd = 0 then p.value (p.step s).piS (p.step s).piF :: s.dist else s.dist := by
  rw [step_piF, step_piS]; unfold Problem.step; simp only; split_ifs <;> rfl

/-- Iterates of the loop without the stopping test. -/
def Problem.iter (p : Problem R I J A B) (s : State R I J A B) : ℕ → State R I J A B
  | 0 => s
  | k + 1 => p.step (p.iter s k)

theorem loop_iter (p : Problem R I J A B) : ∀ (n : ℕ) (s : State R I J A B), ∃ k, k ≤ n ∧ p.loop n s = p.iter s k ∧
    (∀ l, 0 < l → l < k → (p.iter s l).stopped = false) ∧ (k < n → 0 < k ∧ (p.iter s k).stopped = true)
  | 0, s => ⟨0, le_rfl, rfl, by omega, by omega⟩
  | n + 1, s => by
    have e : p.loop (n + 1) s = if (p.step s).stopped then p.step s else p.loop n (p.step s) := rfl
    by_cases h : (p.step s).stopped = true
    · refine ⟨1, by omega, by rw [e, if_pos h]; rfl, by omega, fun _ => ⟨one_pos, h⟩⟩
    · obtain ⟨k, hk, h1, h2, h3⟩ := loop_iter p n (p.step s)
      have hi : ∀ l, p.iter (p.step s) l = p.iter s (l + 1) := by
        intro l
        induction l with
        | zero => rfl
        | succ l ih => simp only [Problem.iter] at ih ⊢; rw [ih]
      refine ⟨k + 1, by omega, by rw [e, if_neg h, h1, hi], ?_, ?_⟩
      · intro l hl hlk
        obtain ⟨m, rfl⟩ : ∃ m, l = m + 1 := ⟨l - 1, by omega⟩
        by_cases hm : m = 0
        · subst hm; simpa [Problem.iter] using h
        · rw [← hi]; exact h2 m (by omega) (by omega)
      · intro hlt
        obtain ⟨_, h4⟩ := h3 (by omega)
        rw [hi] at h4
        exact ⟨by omega, h4⟩

theorem iter_succ' (p : Problem R I J A B) (s : State R I J A B) : ∀ l, p.iter (p.step s) l = p.iter s (l + 1)
  | 0 => rfl
  | l + 1 => by simp only [Problem.iter]; rw [iter_succ' p s l]; rfl

theorem loop_eq (p : Problem R I J A B) : ∀ (n : ℕ) (s : State R I J A B), (∀ l, 0 < l → l < n → (p.iter s l).stopped = false) → p.loop n s = p.iter s n
  | 0, _, _ => rfl
  | n + 1, s, h => by
    have e : p.loop (n + 1) s = if (p.step s).stopped then p.step s else p.loop n (p.step s) := rfl
    rw [e]
    rcases Nat.eq_zero_or_pos n with rfl | hn
    · split_ifs <;> rfl
    · have h1 : (p.step s).stopped = false := h 1 one_pos (by omega)
      rw [h1, if_neg (by simp), loop_eq p n _ fun l hl hln => by rw [iter_succ']; exact h (l + 1) (by omega) (by omega), iter_succ']

theorem loop_nits (p : Problem R I J A B) (m : ℕ) : ∀ (n : ℕ) (s : State R I J A B), Problem.loop { p with nitsBcd := m } n s = p.loop n s
  | 0, _ => rfl
  | n + 1, s => by
    have e : p.loop (n + 1) s = if (p.step s).stopped then p.step s else p.loop n (p.step s) := rfl
    rw [e, ← loop_nits p m n]; rfl

/-- Invariant of the loop. -/
structure Problem.Inv (p : Problem R I J A B) (s0 s : State R I J A B) : Prop where
  coupS : IsCoupling p.wxSamp p.wySamp s.piS
  coupF : IsCoupling p.wxFeat p.wyFeat s.piF
  le : p.obj s.piS s.piF ≤ p.obj s0.piS s0.piF
  dist : ∀ d ∈ s.dist, p.obj s.piS s.piF ≤ d ∧ d ≤ p.obj s0.piS s0.piF
  sorted : s.dist.Pairwise (· ≤ ·)

theorem step_le (p : Problem R I J A B) (hp : p.Exact) (s : State R I J A B)
    (hS : IsCoupling p.wxSamp p.wySamp s.piS) (hF : IsCoupling p.wxFeat p.wyFeat s.piF) :
    p.obj (p.step s).piS (p.step s).piF ≤ p.obj s.piS s.piF := by
  have h1 := samp_step p hp hF hS
  rw [← step_piS] at h1
  have hS' : IsCoupling p.wxSamp p.wySamp (p.step s).piS := by rw [step_piS]; exact (hp.samp _).1
  have h2 := feat_step p hp hS' hF
  rw [← step_piF] at h2
  exact h2.trans h1

theorem step_inv (p : Problem R I J A B) (hp : p.Exact) {s0 s : State R I J A B} (h : p.Inv s0 s) : p.Inv s0 (p.step s) := by
  have hS' : IsCoupling p.wxSamp p.wySamp (p.step s).piS := by rw [step_piS]; exact (hp.samp _).1
  have hF' : IsCoupling p.wxFeat p.wyFeat (p.step s).piF := by rw [step_piF]; exact (hp.feat _).1
  have hle := step_le p hp s h.coupS h.coupF
  refine ⟨hS', hF', hle.trans h.le, ?_, ?_⟩
  · intro d hd
    rw [step_dist] at hd
    have old : d ∈ s.dist → p.obj (p.step s).piS (p.step s).piF ≤ d ∧ d ≤ p.obj s0.piS s0.piF :=
      fun hd => ⟨hle.trans (h.dist d hd).1, (h.dist d hd).2⟩
    split_ifs at hd
    · rcases List.mem_cons.1 hd with rfl | hd
      · rw [value_eq p hS']; exact ⟨le_rfl, hle.trans h.le⟩
      · exact old hd
    · exact old hd
  · rw [step_dist]
    split_ifs
    · refine List.pairwise_cons.2 ⟨fun d hd => ?_, h.sorted⟩
      rw [value_eq p hS']; exact hle.trans (h.dist d hd).1
    · exact h.sorted

theorem iter_inv (p : Problem R I J A B) (hp : p.Exact) {s0 : State R I J A B} (h : p.Inv s0 s0) : ∀ k, p.Inv s0 (p.iter s0 k)
  | 0 => h
  | k + 1 => step_inv p hp (iter_inv p hp h k)

theorem iter_idx (p : Problem R I J A B) (s : State R I J A B) : ∀ k, (p.iter s k).idx = s.idx + k
  | 0 => rfl
  | k + 1 => by rw [Problem.iter, step_idx, iter_idx p s k]; rfl

/-- exact expansion of the cost in `X` -/
theorem cootCost_addX {w : I → R} {v : J → R} {w' : A → R} {v' : B → R} (X H : I → A → R) (Y : J → B → R) {P : I → J → R} {Q : A → B → R}
    (hP : IsCoupling w v P) (hQ : IsCoupling w' v' Q) :
    cootCost (fun i a => X i a + H i a) Y P Q = cootCost X Y P Q +
      ∑ i, ∑ a, (2 * X i a * (w i * w' a) - ∑ b, (∑ j, 2 * P i j * Y j b) * Q a b) * H i a + ∑ i, ∑ a, H i a ^ 2 * (w i * w' a) := by
  have sw : ∀ f : I → J → A → B → R, ∑ i, ∑ j, ∑ a, ∑ b, f i j a b = ∑ i, ∑ a, ∑ j, ∑ b, f i j a b := by
    intro f; refine sum_congr rfl fun i _ => ?_; rw [sum_comm]
  have ww : ∀ i a, w i * w' a = ∑ j, ∑ b, P i j * Q a b := by
    intro i a; rw [← hP.row i, ← hQ.row a, sum_mul_sum]
  unfold cootCost
  rw [sw, sw, ← sum_add_distrib, ← sum_add_distrib]
  refine sum_congr rfl fun i _ => ?_
  rw [← sum_add_distrib, ← sum_add_distrib]
  refine sum_congr rfl fun a _ => ?_
  have e : ∑ b, (∑ j, 2 * P i j * Y j b) * Q a b = ∑ j, ∑ b, 2 * P i j * Y j b * Q a b := by
    rw [sum_comm]; exact sum_congr rfl fun b _ => sum_mul _ _ _
  rw [e, ww]
  simp only [mul_sum, sum_mul, ← sum_add_distrib, ← sum_sub_distrib]
  refine sum_congr rfl fun j _ => sum_congr rfl fun b _ => ?_
  ring

theorem cootCost_symm (X : I → A → R) (Y : J → B → R) (P : I → J → R) (Q : A → B → R) :
    cootCost X Y P Q = cootCost Y X (fun j i => P i j) (fun b a => Q a b) := by
  unfold cootCost
  rw [sum_comm]
  refine sum_congr rfl fun j _ => sum_congr rfl fun i _ => ?_
  rw [sum_comm]
  refine sum_congr rfl fun b _ => sum_congr rfl fun a _ => ?_
  ring

theorem coupling_transpose {w : I → R} {v : J → R} {P : I → J → R} (h : IsCoupling w v P) : IsCoupling v w (fun j i => P i j) :=
  ⟨fun j i => h.nonneg i j, h.col, h.row⟩

end POT.Coot
