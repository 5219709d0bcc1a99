import Verif.Model.Weak
import Verif.Spec.Weak
import Verif.Props.Optim
import Verif.Lemmas.ExactEmd
import Mathlib.Algebra.BigOperators.Field
import Mathlib.Algebra.Order.Field.Rat

set_option linter.unusedSectionVars false

/-! # Properties: weak optimal transport -/

namespace POT.Props

open Finset Spec Optim

variable {R : Type*} [Field R] [LinearOrder R] [IsStrictOrderedRing R]
variable {I J D : Type*} [Fintype I] [Fintype J] [Fintype D]

/-- **C73.** The matrix `df(T)` used by `weak_optimal_transport` is the exact gradient of the weak cost: for every perturbation `H` the cost of `T + H` is the cost of `T`, plus `⟨df(T), H⟩`, plus a non-negative quadratic term. -/
theorem C73_weak_gradient (a : I → R) (ha : ∀ i, 0 < a i) (x : I → D → R) (y : J → D → R) (T H : I → J → R) :
    weakCost a x y (fun i j => T i j + H i j) = weakCost a x y T + ∑ i, ∑ j, Weak.df a x y T i j * H i j + ∑ i, (∑ d, (∑ j, H i j * y j d) ^ 2) / a i := by
  unfold weakCost Weak.df
  rw [← sum_add_distrib, ← sum_add_distrib]
  refine sum_congr rfl fun i _ => ?_
  have hi := (ha i).ne'
  have e1 : ∑ j, (-2 * ∑ d, (x i d - (∑ j, T i j * y j d) / a i) * y j d) * H i j = ∑ d, -2 * (x i d - (∑ j, T i j * y j d) / a i) * ∑ j, H i j * y j d := by
    simp only [mul_sum, sum_mul]
    rw [sum_comm]
    refine sum_congr rfl fun d _ => sum_congr rfl fun j _ => ?_
    ring
  rw [e1, mul_sum, mul_sum, sum_div, ← sum_add_distrib, ← sum_add_distrib]
  refine sum_congr rfl fun d _ => ?_
  have e2 : ∑ j, (T i j + H i j) * y j d = (∑ j, T i j * y j d) + ∑ j, H i j * y j d := by
    rw [← sum_add_distrib]; exact sum_congr rfl fun j _ => add_mul _ _ _
  rw [e2]
  field_simp
  ring

theorem weak_quad_nonneg (a : I → R) (ha : ∀ i, 0 < a i) (y : J → D → R) (H : I → J → R) : 0 ≤ ∑ i, (∑ d, (∑ j, H i j * y j d) ^ 2) / a i :=
  sum_nonneg fun i _ => div_nonneg (sum_nonneg fun _ _ => sq_nonneg _) (ha i).le

/-- **C73**, lower bound: for any coupling `T`, the linear problem that `weak_optimal_transport` solves at `T` bounds from below the cost of every coupling. -/
theorem C73_weak_gap (a : I → R) (b : J → R) (ha : ∀ i, 0 < a i) (x : I → D → R) (y : J → D → R) (T S : I → J → R)
    (hS : IsOptimal a b (Weak.df a x y T) S) (Q : I → J → R) (hQ : IsCoupling a b Q) :
    weakCost a x y T + (cost (Weak.df a x y T) S - cost (Weak.df a x y T) T) ≤ weakCost a x y Q := by
  have h1 := C73_weak_gradient a ha x y T fun i j => Q i j - T i j
  have h2 := weak_quad_nonneg a ha y fun i j => Q i j - T i j
  have h3 := hS.2 Q hQ
  have h4 : ∑ i, ∑ j, Weak.df a x y T i j * (Q i j - T i j) = cost (Weak.df a x y T) Q - cost (Weak.df a x y T) T := by
    unfold cost; simp only [← sum_sub_distrib]
    refine sum_congr rfl fun i _ => sum_congr rfl fun j _ => ?_; ring
  rw [h4] at h1
  have h5 : (fun i j => T i j + (Q i j - T i j)) = Q := by funext i j; ring
  rw [h5] at h1
  linarith

/-- **C73**, optimality: a coupling minimises the weak cost exactly when it solves the linear problem at itself, so the conditional gradient can only stall at global minimisers. -/
theorem C73_weak_optimal_iff (a : I → R) (b : J → R) (ha : ∀ i, 0 < a i) (x : I → D → R) (y : J → D → R) (T : I → J → R) (hT : IsCoupling a b T) :
    (∀ Q, IsCoupling a b Q → weakCost a x y T ≤ weakCost a x y Q) ↔ IsOptimal a b (Weak.df a x y T) T := by
  constructor
  · intro h
    refine ⟨hT, fun Q hQ => ?_⟩
    by_contra hlt
    push Not at hlt
    obtain ⟨g, hg⟩ : ∃ g, g = cost (Weak.df a x y T) T - cost (Weak.df a x y T) Q := ⟨_, rfl⟩
    obtain ⟨q, hq⟩ : ∃ q, q = ∑ i, (∑ d, (∑ j, (Q i j - T i j) * y j d) ^ 2) / a i := ⟨_, rfl⟩
    have hg0 : 0 < g := by rw [hg]; linarith
    have hq0 : 0 ≤ q := by rw [hq]; exact weak_quad_nonneg a ha y fun i j => Q i j - T i j
    obtain ⟨t, ht⟩ : ∃ t, t = g / (g + q + 1) := ⟨_, rfl⟩
    have hden : 0 < g + q + 1 := by linarith
    have ht0 : 0 < t := by rw [ht]; exact div_pos hg0 hden
    have ht1 : t ≤ 1 := by rw [ht, div_le_one hden]; linarith
    have hc := hT.line hQ ht0.le ht1
    have h1 := C73_weak_gradient a ha x y T fun i j => t * (Q i j - T i j)
    have h2 := h _ hc
    have h4 : ∑ i, ∑ j, Weak.df a x y T i j * (t * (Q i j - T i j)) = -(t * g) := by
      rw [hg]; unfold cost; simp only [← sum_sub_distrib, mul_sum, ← sum_neg_distrib]
      refine sum_congr rfl fun i _ => sum_congr rfl fun j _ => ?_; ring
    have h5 : ∑ i, (∑ d, (∑ j, t * (Q i j - T i j) * y j d) ^ 2) / a i = t ^ 2 * q := by
      rw [hq, mul_sum]
      refine sum_congr rfl fun i _ => ?_
      rw [← mul_div_assoc, mul_sum]
      congr 1
      refine sum_congr rfl fun d _ => ?_
      rw [← mul_pow, mul_sum]
      congr 1
      exact sum_congr rfl fun j _ => mul_assoc _ _ _
    rw [h4, h5] at h1
    rw [h1] at h2
    have h6 : t * (g + q + 1) = g := by rw [ht, div_mul_cancel₀ _ hden.ne']
    nlinarith
  · intro h Q hQ
    have := C73_weak_gap a b ha x y T T h Q hQ
    linarith

/-- **C73**, the run: started from a coupling, with an exact linear solver and SciPy's line search, `weak_optimal_transport` ends after at most `numItermax` iterations (at least one) with a coupling whose weak cost is the last recorded loss and at
most the cost of the start; and it can be compared with every coupling through the gap. -/
theorem C73_weak_run (a : I → R) (b : J → R) (x : I → D → R) (y : J → D → R) (G0 : Option (I → J → R)) (lp : (I → J → R) → (I → J → R))
    (hlp : ∀ C, IsOptimal a b C (lp C)) (c1 : R) (hc1 : 0 ≤ c1) (search : (R → R) → R → R → Option (R × R)) (hs : SearchOk c1 search)
    (numItermax : ℕ) (stopThr stopThr2 : R) (h0 : IsCoupling a b (Weak.start a b G0)) :
    ∃ s, Weak.weakOt a b x y G0 lp search numItermax stopThr stopThr2 = some s ∧ IsCoupling a b s.G ∧ s.it ≤ max 1 numItermax ∧
      s.losses.head? = some (weakCost a x y s.G) ∧ s.losses.Pairwise (· ≤ ·) ∧ weakCost a x y s.G ≤ weakCost a x y (Weak.start a b G0) := by
  obtain ⟨P, hP⟩ : ∃ P, P = Weak.problem a x y lp search numItermax stopThr stopThr2 := ⟨_, rfl⟩
  have h := C36_cg_armijo a b 0 (Weak.f a x y) (Weak.df a x y) 1 c1 hc1 lp hlp search hs numItermax stopThr stopThr2 _ h0
  have hobj : ∀ G : I → J → R, Spec.inner 0 G + 1 * Weak.f a x y G = weakCost a x y G := by
    intro G; unfold Spec.inner weakCost Weak.f; simp
  simp only [hobj] at h
  change ∀ k, IsCoupling a b ((Weak.problem a x y lp search numItermax stopThr stopThr2).iter _ k).G ∧ _ at h
  rw [← hP] at h
  have hn : P.numItermax = numItermax := by rw [hP]; rfl
  obtain ⟨j, h1, h2, h3⟩ := P.loop_init (Weak.start a b G0)
  rw [hn] at h2 h3
  have hmono : ∀ m n, m ≤ n → weakCost a x y (P.iter (Weak.start a b G0) n).G ≤ weakCost a x y (P.iter (Weak.start a b G0) m).G := by
    intro m n hmn
    induction n, hmn using Nat.le_induction with
    | base => exact le_rfl
    | succ n _ ih =>
      have hh := (h n).2.2
      rw [hP] at ih ⊢
      exact hh.trans ih
  have hl : (P.iter (Weak.start a b G0) j).losses = (List.range (j + 1)).reverse.map (fun i => weakCost a x y (P.iter (Weak.start a b G0) i).G) := by
    have hh := (h j).2.1
    rw [hP]
    exact hh
  refine ⟨P.iter (Weak.start a b G0) j, ?_, (h j).1, by rw [P.iter_it]; exact h2, ?_, ?_, hmono 0 j (Nat.zero_le _)⟩
  · unfold Weak.weakOt; simp only; rw [← hP]; exact h3
  · rw [hl, List.range_succ]; simp
  · rw [hl, List.pairwise_map, List.pairwise_reverse]
    exact List.pairwise_lt_range.imp fun {m n} hmn => hmono m n hmn.le

/-- **C73**, comparison with ordinary transport: the weak cost of a plan is at most its quadratic transport cost, and it vanishes exactly for martingale plans (each `x_i` is the mean of the points its mass is sent to). -/
theorem C73_weak_le_quadratic (a : I → R) (b : J → R) (ha : ∀ i, 0 < a i) (x : I → D → R) (y : J → D → R) (T : I → J → R) (hT : IsCoupling a b T) :
    weakCost a x y T ≤ cost (sqCost x y) T ∧ (weakCost a x y T = 0 ↔ ∀ i d, ∑ j, T i j * y j d = a i * x i d) := by
  constructor
  · unfold weakCost cost sqCost
    refine sum_le_sum fun i _ => ?_
    have hi := (ha i).ne'
    have e : ∑ j, T i j * ∑ d, (x i d - y j d) ^ 2 = ∑ d, ∑ j, T i j * (x i d - y j d) ^ 2 := by
      simp only [mul_sum]; rw [sum_comm]
    rw [e, mul_sum]
    refine sum_le_sum fun d _ => ?_
    obtain ⟨m, hm⟩ : ∃ m, m = (∑ j, T i j * y j d) / a i := ⟨_, rfl⟩
    have hm' : ∑ j, T i j * y j d = a i * m := by rw [hm]; field_simp
    rw [← hm]
    have e2 : ∑ j, T i j * (x i d - y j d) ^ 2 = a i * (x i d - m) ^ 2 + ∑ j, T i j * (m - y j d) ^ 2 := by
      have e3 : a i * (x i d - m) ^ 2 = (x i d ^ 2 - m ^ 2) * (∑ j, T i j) - 2 * (x i d - m) * ∑ j, T i j * y j d := by
        rw [hT.row, hm']; ring
      rw [e3, mul_sum, mul_sum, ← sum_sub_distrib, ← sum_add_distrib]
      refine sum_congr rfl fun j _ => ?_
      ring
    rw [e2]
    have : 0 ≤ ∑ j, T i j * (m - y j d) ^ 2 := sum_nonneg fun j _ => mul_nonneg (hT.nonneg i j) (sq_nonneg _)
    linarith
  · unfold weakCost
    rw [sum_eq_zero_iff_of_nonneg fun i _ => mul_nonneg (ha i).le (sum_nonneg fun _ _ => sq_nonneg _)]
    constructor
    · intro h i d
      have h1 := (mul_eq_zero.1 (h i (mem_univ i))).resolve_left (ha i).ne'
      have h2 := (sum_eq_zero_iff_of_nonneg fun d _ => sq_nonneg _).1 h1 d (mem_univ d)
      have h3 := pow_eq_zero_iff (two_ne_zero) |>.1 h2
      have hi := (ha i).ne'
      field_simp at h3
      linarith
    · intro h i _
      have hi := (ha i).ne'
      rw [sum_eq_zero, mul_zero]
      intro d _
      rw [h, mul_div_cancel_left₀ _ hi, sub_self]; ring

/-- **C73**, default start: for probability weights the product of the weights is a coupling, so without `G0` the run above applies, and its result is at least as good as sending every point to the mean of the targets. -/
theorem C73_weak_default_start (a : I → R) (b : J → R) (ha : ∀ i, 0 < a i) (hb : ∀ j, 0 ≤ b j) (hsa : ∑ i, a i = 1) (hsb : ∑ j, b j = 1) (x : I → D → R) (y : J → D → R) :
    IsCoupling a b (Weak.start a b none) ∧ weakCost a x y (Weak.start a b none) = ∑ i, a i * ∑ d, (x i d - ∑ j, b j * y j d) ^ 2 := by
  refine ⟨C35_default_start a b (fun i => (ha i).le) hb hsa hsb, ?_⟩
  unfold weakCost Weak.start
  refine sum_congr rfl fun i _ => ?_
  congr 1
  refine sum_congr rfl fun d _ => ?_
  have hi := (ha i).ne'
  simp only [Option.getD_none, mul_assoc, ← mul_sum]
  rw [mul_div_cancel_left₀ _ hi]

/-- C73 applies to a run with the exact solver, from the default start, for two points sent to two points. -/
example (x y : Fin 2 → Fin 1 → ℚ) :
    ∃ s, Weak.weakOt (fun _ : Fin 2 => (1 / 2 : ℚ)) (fun _ : Fin 2 => 1 / 2) x y none (exactEmd (fun _ => 1 / 2) (fun _ => 1 / 2))
        (fun phi phi0 _ => if phi 1 ≤ phi0 then some (1, phi 1) else none) 10 (1 / 100) (1 / 100) = some s ∧
      weakCost (fun _ => 1 / 2) x y s.G ≤ weakCost (fun _ => 1 / 2) x y (Weak.start (fun _ => 1 / 2) (fun _ => 1 / 2) none) := by
  have hst : IsCoupling (fun _ : Fin 2 => (1 / 2 : ℚ)) (fun _ : Fin 2 => 1 / 2) (Weak.start (fun _ => 1 / 2) (fun _ => 1 / 2) none) :=
    C35_default_start _ _ (by intro i; norm_num) (by intro i; norm_num) (by norm_num) (by norm_num)
  obtain ⟨s, h1, _, _, _, _, h6⟩ := C73_weak_run (fun _ : Fin 2 => (1 / 2 : ℚ)) (fun _ : Fin 2 => 1 / 2) x y none (exactEmd (fun _ => 1 / 2) (fun _ => 1 / 2))
    (fun C => exactEmd_optimal _ _ C ⟨_, hst⟩) 0 le_rfl (fun phi phi0 _ => if phi 1 ≤ phi0 then some (1, phi 1) else none) (by
      intro phi phi0 der x y h
      dsimp only at h
      split_ifs at h with hc
      simp only [Option.some.injEq, Prod.mk.injEq] at h
      obtain ⟨rfl, rfl⟩ := h
      exact ⟨rfl, by linarith, le_rfl⟩) 10 (1 / 100) (1 / 100) hst
  exact ⟨s, h1, h6⟩

/-- The comparison is strict in general: one point in the middle of two has weak cost zero and quadratic cost one. -/
example : weakCost (fun _ : Fin 1 => (1 : ℚ)) (fun _ (_ : Fin 1) => 0) (fun j (_ : Fin 1) => (![-1, 1] : Fin 2 → ℚ) j) (fun _ _ => 1 / 2) = 0 ∧
    cost (sqCost (fun (_ : Fin 1) (_ : Fin 1) => (0 : ℚ)) (fun j (_ : Fin 1) => (![-1, 1] : Fin 2 → ℚ) j)) (fun _ _ => 1 / 2) = 1 := by
  constructor
  · norm_num [weakCost, Fin.sum_univ_two]
  · norm_num [cost, sqCost, Fin.sum_univ_two]

end POT.Props
