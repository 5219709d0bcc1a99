import Verif.Model.Smooth
import Verif.Props.Utils
import Mathlib.Algebra.BigOperators.Field
import Mathlib.Analysis.Calculus.Deriv.Basic
import Mathlib.Analysis.Calculus.Deriv.Slope

/-! # Lemmas: conjugates of the regularisations of `ot/smooth.py` -/

set_option linter.unusedSectionVars false

namespace POT.Smooth

open Finset Spec

variable {n m : ℕ}

/-- scalar product -/
def dot {K : Type*} [Fintype K] (x y : K → ℝ) : ℝ := ∑ k, x k * y k

/-- `F` computes the conjugate of `Ω` on `S`: value and maximiser -/
structure Conj (S : (Fin n → ℝ) → Prop) (Ω : (Fin n → ℝ) → ℝ) (F : (Fin n → ℝ) → ℝ × (Fin n → ℝ)) : Prop where
  mem : ∀ x, S (F x).2
  eq : ∀ x, (F x).1 = dot (F x).2 x - Ω (F x).2
  le : ∀ x y, S y → dot y x - Ω y ≤ (F x).1

theorem Conj.sub {S : (Fin n → ℝ) → Prop} {Ω : (Fin n → ℝ) → ℝ} {F : (Fin n → ℝ) → ℝ × (Fin n → ℝ)} (h : Conj S Ω F)
    (x y : Fin n → ℝ) : (F x).1 + dot (F x).2 (fun i => y i - x i) ≤ (F y).1 := by
  have h1 := h.le y _ (h.mem x)
  have h2 := h.eq x
  have h3 : dot (F x).2 (fun i => y i - x i) = dot (F x).2 y - dot (F x).2 x := by
    unfold dot; rw [← sum_sub_distrib]; exact sum_congr rfl fun i _ => by ring
  linarith

/-- a function with a continuous selection of subgradients is differentiable -/
theorem hasDerivAt_of_sub (f g : ℝ → ℝ) (h : ∀ x y, f x + g x * (y - x) ≤ f y) (x : ℝ) (hg : ContinuousAt g x) : HasDerivAt f (g x) x := by
  rw [hasDerivAt_iff_isLittleO, Asymptotics.isLittleO_iff]
  intro c hc
  have := Metric.continuousAt_iff.1 hg c hc
  obtain ⟨δ, hδ, hd⟩ := this
  filter_upwards [Metric.ball_mem_nhds x hδ] with y hy
  have h1 := h x y
  have h2 := h y x
  have h3 : |g y - g x| < c := hd hy
  rw [smul_eq_mul, Real.norm_eq_abs, Real.norm_eq_abs]
  have h4 : |f y - f x - (y - x) * g x| ≤ |(g y - g x) * (y - x)| := by
    have e1 : 0 ≤ f y - f x - (y - x) * g x := by linarith
    rw [abs_of_nonneg e1]
    refine le_trans ?_ (le_abs_self _)
    linarith
  refine h4.trans ?_
  rw [abs_mul]
  exact mul_le_mul_of_nonneg_right h3.le (abs_nonneg _)

/-! ### the conjugates -/

theorem klScalar {γ x y : ℝ} (hγ : 0 < γ) (hy : 0 ≤ y) :
    y * x - γ * (y * Real.log y) ≤ γ * Real.exp (x / γ - 1) ∧
    (γ * Real.exp (x / γ - 1) ≤ y * x - γ * (y * Real.log y) → y = Real.exp (x / γ - 1)) := by
  have key : y * x - γ * (y * Real.log y) = γ * (y * (x / γ - Real.log y)) := by
    field_simp
  rw [key]
  rcases hy.eq_or_lt with h0 | h0
  · subst h0
    simp only [zero_mul, mul_zero]
    have := Real.exp_pos (x / γ - 1)
    refine ⟨by positivity, fun h => ?_⟩
    nlinarith [mul_pos hγ this]
  · have e : Real.exp (x / γ - 1) = y * Real.exp (x / γ - 1 - Real.log y) := by
      rw [Real.exp_sub _ (Real.log y), Real.exp_log h0]; field_simp
    constructor
    · refine mul_le_mul_of_nonneg_left ?_ hγ.le
      rw [e]
      refine mul_le_mul_of_nonneg_left ?_ hy
      linarith [Real.add_one_le_exp (x / γ - 1 - Real.log y)]
    · intro h
      have h1 := le_of_mul_le_mul_left h hγ
      rw [e] at h1
      have h2 := le_of_mul_le_mul_left h1 h0
      by_contra hne
      have h3 : x / γ - 1 - Real.log y ≠ 0 := by
        intro hz
        apply hne
        rw [sub_eq_zero.1 hz, Real.exp_log h0]
      linarith [Real.add_one_lt_exp h3]

theorem conj_kl (o : Oracle n) {γ : ℝ} (hγ : 0 < γ) : Conj (AdmCol .kl) (omega .kl γ) (deltaOmega o .kl γ) where
  mem x := ⟨fun i => (Real.exp_pos _).le, trivial⟩
  eq x := by
    simp only [deltaOmega, omega, dot, Real.log_exp]
    rw [mul_sum, mul_sum, ← sum_sub_distrib]
    refine sum_congr rfl fun i _ => ?_
    field_simp
    ring
  le x y hy := by
    simp only [deltaOmega, omega, dot]
    rw [mul_sum, mul_sum, ← sum_sub_distrib]
    exact sum_le_sum fun i _ => (klScalar hγ (hy.1 i)).1

theorem strict_kl (o : Oracle n) {γ : ℝ} (hγ : 0 < γ) (x y : Fin n → ℝ) (hy : AdmCol .kl y)
    (h : (deltaOmega o .kl γ x).1 ≤ dot y x - omega .kl γ y) : y = (deltaOmega o .kl γ x).2 := by
  simp only [deltaOmega, omega, dot] at h ⊢
  rw [mul_sum, mul_sum, ← sum_sub_distrib] at h
  have hle : ∀ i ∈ (univ : Finset (Fin n)), y i * x i - γ * (y i * Real.log (y i)) ≤ γ * Real.exp (x i / γ - 1) := fun i _ => (klScalar hγ (hy.1 i)).1
  have := (sum_eq_sum_iff_of_le hle).1 (le_antisymm (sum_le_sum hle) h)
  funext i
  exact (klScalar hγ (hy.1 i)).2 (this i (mem_univ i)).ge

theorem sqScalar {γ x y : ℝ} (hγ : 0 < γ) (hy : 0 ≤ y) :
    y * x - γ / 2 * y ^ 2 + γ / 2 * (y - max x 0 / γ) ^ 2 ≤ max x 0 ^ 2 / (2 * γ) := by
  have e : max x 0 ^ 2 / (2 * γ) = y * max x 0 - γ / 2 * y ^ 2 + γ / 2 * (y - max x 0 / γ) ^ 2 := by
    field_simp; ring
  rw [e]
  nlinarith [mul_le_mul_of_nonneg_left (le_max_left x 0) hy]

theorem sqEq {γ x : ℝ} (hγ : 0 < γ) : max x 0 ^ 2 / (2 * γ) = max x 0 / γ * x - γ / 2 * (max x 0 / γ) ^ 2 := by
  have h : max x 0 * x = max x 0 ^ 2 := by
    rcases le_total x 0 with h | h
    · rw [max_eq_right h]; ring
    · rw [max_eq_left h]; ring
  field_simp
  linarith

theorem conj_l2 (o : Oracle n) {γ : ℝ} (hγ : 0 < γ) : Conj (AdmCol .l2) (omega .l2 γ) (deltaOmega o .l2 γ) where
  mem x := ⟨fun i => div_nonneg (le_max_right _ _) hγ.le, trivial⟩
  eq x := by
    simp only [deltaOmega, omega, dot]
    rw [sum_div, mul_sum, ← sum_sub_distrib]
    exact sum_congr rfl fun i _ => sqEq hγ
  le x y hy := by
    simp only [deltaOmega, omega, dot]
    rw [sum_div, mul_sum, ← sum_sub_distrib]
    refine sum_le_sum fun i _ => ?_
    have := sqScalar (x := x i) hγ (hy.1 i)
    nlinarith [mul_nonneg hγ.le (sq_nonneg (y i - max (x i) 0 / γ))]

theorem strict_l2 (o : Oracle n) {γ : ℝ} (hγ : 0 < γ) (x y : Fin n → ℝ) (hy : AdmCol .l2 y)
    (h : (deltaOmega o .l2 γ x).1 ≤ dot y x - omega .l2 γ y) : y = (deltaOmega o .l2 γ x).2 := by
  simp only [deltaOmega, omega, dot] at h ⊢
  rw [sum_div, mul_sum, ← sum_sub_distrib] at h
  have hle : ∀ i ∈ (univ : Finset (Fin n)), y i * x i - γ / 2 * y i ^ 2 ≤ max (x i) 0 ^ 2 / (2 * γ) := fun i _ => by
    have := sqScalar (x := x i) hγ (hy.1 i)
    nlinarith [mul_nonneg hγ.le (sq_nonneg (y i - max (x i) 0 / γ))]
  have := (sum_eq_sum_iff_of_le hle).1 (le_antisymm (sum_le_sum hle) h)
  funext i
  have h1 := this i (mem_univ i)
  have h2 := sqScalar (x := x i) hγ (hy.1 i)
  have h3 : γ / 2 * (y i - max (x i) 0 / γ) ^ 2 ≤ 0 := by linarith
  have h4 : (y i - max (x i) 0 / γ) ^ 2 ≤ 0 := by
    by_contra hc
    push Not at hc
    nlinarith [mul_pos hγ hc]
  have h5 := pow_eq_zero_iff (two_ne_zero) |>.1 (le_antisymm h4 (sq_nonneg _))
  linarith

/-- the sum over the `k` largest entries dominates the sum over any `k` entries -/
theorem sum_top_le (f : Fin n → ℝ) (T S : Finset (Fin n)) (hf : ∀ i, 0 ≤ f i) (hT : ∀ i ∈ T, ∀ j ∉ T, f j ≤ f i) (hc : S.card ≤ T.card) :
    ∑ i ∈ S, f i ≤ ∑ i ∈ T, f i := by
  have h1 : ∑ i ∈ S, f i = ∑ i ∈ S ∩ T, f i + ∑ i ∈ S \ T, f i := (sum_inter_add_sum_sdiff S T f).symm
  have h2 : ∑ i ∈ T, f i = ∑ i ∈ S ∩ T, f i + ∑ i ∈ T \ S, f i := by
    rw [inter_comm]; exact (sum_inter_add_sum_sdiff T S f).symm
  rw [h1, h2]
  refine add_le_add le_rfl ?_
  have hc' : (S \ T).card ≤ (T \ S).card := by
    have e1 := card_sdiff_add_card_inter S T
    have e2 := card_sdiff_add_card_inter T S
    rw [inter_comm] at e2
    omega
  rcases (T \ S).eq_empty_or_nonempty with he | hne
  · rw [he, card_empty] at hc'
    rw [card_eq_zero.1 (Nat.le_zero.1 hc'), he]
  · obtain ⟨t, ht, hmin⟩ := exists_min_image (T \ S) f hne
    calc ∑ i ∈ S \ T, f i ≤ ∑ _i ∈ S \ T, f t := sum_le_sum fun i hi => hT t (mem_sdiff.1 ht).1 i (mem_sdiff.1 hi).2
      _ = (S \ T).card * f t := by rw [sum_const, nsmul_eq_mul]
      _ ≤ (T \ S).card * f t := mul_le_mul_of_nonneg_right (by exact_mod_cast hc') (hf t)
      _ = ∑ _i ∈ T \ S, f t := by rw [sum_const, nsmul_eq_mul]
      _ ≤ ∑ i ∈ T \ S, f i := sum_le_sum fun i hi => hmin i hi

theorem conj_sparse (o : Oracle n) (ho : o.Ok) {γ : ℝ} (hγ : 0 < γ) (k : ℕ) (hk : k < n) :
    Conj (AdmCol (.sparse k)) (omega (.sparse k) γ) (deltaOmega o (.sparse k) γ) where
  mem x := by
    refine ⟨fun i => div_nonneg (le_max_right _ _) hγ.le, ?_⟩
    show nnz _ ≤ k
    unfold nnz
    refine (card_le_card (t := o.part x k) fun i hi => ?_).trans (ho.card x k hk).le
    have := (mem_filter.1 hi).2
    by_contra hc
    simp [deltaOmega, hc] at this
  eq x := by
    simp only [deltaOmega, omega, dot]
    rw [sum_div, mul_sum, ← sum_sub_distrib]
    refine sum_congr rfl fun i _ => ?_
    by_cases h : i ∈ o.part x k
    · simp only [h, if_true]; exact sqEq hγ
    · simp [h]
  le x y hy := by
    have hs : nnz y ≤ k := hy.2
    unfold nnz at hs
    simp only [deltaOmega, omega, dot]
    rw [sum_div, mul_sum, ← sum_sub_distrib]
    have h1 : ∑ i, (y i * x i - γ / 2 * y i ^ 2) ≤ ∑ i ∈ univ.filter fun i => y i ≠ 0, max (x i) 0 ^ 2 / (2 * γ) := by
      rw [sum_filter]
      refine sum_le_sum fun i _ => ?_
      by_cases h : y i = 0
      · simp [h]
      · rw [if_pos h]
        have := sqScalar (x := x i) hγ (hy.1 i)
        nlinarith [mul_nonneg hγ.le (sq_nonneg (y i - max (x i) 0 / γ))]
    have h2 : ∑ i, max (if i ∈ o.part x k then x i else 0) 0 ^ 2 / (2 * γ) = ∑ i ∈ o.part x k, max (x i) 0 ^ 2 / (2 * γ) := by
      rw [← sum_filter_add_sum_filter_not univ (fun i => i ∈ o.part x k)]
      rw [sum_eq_zero (s := univ.filter fun i => ¬ i ∈ o.part x k) (fun i hi => by simp [(mem_filter.1 hi).2]), add_zero]
      rw [filter_mem_eq_inter, univ_inter]
      exact sum_congr rfl fun i hi => by rw [if_pos hi]
    rw [h2]
    refine h1.trans (sum_top_le _ _ _ (fun i => by positivity) (fun i hi j hj => ?_) (by rw [ho.card x k hk]; exact hs))
    have := ho.top x k hk i hi j hj
    have h3 : max (x j) 0 ≤ max (x i) 0 := max_le_max this le_rfl
    exact div_le_div_of_nonneg_right (pow_le_pow_left₀ (le_max_right _ _) h3 2) (by positivity)

/-- the number of non-zeros a regularisation allows is one the code accepts -/
def RegOk (n : ℕ) : RegType → Prop
  | .sparse k => k < n
  | _ => True

theorem conj_delta (o : Oracle n) (ho : o.Ok) {γ : ℝ} (hγ : 0 < γ) (r : RegType) (hr : RegOk n r) :
    Conj (AdmCol r) (omega r γ) (deltaOmega o r γ) := by
  match r, hr with
  | .kl, _ => exact conj_kl o hγ
  | .l2, _ => exact conj_l2 o hγ
  | .sparse k, hr => exact conj_sparse o ho hγ k hr

/-! ### `max_Omega` -/

/-- points of the unit simplex with admissible support -/
def AdmSimplex (r : RegType) (y : Fin n → ℝ) : Prop := AdmCol r y ∧ ∑ i, y i = 1

/-- `Ω(b y) / b` -/
noncomputable def omegaScaled (r : RegType) (γ b : ℝ) (y : Fin n → ℝ) : ℝ := omega r γ (fun i => b * y i) / b

theorem softmax_eq (x : Fin n → ℝ) (γ c : ℝ) (i : Fin n) :
    Real.exp (x i / γ - c) / ∑ k, Real.exp (x k / γ - c) = Real.exp (x i / γ) / ∑ k, Real.exp (x k / γ) := by
  have e : ∀ k, Real.exp (x k / γ - c) = Real.exp (x k / γ) * Real.exp (-c) := fun k => by rw [← Real.exp_add]; ring_nf
  simp only [e]
  rw [← sum_mul, mul_div_mul_right _ _ (Real.exp_pos _).ne']

theorem maxOmega_kl (o : Oracle n) (hn : 0 < n) (x : Fin n → ℝ) (γ b : ℝ) :
    maxOmega o .kl γ x b = (γ * Real.log (∑ i, Real.exp (x i / γ)) - γ * Real.log b, fun i => Real.exp (x i / γ) / ∑ k, Real.exp (x k / γ)) := by
  have : Nonempty (Fin n) := ⟨⟨0, hn⟩⟩
  simp only [maxOmega]
  refine Prod.ext ?_ (funext fun i => softmax_eq x γ _ i)
  show γ * (Real.log (∑ i, Real.exp (x i / γ - maxOf x / γ)) + maxOf x / γ) - γ * Real.log b = _
  have e : ∀ i, Real.exp (x i / γ - maxOf x / γ) = Real.exp (x i / γ) * Real.exp (-(maxOf x / γ)) := fun k => by rw [← Real.exp_add]; ring_nf
  simp only [e]
  rw [← sum_mul, Real.log_mul (sum_pos (fun i _ => Real.exp_pos _) univ_nonempty).ne' (Real.exp_pos _).ne', Real.log_exp]
  ring

/-- Gibbs: `y · x - γ ∑ y log y ≤ γ log ∑ exp (x/γ)` on the simplex -/
theorem gibbs {γ : ℝ} (hγ : 0 < γ) (hn : 0 < n) (x y : Fin n → ℝ) (hy : ∀ i, 0 ≤ y i) (hs : ∑ i, y i = 1) :
    dot y x - γ * ∑ i, y i * Real.log (y i) ≤ γ * Real.log (∑ i, Real.exp (x i / γ)) ∧
    (γ * Real.log (∑ i, Real.exp (x i / γ)) ≤ dot y x - γ * ∑ i, y i * Real.log (y i) → ∀ i, y i = Real.exp (x i / γ) / ∑ k, Real.exp (x k / γ)) := by
  have : Nonempty (Fin n) := ⟨⟨0, hn⟩⟩
  obtain ⟨Z, hZ⟩ : ∃ Z, Z = ∑ i, Real.exp (x i / γ) := ⟨_, rfl⟩
  have hZp : 0 < Z := by rw [hZ]; exact sum_pos (fun i _ => Real.exp_pos _) univ_nonempty
  obtain ⟨x', hx'⟩ : ∃ x' : Fin n → ℝ, x' = fun i => x i + γ - γ * Real.log Z := ⟨_, rfl⟩
  have he : ∀ i, Real.exp (x' i / γ - 1) = Real.exp (x i / γ) / Z := by
    intro i
    have : x' i / γ - 1 = x i / γ - Real.log Z := by rw [hx']; field_simp; ring
    rw [this, Real.exp_sub, Real.exp_log hZp]
  have hsum : ∑ i, γ * Real.exp (x' i / γ - 1) = γ := by
    rw [← mul_sum]; simp only [he]; rw [← sum_div, ← hZ, div_self hZp.ne', mul_one]
  have hdot : ∑ i, (y i * x' i - γ * (y i * Real.log (y i))) = dot y x - γ * ∑ i, y i * Real.log (y i) + (γ - γ * Real.log Z) := by
    rw [sum_sub_distrib, ← mul_sum, hx']
    have : ∑ i, y i * (x i + γ - γ * Real.log Z) = dot y x + (γ - γ * Real.log Z) := by
      unfold dot
      calc ∑ i, y i * (x i + γ - γ * Real.log Z) = ∑ i, (y i * x i + y i * (γ - γ * Real.log Z)) := sum_congr rfl fun i _ => by ring
        _ = _ := by rw [sum_add_distrib, ← sum_mul, hs, one_mul]
    rw [this]; ring
  have hle : ∀ i ∈ (univ : Finset (Fin n)), y i * x' i - γ * (y i * Real.log (y i)) ≤ γ * Real.exp (x' i / γ - 1) := fun i _ => (klScalar hγ (hy i)).1
  have h1 := sum_le_sum hle
  rw [hsum, hdot] at h1
  rw [← hZ]
  refine ⟨by linarith, fun h i => ?_⟩
  have h2 : ∑ i, (y i * x' i - γ * (y i * Real.log (y i))) = ∑ i, γ * Real.exp (x' i / γ - 1) := by
    rw [hsum, hdot]; linarith
  have h3 := (sum_eq_sum_iff_of_le hle).1 h2 i (mem_univ i)
  rw [(klScalar hγ (hy i)).2 h3.ge, he]

theorem omegaScaled_kl {γ b : ℝ} (hb : 0 < b) (y : Fin n → ℝ) (hy : ∀ i, 0 ≤ y i) (hs : ∑ i, y i = 1) :
    omegaScaled .kl γ b y = γ * ∑ i, y i * Real.log (y i) + γ * Real.log b := by
  unfold omegaScaled omega
  have : ∑ i, b * y i * Real.log (b * y i) = b * (∑ i, y i * Real.log (y i) + Real.log b) := by
    have e : ∀ i, b * y i * Real.log (b * y i) = b * (y i * Real.log (y i)) + b * Real.log b * y i := by
      intro i
      rcases (hy i).eq_or_lt with h | h
      · rw [← h]; simp
      · rw [Real.log_mul hb.ne' h.ne']; ring
    rw [sum_congr rfl fun i _ => e i, sum_add_distrib, ← mul_sum, ← mul_sum, hs]; ring
  show γ * (∑ i, b * y i * Real.log (b * y i)) / b = _
  rw [this]
  field_simp

theorem omegaScaled_sq {γ b : ℝ} (hb : 0 < b) (r : RegType) (hr : r ≠ .kl) (y : Fin n → ℝ) :
    omegaScaled r γ b y = 1 / 2 * γ * b * ∑ i, y i * y i := by
  have : omega r γ (fun i => b * y i) = γ / 2 * ∑ i, (b * y i) ^ 2 := by
    cases r with
    | kl => exact absurd rfl hr
    | l2 => rfl
    | sparse k => rfl
  unfold omegaScaled
  rw [this]
  have e : ∑ i, (b * y i) ^ 2 = b ^ 2 * ∑ i, y i * y i := by rw [mul_sum]; exact sum_congr rfl fun i _ => by ring
  rw [e]; field_simp

theorem conjMax_kl (o : Oracle n) (hn : 0 < n) {γ b : ℝ} (hγ : 0 < γ) (hb : 0 < b) :
    Conj (AdmSimplex .kl) (omegaScaled .kl γ b) (fun x => maxOmega o .kl γ x b) := by
  have : Nonempty (Fin n) := ⟨⟨0, hn⟩⟩
  have hZ : ∀ x : Fin n → ℝ, 0 < ∑ i, Real.exp (x i / γ) := fun x => sum_pos (fun i _ => Real.exp_pos _) univ_nonempty
  have hmem : ∀ x : Fin n → ℝ, (∀ i, 0 ≤ (maxOmega o .kl γ x b).2 i) ∧ ∑ i, (maxOmega o .kl γ x b).2 i = 1 := by
    intro x
    rw [maxOmega_kl o hn]
    refine ⟨fun i => div_nonneg (Real.exp_pos _).le (hZ x).le, ?_⟩
    show ∑ i, Real.exp (x i / γ) / ∑ k, Real.exp (x k / γ) = 1
    rw [← sum_div, div_self (hZ x).ne']
  refine ⟨fun x => ⟨⟨(hmem x).1, trivial⟩, (hmem x).2⟩, fun x => ?_, fun x y hy => ?_⟩
  · rw [omegaScaled_kl hb _ (hmem x).1 (hmem x).2, maxOmega_kl o hn]
    show γ * Real.log (∑ i, Real.exp (x i / γ)) - γ * Real.log b = dot (fun i => Real.exp (x i / γ) / ∑ k, Real.exp (x k / γ)) x -
      (γ * ∑ i, Real.exp (x i / γ) / (∑ k, Real.exp (x k / γ)) * Real.log (Real.exp (x i / γ) / ∑ k, Real.exp (x k / γ)) + γ * Real.log b)
    obtain ⟨Z, hz⟩ : ∃ Z, Z = ∑ i, Real.exp (x i / γ) := ⟨_, rfl⟩
    have hzp := hZ x
    rw [← hz] at hzp ⊢
    have e : ∀ i, Real.log (Real.exp (x i / γ) / Z) = x i / γ - Real.log Z := fun i => by
      rw [Real.log_div (Real.exp_pos _).ne' hzp.ne', Real.log_exp]
    simp only [e]
    have e2 : γ * ∑ i, Real.exp (x i / γ) / Z * (x i / γ - Real.log Z) = dot (fun i => Real.exp (x i / γ) / Z) x - γ * Real.log Z := by
      have : ∑ i, Real.exp (x i / γ) / Z = 1 := by rw [← sum_div, ← hz, div_self hzp.ne']
      unfold dot
      calc γ * ∑ i, Real.exp (x i / γ) / Z * (x i / γ - Real.log Z)
          = ∑ i, (Real.exp (x i / γ) / Z * x i - (γ * Real.log Z) * (Real.exp (x i / γ) / Z)) := by
            rw [mul_sum]; exact sum_congr rfl fun i _ => by field_simp
        _ = _ := by rw [sum_sub_distrib, ← mul_sum, this, mul_one]
    rw [e2]; ring
  · rw [omegaScaled_kl hb _ hy.1.1 hy.2]
    show _ ≤ (maxOmega o .kl γ x b).1
    rw [maxOmega_kl o hn]
    have := (gibbs hγ hn x y hy.1.1 hy.2).1
    show _ ≤ γ * Real.log (∑ i, Real.exp (x i / γ)) - γ * Real.log b
    linarith

theorem sq_complete {γ b : ℝ} (hγ : 0 < γ) (hb : 0 < b) (x y : Fin n → ℝ) :
    dot y x - 1 / 2 * γ * b * ∑ i, y i * y i = γ * b / 2 * (∑ i, (x i / (b * γ)) ^ 2 - sqDist y (fun i => x i / (b * γ))) := by
  unfold dot sqDist
  rw [← sum_sub_distrib, mul_sum, mul_sum, ← sum_sub_distrib]
  refine sum_congr rfl fun i _ => ?_
  field_simp
  ring

theorem projectionSimplex_spec (hn : 0 < n) (v : Fin n → ℝ) (z : ℝ) (hz : 0 < z) :
    InSimplex z (projectionSimplex v z) ∧ ∀ y, InSimplex z y →
      sqDist (projectionSimplex v z) v + ∑ i, (y i - projectionSimplex v z i) ^ 2 ≤ sqDist y v := by
  have h := Props.C19_proj_simplex hn v z hz
  have e : projectionSimplex v z = Utils.projSimplex v z := rfl
  rw [e]
  refine ⟨h.1, fun y hy => ?_⟩
  exact Utils.threshold_nearest univ v (Utils.projSimplex v z) y (Utils.theta (Utils.sortDesc (List.ofFn v)) z) (fun i _ => rfl)
    (fun i _ => hy.nonneg i) (by rw [hy.sum, h.1.sum])

theorem conjMax_of_proj (o : Oracle n) {γ b : ℝ} (hγ : 0 < γ) (hb : 0 < b) (r : RegType) (hr : r ≠ .kl) (G : (Fin n → ℝ) → Fin n → ℝ)
    (hG : ∀ x, maxOmega o r γ x b = (∑ i, x i * G x i - 1 / 2 * γ * b * ∑ i, G x i * G x i, G x))
    (hm : ∀ x, AdmSimplex r (G x)) (hd : ∀ x y, AdmSimplex r y → sqDist (G x) (fun i => x i / (b * γ)) ≤ sqDist y (fun i => x i / (b * γ))) :
    Conj (AdmSimplex r) (omegaScaled r γ b) (fun x => maxOmega o r γ x b) := by
  have hc : ∀ x : Fin n → ℝ, ∑ i, x i * G x i = dot (G x) x := fun x => sum_congr rfl fun i _ => mul_comm _ _
  refine ⟨fun x => by rw [hG]; exact hm x, fun x => ?_, fun x y hy => ?_⟩
  · simp only [hG, hc]; rw [omegaScaled_sq hb r hr]
  · simp only [hG, hc]
    rw [omegaScaled_sq hb r hr, sq_complete hγ hb, sq_complete hγ hb]
    refine mul_le_mul_of_nonneg_left ?_ (by positivity)
    linarith [hd x y hy]

/-- the numbers of non-zeros `projection_sparse_simplex` accepts -/
def RegOk' (n : ℕ) : RegType → Prop
  | .sparse k => 1 ≤ k ∧ k ≤ n
  | _ => True

theorem conjMax (o : Oracle n) (ho : o.Ok) (hn : 0 < n) {γ b : ℝ} (hγ : 0 < γ) (hb : 0 < b) (r : RegType) (hr : RegOk' n r) :
    Conj (AdmSimplex r) (omegaScaled r γ b) (fun x => maxOmega o r γ x b) := by
  match r, hr with
  | .kl, _ => exact conjMax_kl o hn hγ hb
  | .l2, _ =>
    refine conjMax_of_proj o hγ hb .l2 (by simp) (fun x => projectionSimplex (fun i => x i / (b * γ)) 1) (fun x => rfl) (fun x => ?_) (fun x y hy => ?_)
    · have := (projectionSimplex_spec hn (fun i => x i / (b * γ)) 1 one_pos).1
      exact ⟨⟨this.nonneg, trivial⟩, this.sum⟩
    · have := (projectionSimplex_spec hn (fun i => x i / (b * γ)) 1 one_pos).2 y ⟨hy.1.1, hy.2⟩
      have h2 : 0 ≤ ∑ i, (y i - projectionSimplex (fun i => x i / (b * γ)) 1 i) ^ 2 := sum_nonneg fun i _ => sq_nonneg _
      linarith
  | .sparse k, hr =>
    have key := fun x : Fin n → ℝ => Props.C20_sparse_projection_partial (o.sort fun i => x i / (b * γ)) (fun i => x i / (b * γ)) (ho.sorted _) k hr.1 hr.2 1 one_pos
    choose w hw h1 h2 h3 using key
    refine conjMax_of_proj o hγ hb (.sparse k) (by simp) w (fun x => ?_) (fun x => ⟨⟨(h1 x).nonneg, h2 x⟩, (h1 x).sum⟩) (fun x y hy => ?_)
    · simp only [maxOmega, hw, Option.getD_some]
    · exact h3 x y ⟨hy.1.1, hy.2⟩ hy.1.2

theorem strictMax_kl (o : Oracle n) (hn : 0 < n) {γ b : ℝ} (hγ : 0 < γ) (hb : 0 < b) (x y : Fin n → ℝ) (hy : AdmSimplex .kl y)
    (h : (maxOmega o .kl γ x b).1 ≤ dot y x - omegaScaled .kl γ b y) : y = (maxOmega o .kl γ x b).2 := by
  rw [omegaScaled_kl hb _ hy.1.1 hy.2, maxOmega_kl o hn] at h
  rw [maxOmega_kl o hn]
  funext i
  refine (gibbs hγ hn x y hy.1.1 hy.2).2 ?_ i
  change γ * Real.log (∑ i, Real.exp (x i / γ)) - γ * Real.log b ≤ _ at h
  linarith

/-- strong concavity of the squared regularisation on the simplex -/
theorem strongMax_l2 (o : Oracle n) (hn : 0 < n) {γ b : ℝ} (hγ : 0 < γ) (hb : 0 < b) (x y : Fin n → ℝ) (hy : AdmSimplex .l2 y) :
    dot y x - omegaScaled .l2 γ b y + γ * b / 2 * ∑ i, (y i - (maxOmega o .l2 γ x b).2 i) ^ 2 ≤ (maxOmega o .l2 γ x b).1 := by
  have hp := (projectionSimplex_spec hn (fun i => x i / (b * γ)) 1 one_pos)
  have := hp.2 y ⟨hy.1.1, hy.2⟩
  have e : (maxOmega o .l2 γ x b).1 = γ * b / 2 * (∑ i, (x i / (b * γ)) ^ 2 - sqDist (projectionSimplex (fun i => x i / (b * γ)) 1) (fun i => x i / (b * γ))) := by
    rw [← sq_complete hγ hb]
    simp only [maxOmega, dot]
    congr 1
    exact sum_congr rfl fun i _ => mul_comm _ _
  rw [e, omegaScaled_sq hb _ (by simp), sq_complete hγ hb]
  have e2 : (maxOmega o .l2 γ x b).2 = projectionSimplex (fun i => x i / (b * γ)) 1 := rfl
  rw [e2, ← mul_add]
  refine mul_le_mul_of_nonneg_left ?_ (by positivity)
  linarith

theorem strictMax_l2 (o : Oracle n) (hn : 0 < n) {γ b : ℝ} (hγ : 0 < γ) (hb : 0 < b) (x y : Fin n → ℝ) (hy : AdmSimplex .l2 y)
    (h : (maxOmega o .l2 γ x b).1 ≤ dot y x - omegaScaled .l2 γ b y) : y = (maxOmega o .l2 γ x b).2 := by
  have h1 := strongMax_l2 o hn hγ hb x y hy
  have h2 : γ * b / 2 * ∑ i, (y i - (maxOmega o .l2 γ x b).2 i) ^ 2 ≤ 0 := by linarith
  have h3 : ∑ i, (y i - (maxOmega o .l2 γ x b).2 i) ^ 2 ≤ 0 := by
    by_contra hc
    push Not at hc
    nlinarith [mul_pos (mul_pos hγ hb) hc]
  have h4 := (sum_eq_zero_iff_of_nonneg (fun i _ => sq_nonneg _)).1 (le_antisymm h3 (sum_nonneg fun i _ => sq_nonneg _))
  funext i
  have := pow_eq_zero_iff (two_ne_zero) |>.1 (h4 i (mem_univ i))
  linarith

theorem proj_lipschitz (o : Oracle n) (hn : 0 < n) {γ b : ℝ} (hγ : 0 < γ) (hb : 0 < b) (x x' : Fin n → ℝ) :
    ∑ i, ((maxOmega o .l2 γ x b).2 i - (maxOmega o .l2 γ x' b).2 i) ^ 2 ≤ (∑ i, (x i - x' i) ^ 2) / (γ * b) ^ 2 := by
  obtain ⟨G, hG⟩ : ∃ G, G = (maxOmega o .l2 γ x b).2 := ⟨_, rfl⟩
  obtain ⟨G', hG'⟩ : ∃ G', G' = (maxOmega o .l2 γ x' b).2 := ⟨_, rfl⟩
  have hm : ∀ z : Fin n → ℝ, AdmSimplex .l2 (maxOmega o .l2 γ z b).2 := fun z => by
    have := (projectionSimplex_spec hn (fun i => z i / (b * γ)) 1 one_pos).1
    exact ⟨⟨this.nonneg, trivial⟩, this.sum⟩
  have he : ∀ z : Fin n → ℝ, (maxOmega o .l2 γ z b).1 = dot (maxOmega o .l2 γ z b).2 z - omegaScaled .l2 γ b (maxOmega o .l2 γ z b).2 := fun z => by
    rw [omegaScaled_sq hb _ (by simp)]
    simp only [maxOmega, dot]
    congr 1
    exact sum_congr rfl fun i _ => mul_comm _ _
  have h1 := strongMax_l2 o hn hγ hb x _ (hm x')
  have h2 := strongMax_l2 o hn hγ hb x' _ (hm x)
  rw [he] at h1 h2
  rw [← hG, ← hG'] at h1 h2 ⊢
  obtain ⟨c, hc⟩ : ∃ c, c = γ * b := ⟨_, rfl⟩
  have hcp : 0 < c := by rw [hc]; positivity
  rw [← hc] at h1 h2 ⊢
  have e : ∑ i, (G' i - G i) ^ 2 = ∑ i, (G i - G' i) ^ 2 := sum_congr rfl fun i _ => by ring
  rw [e] at h1
  have h3 : c * ∑ i, (G i - G' i) ^ 2 ≤ ∑ i, (G i - G' i) * (x i - x' i) := by
    have : ∑ i, (G i - G' i) * (x i - x' i) = dot G x - dot G' x - (dot G x' - dot G' x') := by
      unfold dot
      rw [← sum_sub_distrib, ← sum_sub_distrib, ← sum_sub_distrib]
      exact sum_congr rfl fun i _ => by ring
    rw [this]
    linarith
  have h4 : ∑ i, (G i - G' i) * (x i - x' i) ≤ c / 2 * ∑ i, (G i - G' i) ^ 2 + 1 / (2 * c) * ∑ i, (x i - x' i) ^ 2 := by
    rw [mul_sum, mul_sum, ← sum_add_distrib]
    refine sum_le_sum fun i _ => ?_
    have : 0 ≤ c / 2 * ((G i - G' i) - (x i - x' i) / c) ^ 2 := by positivity
    have e2 : c / 2 * ((G i - G' i) - (x i - x' i) / c) ^ 2 = c / 2 * (G i - G' i) ^ 2 + 1 / (2 * c) * (x i - x' i) ^ 2 - (G i - G' i) * (x i - x' i) := by
      field_simp; ring
    linarith
  rw [le_div_iff₀ (by positivity)]
  have h5 : c / 2 * ∑ i, (G i - G' i) ^ 2 ≤ 1 / (2 * c) * ∑ i, (x i - x' i) ^ 2 := by linarith
  have h6 : 1 / (2 * c) * ∑ i, (x i - x' i) ^ 2 = (∑ i, (x i - x' i) ^ 2) / (2 * c) := by ring
  rw [h6, le_div_iff₀ (by positivity)] at h5
  nlinarith

theorem maxOmega_cont (o : Oracle n) (hn : 0 < n) (r : RegType) (hr : ∀ k, r ≠ .sparse k) {γ b : ℝ} (hγ : 0 < γ) (hb : 0 < b) (f : ℝ → Fin n → ℝ)
    (hf : ∀ i, Continuous fun t => f t i) (i : Fin n) : Continuous fun t => (maxOmega o r γ (f t) b).2 i := by
  have hne : Nonempty (Fin n) := ⟨⟨0, hn⟩⟩
  match r, hr with
  | .kl, _ =>
    simp only [maxOmega_kl o hn]
    refine Continuous.div (Real.continuous_exp.comp ((hf i).div_const γ)) (continuous_finsetSum _ fun k _ => Real.continuous_exp.comp ((hf k).div_const γ)) ?_
    intro t
    exact (sum_pos (fun i _ => Real.exp_pos _) univ_nonempty).ne'
  | .l2, _ =>
    rw [continuous_iff_continuousAt]
    intro s
    show Filter.Tendsto _ _ _
    rw [tendsto_iff_dist_tendsto_zero]
    have hb1 : ∀ t, dist ((maxOmega o .l2 γ (f t) b).2 i) ((maxOmega o .l2 γ (f s) b).2 i) ≤ Real.sqrt ((∑ k, (f t k - f s k) ^ 2) / (γ * b) ^ 2) := by
      intro t
      rw [Real.dist_eq]
      refine Real.abs_le_sqrt ?_
      exact (single_le_sum (f := fun k => ((maxOmega o .l2 γ (f t) b).2 k - (maxOmega o .l2 γ (f s) b).2 k) ^ 2) (fun k _ => sq_nonneg _) (mem_univ i)).trans
        (proj_lipschitz o hn hγ hb (f t) (f s))
    refine squeeze_zero (fun t => dist_nonneg) hb1 ?_
    have hc : Continuous fun t => Real.sqrt ((∑ k, (f t k - f s k) ^ 2) / (γ * b) ^ 2) :=
      Real.continuous_sqrt.comp ((continuous_finsetSum _ fun k _ => ((hf k).sub continuous_const).pow 2).div_const _)
    have := hc.tendsto s
    simpa using this
  | .sparse k, hr => exact absurd rfl (hr k)

end POT.Smooth
