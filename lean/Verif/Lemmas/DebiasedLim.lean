import Verif.Lemmas.DebiasedOpt
import Mathlib.Analysis.SpecificLimits.Basic
import Mathlib.Tactic.Positivity

/-! # Limits of the debiased iteration, in the log domain -/

set_option linter.unusedSectionVars false

namespace POT.Debiased

open Finset Spec Sinkhorn EntBary Scaling Filter Topology

variable {I S : Type*} [Fintype I] [Fintype S] [Nonempty I] [Nonempty S]

/-! ### oscillation -/

/-- maximum minus minimum -/
noncomputable def osc (f : I → ℝ) : ℝ := univ.sup' univ_nonempty fun p : I × I => f p.1 - f p.2

theorem le_osc (f : I → ℝ) (i j : I) : f i - f j ≤ osc f := le_sup' (fun p : I × I => f p.1 - f p.2) (mem_univ (i, j))

theorem osc_le {f : I → ℝ} {D : ℝ} (h : ∀ i j, f i - f j ≤ D) : osc f ≤ D := sup'_le _ _ fun p _ => h p.1 p.2

theorem osc_nonneg (f : I → ℝ) : 0 ≤ osc f := by
  have := le_osc f (Classical.arbitrary I) (Classical.arbitrary I)
  linarith

theorem osc_add_le (f g : I → ℝ) : osc (fun i => f i + g i) ≤ osc f + osc g := osc_le fun i j => by
  have := le_osc f i j
  have := le_osc g i j
  linarith

theorem osc_sub_le (f g : I → ℝ) : osc (fun i => f i - g i) ≤ osc f + osc g := osc_le fun i j => by
  have := le_osc f i j
  have := le_osc g j i
  linarith

theorem osc_half (f : I → ℝ) : osc (fun i => f i / 2) ≤ osc f / 2 := osc_le fun i j => by
  have := le_osc f i j
  linarith

theorem osc_bounds (f : I → ℝ) : ∃ lo, ∀ i, lo ≤ f i ∧ f i ≤ lo + osc f := by
  obtain ⟨i, -, hi⟩ := exists_min_image univ f univ_nonempty
  exact ⟨f i, fun j => ⟨hi j (mem_univ _), by linarith [le_osc f j i]⟩⟩

theorem osc_of_bounds {f : I → ℝ} {lo D : ℝ} (h : ∀ i, lo ≤ f i ∧ f i ≤ lo + D) : osc f ≤ D := osc_le fun i j => by linarith [(h i).2, (h j).1]

/-- perturbed contractions converge -/
theorem contract_tendsto {e δ : ℕ → ℝ} {κ : ℝ} (he : ∀ t, 0 ≤ e t) (h0 : 0 ≤ κ) (h1 : κ < 1) (hδ : Tendsto δ atTop (𝓝 0)) (h : ∀ t, e (t + 1) ≤ κ * e t + δ t) : Tendsto e atTop (𝓝 0) := by
  rw [Metric.tendsto_atTop]
  intro ε hε
  obtain ⟨N, hN⟩ := (Metric.tendsto_atTop.1 hδ) (ε / 2 * (1 - κ)) (by nlinarith)
  have key : ∀ k, e (N + k) ≤ κ ^ k * e N + ε / 2 := by
    intro k
    induction k with
    | zero => simp; linarith
    | succ k ih =>
      have h2 := hN (N + k) (by omega)
      rw [Real.dist_eq, sub_zero, abs_lt] at h2
      have h3 := h (N + k)
      have h4 := mul_le_mul_of_nonneg_left ih h0
      rw [← add_assoc]
      rw [pow_succ]
      nlinarith
  have hp : Tendsto (fun k => κ ^ k * e N) atTop (𝓝 0) := by
    have := (tendsto_pow_atTop_nhds_zero_of_lt_one h0 h1).mul_const (e N)
    rwa [zero_mul] at this
  obtain ⟨m, hm⟩ := (Metric.tendsto_atTop.1 hp) (ε / 2) (by linarith)
  refine ⟨N + m, fun n hn => ?_⟩
  obtain ⟨k, rfl⟩ : ∃ k, n = N + k := ⟨n - N, by omega⟩
  have h2 := hm k (by omega)
  rw [Real.dist_eq, sub_zero, abs_lt] at h2
  rw [Real.dist_eq, sub_zero, abs_of_nonneg (he _)]
  linarith [key k]

/-! ### the maps -/

/-- `log (K exp x)` -/
noncomputable def L (K : I → I → ℝ) (x : I → ℝ) : I → ℝ := fun i => Real.log (∑ j, K i j * Real.exp (x j))

/-- `log (Kᵀ (a / K exp y))` -/
noncomputable def V (K : I → I → ℝ) (a : I → ℝ) (y : I → ℝ) : I → ℝ := fun j => Real.log (∑ i, K i j * (a i / ∑ j, K i j * Real.exp (y j)))

/-- update of the debiasing term: `log sqrt(c * bar / K c)` -/
noncomputable def H (K : I → I → ℝ) (β : I → ℝ) (x : I → ℝ) : I → ℝ := fun i => (x i + β i - L K x i) / 2

theorem Kexp_pos {K : I → I → ℝ} (hK : ∀ i j, 0 < K i j) (x : I → ℝ) (i : I) : 0 < ∑ j, K i j * Real.exp (x j) :=
  sum_pos (fun j _ => mul_pos (hK i j) (Real.exp_pos _)) univ_nonempty

theorem exp_L {K : I → I → ℝ} (hK : ∀ i j, 0 < K i j) (x : I → ℝ) (i : I) : Real.exp (L K x i) = ∑ j, K i j * Real.exp (x j) := Real.exp_log (Kexp_pos hK x i)

theorem L_mono {K : I → I → ℝ} (hK : ∀ i j, 0 < K i j) {x y : I → ℝ} {k : ℝ} (h : ∀ i, x i ≤ y i + k) (i : I) : L K x i ≤ L K y i + k := by
  rw [← Real.exp_le_exp, Real.exp_add, exp_L hK, exp_L hK, sum_mul]
  refine sum_le_sum fun j _ => ?_
  rw [mul_assoc, ← Real.exp_add]
  exact mul_le_mul_of_nonneg_left (Real.exp_le_exp.2 (h j)) (hK i j).le

theorem L_bounds {K : I → I → ℝ} (hK : ∀ i j, 0 < K i j) {x y : I → ℝ} {lo hi : ℝ} (h : ∀ i, lo ≤ x i - y i ∧ x i - y i ≤ hi) (i : I) : lo ≤ L K x i - L K y i ∧ L K x i - L K y i ≤ hi := by
  have h1 := L_mono hK (x := x) (y := y) (k := hi) (fun i => by linarith [(h i).2]) i
  have h2 := L_mono hK (x := y) (y := x) (k := -lo) (fun i => by linarith [(h i).1]) i
  constructor <;> linarith

theorem V_arg_pos {K : I → I → ℝ} (hK : ∀ i j, 0 < K i j) {a : I → ℝ} (ha : ∀ i, 0 ≤ a i) (h1 : ∑ i, a i = 1) (y : I → ℝ) (j : I) : 0 < ∑ i, K i j * (a i / ∑ j, K i j * Real.exp (y j)) := by
  obtain ⟨i, -, hi⟩ : ∃ i ∈ univ, a i ≠ 0 := by
    by_contra h
    push Not at h
    rw [sum_eq_zero h] at h1
    exact zero_ne_one h1
  refine sum_pos' (fun i _ => mul_nonneg (hK i j).le (div_nonneg (ha i) (Kexp_pos hK y i).le)) ⟨i, mem_univ _, mul_pos (hK i j) (div_pos (lt_of_le_of_ne (ha i) (Ne.symm hi)) (Kexp_pos hK y i))⟩

theorem exp_V {K : I → I → ℝ} (hK : ∀ i j, 0 < K i j) {a : I → ℝ} (ha : ∀ i, 0 ≤ a i) (h1 : ∑ i, a i = 1) (y : I → ℝ) (j : I) : Real.exp (V K a y j) = ∑ i, K i j * (a i / ∑ j, K i j * Real.exp (y j)) :=
  Real.exp_log (V_arg_pos hK ha h1 y j)

theorem V_mono {K : I → I → ℝ} (hK : ∀ i j, 0 < K i j) {a : I → ℝ} (ha : ∀ i, 0 ≤ a i) (h1 : ∑ i, a i = 1) {x y : I → ℝ} {k : ℝ} (h : ∀ i, L K y i ≤ L K x i + k) (j : I) :
    V K a x j ≤ V K a y j + k := by
  rw [← Real.exp_le_exp, Real.exp_add, exp_V hK ha h1, exp_V hK ha h1, sum_mul]
  refine sum_le_sum fun i _ => ?_
  rw [mul_assoc]
  refine mul_le_mul_of_nonneg_left ?_ (hK i j).le
  rw [← exp_L hK, ← exp_L hK, div_mul_eq_mul_div, div_le_div_iff₀ (Real.exp_pos _) (Real.exp_pos _), mul_assoc, ← Real.exp_add]
  refine mul_le_mul_of_nonneg_left (Real.exp_le_exp.2 ?_) (ha i)
  linarith [h i]

theorem V_bounds {K : I → I → ℝ} (hK : ∀ i j, 0 < K i j) {a : I → ℝ} (ha : ∀ i, 0 ≤ a i) (h1 : ∑ i, a i = 1) {x y : I → ℝ} {lo hi : ℝ} (h : ∀ i, lo ≤ L K x i - L K y i ∧ L K x i - L K y i ≤ hi) (j : I) :
    -hi ≤ V K a x j - V K a y j ∧ V K a x j - V K a y j ≤ -lo := by
  have e1 := V_mono hK ha h1 (x := x) (y := y) (k := -lo) (fun i => by linarith [(h i).1]) j
  have e2 := V_mono hK ha h1 (x := y) (y := x) (k := hi) (fun i => by linarith [(h i).2]) j
  constructor <;> linarith

theorem L_spread {K : I → I → ℝ} (hK : ∀ i j, 0 < K i j) {c : ℝ} (hc : Spread K c) (x : I → ℝ) : osc (L K x) ≤ c := osc_le fun i i' => by
  have : L K x i ≤ c + L K x i' := by
    rw [← Real.exp_le_exp, Real.exp_add, exp_L hK, exp_L hK, mul_sum]
    refine sum_le_sum fun j _ => ?_
    rw [← mul_assoc]
    exact mul_le_mul_of_nonneg_right (hc i j i' j) (Real.exp_pos _).le
  linarith

theorem V_spread {K : I → I → ℝ} (hK : ∀ i j, 0 < K i j) {a : I → ℝ} (ha : ∀ i, 0 ≤ a i) (h1 : ∑ i, a i = 1) {c : ℝ} (hc : Spread K c) (x : I → ℝ) : osc (V K a x) ≤ c := osc_le fun j j' => by
  have : V K a x j ≤ c + V K a x j' := by
    rw [← Real.exp_le_exp, Real.exp_add, exp_V hK ha h1, exp_V hK ha h1, mul_sum]
    refine sum_le_sum fun i _ => ?_
    rw [← mul_assoc]
    exact mul_le_mul_of_nonneg_right (hc i j i j') (div_nonneg (ha i) (Kexp_pos hK x i).le)
  linarith

/-- the kernel contracts the oscillation of a ratio -/
theorem L_contract {K : I → I → ℝ} (hK : ∀ i j, 0 < K i j) {c : ℝ} (hc : Spread K c) {x y : I → ℝ} {D : ℝ} (hD : osc (fun i => x i - y i) ≤ D) :
    osc (fun i => L K x i - L K y i) ≤ (1 - Real.exp (-(2 * c)) * Real.exp (-D)) * osc (fun i => x i - y i) := by
  obtain ⟨ρ, hρ⟩ : ∃ ρ, ρ = osc (fun i => x i - y i) := ⟨_, rfl⟩
  have hρ0 : 0 ≤ ρ := hρ ▸ osc_nonneg _
  obtain ⟨lo, hlo⟩ := osc_bounds (fun i => x i - y i)
  rw [← hρ] at hlo hD ⊢
  obtain ⟨η, hη⟩ : ∃ η, η = Real.exp (-(2 * c)) := ⟨_, rfl⟩
  rw [← hη]
  have hη0 : 0 < η := hη ▸ Real.exp_pos _
  have hc0 := spread_nonneg hK hc
  have hη1 : η ≤ 1 := by rw [hη, ← Real.exp_zero]; exact Real.exp_le_exp.2 (by linarith)
  have hR : 1 ≤ Real.exp ρ := Real.one_le_exp hρ0
  -- the key estimate
  have key : ∀ i i', L K x i - L K y i - (L K x i' - L K y i') ≤ Real.log (η + (1 - η) * Real.exp ρ) := by
    intro i i'
    have hX : ∀ i, ∑ j, K i j * Real.exp (x j) = Real.exp lo * ∑ j, K i j * Real.exp (y j) * Real.exp (x j - y j - lo) := fun i => by
      rw [mul_sum]
      refine sum_congr rfl fun j _ => ?_
      rw [show Real.exp lo * (K i j * Real.exp (y j) * Real.exp (x j - y j - lo)) = K i j * (Real.exp lo * Real.exp (y j) * Real.exp (x j - y j - lo)) by ring, ← Real.exp_add, ← Real.exp_add]
      congr 2; ring
    obtain ⟨r, hr⟩ : ∃ r : I → ℝ, r = fun j => Real.exp (x j - y j - lo) := ⟨_, rfl⟩
    have r1 : ∀ j, 1 ≤ r j := fun j => by rw [hr]; exact Real.one_le_exp (by linarith [(hlo j).1])
    have r2 : ∀ j, r j ≤ Real.exp ρ := fun j => by rw [hr]; exact Real.exp_le_exp.2 (by linarith [(hlo j).2])
    have Y : ∀ i, 0 < ∑ j, K i j * Real.exp (y j) := Kexp_pos hK y
    obtain ⟨Z, hZ⟩ : ∃ Z : I → ℝ, Z = fun i => ∑ j, K i j * Real.exp (y j) * r j := ⟨_, rfl⟩
    have Zge : ∀ i, ∑ j, K i j * Real.exp (y j) ≤ Z i := fun i => by
      rw [hZ]
      exact sum_le_sum fun j _ => le_mul_of_one_le_right (mul_pos (hK i j) (Real.exp_pos _)).le (r1 j)
    have Zpos : ∀ i, 0 < Z i := fun i => (Y i).trans_le (Zge i)
    have hL : ∀ i, L K x i - L K y i = lo + Real.log (Z i / ∑ j, K i j * Real.exp (y j)) := fun i => by
      have e : Z i = ∑ j, K i j * Real.exp (y j) * Real.exp (x j - y j - lo) := by rw [hZ, hr]
      unfold L
      rw [hX, ← e, Real.log_mul (Real.exp_pos _).ne' (Zpos i).ne', Real.log_exp, Real.log_div (Zpos i).ne' (Y i).ne']
      ring
    rw [hL, hL, add_sub_add_left_eq_sub, ← Real.log_div (div_pos (Zpos i) (Y i)).ne' (div_pos (Zpos i') (Y i')).ne']
    refine Real.log_le_log (div_pos (div_pos (Zpos i) (Y i)) (div_pos (Zpos i') (Y i'))) ?_
    rw [div_le_iff₀ (div_pos (Zpos i') (Y i'))]
    -- minorisation
    have hp : ∀ j, η * (K i' j * Real.exp (y j) / ∑ j, K i' j * Real.exp (y j)) ≤ K i j * Real.exp (y j) / ∑ j, K i j * Real.exp (y j) := by
      intro j
      have s1 : ∑ j, K i j * Real.exp (y j) ≤ Real.exp c * ∑ j, K i' j * Real.exp (y j) := by
        rw [mul_sum]
        exact sum_le_sum fun j _ => by rw [← mul_assoc]; exact mul_le_mul_of_nonneg_right (hc i j i' j) (Real.exp_pos _).le
      have s2 := hc i' j i j
      rw [mul_div_assoc', div_le_div_iff₀ (Y i') (Y i)]
      have e : η * (Real.exp c * Real.exp c) = 1 := by
        rw [hη, ← Real.exp_add, ← Real.exp_add, show -(2 * c) + (c + c) = 0 by ring, Real.exp_zero]
      calc η * (K i' j * Real.exp (y j)) * ∑ j, K i j * Real.exp (y j)
          ≤ η * (Real.exp c * K i j * Real.exp (y j)) * (Real.exp c * ∑ j, K i' j * Real.exp (y j)) := by
            refine mul_le_mul (mul_le_mul_of_nonneg_left (mul_le_mul_of_nonneg_right s2 (Real.exp_pos _).le) hη0.le) s1 (Y i).le ?_
            have := hK i j
            positivity
        _ = (η * (Real.exp c * Real.exp c)) * (K i j * Real.exp (y j) * ∑ j, K i' j * Real.exp (y j)) := by ring
        _ = _ := by rw [e, one_mul]
    have sp : ∀ i, ∑ j, K i j * Real.exp (y j) / ∑ j, K i j * Real.exp (y j) = 1 := fun i => by rw [← sum_div, div_self (Y i).ne']
    have hZi : ∀ i, Z i / ∑ j, K i j * Real.exp (y j) = ∑ j, K i j * Real.exp (y j) / (∑ j, K i j * Real.exp (y j)) * r j := fun i => by
      rw [hZ, sum_div]
      exact sum_congr rfl fun j _ => by ring
    have a1 : Z i / ∑ j, K i j * Real.exp (y j) ≤ η * (Z i' / ∑ j, K i' j * Real.exp (y j)) + (1 - η) * Real.exp ρ := by
      have : Z i / (∑ j, K i j * Real.exp (y j)) - η * (Z i' / ∑ j, K i' j * Real.exp (y j)) ≤ (1 - η) * Real.exp ρ := by
        rw [hZi, hZi, mul_sum, ← sum_sub_distrib]
        have e : ∑ j, (K i j * Real.exp (y j) / (∑ j, K i j * Real.exp (y j)) - η * (K i' j * Real.exp (y j) / ∑ j, K i' j * Real.exp (y j))) * Real.exp ρ = (1 - η) * Real.exp ρ := by
          rw [← sum_mul, sum_sub_distrib, ← mul_sum, sp, sp, mul_one]
        rw [← e]
        refine sum_le_sum fun j _ => ?_
        have := mul_le_mul_of_nonneg_left (r2 j) (sub_nonneg.2 (hp j))
        linarith
      linarith
    have a2 : 1 ≤ Z i' / ∑ j, K i' j * Real.exp (y j) := by rw [le_div_iff₀ (Y i'), one_mul]; exact Zge i'
    have : (1 - η) * Real.exp ρ ≤ (1 - η) * Real.exp ρ * (Z i' / ∑ j, K i' j * Real.exp (y j)) :=
      le_mul_of_one_le_right (mul_nonneg (by linarith) (Real.exp_pos _).le) a2
    linarith
  refine (osc_le key).trans ?_
  have e1 : η + (1 - η) * Real.exp ρ = Real.exp ρ * (1 - η * (1 - Real.exp (-ρ))) := by
    rw [Real.exp_neg]; have := (Real.exp_pos ρ).ne'; field_simp; ring
  have hpos : 0 < 1 - η * (1 - Real.exp (-ρ)) := by
    have : 0 < Real.exp (-ρ) := Real.exp_pos _
    nlinarith
  rw [e1, Real.log_mul (Real.exp_pos _).ne' hpos.ne', Real.log_exp]
  have h1 := Real.log_le_sub_one_of_pos hpos
  have h2 : ρ * Real.exp (-ρ) ≤ 1 - Real.exp (-ρ) := by
    have := Real.add_one_le_exp ρ
    have h3 : Real.exp ρ * Real.exp (-ρ) = 1 := by rw [← Real.exp_add, add_neg_cancel, Real.exp_zero]
    nlinarith [Real.exp_pos (-ρ)]
  have h3 : Real.exp (-D) ≤ Real.exp (-ρ) := Real.exp_le_exp.2 (by linarith)
  have h4 : ρ * Real.exp (-D) ≤ ρ * Real.exp (-ρ) := mul_le_mul_of_nonneg_left h3 hρ0
  nlinarith

/-! ### the iteration -/

theorem osc_tendsto {f : ℕ → I → ℝ} {g : I → ℝ} (h : ∀ i, Tendsto (fun t => f t i) atTop (𝓝 (g i))) : Tendsto (fun t => osc fun i => f t i - g i) atTop (𝓝 0) := by
  have h2 : Tendsto (fun t => 2 * ∑ i, |f t i - g i|) atTop (𝓝 0) := by
    have : Tendsto (fun t => ∑ i, |f t i - g i|) atTop (𝓝 (∑ _i : I, (0 : ℝ))) := tendsto_finsetSum _ fun i _ => by
      have := ((h i).sub_const (g i)).abs
      rwa [sub_self, abs_zero] at this
    rw [sum_const_zero] at this
    simpa using this.const_mul 2
  refine squeeze_zero (fun t => osc_nonneg _) (fun t => osc_le fun i j => ?_) h2
  have a1 : |f t i - g i| ≤ ∑ i, |f t i - g i| := single_le_sum (f := fun i => |f t i - g i|) (fun _ _ => abs_nonneg _) (mem_univ i)
  have a2 : |f t j - g j| ≤ ∑ i, |f t i - g i| := single_le_sum (f := fun i => |f t i - g i|) (fun _ _ => abs_nonneg _) (mem_univ j)
  have b1 := le_abs_self (f t i - g i)
  have b2 := neg_abs_le (f t j - g j)
  linarith

theorem osc_H {K : I → I → ℝ} (hK : ∀ i j, 0 < K i j) {c : ℝ} (hc : Spread K c) {β x : I → ℝ} {B : ℝ} (hβ : osc β + c ≤ B) (hx : osc x ≤ B) : osc (H K β x) ≤ B := by
  have h1 : osc (H K β x) ≤ osc (fun i => x i + β i - L K x i) / 2 := osc_half _
  have h2 := osc_sub_le (fun i => x i + β i) (L K x)
  have h3 := osc_add_le x β
  have h4 := L_spread hK hc x
  linarith

theorem osc_H_iter {K : I → I → ℝ} (hK : ∀ i j, 0 < K i j) {c : ℝ} (hc : Spread K c) {β x : I → ℝ} {B : ℝ} (hβ : osc β + c ≤ B) (hx : osc x ≤ B) (n : ℕ) : osc ((H K β)^[n] x) ≤ B := by
  induction n with
  | zero => exact hx
  | succ n ih => rw [Function.iterate_succ_apply']; exact osc_H hK hc hβ ih

/-- one inner step, compared with the fixed point -/
theorem H_contract {K : I → I → ℝ} (hK : ∀ i j, 0 < K i j) {c : ℝ} (hc : Spread K c) {β lb x xs : I → ℝ} (hfix : ∀ i, H K lb xs i = xs i) {D : ℝ} (hD : osc (fun i => x i - xs i) ≤ D) :
    osc (fun i => H K β x i - xs i) ≤ (1 - Real.exp (-(2 * c)) * Real.exp (-D) / 2) * osc (fun i => x i - xs i) + osc (fun i => β i - lb i) / 2 := by
  have e : (fun i => H K β x i - xs i) = fun i => ((x i - xs i) + (β i - lb i) - (L K x i - L K xs i)) / 2 := by
    funext i
    rw [← hfix i]
    have := hfix i
    unfold H at this ⊢
    linarith
  rw [e]
  have h1 := osc_half fun i => (x i - xs i) + (β i - lb i) - (L K x i - L K xs i)
  have h2 := osc_sub_le (fun i => (x i - xs i) + (β i - lb i)) (fun i => L K x i - L K xs i)
  have h3 := osc_add_le (fun i => x i - xs i) (fun i => β i - lb i)
  have h4 := L_contract hK hc hD
  linarith

theorem H_sup {K : I → I → ℝ} (hK : ∀ i j, 0 < K i j) {β lb x xs : I → ℝ} (hfix : ∀ i, H K lb xs i = xs i) (i : I) :
    |H K β x i - xs i| ≤ osc (fun i => x i - xs i) + |β i - lb i| := by
  obtain ⟨lo, hlo⟩ := osc_bounds fun i => x i - xs i
  have h1 := L_bounds hK hlo i
  have h2 := hlo i
  have h3 := abs_le.1 (le_refl |β i - lb i|)
  have e : H K β x i - xs i = ((x i - xs i) + (β i - lb i) - (L K x i - L K xs i)) / 2 := by
    have := hfix i
    unfold H at this ⊢
    linarith
  have h4 := osc_nonneg fun i => x i - xs i
  rw [e, abs_le]
  constructor <;> linarith [h1.1, h1.2, h2.1, h2.2, h3.1, h3.2, abs_nonneg (β i - lb i)]

theorem H_iter_contract {K : I → I → ℝ} (hK : ∀ i j, 0 < K i j) {c : ℝ} (hc : Spread K c) {β lb x xs : I → ℝ} (hfix : ∀ i, H K lb xs i = xs i) {B : ℝ} (hβ : osc β + c ≤ B) (hx : osc x ≤ B) (n : ℕ) :
    osc (fun i => (H K β)^[n] x i - xs i) ≤ (1 - Real.exp (-(2 * c)) * Real.exp (-(B + osc xs)) / 2) ^ n * osc (fun i => x i - xs i) + n * (osc (fun i => β i - lb i) / 2) := by
  have hc0 := spread_nonneg hK hc
  have p1 : 0 < Real.exp (-(2 * c)) * Real.exp (-(B + osc xs)) := by positivity
  have p2 : Real.exp (-(2 * c)) * Real.exp (-(B + osc xs)) ≤ 1 := by
    rw [← Real.exp_add, ← Real.exp_zero]
    have := osc_nonneg xs
    have := osc_nonneg β
    exact Real.exp_le_exp.2 (by linarith)
  have q := osc_nonneg fun i => β i - lb i
  induction n with
  | zero => simp
  | succ n ih =>
    rw [Function.iterate_succ_apply']
    have hD : osc (fun i => (H K β)^[n] x i - xs i) ≤ B + osc xs := by
      have h1 := osc_sub_le ((H K β)^[n] x) xs
      have h2 := osc_H_iter hK hc hβ hx n
      linarith
    have h1 := H_contract (β := β) hK hc hfix hD
    have h2 := mul_le_mul_of_nonneg_left ih (show 0 ≤ 1 - Real.exp (-(2 * c)) * Real.exp (-(B + osc xs)) / 2 by linarith)
    refine h1.trans ?_
    rw [pow_succ]
    push_cast
    have h3 : (1 - Real.exp (-(2 * c)) * Real.exp (-(B + osc xs)) / 2) * (n * (osc (fun i => β i - lb i) / 2)) ≤ n * (osc (fun i => β i - lb i) / 2) :=
      mul_le_of_le_one_left (by positivity) (by linarith)
    nlinarith

/-- **Limits of the iteration are fixed points.** -/
theorem limit_fixed {K : I → I → ℝ} {A : I → S → ℝ} {w : S → ℝ} (h : Ok K A w) (hs : ∀ i j, K i j = K j i) {c : ℝ} (hc : Spread K c) {n : ℕ} (hn : 0 < n) {G : ℕ → I → S → ℝ} {x β : ℕ → I → ℝ}
    (hβ : ∀ t j, β (t + 1) j = x t j + ∑ s, w s * V K (fun i => A i s) (fun i => G t i s) j)
    (hG : ∀ t j s, G (t + 1) j s = β (t + 1) j - V K (fun i => A i s) (fun i => G t i s) j)
    (hx : ∀ t, x (t + 1) = (H K (β (t + 1)))^[n] (x t)) {b : I → ℝ} (hb : ∀ j, 0 < b j) (hlim : ∀ j, Tendsto (fun t => β t j) atTop (𝓝 (Real.log (b j)))) :
    ∑ j, b j = 1 ∧ ∃ (u : I → S → ℝ) (d : I → ℝ), (∀ j s, 0 < u j s) ∧ (∀ j, 0 < d j) ∧ (∀ j s, ukv K A u j s = b j) ∧ (∀ j, d j * ∑ i, K j i * d i = b j) ∧
      (∀ j, ∑ s, w s * Real.log (u j s) = Real.log (d j)) ∧ ∀ j s, Tendsto (fun t => G t j s + V K (fun i => A i s) (fun i => G t i s) j) atTop (𝓝 (Real.log (b j))) := by
  have hK := h.kpos
  have hc0 := spread_nonneg hK hc
  -- the debiasing term
  obtain ⟨d, d1, d2⟩ := exists_sym_pos hK hs hb
  obtain ⟨xs, hxs⟩ : ∃ xs : I → ℝ, xs = fun i => Real.log (d i) := ⟨_, rfl⟩
  obtain ⟨lb, hlb⟩ : ∃ lb : I → ℝ, lb = fun i => Real.log (b i) := ⟨_, rfl⟩
  have hlim' : ∀ j, Tendsto (fun t => β t j) atTop (𝓝 (lb j)) := by rw [hlb]; exact hlim
  have hfix : ∀ i, H K lb xs i = xs i := by
    intro i
    have e : L K xs i = lb i - xs i := by
      rw [hlb, hxs]
      unfold L
      simp only [Real.exp_log (d1 _)]
      have p : 0 < ∑ j, K i j * d j := sum_pos (fun j _ => mul_pos (hK i j) (d1 j)) univ_nonempty
      rw [← d2 i, Real.log_mul (d1 i).ne' p.ne']
      ring
    unfold H
    rw [e]; ring
  have hδ := osc_tendsto hlim'
  obtain ⟨B₀, hB₀⟩ : ∃ B₀, ∀ t, osc (β t) ≤ B₀ := by
    obtain ⟨C, hC⟩ := hδ.bddAbove_range
    refine ⟨C + osc lb, fun t => ?_⟩
    have h1 := osc_add_le (fun i => β t i - lb i) lb
    have h2 : osc (fun i => β t i - lb i) ≤ C := hC ⟨t, rfl⟩
    have h3 : (fun i => β t i - lb i + lb i) = β t := by funext i; ring
    rw [h3] at h1
    linarith
  obtain ⟨B, hB⟩ : ∃ B, B = max (osc (x 0)) (B₀ + c) := ⟨_, rfl⟩
  have hBβ : ∀ t, osc (β t) + c ≤ B := fun t => by
    have := hB₀ t
    have := le_max_right (osc (x 0)) (B₀ + c)
    rw [← hB] at this
    linarith
  have hBx : ∀ t, osc (x t) ≤ B := by
    intro t
    induction t with
    | zero => rw [hB]; exact le_max_left _ _
    | succ t ih => rw [hx]; exact osc_H_iter hK hc (hBβ _) ih n
  obtain ⟨κ, hκ⟩ : ∃ κ, κ = 1 - Real.exp (-(2 * c)) * Real.exp (-(B + osc xs)) / 2 := ⟨_, rfl⟩
  have p1 : 0 < Real.exp (-(2 * c)) * Real.exp (-(B + osc xs)) := by positivity
  have p2 : Real.exp (-(2 * c)) * Real.exp (-(B + osc xs)) ≤ 1 := by
    rw [← Real.exp_add, ← Real.exp_zero]
    have := osc_nonneg xs
    have := osc_nonneg (x 0)
    have := hBx 0
    exact Real.exp_le_exp.2 (by linarith)
  have k0 : 0 ≤ κ := by rw [hκ]; linarith
  have k1 : κ < 1 := by rw [hκ]; linarith
  have hδ1 : Tendsto (fun t => osc fun i => β (t + 1) i - lb i) atTop (𝓝 0) := hδ.comp (tendsto_add_atTop_nat 1)
  have hex : Tendsto (fun t => osc fun i => x t i - xs i) atTop (𝓝 0) := by
    refine contract_tendsto (δ := fun t => n * ((osc fun i => β (t + 1) i - lb i) / 2)) (fun t => osc_nonneg _) (pow_nonneg k0 n) (pow_lt_one₀ k0 k1 hn.ne') ?_ fun t => ?_
    · simpa using (hδ1.div_const 2).const_mul (n : ℝ)
    · rw [hx, hκ]
      exact H_iter_contract hK hc hfix (hBβ _) (hBx t) n
  have hxt1 : ∀ i, Tendsto (fun t => x (t + 1) i) atTop (𝓝 (xs i)) := by
    intro i
    obtain ⟨m, rfl⟩ : ∃ m, n = m + 1 := ⟨n - 1, by omega⟩
    rw [tendsto_iff_dist_tendsto_zero]
    have hb2 : Tendsto (fun t => ((osc fun i => x t i - xs i) + m * ((osc fun i => β (t + 1) i - lb i) / 2)) + |β (t + 1) i - lb i|) atTop (𝓝 0) := by
      have t1 := (hδ1.div_const 2).const_mul (m : ℝ)
      have t2 : Tendsto (fun t => |β (t + 1) i - lb i|) atTop (𝓝 0) := by
        have := ((hlim' i).comp (tendsto_add_atTop_nat 1)).sub_const (lb i)
        rw [sub_self] at this
        simpa using this.abs
      simpa using (hex.add t1).add t2
    refine squeeze_zero (fun t => dist_nonneg) (fun t => ?_) hb2
    rw [Real.dist_eq, hx, Function.iterate_succ_apply']
    refine (H_sup hK hfix i).trans ?_
    have h1 := H_iter_contract hK hc hfix (hBβ (t + 1)) (hBx t) m
    have h2 : (1 - Real.exp (-(2 * c)) * Real.exp (-(B + osc xs)) / 2) ^ m * osc (fun i => x t i - xs i) ≤ osc fun i => x t i - xs i :=
      mul_le_of_le_one_left (osc_nonneg _) (pow_le_one₀ (by rw [← hκ]; exact k0) (by rw [← hκ]; exact k1.le))
    linarith
  -- the scalings
  obtain ⟨m, hm⟩ : ∃ m, m = ∑ j, b j := ⟨_, rfl⟩
  have hm0 : 0 < m := hm ▸ sum_pos (fun j _ => hb j) univ_nonempty
  have hg : ∀ s, ∃ g : I → ℝ, (∀ j, 0 < g j) ∧ ∀ j, g j * ∑ i, K i j * (A i s / ∑ j, K i j * g j) = b j / m := fun s =>
    exists_right hK (fun i => h.anon i s) (fun j => div_pos (hb j) hm0) (by rw [h.mass s, ← sum_div, ← hm, div_self hm0.ne'])
  choose g g1 g2 using hg
  obtain ⟨y, hy⟩ : ∃ y : S → I → ℝ, y = fun s i => Real.log (g s i) := ⟨_, rfl⟩
  have hyV : ∀ s j, y s j + V K (fun i => A i s) (y s) j = lb j - Real.log m := by
    intro s j
    have p := V_arg_pos hK (fun i => h.anon i s) (h.mass s) (y s) j
    have e : ∑ i, K i j * (A i s / ∑ j, K i j * Real.exp (y s j)) = ∑ i, K i j * (A i s / ∑ j, K i j * g s j) := by rw [hy]; simp only [Real.exp_log (g1 s _)]
    unfold V
    rw [e] at p ⊢
    rw [hlb, hy]
    simp only
    rw [← Real.log_mul (g1 s j).ne' p.ne', g2, Real.log_div (hb j).ne' hm0.ne']
  have hE : ∀ s, Tendsto (fun t => osc fun i => G t i s - y s i) atTop (𝓝 0) := by
    intro s
    obtain ⟨C, hC⟩ : ∃ C, C = max (osc fun i => G 0 i s) (B + c) := ⟨_, rfl⟩
    have hGb : ∀ t, osc (fun i => G t i s) ≤ C := by
      intro t
      cases t with
      | zero => rw [hC]; exact le_max_left _ _
      | succ t =>
        have e : (fun i => G (t + 1) i s) = fun i => β (t + 1) i - V K (fun i => A i s) (fun i => G t i s) i := by funext i; rw [hG]
        rw [e]
        have h1 := osc_sub_le (β (t + 1)) (V K (fun i => A i s) (fun i => G t i s))
        have h2 := V_spread hK (fun i => h.anon i s) (h.mass s) hc (fun i => G t i s)
        have h3 := hBβ (t + 1)
        have h4 := le_max_right (osc fun i => G 0 i s) (B + c)
        rw [hC]
        linarith
    have q1 : 0 < Real.exp (-(2 * c)) * Real.exp (-(C + osc (y s))) := by positivity
    have q2 : Real.exp (-(2 * c)) * Real.exp (-(C + osc (y s))) ≤ 1 := by
      rw [← Real.exp_add, ← Real.exp_zero]
      have := osc_nonneg (y s)
      have := osc_nonneg fun i => G 0 i s
      have := hGb 0
      exact Real.exp_le_exp.2 (by linarith)
    refine contract_tendsto (κ := 1 - Real.exp (-(2 * c)) * Real.exp (-(C + osc (y s)))) (fun t => osc_nonneg _) (by linarith) (by linarith) hδ1 fun t => ?_
    have e : (fun i => G (t + 1) i s - y s i) = fun i => (β (t + 1) i - lb i) - ((V K (fun i => A i s) (fun i => G t i s) i - V K (fun i => A i s) (y s) i) - Real.log m) := by
      funext i
      rw [hG]
      have := hyV s i
      linarith
    rw [e]
    have h1 := osc_sub_le (fun i => β (t + 1) i - lb i) (fun i => (V K (fun i => A i s) (fun i => G t i s) i - V K (fun i => A i s) (y s) i) - Real.log m)
    have h2 : osc (fun i => G t i s - y s i) ≤ C + osc (y s) := (osc_sub_le (fun i => G t i s) (y s)).trans (by linarith [hGb t])
    have h3 := L_contract hK hc h2
    obtain ⟨lo, hlo⟩ := osc_bounds fun i => L K (fun i => G t i s) i - L K (y s) i
    have h4 := V_bounds hK (fun i => h.anon i s) (h.mass s) hlo
    have h5 : osc (fun i => (V K (fun i => A i s) (fun i => G t i s) i - V K (fun i => A i s) (y s) i) - Real.log m) ≤ osc fun i => L K (fun i => G t i s) i - L K (y s) i :=
      osc_le fun i j => by linarith [(h4 i).2, (h4 j).1]
    linarith
  have hsum : ∀ t j, ∑ s, w s * G (t + 1) j s = x t j := by
    intro t j
    simp_rw [hG, mul_sub, sum_sub_distrib]
    rw [← sum_mul, h.wsum, one_mul, hβ]
    ring
  -- the scalings multiply to the debiasing term, up to a constant
  have hW : ∀ t, ∀ i j, (x t i - ∑ s, w s * y s i) - (x t j - ∑ s, w s * y s j) ≤ ∑ s, w s * osc fun i => G (t + 1) i s - y s i := by
    intro t i j
    rw [← hsum, ← hsum, ← sum_sub_distrib, ← sum_sub_distrib, ← sum_sub_distrib]
    refine sum_le_sum fun s _ => ?_
    have := mul_le_mul_of_nonneg_left (le_osc (fun i => G (t + 1) i s - y s i) i j) (h.wpos s).le
    linarith
  have hconst : ∀ i j, xs i - ∑ s, w s * y s i ≤ xs j - ∑ s, w s * y s j := by
    intro i j
    have l1 : Tendsto (fun t => (x (t + 1) i - ∑ s, w s * y s i) - (x (t + 1) j - ∑ s, w s * y s j)) atTop (𝓝 ((xs i - ∑ s, w s * y s i) - (xs j - ∑ s, w s * y s j))) :=
      ((hxt1 i).sub_const _).sub ((hxt1 j).sub_const _)
    have l2 : Tendsto (fun t => ∑ s, w s * osc fun i => G (t + 1 + 1) i s - y s i) atTop (𝓝 (∑ s, w s * 0)) :=
      tendsto_finsetSum _ fun s _ => ((hE s).comp (tendsto_add_atTop_nat 2)).const_mul (w s)
    have := le_of_tendsto_of_tendsto' l1 l2 fun t => hW (t + 1) i j
    simp at this
    linarith
  obtain ⟨j0⟩ := ‹Nonempty I›
  obtain ⟨k, hk⟩ : ∃ k, k = xs j0 - ∑ s, w s * y s j0 := ⟨_, rfl⟩
  have hk' : ∀ j, xs j = k + ∑ s, w s * y s j := fun j => by
    have h1 := hconst j j0
    have h2 := hconst j0 j
    linarith
  have hz : ∀ (s : S) (j : I), Tendsto (fun t => V K (fun i => A i s) (fun i => G t i s) j - V K (fun i => A i s) (y s) j + (G t j s - y s j)) atTop (𝓝 0) := by
    intro s j
    have l := hE s
    refine squeeze_zero_norm (fun t => ?_) l
    obtain ⟨lo, hlo⟩ := osc_bounds fun i => G t i s - y s i
    have h1 := L_bounds hK hlo
    have h2 := V_bounds hK (fun i => h.anon i s) (h.mass s) h1 j
    have h3 := hlo j
    rw [Real.norm_eq_abs, abs_le]
    constructor <;> linarith [h2.1, h2.2, h3.1, h3.2]
  -- the mass of the limit
  have hmass : m = 1 := by
    have hstep : ∀ s, Tendsto (fun t => G (t + 1) j0 s - G t j0 s) atTop (𝓝 (Real.log m)) := by
      intro s
      have h1 := ((hlim' j0).comp (tendsto_add_atTop_nat 1)).sub (hz s j0)
      refine (h1.sub_const (lb j0 - Real.log m)).congr' ?_ |>.trans ?_
      · filter_upwards with t
        simp only [Function.comp]
        rw [hG]
        have := hyV s j0
        linarith
      · rw [sub_zero, sub_sub_cancel]
    have l1 : Tendsto (fun t => ∑ s, w s * (G (t + 1 + 1 + 1) j0 s - G (t + 1 + 1) j0 s)) atTop (𝓝 (∑ s, w s * Real.log m)) :=
      tendsto_finsetSum _ fun s _ => ((hstep s).comp (tendsto_add_atTop_nat 2)).const_mul (w s)
    have l2 : Tendsto (fun t => x (t + 1 + 1) j0 - x (t + 1) j0) atTop (𝓝 (xs j0 - xs j0)) := ((hxt1 j0).comp (tendsto_add_atTop_nat 1)).sub (hxt1 j0)
    have e : (fun t => ∑ s, w s * (G (t + 1 + 1 + 1) j0 s - G (t + 1 + 1) j0 s)) = fun t => x (t + 1 + 1) j0 - x (t + 1) j0 := by
      funext t
      simp_rw [mul_sub, sum_sub_distrib]
      rw [hsum, hsum]
    rw [e] at l1
    have := tendsto_nhds_unique l1 l2
    rw [← sum_mul, h.wsum, one_mul, sub_self] at this
    have := Real.exp_log hm0
    rw [‹Real.log m = 0›, Real.exp_zero] at this
    exact this.symm
  refine ⟨hm ▸ hmass, fun j s => g s j * Real.exp k, d, fun j s => mul_pos (g1 s j) (Real.exp_pos _), d1, fun j s => ?_, d2, fun j => ?_, fun j s => ?_⟩
  · rw [ukv_scale h (u := fun j s => g s j) (fun j s => g1 s j) (l := fun _ => Real.exp k) (fun _ => Real.exp_pos _)]
    have := g2 s j
    rw [hmass, div_one] at this
    exact this
  · have := hk' j
    rw [hxs, hy] at this
    simp only at this
    rw [this]
    simp_rw [fun s => Real.log_mul (g1 s j).ne' (Real.exp_pos k).ne', Real.log_exp, mul_add, sum_add_distrib]
    rw [← sum_mul, h.wsum]
    ring
  · have h1 := (hz s j).add_const (lb j)
    rw [zero_add, hlb] at h1
    refine h1.congr fun t => ?_
    have := hyV s j
    rw [hmass, Real.log_one, hlb] at this
    linarith

end POT.Debiased
