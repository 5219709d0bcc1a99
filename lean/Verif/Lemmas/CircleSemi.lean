import Verif.Spec.CircleSemi
import Verif.Lemmas.Circle
import Mathlib.MeasureTheory.Function.Floor
import Mathlib.Analysis.SpecialFunctions.Integrals.Basic

/-! # Semi-discrete transport on the circle -/

set_option linter.unusedSectionVars false

namespace POT.Circle

open Finset Spec MeasureTheory

/-! ### periodic extension of a finite family -/

section
variable {n : ℕ}

/-- index of the atom number `l` of the unrolled circle -/
def ix (l : ℤ) : Fin (n + 1) := ⟨(l % ((n + 1 : ℕ) : ℤ)).toNat, by
  have h1 := Int.emod_nonneg l (b := ((n + 1 : ℕ) : ℤ)) (by omega)
  have h2 := Int.emod_lt_of_pos l (b := ((n + 1 : ℕ) : ℤ)) (by omega)
  omega⟩

/-- turn of the atom number `l` of the unrolled circle -/
def qt (n : ℕ) (l : ℤ) : ℤ := l / ((n + 1 : ℕ) : ℤ)

theorem ix_qt_of (r : Fin (n + 1)) (k : ℤ) : ix (n := n) (((n + 1 : ℕ) : ℤ) * k + (r : ℕ)) = r ∧ qt n (((n + 1 : ℕ) : ℤ) * k + (r : ℕ)) = k := by
  have hr := r.2
  constructor
  · apply Fin.ext
    unfold ix
    simp only
    rw [Int.mul_add_emod_self_left, Int.emod_eq_of_lt (by omega) (by omega)]
    simp
  · unfold qt
    rw [Int.mul_add_ediv_left _ _ (by omega), Int.ediv_eq_zero_of_lt (by omega) (by omega)]; simp

theorem ix_qt_eq (l : ℤ) : l = ((n + 1 : ℕ) : ℤ) * qt n l + ((ix (n := n) l : Fin (n + 1)) : ℕ) := by
  have h1 := Int.emod_nonneg l (b := ((n + 1 : ℕ) : ℤ)) (by omega)
  have h2 := Int.mul_ediv_add_emod l ((n + 1 : ℕ) : ℤ)
  unfold qt ix
  simp only
  rw [Int.toNat_of_nonneg h1]
  exact h2.symm

theorem ix_succ (l : ℤ) : (∃ h : ((ix (n := n) l : Fin (n + 1)) : ℕ) + 1 < n + 1, ix (n := n) (l + 1) = ⟨ix (n := n) l + 1, h⟩ ∧ qt n (l + 1) = qt n l) ∨
    (((ix (n := n) l : Fin (n + 1)) : ℕ) = n ∧ ix (n := n) (l + 1) = 0 ∧ qt n (l + 1) = qt n l + 1) := by
  have hl := ix_qt_eq (n := n) l
  obtain ⟨r, hr⟩ : ∃ r : Fin (n + 1), r = ix l := ⟨_, rfl⟩
  obtain ⟨k, hk⟩ : ∃ k, k = qt n l := ⟨_, rfl⟩
  rw [← hr, ← hk] at hl ⊢
  by_cases h : (r : ℕ) + 1 < n + 1
  · refine Or.inl ⟨h, ?_⟩
    have := ix_qt_of ⟨(r : ℕ) + 1, h⟩ k
    have e : l + 1 = ((n + 1 : ℕ) : ℤ) * k + ((⟨(r : ℕ) + 1, h⟩ : Fin (n + 1)) : ℕ) := by rw [hl]; push_cast; ring
    rw [e]; exact this
  · have hrn : (r : ℕ) = n := by have := r.2; omega
    refine Or.inr ⟨hrn, ?_⟩
    have := ix_qt_of (0 : Fin (n + 1)) (k + 1)
    have e : l + 1 = ((n + 1 : ℕ) : ℤ) * (k + 1) + ((0 : Fin (n + 1)) : ℕ) := by
      rw [hl, hrn]; simp only [Fin.val_zero]; push_cast; ring
    rw [e]; exact this

end

theorem chain_min {K : Type*} [LinearOrder K] (h : ℤ → K) (i : ℤ) (hup : ∀ l ≥ i, h l ≤ h (l + 1)) (hdown : ∀ l < i, h (l + 1) ≤ h l) (l : ℤ) : h i ≤ h l := by
  rcases le_total i l with hl | hl
  · exact Int.le_induction (motive := fun l _ => h i ≤ h l) le_rfl (fun l hl ih => ih.trans (hup l hl)) l hl
  · refine Int.le_induction_down (motive := fun l _ => h i ≤ h l) le_rfl (fun l hl ih => ih.trans ?_) l hl
    have := hdown (l - 1) (by omega)
    rwa [sub_add_cancel] at this

/-- power diagram of a sequence of points: cell `i` is where atom `i` minimises `(X - y)² - Φ` -/
theorem power_cell {X B Φ : ℤ → ℝ} (hX : Monotone X) (hB : Monotone B) (hΦ : ∀ l, Φ (l + 1) - Φ l = (X (l + 1) - B l) ^ 2 - (X l - B l) ^ 2) {y : ℝ} {i : ℤ}
    (h1 : B (i - 1) ≤ y) (h2 : y ≤ B i) (l : ℤ) : (X i - y) ^ 2 - Φ i ≤ (X l - y) ^ 2 - Φ l := by
  have hstep : ∀ l, ((X (l + 1) - y) ^ 2 - Φ (l + 1)) - ((X l - y) ^ 2 - Φ l) = 2 * (B l - y) * (X (l + 1) - X l) := fun l => by
    have := hΦ l
    linear_combination -this
  refine chain_min (fun l => (X l - y) ^ 2 - Φ l) i (fun l hl => ?_) (fun l hl => ?_) l
  · have h3 : 0 ≤ X (l + 1) - X l := sub_nonneg.2 (hX (by omega))
    have h4 : 0 ≤ B l - y := sub_nonneg.2 (h2.trans (hB hl))
    have := mul_nonneg (mul_nonneg zero_le_two h4) h3
    linarith [hstep l]
  · have h3 : 0 ≤ X (l + 1) - X l := sub_nonneg.2 (hX (by omega))
    have h4 : 0 ≤ y - B l := sub_nonneg.2 ((hB (by omega : l ≤ i - 1)).trans h1)
    have := mul_nonneg (mul_nonneg zero_le_two h4) h3
    linarith [hstep l]

section
variable {n : ℕ} (x w : Fin (n + 1) → ℝ)

/-- cumulative weights -/
noncomputable def cum (k : ℕ) : ℝ := ∑ l ∈ range k, ext 0 w l

/-- optimal shift -/
noncomputable def shift : ℝ := ∑ i, w i * x i - 1 / 2

/-- the potential of the atoms -/
noncomputable def pot (k : ℕ) : ℝ :=
  ∑ l ∈ range k, ((ext (x 0 + 1) x (l + 1) - (cum w (l + 1) + shift x w)) ^ 2 - (ext (x 0 + 1) x l - (cum w (l + 1) + shift x w)) ^ 2)

theorem cum_succ (i : Fin (n + 1)) : cum w (i + 1) = cum w i + w i := by
  unfold cum; rw [sum_range_succ, ext_val]

theorem cum_zero : cum w 0 = 0 := sum_range_zero _

variable (hw : ∀ i, 0 ≤ w i) (hw1 : ∑ i, w i = 1)

include hw1 in
theorem cum_last : cum w (n + 1) = 1 := by unfold cum; rw [sum_ext, hw1]

include hw in
theorem cum_mono : Monotone (cum w) := by
  refine monotone_nat_of_le_succ fun k => ?_
  unfold cum
  rw [sum_range_succ]
  have : 0 ≤ ext 0 w k := by unfold ext; split_ifs with h; exacts [hw _, le_rfl]
  linarith

include hw1 in
/-- the potential closes up around the circle exactly at the optimal shift -/
theorem pot_closed : pot x w (n + 1) = 0 := by
  have h1 : ∀ N : ℕ, ∀ (X V : ℕ → ℝ) (θ : ℝ), V 0 = 0 → ∑ l ∈ range N, ((X (l + 1) - (V (l + 1) + θ)) ^ 2 - (X l - (V (l + 1) + θ)) ^ 2) =
      X N ^ 2 - X 0 ^ 2 - 2 * θ * (X N - X 0) - 2 * (V N * X N - ∑ l ∈ range N, (V (l + 1) - V l) * X l) := by
    intro N X V θ h0
    induction N with
    | zero => simp [h0]
    | succ N ih => rw [sum_range_succ, ih, sum_range_succ]; ring
  unfold pot
  rw [h1 (n + 1) _ _ _ (cum_zero w), cum_last w hw1]
  have e0 : ext (x 0 + 1) x 0 = x 0 := ext_val (x 0 + 1) x 0
  have eN : ext (x 0 + 1) x (n + 1) = x 0 + 1 := by simp [ext]
  have es : ∑ l ∈ range (n + 1), (cum w (l + 1) - cum w l) * ext (x 0 + 1) x l = ∑ i, w i * x i := by
    rw [sum_range]
    exact sum_congr rfl fun i _ => by rw [cum_succ, ext_val]; ring
  rw [e0, eN, es]
  unfold shift
  ring

/-- unrolled atoms -/
noncomputable def unX (l : ℤ) : ℝ := x (ix l) + qt n l
/-- unrolled cell ends -/
noncomputable def unB (l : ℤ) : ℝ := cum w ((ix (n := n) l : Fin (n + 1)) + 1) + shift x w + qt n l
/-- unrolled potential -/
noncomputable def unP (l : ℤ) : ℝ := pot x w (ix (n := n) l : Fin (n + 1))

variable (hx : Monotone x) (hx0 : ∀ i, 0 ≤ x i) (hx1 : ∀ i, x i < 1)

include hx hx0 hx1 in
theorem unX_mono : Monotone (unX x) := by
  refine monotone_int_of_le_succ fun l => ?_
  unfold unX
  rcases ix_succ (n := n) l with ⟨h, h1, h2⟩ | ⟨h, h1, h2⟩
  · rw [h1, h2]
    have := hx (show ix l ≤ (⟨_, h⟩ : Fin (n + 1)) by rw [Fin.le_def]; simp)
    linarith
  · rw [h1, h2]
    push_cast
    linarith [hx0 0, hx1 (ix l)]

include hw hw1 in
theorem unB_mono : Monotone (unB x w) := by
  refine monotone_int_of_le_succ fun l => ?_
  unfold unB
  rcases ix_succ (n := n) l with ⟨h, h1, h2⟩ | ⟨h, h1, h2⟩
  · rw [h1, h2]
    have := cum_mono w hw (show ((ix (n := n) l : Fin (n + 1)) : ℕ) + 1 ≤ ((ix (n := n) l : Fin (n + 1)) : ℕ) + 1 + 1 by omega)
    simp only
    linarith
  · rw [h1, h2, h]
    push_cast
    rw [cum_last w hw1]
    have := cum_mono w hw (show 0 ≤ 0 + 1 by omega)
    rw [cum_zero] at this
    simp only [Fin.val_zero]
    linarith

include hw1 in
theorem unP_step (l : ℤ) : unP x w (l + 1) - unP x w l = (unX x (l + 1) - unB x w l) ^ 2 - (unX x l - unB x w l) ^ 2 := by
  unfold unP unX unB
  have hs : pot x w (((ix (n := n) l : Fin (n + 1)) : ℕ) + 1) - pot x w (ix (n := n) l : Fin (n + 1)) =
      (ext (x 0 + 1) x (((ix (n := n) l : Fin (n + 1)) : ℕ) + 1) - (cum w (((ix (n := n) l : Fin (n + 1)) : ℕ) + 1) + shift x w)) ^ 2 -
        (x (ix l) - (cum w (((ix (n := n) l : Fin (n + 1)) : ℕ) + 1) + shift x w)) ^ 2 := by
    unfold pot
    rw [sum_range_succ, ext_val]; ring
  rcases ix_succ (n := n) l with ⟨h, h1, h2⟩ | ⟨h, h1, h2⟩
  · rw [h1, h2]
    have e : ext (x 0 + 1) x (((ix (n := n) l : Fin (n + 1)) : ℕ) + 1) = x ⟨_, h⟩ := ext_val (x 0 + 1) x ⟨_, h⟩
    rw [e] at hs
    simp only
    rw [hs]; ring
  · rw [h1, h2]
    have e : ext (x 0 + 1) x (((ix (n := n) l : Fin (n + 1)) : ℕ) + 1) = x 0 + 1 := by rw [h]; simp [ext]
    rw [e, show pot x w (((ix (n := n) l : Fin (n + 1)) : ℕ) + 1) = 0 by rw [h]; exact pot_closed x w hw1] at hs
    have e0 : pot x w ((0 : Fin (n + 1)) : ℕ) = 0 := by simp [pot]
    rw [e0, hs]; push_cast; ring

include hx hx0 hx1 hw hw1 in
/-- on cell `i` the pair of potentials is tight at `i` and feasible elsewhere, for the circular distance -/
theorem cell_le (i j : Fin (n + 1)) {y : ℝ} (h1 : cum w i + shift x w ≤ y) (h2 : y ≤ cum w (i + 1) + shift x w) :
    (x i - y) ^ 2 - pot x w i ≤ circDist (x j) y ^ 2 - pot x w j := by
  obtain ⟨k, hk⟩ := circDist_att (x j) y
  obtain ⟨ii, iq⟩ := ix_qt_of i 0
  obtain ⟨ji, jq⟩ := ix_qt_of j (-k)
  obtain ⟨li, hli⟩ : ∃ li, li = ((n + 1 : ℕ) : ℤ) * 0 + ((i : ℕ) : ℤ) := ⟨_, rfl⟩
  rw [← hli] at ii iq
  have hB1 : unB x w (li - 1) ≤ y := by
    unfold unB
    rcases ix_succ (n := n) (li - 1) with ⟨h, h3, h4⟩ | ⟨h, h3, h4⟩
    · rw [sub_add_cancel, ii] at h3
      rw [sub_add_cancel, iq] at h4
      rw [← h4]
      have : (i : ℕ) = ((ix (n := n) (li - 1) : Fin (n + 1)) : ℕ) + 1 := by rw [h3]
      rw [← this]; push_cast; linarith
    · rw [sub_add_cancel, ii] at h3
      rw [sub_add_cancel, iq] at h4
      rw [h, cum_last w hw1, show qt n (li - 1) = -1 by omega]
      rw [h3, Fin.val_zero, cum_zero] at h1
      push_cast; linarith
  have hB2 : y ≤ unB x w li := by
    unfold unB
    rw [ii, iq]; push_cast; linarith
  have := power_cell (unX_mono x hx hx0 hx1) (unB_mono x w hw hw1) (unP_step x w hw1) hB1 hB2 (((n + 1 : ℕ) : ℤ) * (-k) + ((j : ℕ) : ℤ))
  unfold unX unP at this
  rw [ii, iq, ji, jq] at this
  rw [hk, sq_abs]
  push_cast at this
  rw [add_zero] at this
  calc _ ≤ _ := this
    _ = _ := by ring

end

/-! ### integrals -/

theorem circDist_add_one_right (x y : ℝ) : circDist x (y + 1) = circDist x y := by
  rw [← circDist_fract x (y + 1), Int.fract_add_one, circDist_fract]

theorem circDist_le_one (x y : ℝ) : circDist x y ≤ 1 := by
  unfold circDist
  exact (min_le_left _ _).trans (Int.fract_lt_one _).le

theorem measurable_circDist (x : ℝ) : Measurable fun y => circDist x y := by
  unfold circDist
  have h : Measurable fun y : ℝ => Int.fract (x - y) := measurable_fract.comp (measurable_const.sub measurable_id)
  exact h.min (measurable_const.sub h)

theorem integrable_cost (x : ℝ) {p : ℝ → ℝ} {a b : ℝ} (hp : IntervalIntegrable p volume a b) : IntervalIntegrable (fun y => circDist x y ^ 2 * p y) volume a b := by
  refine hp.mono_fun (((measurable_circDist x).pow_const 2).aestronglyMeasurable.mul hp.def'.aestronglyMeasurable) (Filter.Eventually.of_forall fun y => ?_)
  simp only [norm_mul, Real.norm_eq_abs]
  refine mul_le_of_le_one_left (abs_nonneg _) ?_
  rw [abs_of_nonneg (sq_nonneg _)]
  exact pow_le_one₀ (circDist_nonneg _ _) (circDist_le_one _ _)

theorem integrable_fsum {I : Type*} [Fintype I] {f : I → ℝ → ℝ} {a b : ℝ} (h : ∀ i, IntervalIntegrable (f i) volume a b) :
    IntervalIntegrable (fun y => ∑ i, f i y) volume a b := by
  have := IntervalIntegrable.sum univ fun i _ => h i
  rwa [show (∑ i, f i) = fun y => ∑ i, f i y by ext y; simp] at this

section
variable {n : ℕ} (x w : Fin (n + 1) → ℝ)

/-- value of the monotone assignment at the optimal shift -/
noncomputable def monoValue : ℝ := ∑ i : Fin (n + 1), ∫ y in (cum w i + shift x w)..(cum w (i + 1) + shift x w), (x i - y) ^ 2

theorem monoValue_eq (hw1 : ∑ i, w i = 1) :
    monoValue x w = ∑ i, w i * x i ^ 2 - (∑ i, w i * x i) ^ 2 + ∑ i, x i * w i * (1 - w i - 2 * cum w i) + 1 / 12 := by
  have hint : ∀ (a b c : ℝ), ∫ y in a..b, (c - y) ^ 2 = ((b - c) ^ 3 - (a - c) ^ 3) / 3 := by
    intro a b c
    have e : ∀ y : ℝ, (c - y) ^ 2 = (y - c) ^ 2 := fun y => by ring
    simp only [e]
    rw [intervalIntegral.integral_comp_sub_right (fun y => y ^ 2) c, integral_pow]; norm_num
  unfold monoValue
  simp only [hint]
  obtain ⟨θ, hθ⟩ : ∃ θ, θ = shift x w := ⟨_, rfl⟩
  rw [← hθ]
  have h1 : ∀ i : Fin (n + 1), ((cum w (i + 1) + θ - x i) ^ 3 - (cum w i + θ - x i) ^ 3) / 3 =
      w i * x i ^ 2 + x i * w i * (1 - w i - 2 * cum w i) - (1 + 2 * θ) * (w i * x i) + ((cum w (i + 1) + θ) ^ 3 - (cum w i + θ) ^ 3) / 3 := by
    intro i
    rw [cum_succ]; ring
  simp only [h1, sum_add_distrib, sum_sub_distrib, ← mul_sum]
  have h2 : ∑ i : Fin (n + 1), ((cum w (i + 1) + θ) ^ 3 - (cum w i + θ) ^ 3) / 3 = ((1 + θ) ^ 3 - θ ^ 3) / 3 := by
    rw [← sum_range fun i => ((cum w (i + 1) + θ) ^ 3 - (cum w i + θ) ^ 3) / 3, ← sum_div, sum_range_sub fun i => (cum w i + θ) ^ 3, cum_last w hw1, cum_zero, zero_add]
  rw [h2, hθ]
  unfold shift
  ring

variable (hw : ∀ i, 0 ≤ w i) (hw1 : ∑ i, w i = 1) (hx : Monotone x) (hx0 : ∀ i, 0 ≤ x i) (hx1 : ∀ i, x i < 1)
include hw hw1

theorem sum_cells {f : ℝ → ℝ} (hf : ∀ a b, IntervalIntegrable f volume a b) :
    ∑ i : Fin (n + 1), ∫ y in (cum w i + shift x w)..(cum w (i + 1) + shift x w), f y = ∫ y in (shift x w)..(shift x w + 1), f y := by
  rw [← sum_range fun i => ∫ y in (cum w i + shift x w)..(cum w (i + 1) + shift x w), f y]
  rw [intervalIntegral.sum_integral_adjacent_intervals (a := fun k => cum w k + shift x w) (fun k _ => hf _ _), cum_zero, cum_last w hw1, zero_add, add_comm 1]

include hx hx0 hx1 in
theorem semi_lower {p : Fin (n + 1) → ℝ → ℝ} (hp : IsSemiPlan w p) : monoValue x w ≤ semiCost x p := by
  obtain ⟨θ, hθ⟩ : ∃ θ, θ = shift x w := ⟨_, rfl⟩
  have hpi : ∀ j a b, IntervalIntegrable (p j) volume a b := fun j a b =>
    (hp.periodic j).intervalIntegrable one_ne_zero (t := 0) (by simpa using hp.integrable j) a b
  have hci : ∀ j a b, IntervalIntegrable (fun y => circDist (x j) y ^ 2 * p j y) volume a b := fun j a b => integrable_cost _ (hpi j a b)
  -- move to the period that starts at the shift
  have h1 : semiCost x p = ∑ i : Fin (n + 1), ∫ y in (cum w i + θ)..(cum w (i + 1) + θ), ∑ j, circDist (x j) y ^ 2 * p j y := by
    have hper : ∀ j, Function.Periodic (fun y => circDist (x j) y ^ 2 * p j y) 1 := fun j y => by
      simp only
      rw [circDist_add_one_right, hp.periodic j y]
    rw [hθ, sum_cells x w hw hw1 (f := fun y => ∑ j, circDist (x j) y ^ 2 * p j y) (fun a b => integrable_fsum fun j => hci j a b), intervalIntegral.integral_finsetSum fun j _ => hci j _ _]
    unfold semiCost
    refine sum_congr rfl fun j _ => ?_
    have := (hper j).intervalIntegral_add_eq 0 (shift x w)
    rwa [zero_add] at this
  have hmass : ∀ j, ∑ i : Fin (n + 1), ∫ y in (cum w i + θ)..(cum w (i + 1) + θ), p j y = w j := by
    intro j
    rw [hθ, sum_cells x w hw hw1 (hpi j), ← hp.mass j]
    have := (hp.periodic j).intervalIntegral_add_eq (shift x w) 0
    rwa [zero_add] at this
  have h2 : ∀ i : Fin (n + 1), (∫ y in (cum w i + θ)..(cum w (i + 1) + θ), (x i - y) ^ 2) - pot x w i * w i + ∑ j : Fin (n + 1), pot x w j * ∫ y in (cum w i + θ)..(cum w (i + 1) + θ), p j y ≤
      ∫ y in (cum w i + θ)..(cum w (i + 1) + θ), ∑ j, circDist (x j) y ^ 2 * p j y := by
    intro i
    have hle : cum w i + θ ≤ cum w (i + 1) + θ := by
      have := cum_mono w hw (show (i : ℕ) ≤ i + 1 by omega); linarith
    have hq : IntervalIntegrable (fun y => (x i - y) ^ 2) volume (cum w i + θ) (cum w (i + 1) + θ) := by
      apply Continuous.intervalIntegrable; fun_prop
    have hsp : IntervalIntegrable (fun y => ∑ j : Fin (n + 1), pot x w j * p j y) volume (cum w i + θ) (cum w (i + 1) + θ) :=
      integrable_fsum fun j => (hpi j _ _).const_mul _
    have e : (∫ y in (cum w i + θ)..(cum w (i + 1) + θ), (x i - y) ^ 2) - pot x w i * w i + ∑ j : Fin (n + 1), pot x w j * ∫ y in (cum w i + θ)..(cum w (i + 1) + θ), p j y =
        ∫ y in (cum w i + θ)..(cum w (i + 1) + θ), ((x i - y) ^ 2 - pot x w i + ∑ j : Fin (n + 1), pot x w j * p j y) := by
      rw [intervalIntegral.integral_add (hq.sub (intervalIntegrable_const)) hsp, intervalIntegral.integral_sub hq intervalIntegrable_const,
        intervalIntegral.integral_const, intervalIntegral.integral_finsetSum fun j _ => (hpi j _ _).const_mul _, cum_succ]
      congr 1
      · rw [smul_eq_mul]; ring
      · exact sum_congr rfl fun j _ => (intervalIntegral.integral_const_mul _ _).symm
    rw [e]
    refine intervalIntegral.integral_mono_on hle ((hq.sub intervalIntegrable_const).add hsp) (integrable_fsum fun j => hci j _ _) fun y hy => ?_
    have h3 : (x i - y) ^ 2 - pot x w i = ∑ j, ((x i - y) ^ 2 - pot x w i) * p j y := by rw [← mul_sum, hp.sum_one, mul_one]
    rw [h3, ← sum_add_distrib]
    refine sum_le_sum fun j _ => ?_
    rw [← add_mul]
    refine mul_le_mul_of_nonneg_right ?_ (hp.nonneg j y)
    have := cell_le x w hw hw1 hx hx0 hx1 i j (y := y) (by rw [← hθ]; exact hy.1) (by rw [← hθ]; exact hy.2)
    linarith
  rw [h1]
  refine le_trans (le_of_eq ?_) (sum_le_sum fun i _ => h2 i)
  rw [sum_add_distrib, sum_sub_distrib, sum_comm]
  simp only [← mul_sum, hmass]
  unfold monoValue
  rw [hθ]; ring

theorem exists_cell {q : ℝ} (h0 : 0 ≤ q) (h1 : q < 1) : ∃ i : Fin (n + 1), cum w i ≤ q ∧ q < cum w (i + 1) := by
  have hex : ∃ k, q < cum w k := ⟨n + 1, by rw [cum_last w hw1]; exact h1⟩
  classical
  obtain ⟨k, hk, hmin⟩ : ∃ k, q < cum w k ∧ ∀ k' < k, ¬ q < cum w k' := ⟨Nat.find hex, Nat.find_spec hex, fun k' h => Nat.find_min hex h⟩
  have hkn : k ≤ n + 1 := by
    by_contra hcon
    exact hmin (n + 1) (by omega) (by rw [cum_last w hw1]; exact h1)
  have hk0 : k ≠ 0 := fun h => by rw [h, cum_zero] at hk; linarith
  refine ⟨⟨k - 1, by omega⟩, not_lt.1 (hmin (k - 1) (by omega)), ?_⟩
  simp only
  rwa [Nat.sub_add_cancel (by omega)]

open Classical in
theorem semi_att : ∃ p, IsSemiPlan w p ∧ semiCost x p ≤ monoValue x w := by
  obtain ⟨θ, hθ⟩ : ∃ θ, θ = shift x w := ⟨_, rfl⟩
  have hmono := cum_mono w hw
  obtain ⟨p, hp⟩ : ∃ p : Fin (n + 1) → ℝ → ℝ, p = fun (i : Fin (n + 1)) y => if cum w i ≤ Int.fract (y - θ) ∧ Int.fract (y - θ) < cum w (i + 1) then 1 else 0 := ⟨_, rfl⟩
  have hper : ∀ i, Function.Periodic (p i) 1 := fun i y => by
    rw [hp]
    simp only
    rw [show y + 1 - θ = y - θ + 1 by ring, Int.fract_add_one]
  have hmeas : ∀ i, Measurable (p i) := fun i => by
    rw [hp]
    have hf : Measurable fun y : ℝ => Int.fract (y - θ) := measurable_fract.comp (measurable_id.sub measurable_const)
    exact Measurable.ite ((measurableSet_le measurable_const hf).inter (measurableSet_lt hf measurable_const)) measurable_const measurable_const
  have hint : ∀ i a b, IntervalIntegrable (p i) volume a b := fun i a b => by
    refine (intervalIntegrable_const (c := (1 : ℝ))).mono_fun (hmeas i).aestronglyMeasurable (Filter.Eventually.of_forall fun y => ?_)
    rw [hp]
    simp only
    split_ifs <;> simp
  -- integral of a periodic function against `p i`
  have key : ∀ (i : Fin (n + 1)) (g : ℝ → ℝ), Function.Periodic g 1 → ∫ y in (0 : ℝ)..1, g y * p i y = ∫ y in (cum w i + θ)..(cum w (i + 1) + θ), g y := by
    intro i g hg
    have hgp : Function.Periodic (fun y => g y * p i y) 1 := fun y => by simp only; rw [hg y, hper i y]
    have e1 := hgp.intervalIntegral_add_eq 0 θ
    rw [zero_add] at e1
    rw [e1]
    have e2 := intervalIntegral.integral_comp_add_right (a := 0) (b := 1) (fun y => g y * p i y) θ
    rw [zero_add, add_comm 1 θ] at e2
    rw [← e2, ← intervalIntegral.integral_comp_add_right (a := cum w i) (b := cum w (i + 1)) g θ]
    have h0 : 0 ≤ cum w i := by rw [← cum_zero w]; exact hmono (Nat.zero_le _)
    have h1 : cum w (i + 1) ≤ 1 := by rw [← cum_last w hw1]; exact hmono (by have := i.2; omega)
    have h01 : cum w i ≤ cum w (i + 1) := hmono (by omega)
    rw [intervalIntegral.integral_of_le zero_le_one, intervalIntegral.integral_of_le h01, integral_Ioc_eq_integral_Ioo, integral_Ioc_eq_integral_Ioo,
      ← integral_indicator measurableSet_Ioo, ← integral_Ico_eq_integral_Ioo, ← integral_indicator measurableSet_Ico]
    refine integral_congr_ae ?_
    have hae : ∀ᵐ q : ℝ, q ≠ 0 := by simp [ae_iff]
    filter_upwards [hae] with q hq
    by_cases hq1 : q ∈ Set.Ioo (0 : ℝ) 1
    · rw [Set.indicator_of_mem hq1]
      have hfr : Int.fract (q + θ - θ) = q := by rw [add_sub_cancel_right]; exact Int.fract_eq_self.2 ⟨hq1.1.le, hq1.2⟩
      rw [hp]
      simp only
      rw [hfr]
      by_cases hc : cum w i ≤ q ∧ q < cum w (i + 1)
      · rw [if_pos hc, Set.indicator_of_mem (show q ∈ Set.Ico (cum w i) (cum w (i + 1)) from hc), mul_one]
      · rw [if_neg hc, Set.indicator_of_notMem (show q ∉ Set.Ico (cum w i) (cum w (i + 1)) from hc), mul_zero]
    · rw [Set.indicator_of_notMem hq1, Set.indicator_of_notMem]
      intro hc
      exact hq1 ⟨lt_of_le_of_ne (h0.trans hc.1) (Ne.symm hq), hc.2.trans_le h1⟩
  refine ⟨p, ⟨fun i y => ?_, hper, fun i => hint i 0 1, fun y => ?_, fun i => ?_⟩, ?_⟩
  · rw [hp]; simp only; split_ifs <;> norm_num
  · obtain ⟨i, hi1, hi2⟩ := exists_cell w hw hw1 (Int.fract_nonneg (y - θ)) (Int.fract_lt_one (y - θ))
    rw [sum_eq_single i]
    · rw [hp]; simp only; rw [if_pos ⟨hi1, hi2⟩]
    · intro j _ hj
      rw [hp]
      simp only
      rw [if_neg]
      rintro ⟨h1, h2⟩
      rcases lt_or_gt_of_ne hj with h | h
      · have := hmono (show (j : ℕ) + 1 ≤ i from h); linarith
      · have := hmono (show (i : ℕ) + 1 ≤ j from h); linarith
    · exact fun h => absurd (mem_univ i) h
  · have := key i (fun _ => 1) (fun _ => rfl)
    simp only [one_mul] at this
    rw [this, intervalIntegral.integral_const, cum_succ, smul_eq_mul]; ring
  · unfold semiCost monoValue
    refine sum_le_sum fun i _ => ?_
    rw [key i (fun y => circDist (x i) y ^ 2) (fun y => by simp only; rw [circDist_add_one_right]), ← hθ]
    have hle : cum w i + θ ≤ cum w (i + 1) + θ := by
      have := hmono (show (i : ℕ) ≤ i + 1 by omega); linarith
    refine intervalIntegral.integral_mono_on hle ?_ (by apply Continuous.intervalIntegrable; fun_prop) fun y _ => ?_
    · have := integrable_cost (x i) (p := fun _ => 1) (a := cum w i + θ) (b := cum w (i + 1) + θ) intervalIntegrable_const
      simpa using this
    · rw [← sq_abs (x i - y)]
      refine pow_le_pow_left₀ (circDist_nonneg _ _) ?_ 2
      have := circDist_le (x i) y 0
      simpa using this

include hx hx0 hx1 in
theorem semi_isLeast : IsLeast {c | ∃ p, IsSemiPlan w p ∧ semiCost x p = c} (monoValue x w) := by
  obtain ⟨p, hp, hle⟩ := semi_att x w hw hw1
  exact ⟨⟨p, hp, le_antisymm hle (semi_lower x w hw hw1 hx hx0 hx1 hp)⟩, fun c ⟨p', hp', hc⟩ => hc ▸ semi_lower x w hw hw1 hx hx0 hx1 hp'⟩

end

end POT.Circle
