import Verif.Lemmas.GwDict
import Verif.Spec.Transport
import Mathlib.Analysis.SpecialFunctions.Pow.Real

set_option linter.unusedSectionVars false

namespace POT.GwDict

open Finset POT.Spec

variable {I J D K : Type} [Fintype I] [Fintype J] [Fintype D] [Fintype K] [Nonempty D]

/-- the state agrees with its weights -/
structure Good (α reg : ℝ) (C : I → I → ℝ) (Y : I → K → ℝ) (Cd : D → J → J → ℝ) (Yd : D → J → K → ℝ) (T : I → J → ℝ)
    (s : FgwSt J K D) : Prop where
  wt : IsWeights s.w
  E : s.E = atomMix s.w Cd
  F : s.F = atomMix s.w Yd
  loss : s.loss = unmixEnergy α reg C Y Cd Yd T s.w

theorem weights_move {w z : D → ℝ} (hw : IsWeights w) (hz : IsWeights z) {γ : ℝ} (h0 : 0 ≤ γ) (h1 : γ ≤ 1) :
    IsWeights (fun d => w d + γ * (z d - w d)) := by
  constructor
  · intro d
    have := mul_nonneg h0 (hz.1 d)
    have := mul_nonneg (sub_nonneg.2 h1) (hw.1 d)
    beta_reduce
    nlinarith
  · rw [sum_add_distrib, ← mul_sum, sum_sub_distrib, hw.2, hz.2]; ring

section step
variable {α reg : ℝ} {C : I → I → ℝ} {Y : I → K → ℝ} {Cd : D → J → J → ℝ} {Yd : D → J → K → ℝ} {q : J → ℝ} {T : I → J → ℝ}

/-- atom direction of a state -/
noncomputable def dirOf (α reg : ℝ) (C : I → I → ℝ) (Y : I → K → ℝ) (Cd : D → J → J → ℝ) (Yd : D → J → K → ℝ) (q : J → ℝ)
    (T : I → J → ℝ) (s : FgwSt J K D) : D → ℝ :=
  direction (gradFgw α reg q (constTCT C T) T Y Cd Yd s.E s.F s.w)

theorem step_good (hq : ∀ j, ∑ i, T i j = q j) (hs : SymOk C Cd) {s : FgwSt J K D} (h : Good α reg C Y Cd Yd T s) :
    Good α reg C Y Cd Yd T (fgwStep α reg q (constTCT C T) T Y Cd Yd s) := by
  have hx := direction_weights (gradFgw α reg q (constTCT C T) T Y Cd Yd s.E s.F s.w)
  have hc := coef_eq α reg q (constTCT C T) T hq Y Cd Yd s.w (direction (gradFgw α reg q (constTCT C T) T Y Cd Yd s.E s.F s.w))
  rw [← h.E, ← h.F] at hc
  unfold fgwStep
  simp only
  generalize direction (gradFgw α reg q (constTCT C T) T Y Cd Yd s.E s.F s.w) = x at *
  rw [hc]
  obtain ⟨h0, h1⟩ := step_mem (cA α reg q Cd Yd s.w x) (cB α reg q (constTCT C T) T Y Cd Yd s.w x)
  refine ⟨weights_move h.wt hx h0 h1, ?_, ?_, ?_⟩
  · funext k l
    simp only [mixture_move, embed_eq, h.E]
  · funext j c
    simp only [mixture_move, embed_eq, h.F]
  · simp only
    rw [expand α reg C Y Cd Yd q T hq hs s.w x, h.loss]
    ring

theorem step_loss (hq : ∀ j, ∑ i, T i j = q j) {s : FgwSt J K D} (h : Good α reg C Y Cd Yd T s) :
    ∃ x, IsWeights x ∧ (∀ z, IsWeights z → cB α reg q (constTCT C T) T Y Cd Yd s.w x ≤ cB α reg q (constTCT C T) T Y Cd Yd s.w z) ∧
      (fgwStep α reg q (constTCT C T) T Y Cd Yd s).loss = s.loss
        + (cA α reg q Cd Yd s.w x * stepSize (cA α reg q Cd Yd s.w x) (cB α reg q (constTCT C T) T Y Cd Yd s.w x) ^ 2
          + cB α reg q (constTCT C T) T Y Cd Yd s.w x
            * stepSize (cA α reg q Cd Yd s.w x) (cB α reg q (constTCT C T) T Y Cd Yd s.w x)) := by
  refine ⟨direction (gradFgw α reg q (constTCT C T) T Y Cd Yd s.E s.F s.w), direction_weights _, ?_, ?_⟩
  · intro z hz
    rw [slope_eq, slope_eq, ← h.E, ← h.F]
    exact direction_min _ _ _ hz
  · have := coef_eq α reg q (constTCT C T) T hq Y Cd Yd s.w (direction (gradFgw α reg q (constTCT C T) T Y Cd Yd s.E s.F s.w))
    rw [← h.E, ← h.F] at this
    unfold fgwStep
    simp only
    rw [this]

theorem step_le (hq : ∀ j, ∑ i, T i j = q j) {s : FgwSt J K D} (h : Good α reg C Y Cd Yd T s) :
    (fgwStep α reg q (constTCT C T) T Y Cd Yd s).loss ≤ s.loss := by
  obtain ⟨x, -, -, e⟩ := step_loss (q := q) hq h
  rw [e]
  have := step_min (cA α reg q Cd Yd s.w x) (cB α reg q (constTCT C T) T Y Cd Yd s.w x) 0 le_rfl zero_le_one
  linarith

theorem loop_good (tiny tol : ℝ) (hq : ∀ j, ∑ i, T i j = q j) (hs : SymOk C Cd) (n : ℕ) (s : FgwSt J K D)
    (h : Good α reg C Y Cd Yd T s) :
    Good α reg C Y Cd Yd T (fgwLoop tiny α reg tol q (constTCT C T) T Y Cd Yd n s) ∧
      (fgwLoop tiny α reg tol q (constTCT C T) T Y Cd Yd n s).loss ≤ s.loss := by
  induction n generalizing s with
  | zero => exact ⟨h, le_rfl⟩
  | succ k ih =>
    have hg := step_good hq hs h
    have hl := step_le hq h
    rw [fgwLoop]
    split_ifs
    · obtain ⟨h1, h2⟩ := ih _ hg
      exact ⟨h1, h2.trans hl⟩
    · exact ⟨hg, hl⟩

/-- nothing gained in a round: stationary -/
theorem stuck_stationary (hq : ∀ j, ∑ i, T i j = q j) (hs : SymOk C Cd) {s : FgwSt J K D} (h : Good α reg C Y Cd Yd T s)
    (he : (fgwStep α reg q (constTCT C T) T Y Cd Yd s).loss = s.loss) :
    IsStationaryWeights (unmixEnergy α reg C Y Cd Yd T) s.w := by
  obtain ⟨x, hx, hm, e⟩ := step_loss (q := q) hq h
  rw [he] at e
  have hb := slope_of_stuck (cA α reg q Cd Yd s.w x) (cB α reg q (constTCT C T) T Y Cd Yd s.w x) (by linarith)
  refine ⟨h.wt, fun z hz a b hab => ?_⟩
  rw [(expandsTo_unique hab (expand α reg C Y Cd Yd q T hq hs s.w z)).2]
  exact hb.trans (hm z hz)

/-! ## Convex case -/

theorem cA_nonneg (hα0 : 0 ≤ α) (hα1 : α ≤ 1) (hr : reg ≤ 0) (hq0 : ∀ j, 0 ≤ q j) (w z : D → ℝ) : 0 ≤ cA α reg q Cd Yd w z := by
  unfold cA
  have h1 : 0 ≤ ∑ j, ∑ l, (atomMix z Cd j l - atomMix w Cd j l) ^ 2 * constQ q j l :=
    sum_nonneg fun j _ => sum_nonneg fun l _ => mul_nonneg (sq_nonneg _) (mul_nonneg (hq0 j) (hq0 l))
  have h2 : 0 ≤ ∑ j, ∑ c, (atomMix z Yd j c - atomMix w Yd j c) ^ 2 * q j :=
    sum_nonneg fun j _ => sum_nonneg fun c _ => mul_nonneg (sq_nonneg _) (hq0 j)
  have h3 : 0 ≤ ∑ d, (z d - w d) ^ 2 := sum_nonneg fun d _ => sq_nonneg _
  nlinarith [mul_nonneg hα0 h1, mul_nonneg (sub_nonneg.2 hα1) h2, mul_nonneg (neg_nonneg.2 hr) h3]

theorem energy_nonneg (hα0 : 0 ≤ α) (hα1 : α ≤ 1) (hr : reg ≤ 0) (hT : ∀ i j, 0 ≤ T i j) (w : D → ℝ) :
    0 ≤ unmixEnergy α reg C Y Cd Yd T w := by
  unfold unmixEnergy fgwEnergy
  have h1 : 0 ≤ gwEnergy sqLoss C (atomMix w Cd) T := by
    unfold gwEnergy sqLoss
    exact sum_nonneg fun i _ => sum_nonneg fun j _ => sum_nonneg fun k _ => sum_nonneg fun l _ =>
      mul_nonneg (mul_nonneg (sq_nonneg _) (hT i j)) (hT k l)
  have h2 : 0 ≤ cost (featDist Y (atomMix w Yd)) T := by
    unfold cost featDist
    exact sum_nonneg fun i _ => sum_nonneg fun j _ => mul_nonneg (hT i j) (sum_nonneg fun c _ => sq_nonneg _)
  have h3 : 0 ≤ ∑ d, w d ^ 2 := sum_nonneg fun d _ => sq_nonneg _
  nlinarith [mul_nonneg hα0 h1, mul_nonneg (sub_nonneg.2 hα1) h2, mul_nonneg (neg_nonneg.2 hr) h3]

theorem gap_le (hα0 : 0 ≤ α) (hα1 : α ≤ 1) (hr : reg ≤ 0) (hq0 : ∀ j, 0 ≤ q j) (hq : ∀ j, ∑ i, T i j = q j) (hs : SymOk C Cd)
    (w z : D → ℝ) :
    unmixEnergy α reg C Y Cd Yd T w + cB α reg q (constTCT C T) T Y Cd Yd w z ≤ unmixEnergy α reg C Y Cd Yd T z := by
  have h := expand α reg C Y Cd Yd q T hq hs w z 1
  have : (fun d => w d + 1 * (z d - w d)) = z := by funext d; ring
  rw [this] at h
  have := cA_nonneg (Cd := Cd) (Yd := Yd) hα0 hα1 hr hq0 w z
  linarith

/-- an upper bound of the curvature on the weights -/
noncomputable def curv (α reg : ℝ) (q : J → ℝ) (Cd : D → J → J → ℝ) (Yd : D → J → K → ℝ) : ℝ :=
  α * ∑ j, ∑ l, (∑ d, |Cd d j l|) ^ 2 * constQ q j l + (1 - α) * ∑ j, ∑ c, (∑ d, |Yd d j c|) ^ 2 * q j - reg * Fintype.card D

theorem weights_le_one {w : D → ℝ} (hw : IsWeights w) (d : D) : w d ≤ 1 := by
  rw [← hw.2]
  exact single_le_sum (f := w) (fun e _ => hw.1 e) (mem_univ d)

theorem mixture_diff_sq {A B : Type} (M : D → A → B → ℝ) {w z : D → ℝ} (hw : IsWeights w) (hz : IsWeights z) (a : A) (b : B) :
    (atomMix z M a b - atomMix w M a b) ^ 2 ≤ (∑ d, |M d a b|) ^ 2 := by
  rw [← sq_abs (atomMix z M a b - atomMix w M a b)]
  refine pow_le_pow_left₀ (abs_nonneg _) ?_ 2
  unfold atomMix
  rw [← sum_sub_distrib]
  refine (abs_sum_le_sum_abs _ _).trans (sum_le_sum fun d _ => ?_)
  rw [← sub_mul, abs_mul]
  have : |z d - w d| ≤ 1 := by
    rw [abs_le]
    have := weights_le_one hw d; have := weights_le_one hz d; have := hw.1 d; have := hz.1 d
    constructor <;> linarith
  exact mul_le_of_le_one_left (abs_nonneg _) this

theorem cA_le (hα0 : 0 ≤ α) (hα1 : α ≤ 1) (hr : reg ≤ 0) (hq0 : ∀ j, 0 ≤ q j) {w z : D → ℝ} (hw : IsWeights w) (hz : IsWeights z) :
    cA α reg q Cd Yd w z ≤ curv α reg q Cd Yd := by
  unfold cA curv
  have h1 : ∑ j, ∑ l, (atomMix z Cd j l - atomMix w Cd j l) ^ 2 * constQ q j l ≤ ∑ j, ∑ l, (∑ d, |Cd d j l|) ^ 2 * constQ q j l :=
    sum_le_sum fun j _ => sum_le_sum fun l _ =>
      mul_le_mul_of_nonneg_right (mixture_diff_sq Cd hw hz j l) (mul_nonneg (hq0 j) (hq0 l))
  have h2 : ∑ j, ∑ c, (atomMix z Yd j c - atomMix w Yd j c) ^ 2 * q j ≤ ∑ j, ∑ c, (∑ d, |Yd d j c|) ^ 2 * q j :=
    sum_le_sum fun j _ => sum_le_sum fun c _ => mul_le_mul_of_nonneg_right (mixture_diff_sq Yd hw hz j c) (hq0 j)
  have h3 : ∑ d, (z d - w d) ^ 2 ≤ (Fintype.card D : ℝ) := by
    have : (Fintype.card D : ℝ) = ∑ _d : D, (1 : ℝ) := by simp
    rw [this]
    refine sum_le_sum fun d _ => ?_
    have := weights_le_one hw d; have := weights_le_one hz d; have := hw.1 d; have := hz.1 d
    nlinarith
  nlinarith [mul_le_mul_of_nonneg_left h1 hα0, mul_le_mul_of_nonneg_left h2 (sub_nonneg.2 hα1),
    mul_le_mul_of_nonneg_left h3 (neg_nonneg.2 hr)]

/-- one round of conditional gradient -/
theorem step_gap (hα0 : 0 ≤ α) (hα1 : α ≤ 1) (hr : reg ≤ 0) (hq0 : ∀ j, 0 ≤ q j) (hq : ∀ j, ∑ i, T i j = q j) (hs : SymOk C Cd)
    {L : ℝ} (hL : ∀ w z : D → ℝ, IsWeights w → IsWeights z → cA α reg q Cd Yd w z ≤ L)
    {s : FgwSt J K D} (h : Good α reg C Y Cd Yd T s) (z : D → ℝ) (hz : IsWeights z) (γ : ℝ) (h0 : 0 ≤ γ) (h1 : γ ≤ 1) :
    (fgwStep α reg q (constTCT C T) T Y Cd Yd s).loss - unmixEnergy α reg C Y Cd Yd T z
      ≤ (1 - γ) * (s.loss - unmixEnergy α reg C Y Cd Yd T z) + L * γ ^ 2 := by
  obtain ⟨x, hx, hm, e⟩ := step_loss (q := q) hq h
  have h2 := slope_gap (cA α reg q Cd Yd s.w x) (cB α reg q (constTCT C T) T Y Cd Yd s.w x) L (hL _ _ h.wt hx) γ h0 h1
  have h3 := gap_le (C := C) (Y := Y) (Cd := Cd) (Yd := Yd) hα0 hα1 hr hq0 hq hs s.w z
  rw [← h.loss] at h3
  have h4 := mul_le_mul_of_nonneg_right (hm z hz) h0
  rw [e]
  nlinarith [mul_le_mul_of_nonneg_right h3 h0]

theorem gap_of_decrease {h δ L : ℝ} (hL : 0 ≤ L) (hδ : 0 ≤ δ) (H : ∀ γ : ℝ, 0 ≤ γ → γ ≤ 1 → h * γ - L * γ ^ 2 ≤ δ) :
    h ≤ max (2 * δ) (2 * Real.sqrt (L * δ)) := by
  rcases le_or_gt h 0 with h0 | h0
  · exact le_max_of_le_left (by linarith)
  rcases le_or_gt h (2 * L) with h2 | h2
  · refine le_max_of_le_right ?_
    have hLp : 0 < L := by linarith
    have := H (h / (2 * L)) (by positivity) ((div_le_one (by linarith)).2 h2)
    have e : h * (h / (2 * L)) - L * (h / (2 * L)) ^ 2 = h ^ 2 / (4 * L) := by field_simp; ring
    rw [e, div_le_iff₀ (by linarith)] at this
    have h3 : (h / 2) ^ 2 ≤ L * δ := by nlinarith
    have := Real.le_sqrt_of_sq_le h3
    linarith
  · refine le_max_of_le_left ?_
    have := H 1 zero_le_one le_rfl
    linarith

theorem loop_rate (tiny tol : ℝ) (htol : 0 ≤ tol) (hα0 : 0 ≤ α) (hα1 : α ≤ 1) (hr : reg ≤ 0)
    (hT : ∀ i j, 0 ≤ T i j) (hq0 : ∀ j, 0 ≤ q j) (hq : ∀ j, ∑ i, T i j = q j) (hs : SymOk C Cd)
    {L : ℝ} (hL0 : 0 ≤ L) (hL : ∀ w z : D → ℝ, IsWeights w → IsWeights z → cA α reg q Cd Yd w z ≤ L) (l0 : ℝ)
    (z : D → ℝ) (hz : IsWeights z) (n m : ℕ) (hnm : 1 ≤ n + m) (s : FgwSt J K D) (h : Good α reg C Y Cd Yd T s) (hl : s.loss ≤ l0)
    (hm : 1 ≤ m → s.loss - unmixEnergy α reg C Y Cd Yd T z ≤ 4 * L / (m + 2)) :
    (fgwLoop tiny α reg tol q (constTCT C T) T Y Cd Yd n s).loss - unmixEnergy α reg C Y Cd Yd T z
      ≤ max (4 * L / (n + m + 2)) (max (2 * (tol * l0)) (2 * Real.sqrt (L * (tol * l0)))) := by
  induction n generalizing s m with
  | zero =>
    simp only [Nat.cast_zero, zero_add] at hnm ⊢
    exact le_max_of_le_left (hm hnm)
  | succ k ih =>
    have hg := step_good hq hs h
    have hle := step_le hq h
    have hnn : 0 ≤ s.loss := by rw [h.loss]; exact energy_nonneg hα0 hα1 hr hT _
    have hgap := step_gap hα0 hα1 hr hq0 hq hs hL h z hz
    rw [fgwLoop]
    split_ifs with hc
    · have := ih (m + 1) (by omega) _ hg (hle.trans hl) (fun _ => by
        rcases Nat.eq_zero_or_pos m with hm0 | hm0
        · subst hm0
          have := hgap 1 zero_le_one le_rfl
          push_cast
          rw [le_div_iff₀ (by norm_num)]
          nlinarith
        · have h2 := hm hm0
          have hmp : (0:ℝ) < m + 2 := by positivity
          have := hgap (2 / (m + 2)) (by positivity) ((div_le_one hmp).2 (by linarith [(Nat.cast_nonneg m : (0:ℝ) ≤ m)]))
          refine this.trans ?_
          have h3 : 0 ≤ 1 - 2 / ((m:ℝ) + 2) := by
            rw [sub_nonneg, div_le_one hmp]; linarith [(Nat.cast_nonneg m : (0:ℝ) ≤ m)]
          calc (1 - 2 / ((m:ℝ) + 2)) * (s.loss - unmixEnergy α reg C Y Cd Yd T z) + L * (2 / ((m:ℝ) + 2)) ^ 2
              ≤ (1 - 2 / ((m:ℝ) + 2)) * (4 * L / (m + 2)) + L * (2 / ((m:ℝ) + 2)) ^ 2 := by
                linarith [mul_le_mul_of_nonneg_left h2 h3]
            _ = 4 * L * ((m + 1) / ((m:ℝ) + 2) ^ 2) := by field_simp; ring
            _ ≤ 4 * L * (1 / ((m:ℝ) + 3)) := by
                refine mul_le_mul_of_nonneg_left ?_ (by linarith)
                rw [div_le_div_iff₀ (by positivity) (by positivity)]
                nlinarith
            _ = 4 * L / (((m + 1 : ℕ) : ℝ) + 2) := by push_cast; rw [mul_one_div]; congr 1; ring)
      refine this.trans (le_of_eq ?_)
      congr 2
      push_cast; ring
    · refine le_max_of_le_right ?_
      have hc' := not_lt.1 hc
      unfold criterion at hc'
      by_cases h0 : s.loss = 0
      · have : s.loss - unmixEnergy α reg C Y Cd Yd T z ≤ 0 := by
          rw [h0]; have := energy_nonneg (C := C) (Y := Y) (Cd := Cd) (Yd := Yd) hα0 hα1 hr hT z; linarith
        refine le_max_of_le_left ?_
        have := mul_nonneg htol (hnn.trans hl)
        linarith
      · rw [if_pos h0, abs_of_nonneg hnn, div_le_iff₀ (lt_of_le_of_ne hnn (Ne.symm h0)),
          abs_of_nonneg (by linarith)] at hc'
        have hd : s.loss - (fgwStep α reg q (constTCT C T) T Y Cd Yd s).loss ≤ tol * l0 :=
          hc'.trans (mul_le_mul_of_nonneg_left hl htol)
        have hδ : 0 ≤ tol * l0 := mul_nonneg htol (hnn.trans hl)
        have : s.loss - unmixEnergy α reg C Y Cd Yd T z ≤ max (2 * (tol * l0)) (2 * Real.sqrt (L * (tol * l0))) := by
          refine gap_of_decrease hL0 hδ fun γ g0 g1 => ?_
          have := hgap γ g0 g1
          linarith
        linarith

end step

/-! ## Outer loop -/

theorem featM_eq (Y : I → K → ℝ) (F : J → K → ℝ) : featM Y F = featDist Y F := by
  funext i j
  unfold featM featDist
  rw [mul_sum, ← sum_add_distrib, ← sum_sub_distrib]
  exact sum_congr rfl fun c _ => by ring

section outer
variable {α reg : ℝ} {C : I → I → ℝ} {Y : I → K → ℝ} {Cd : D → J → J → ℝ} {Yd : D → J → K → ℝ} {p : I → ℝ} {q : J → ℝ}

/-- consistent up to the loss -/
structure Pre (Cd : D → J → J → ℝ) (Yd : D → J → K → ℝ) (p : I → ℝ) (q : J → ℝ) (s : FgwOut I J K D) : Prop where
  wt : IsWeights s.st.w
  E : s.st.E = atomMix s.st.w Cd
  F : s.st.F = atomMix s.st.w Yd
  T : IsCoupling p q s.T

theorem outer_step (solve : FgwCall I J) (hsol : IsFgwSolver α C p q solve) (hs : SymOk C Cd) (tiny tol : ℝ) (n : ℕ)
    (s : FgwOut I J K D) (h : Pre Cd Yd p q s) :
    let r := solve (featM Y s.st.F) s.st.E s.T
    let loss := if reg ≠ 0 then r.2 - reg * ∑ d, s.st.w d ^ 2 else r.2
    let st := fgwLoop tiny α reg tol q (constTCT C r.1) r.1 Y Cd Yd n ⟨s.st.w, s.st.E, s.st.F, loss⟩
    IsCoupling p q r.1 ∧ Good α reg C Y Cd Yd r.1 st ∧ st.loss ≤ unmixEnergy α reg C Y Cd Yd s.T s.st.w := by
  intro r loss st
  obtain ⟨h1, h2, h3⟩ := hsol (featM Y s.st.F) s.st.E s.T h.T
  have hl : loss = r.2 - reg * ∑ d, s.st.w d ^ 2 := by
    simp only [loss]
    by_cases h0 : reg = 0
    · simp [h0]
    · simp [h0]
  have hg : Good α reg C Y Cd Yd r.1 ⟨s.st.w, s.st.E, s.st.F, loss⟩ := by
    refine ⟨h.wt, h.E, h.F, ?_⟩
    simp only
    rw [hl]
    unfold unmixEnergy fgwEnergy
    rw [← h.E, ← h.F, ← featM_eq]
    exact congrArg (fun t => t - reg * ∑ d, s.st.w d ^ 2) h2
  obtain ⟨g1, g2⟩ := loop_good (q := q) tiny tol h1.col hs n _ hg
  refine ⟨h1, g1, g2.trans ?_⟩
  simp only
  rw [hl]
  unfold unmixEnergy fgwEnergy
  rw [← h.E, ← h.F, ← featM_eq]
  exact sub_le_sub_right h3 _

theorem outer_loop (solve : FgwCall I J) (hsol : IsFgwSolver α C p q solve) (hs : SymOk C Cd) (tolO tol : ℝ) (mi n : ℕ)
    (s : FgwOut I J K D) (h : Pre Cd Yd p q s) (hn : 1 ≤ n) :
    let r := fgwOuter solve α reg tolO tol mi C Y Cd Yd q n s
    IsCoupling p q r.T ∧ Good α reg C Y Cd Yd r.T r.st ∧ r.st.loss ≤ unmixEnergy α reg C Y Cd Yd s.T s.st.w := by
  induction n generalizing s with
  | zero => omega
  | succ k ih =>
    intro r
    obtain ⟨h1, h2, h3⟩ := outer_step (reg := reg) (Y := Y) solve hsol hs (1 / 10 ^ 12) tol mi s h
    change IsCoupling p q (fgwOuter solve α reg tolO tol mi C Y Cd Yd q (k + 1) s).T ∧ _
    simp only [r]
    rw [fgwOuter]
    split_ifs with hc
    · rcases Nat.eq_zero_or_pos k with hk | hk
      · subst hk
        exact ⟨h1, h2, h3⟩
      · obtain ⟨g1, g2, g3⟩ := ih (fgwOuterStep solve α reg tol mi C Y Cd Yd q s) ⟨h2.wt, h2.E, h2.F, h1⟩ hk
        refine ⟨g1, g2, g3.trans ?_⟩
        have := h2.loss
        exact this.symm.le.trans h3
    · exact ⟨h1, h2, h3⟩

end outer

/-! ## Without features -/

theorem unif_weights : IsWeights (fun _ : D => 1 / (Fintype.card D : ℝ)) := by
  constructor
  · intro d; positivity
  · simp

section gw
variable {reg : ℝ} {C : I → I → ℝ} {Cd : D → J → J → ℝ} {q : J → ℝ}

/-- a state without features as one with an empty feature space -/
def lift (s : GwSt J D) : FgwSt J Empty D := ⟨s.w, s.E, fun _ c => c.elim, s.loss⟩

theorem lift_step (T : I → J → ℝ) (Y : I → Empty → ℝ) (Yd : D → J → Empty → ℝ) (TCT : J → J → ℝ) (s : GwSt J D) :
    lift (gwStep reg q TCT Cd s) = fgwStep 1 reg q TCT T Y Cd Yd (lift s) := by
  have hg : gradGw reg q TCT Cd s.E s.w = gradFgw 1 reg q TCT T Y Cd Yd s.E (fun _ c => c.elim) s.w := by
    funext d
    unfold gradGw gradFgw
    simp
    ring
  have hc : ∀ x, coefGw reg q TCT Cd s.E s.w x = coefFgw 1 reg q TCT T Y Cd Yd s.E (fun _ c => c.elim) s.w x := by
    intro x
    unfold coefGw coefFgw
    simp
  unfold lift gwStep fgwStep
  simp only [hg, hc]
  congr 1
  funext j c
  exact c.elim

theorem lift_loop (tol : ℝ) (T : I → J → ℝ) (Y : I → Empty → ℝ) (Yd : D → J → Empty → ℝ) (TCT : J → J → ℝ) (n : ℕ) (s : GwSt J D) :
    lift (gwLoop reg tol q TCT Cd n s) = fgwLoop (1 / 10 ^ 15) 1 reg tol q TCT T Y Cd Yd n (lift s) := by
  induction n generalizing s with
  | zero => rfl
  | succ k ih =>
    rw [gwLoop, fgwLoop]
    rw [← lift_step T Y Yd TCT s]
    change lift (if criterion (1 / 10 ^ 15) s.loss (gwStep reg q TCT Cd s).loss > tol then _ else _) =
      if criterion (1 / 10 ^ 15) s.loss (gwStep reg q TCT Cd s).loss > tol then _ else _
    split_ifs
    · exact ih _
    · rfl

theorem unmix_lift (Y : I → Empty → ℝ) (Yd : D → J → Empty → ℝ) (T : I → J → ℝ) :
    unmixEnergy 1 reg C Y Cd Yd T = unmixGwEnergy reg C Cd T := by
  funext w
  unfold unmixEnergy unmixGwEnergy fgwEnergy
  simp

/-- the state agrees with its weights -/
structure GoodGw (reg : ℝ) (C : I → I → ℝ) (Cd : D → J → J → ℝ) (T : I → J → ℝ) (s : GwSt J D) : Prop where
  wt : IsWeights s.w
  E : s.E = atomMix s.w Cd
  loss : s.loss = unmixGwEnergy reg C Cd T s.w

theorem good_lift (Y : I → Empty → ℝ) (Yd : D → J → Empty → ℝ) (T : I → J → ℝ) (s : GwSt J D) :
    Good 1 reg C Y Cd Yd T (lift s) ↔ GoodGw reg C Cd T s := by
  constructor
  · intro h
    exact ⟨h.wt, h.E, by have := h.loss; rw [unmix_lift] at this; exact this⟩
  · intro h
    exact ⟨h.wt, h.E, by funext j c; exact c.elim, by rw [unmix_lift]; exact h.loss⟩

theorem outer_step_gw {p : I → ℝ} (solve : GwCall I J) (hsol : IsGwSolver C p q solve) (hs : SymOk C Cd) (tol : ℝ) (n : ℕ)
    (s : GwOut I J D) (hw : IsWeights s.st.w) (hE : s.st.E = atomMix s.st.w Cd) (hT : IsCoupling p q s.T) :
    let r := gwOuterStep solve reg tol n C Cd q s
    IsCoupling p q r.T ∧ GoodGw reg C Cd r.T r.st ∧ r.st.loss ≤ unmixGwEnergy reg C Cd s.T s.st.w := by
  have hsol' : IsFgwSolver 1 C p q (fun _ E G => solve E G) := by
    intro M E G hG
    obtain ⟨h1, h2, h3⟩ := hsol E G hG
    exact ⟨h1, by simpa using h2, by simpa using h3⟩
  obtain ⟨h1, h2, h3⟩ := outer_step (reg := reg) (Y := fun (_ : I) (c : Empty) => c.elim) (Cd := Cd) (Yd := fun _ _ (c : Empty) => c.elim)
    (fun _ E G => solve E G) hsol' hs (1 / 10 ^ 15) tol n ⟨lift s.st, s.T⟩ ⟨hw, hE, by funext j c; exact c.elim, hT⟩
  have e : ∀ loss, fgwLoop (1 / 10 ^ 15) 1 reg tol q (constTCT C (solve s.st.E s.T).1) (solve s.st.E s.T).1
      (fun (_ : I) (c : Empty) => c.elim) Cd (fun _ _ (c : Empty) => c.elim) n ⟨(lift s.st).w, (lift s.st).E, (lift s.st).F, loss⟩
      = lift (gwLoop reg tol q (constTCT C (solve s.st.E s.T).1) Cd n ⟨s.st.w, s.st.E, loss⟩) :=
    fun loss => (lift_loop tol _ _ _ _ n ⟨s.st.w, s.st.E, loss⟩).symm
  have e' := e (if reg ≠ 0 then (solve s.st.E s.T).2 - reg * ∑ d, s.st.w d ^ 2 else (solve s.st.E s.T).2)
  change Good 1 reg C _ Cd _ _ (fgwLoop (1 / 10 ^ 15) 1 reg tol q (constTCT C (solve s.st.E s.T).1) (solve s.st.E s.T).1
      (fun (_ : I) (c : Empty) => c.elim) Cd (fun _ _ (c : Empty) => c.elim) n ⟨(lift s.st).w, (lift s.st).E, (lift s.st).F,
        if reg ≠ 0 then (solve s.st.E s.T).2 - reg * ∑ d, s.st.w d ^ 2 else (solve s.st.E s.T).2⟩) at h2
  change FgwSt.loss (fgwLoop (1 / 10 ^ 15) 1 reg tol q (constTCT C (solve s.st.E s.T).1) (solve s.st.E s.T).1
      (fun (_ : I) (c : Empty) => c.elim) Cd (fun _ _ (c : Empty) => c.elim) n ⟨(lift s.st).w, (lift s.st).E, (lift s.st).F,
        if reg ≠ 0 then (solve s.st.E s.T).2 - reg * ∑ d, s.st.w d ^ 2 else (solve s.st.E s.T).2⟩) ≤ _ at h3
  rw [e', good_lift] at h2
  rw [e', unmix_lift] at h3
  exact ⟨h1, h2, h3⟩

theorem outer_loop_gw {p : I → ℝ} (solve : GwCall I J) (hsol : IsGwSolver C p q solve) (hs : SymOk C Cd) (tolO tol : ℝ) (mi n : ℕ)
    (s : GwOut I J D) (hw : IsWeights s.st.w) (hE : s.st.E = atomMix s.st.w Cd) (hT : IsCoupling p q s.T) (hn : 1 ≤ n) :
    let r := gwOuter solve reg tolO tol mi C Cd q n s
    IsCoupling p q r.T ∧ GoodGw reg C Cd r.T r.st ∧ r.st.loss ≤ unmixGwEnergy reg C Cd s.T s.st.w := by
  induction n generalizing s with
  | zero => omega
  | succ k ih =>
    intro r
    obtain ⟨h1, h2, h3⟩ := outer_step_gw (reg := reg) solve hsol hs tol mi s hw hE hT
    simp only [r]
    rw [gwOuter]
    split_ifs with hc
    · rcases Nat.eq_zero_or_pos k with hk | hk
      · subst hk
        exact ⟨h1, h2, h3⟩
      · obtain ⟨g1, g2, g3⟩ := ih (gwOuterStep solve reg tol mi C Cd q s) h2.wt h2.E h1 hk
        exact ⟨g1, g2, g3.trans (h2.loss.symm.le.trans h3)⟩
    · exact ⟨h1, h2, h3⟩

end gw

end POT.GwDict
