import Verif.Model.GwDict
import Verif.Spec.GwDict
import Mathlib.Tactic.Linarith
import Mathlib.Tactic.Ring
import Mathlib.Tactic.FieldSimp
import Mathlib.Tactic.Positivity
import Mathlib.Algebra.Order.BigOperators.Ring.Finset

set_option linter.unusedSectionVars false

namespace POT.GwDict

open Finset POT.Spec

variable {I J D K : Type} [Fintype I] [Fintype J] [Fintype D] [Fintype K]

/-! ## Energy as a quadratic form -/

theorem embed_eq {A B : Type} (w : D → ℝ) (M : D → A → B → ℝ) : embed w M = atomMix w M := rfl

/-- cross term with the right orientation -/
def cross (C : I → I → ℝ) (T : I → J → ℝ) : J → J → ℝ := fun j l => ∑ i, ∑ k, C i k * T i j * T k l

theorem cross_eq (C : I → I → ℝ) (T : I → J → ℝ) (j l : J) : constTCT C T j l = cross C T l j := by
  unfold constTCT cross
  refine sum_congr rfl fun i _ => ?_
  rw [sum_mul]
  exact sum_congr rfl fun k _ => by ring

theorem cross_symm (C : I → I → ℝ) (hC : IsSymm C) (T : I → J → ℝ) (j l : J) : cross C T l j = cross C T j l := by
  unfold cross
  rw [sum_comm]
  exact sum_congr rfl fun i _ => sum_congr rfl fun k _ => by rw [hC k i]; ring

theorem gw_expand (C : I → I → ℝ) (E : J → J → ℝ) (T : I → J → ℝ) (q : J → ℝ) (hq : ∀ j, ∑ i, T i j = q j) :
    gwEnergy sqLoss C E T = gwEnergy sqLoss C (fun _ _ => 0) T + ∑ j, ∑ l, (E j l ^ 2 * constQ q j l - 2 * E j l * cross C T j l) := by
  have h1 : ∀ j l, E j l ^ 2 * constQ q j l - 2 * E j l * cross C T j l
      = ∑ i, ∑ k, (E j l ^ 2 - 2 * E j l * C i k) * T i j * T k l := by
    intro j l
    unfold constQ cross
    rw [← hq j, ← hq l, sum_mul_sum, mul_sum, mul_sum, ← sum_sub_distrib]
    refine sum_congr rfl fun i _ => ?_
    rw [mul_sum, mul_sum, ← sum_sub_distrib]
    exact sum_congr rfl fun k _ => by ring
  simp only [h1]
  have h2 : ∑ j, ∑ l, ∑ i, ∑ k, (E j l ^ 2 - 2 * E j l * C i k) * T i j * T k l
      = ∑ i, ∑ j, ∑ k, ∑ l, (E j l ^ 2 - 2 * E j l * C i k) * T i j * T k l := by
    rw [sum_comm' (t' := univ) (s' := fun _ => univ) (by simp)]
    have : ∀ j, ∑ l, ∑ i, ∑ k, (E j l ^ 2 - 2 * E j l * C i k) * T i j * T k l
        = ∑ i, ∑ k, ∑ l, (E j l ^ 2 - 2 * E j l * C i k) * T i j * T k l := by
      intro j
      rw [sum_comm]
      exact sum_congr rfl fun i _ => sum_comm
    rw [sum_comm, sum_congr rfl fun j _ => this j, sum_comm]
  rw [h2]
  unfold gwEnergy sqLoss
  simp only [← sum_add_distrib]
  refine sum_congr rfl fun i _ => sum_congr rfl fun j _ => sum_congr rfl fun k _ => sum_congr rfl fun l _ => by ring

theorem feat_expand (Y : I → K → ℝ) (F : J → K → ℝ) (T : I → J → ℝ) (q : J → ℝ) (hq : ∀ j, ∑ i, T i j = q j) :
    cost (featDist Y F) T = cost (featDist Y (fun (_ : J) _ => 0)) T
      + ∑ j, ∑ c, (F j c ^ 2 * q j - 2 * F j c * ∑ i, T i j * Y i c) := by
  have h1 : ∀ j, ∑ c, (F j c ^ 2 * q j - 2 * F j c * ∑ i, T i j * Y i c)
      = ∑ i, ∑ c, T i j * (F j c ^ 2 - 2 * Y i c * F j c) := by
    intro j
    rw [sum_comm]
    refine sum_congr rfl fun c _ => ?_
    rw [← hq j, mul_sum, mul_sum, ← sum_sub_distrib]
    exact sum_congr rfl fun i _ => by ring
  simp only [h1]
  rw [sum_comm]
  unfold cost featDist
  rw [← sum_add_distrib]
  refine sum_congr rfl fun i _ => ?_
  rw [← sum_add_distrib]
  refine sum_congr rfl fun j _ => ?_
  rw [mul_sum, mul_sum, ← sum_add_distrib]
  exact sum_congr rfl fun c _ => by ring

theorem mixture_move {A B : Type} (M : D → A → B → ℝ) (w z : D → ℝ) (γ : ℝ) (a : A) (b : B) :
    atomMix (fun d => w d + γ * (z d - w d)) M a b = atomMix w M a b + γ * (atomMix z M a b - atomMix w M a b) := by
  unfold atomMix
  rw [← sum_sub_distrib, mul_sum, ← sum_add_distrib]
  exact sum_congr rfl fun d _ => by ring

/-- the symmetry needed for the code's cross term -/
def SymOk (C : I → I → ℝ) (Cd : D → J → J → ℝ) : Prop := IsSymm C ∨ ∀ d, IsSymm (Cd d)

theorem sum_cross (C : I → I → ℝ) (Cd : D → J → J → ℝ) (hs : SymOk C Cd) (T : I → J → ℝ) (w : D → ℝ) :
    ∑ j, ∑ l, atomMix w Cd j l * cross C T j l = ∑ j, ∑ l, atomMix w Cd j l * constTCT C T j l := by
  rcases hs with h | h
  · refine sum_congr rfl fun j _ => sum_congr rfl fun l _ => ?_
    rw [cross_eq, cross_symm C h]
  · rw [sum_comm]
    refine sum_congr rfl fun j _ => sum_congr rfl fun l _ => ?_
    rw [cross_eq]
    congr 1
    exact sum_congr rfl fun d _ => by rw [h d l j]

theorem sum_cross_diff (C : I → I → ℝ) (Cd : D → J → J → ℝ) (hs : SymOk C Cd) (T : I → J → ℝ) (w z : D → ℝ) :
    ∑ j, ∑ l, (atomMix z Cd j l - atomMix w Cd j l) * cross C T j l
      = ∑ j, ∑ l, (atomMix z Cd j l - atomMix w Cd j l) * constTCT C T j l := by
  simp only [sub_mul, sum_sub_distrib, sum_cross C Cd hs]

/-- curvature along `z - w` -/
noncomputable def cA (α reg : ℝ) (q : J → ℝ) (Cd : D → J → J → ℝ) (Yd : D → J → K → ℝ) (w z : D → ℝ) : ℝ :=
  α * ∑ j, ∑ l, (atomMix z Cd j l - atomMix w Cd j l) ^ 2 * constQ q j l
    + (1 - α) * ∑ j, ∑ c, (atomMix z Yd j c - atomMix w Yd j c) ^ 2 * q j - reg * ∑ d, (z d - w d) ^ 2

/-- slope along `z - w` -/
noncomputable def cB (α reg : ℝ) (q : J → ℝ) (TCT : J → J → ℝ) (T : I → J → ℝ) (Y : I → K → ℝ) (Cd : D → J → J → ℝ)
    (Yd : D → J → K → ℝ) (w z : D → ℝ) : ℝ :=
  α * (2 * ∑ j, ∑ l, (atomMix z Cd j l - atomMix w Cd j l) * (atomMix w Cd j l * constQ q j l - TCT j l))
    + (1 - α) * (2 * ∑ j, ∑ c, (atomMix z Yd j c - atomMix w Yd j c) * (q j * atomMix w Yd j c - ∑ i, T i j * Y i c))
    - 2 * reg * ∑ d, w d * (z d - w d)

theorem coef_eq (α reg : ℝ) (q : J → ℝ) (TCT : J → J → ℝ) (T : I → J → ℝ) (hq : ∀ j, ∑ i, T i j = q j) (Y : I → K → ℝ)
    (Cd : D → J → J → ℝ) (Yd : D → J → K → ℝ) (w z : D → ℝ) :
    coefFgw α reg q TCT T Y Cd Yd (atomMix w Cd) (atomMix w Yd) w z
      = (cA α reg q Cd Yd w z, cB α reg q TCT T Y Cd Yd w z) := by
  have e1 : (∑ k, ∑ l, (atomMix z Cd k l - atomMix w Cd k l) * atomMix z Cd k l * constQ q k l)
      - (∑ k, ∑ l, (atomMix z Cd k l - atomMix w Cd k l) * atomMix w Cd k l * constQ q k l)
      = ∑ j, ∑ l, (atomMix z Cd j l - atomMix w Cd j l) ^ 2 * constQ q j l := by
    simp only [← sum_sub_distrib]
    exact sum_congr rfl fun j _ => sum_congr rfl fun l _ => by ring
  have e2 : (∑ k, ∑ l, (atomMix z Cd k l - atomMix w Cd k l) * atomMix w Cd k l * constQ q k l)
      - (∑ k, ∑ l, (atomMix z Cd k l - atomMix w Cd k l) * TCT k l)
      = ∑ j, ∑ l, (atomMix z Cd j l - atomMix w Cd j l) * (atomMix w Cd j l * constQ q j l - TCT j l) := by
    simp only [← sum_sub_distrib]
    exact sum_congr rfl fun j _ => sum_congr rfl fun l _ => by ring
  have e3 : ∑ i, ∑ j, (∑ c, (atomMix z Yd j c - atomMix w Yd j c) ^ 2) * T i j
      = ∑ j, ∑ c, (atomMix z Yd j c - atomMix w Yd j c) ^ 2 * q j := by
    rw [sum_comm]
    refine sum_congr rfl fun j _ => ?_
    rw [← mul_sum, hq j, sum_mul]
  have e4 : ∑ i, ∑ j, T i j * ((∑ c, atomMix w Yd j c * (atomMix z Yd j c - atomMix w Yd j c))
        - ∑ c, Y i c * (atomMix z Yd j c - atomMix w Yd j c))
      = ∑ j, ∑ c, (atomMix z Yd j c - atomMix w Yd j c) * (q j * atomMix w Yd j c - ∑ i, T i j * Y i c) := by
    rw [sum_comm]
    refine sum_congr rfl fun j _ => ?_
    have : ∀ c, (atomMix z Yd j c - atomMix w Yd j c) * (q j * atomMix w Yd j c - ∑ i, T i j * Y i c)
        = ∑ i, T i j * (atomMix w Yd j c * (atomMix z Yd j c - atomMix w Yd j c) - Y i c * (atomMix z Yd j c - atomMix w Yd j c)) := by
      intro c
      rw [← hq j, sum_mul, ← sum_sub_distrib, mul_sum]
      exact sum_congr rfl fun i _ => by ring
    simp only [this]
    rw [sum_comm]
    refine sum_congr rfl fun i _ => ?_
    rw [← sum_sub_distrib, mul_sum]
  unfold coefFgw
  simp only [embed_eq]
  rw [e1, e2, e3, e4]
  unfold cA cB
  by_cases h : reg = 0
  · simp [h]
  · simp [h]

theorem expand (α reg : ℝ) (C : I → I → ℝ) (Y : I → K → ℝ) (Cd : D → J → J → ℝ) (Yd : D → J → K → ℝ) (q : J → ℝ)
    (T : I → J → ℝ) (hq : ∀ j, ∑ i, T i j = q j) (hs : SymOk C Cd) (w z : D → ℝ) :
    ExpandsTo (unmixEnergy α reg C Y Cd Yd T) w z (cA α reg q Cd Yd w z) (cB α reg q (constTCT C T) T Y Cd Yd w z) := by
  intro γ
  unfold unmixEnergy fgwEnergy
  rw [gw_expand C _ T q hq, gw_expand C (atomMix w Cd) T q hq, feat_expand Y _ T q hq, feat_expand Y (atomMix w Yd) T q hq]
  simp only [mixture_move]
  have g1 : ∑ j, ∑ l, ((atomMix w Cd j l + γ * (atomMix z Cd j l - atomMix w Cd j l)) ^ 2 * constQ q j l
        - 2 * (atomMix w Cd j l + γ * (atomMix z Cd j l - atomMix w Cd j l)) * cross C T j l)
      = ∑ j, ∑ l, (atomMix w Cd j l ^ 2 * constQ q j l - 2 * atomMix w Cd j l * cross C T j l)
        + γ * (2 * ∑ j, ∑ l, (atomMix z Cd j l - atomMix w Cd j l) * (atomMix w Cd j l * constQ q j l - constTCT C T j l))
        + γ ^ 2 * ∑ j, ∑ l, (atomMix z Cd j l - atomMix w Cd j l) ^ 2 * constQ q j l := by
    have h := sum_cross_diff C Cd hs T w z
    have : ∑ j, ∑ l, (atomMix z Cd j l - atomMix w Cd j l) * (atomMix w Cd j l * constQ q j l - constTCT C T j l)
        = ∑ j, ∑ l, (atomMix z Cd j l - atomMix w Cd j l) * (atomMix w Cd j l * constQ q j l - cross C T j l) := by
      simp only [mul_sub, sum_sub_distrib] at h ⊢
      simp only [sub_mul, sum_sub_distrib] at h ⊢
      linarith
    rw [this]
    simp only [mul_sum, ← sum_add_distrib]
    exact sum_congr rfl fun j _ => sum_congr rfl fun l _ => by ring
  have g2 : ∑ j, ∑ c, ((atomMix w Yd j c + γ * (atomMix z Yd j c - atomMix w Yd j c)) ^ 2 * q j
        - 2 * (atomMix w Yd j c + γ * (atomMix z Yd j c - atomMix w Yd j c)) * ∑ i, T i j * Y i c)
      = ∑ j, ∑ c, (atomMix w Yd j c ^ 2 * q j - 2 * atomMix w Yd j c * ∑ i, T i j * Y i c)
        + γ * (2 * ∑ j, ∑ c, (atomMix z Yd j c - atomMix w Yd j c) * (q j * atomMix w Yd j c - ∑ i, T i j * Y i c))
        + γ ^ 2 * ∑ j, ∑ c, (atomMix z Yd j c - atomMix w Yd j c) ^ 2 * q j := by
    rw [mul_sum (a := (2 : ℝ)), mul_sum (a := γ), mul_sum (a := γ ^ 2), ← sum_add_distrib, ← sum_add_distrib]
    refine sum_congr rfl fun j _ => ?_
    rw [mul_sum (a := (2 : ℝ)), mul_sum (a := γ), mul_sum (a := γ ^ 2), ← sum_add_distrib, ← sum_add_distrib]
    exact sum_congr rfl fun c _ => by ring
  have g3 : ∑ d, (w d + γ * (z d - w d)) ^ 2 = ∑ d, w d ^ 2 + γ * (2 * ∑ d, w d * (z d - w d)) + γ ^ 2 * ∑ d, (z d - w d) ^ 2 := by
    simp only [mul_sum, ← sum_add_distrib]
    exact sum_congr rfl fun d _ => by ring
  rw [g1, g2, g3]
  unfold cA cB
  ring

theorem expandsTo_unique {f : (D → ℝ) → ℝ} {w z : D → ℝ} {a b a' b' : ℝ} (h : ExpandsTo f w z a b) (h' : ExpandsTo f w z a' b') :
    a = a' ∧ b = b' := by
  have h1 := (h 1).symm.trans (h' 1)
  have h2 := (h (-1)).symm.trans (h' (-1))
  constructor <;> linarith

/-! ## Direction -/

theorem dot_mixture {A B : Type} [Fintype A] [Fintype B] (M : D → A → B → ℝ) (G : A → B → ℝ) (w z : D → ℝ) :
    ∑ a, ∑ b, (atomMix z M a b - atomMix w M a b) * G a b = ∑ d, (z d - w d) * ∑ a, ∑ b, M d a b * G a b := by
  have : ∀ a b, (atomMix z M a b - atomMix w M a b) * G a b = ∑ d, (z d - w d) * (M d a b * G a b) := by
    intro a b
    unfold atomMix
    rw [← sum_sub_distrib, sum_mul]
    exact sum_congr rfl fun d _ => by ring
  simp only [this, mul_sum]
  rw [sum_congr rfl fun a _ => sum_comm (s := univ) (t := univ) (f := fun b d => (z d - w d) * (M d a b * G a b))]
  rw [sum_comm]

theorem slope_eq (α reg : ℝ) (q : J → ℝ) (TCT : J → J → ℝ) (T : I → J → ℝ) (Y : I → K → ℝ)
    (Cd : D → J → J → ℝ) (Yd : D → J → K → ℝ) (w z : D → ℝ) :
    cB α reg q TCT T Y Cd Yd w z
      = ∑ d, (z d - w d) * gradFgw α reg q TCT T Y Cd Yd (atomMix w Cd) (atomMix w Yd) w d := by
  unfold cB
  rw [dot_mixture Cd (fun j l => atomMix w Cd j l * constQ q j l - TCT j l) w z,
    dot_mixture Yd (fun j c => q j * atomMix w Yd j c - ∑ i, T i j * Y i c) w z]
  simp only [mul_sum (s := (univ : Finset D)), ← sum_add_distrib, ← sum_sub_distrib]
  exact sum_congr rfl fun d _ => by unfold gradFgw; ring

section
variable [Nonempty D]

theorem direction_weights (g : D → ℝ) : IsWeights (direction g) := by
  classical
  obtain ⟨d0, -, h0⟩ := Finset.exists_mem_eq_inf' (univ_nonempty (α := D)) g
  have hpos : 0 < ∑ e, (if g e = univ.inf' univ_nonempty g then (1 : ℝ) else 0) := by
    refine sum_pos' (fun e _ => by split_ifs <;> norm_num) ⟨d0, mem_univ _, by rw [if_pos h0.symm]; norm_num⟩
  constructor
  · intro d
    unfold direction
    refine div_nonneg ?_ hpos.le
    beta_reduce
    split_ifs <;> norm_num
  · unfold direction
    rw [← sum_div]
    exact div_self hpos.ne'

theorem direction_dot (g : D → ℝ) : ∑ d, direction g d * g d = univ.inf' univ_nonempty g := by
  classical
  have h := (direction_weights g).2
  have : ∀ d, direction g d * g d = direction g d * univ.inf' univ_nonempty g := by
    intro d
    unfold direction
    by_cases hd : g d = univ.inf' univ_nonempty g
    · rw [hd]
    · simp [hd]
  rw [sum_congr rfl fun d _ => this d, ← sum_mul, h, one_mul]

theorem direction_min (g : D → ℝ) (w z : D → ℝ) (hz : IsWeights z) :
    ∑ d, (direction g d - w d) * g d ≤ ∑ d, (z d - w d) * g d := by
  simp only [sub_mul, sum_sub_distrib]
  have : univ.inf' univ_nonempty g ≤ ∑ d, z d * g d := by
    calc univ.inf' univ_nonempty g = ∑ d, z d * univ.inf' univ_nonempty g := by rw [← sum_mul, hz.2, one_mul]
      _ ≤ ∑ d, z d * g d := sum_le_sum fun d _ => mul_le_mul_of_nonneg_left (inf'_le g (mem_univ d)) (hz.1 d)
  rw [direction_dot]
  linarith

end

/-! ## Step size -/

theorem step_mem (a b : ℝ) : 0 ≤ stepSize a b ∧ stepSize a b ≤ 1 := by
  unfold stepSize
  split_ifs
  · exact ⟨le_min zero_le_one (le_max_left _ _), min_le_left _ _⟩
  · exact ⟨zero_le_one, le_refl _⟩
  · exact ⟨le_refl _, zero_le_one⟩

theorem step_min (a b γ : ℝ) (h0 : 0 ≤ γ) (h1 : γ ≤ 1) :
    a * stepSize a b ^ 2 + b * stepSize a b ≤ a * γ ^ 2 + b * γ := by
  unfold stepSize
  split_ifs with ha hab
  · rcases le_total (-b / (2 * a)) 0 with h | h
    · rw [max_eq_left h, min_eq_right zero_le_one]
      have : 0 ≤ b := by
        by_contra hb
        have : 0 < -b / (2 * a) := div_pos (by linarith) (by linarith)
        linarith
      nlinarith [mul_nonneg ha.le (sq_nonneg γ), mul_nonneg this h0]
    · rw [max_eq_right h]
      rcases le_total (-b / (2 * a)) 1 with h' | h'
      · rw [min_eq_right h']
        have e : -b / (2 * a) * (2 * a) = -b := div_mul_cancel₀ _ (by linarith)
        generalize -b / (2 * a) = t at *
        have : b = -(t * (2 * a)) := by linarith
        subst this
        nlinarith [mul_nonneg ha.le (sq_nonneg (γ - t))]
      · rw [min_eq_left h']
        have : 2 * a ≤ -b := by
          rwa [le_div_iff₀ (by linarith), one_mul] at h'
        nlinarith [mul_nonneg ha.le (sq_nonneg (1 - γ)), mul_nonneg (sub_nonneg.2 h1) (by linarith : (0:ℝ) ≤ -b - 2 * a)]
  · have ha' : a ≤ 0 := not_lt.1 ha
    nlinarith [mul_nonneg (neg_nonneg.2 ha') (mul_nonneg h0 (sub_nonneg.2 h1)), mul_nonneg (sub_nonneg.2 h1) (neg_nonneg.2 hab.le)]
  · have ha' : a ≤ 0 := not_lt.1 ha
    nlinarith [mul_nonneg (neg_nonneg.2 ha') (mul_nonneg h0 (sub_nonneg.2 h1)), mul_nonneg h0 (not_lt.1 hab)]

/-- no decrease means no negative slope -/
theorem slope_of_stuck (a b : ℝ) (h : a * stepSize a b ^ 2 + b * stepSize a b = 0) : 0 ≤ b := by
  by_contra hb
  push Not at hb
  rcases le_or_gt a 0 with ha | ha
  · have := step_min a b 1 zero_le_one le_rfl
    nlinarith
  · have hs : 0 < min 1 (-b / (2 * a)) := lt_min one_pos (div_pos (by linarith) (by linarith))
    have := step_min a b (min 1 (-b / (2 * a))) hs.le (min_le_left _ _)
    have h2 : min 1 (-b / (2 * a)) * (2 * a) ≤ -b := by
      have := mul_le_mul_of_nonneg_right (min_le_right 1 (-b / (2 * a))) (by linarith : (0:ℝ) ≤ 2 * a)
      rwa [div_mul_cancel₀ _ (by linarith)] at this
    generalize min 1 (-b / (2 * a)) = t at *
    nlinarith

/-- the decrease of an exact line search against the slope -/
theorem slope_gap (a b L : ℝ) (haL : a ≤ L) (γ : ℝ) (h0 : 0 ≤ γ) (h1 : γ ≤ 1) :
    a * stepSize a b ^ 2 + b * stepSize a b ≤ L * γ ^ 2 + b * γ :=
  (step_min a b γ h0 h1).trans (by nlinarith [mul_le_mul_of_nonneg_right haL (sq_nonneg γ)])

end POT.GwDict
