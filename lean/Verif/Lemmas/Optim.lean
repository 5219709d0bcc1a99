import Verif.Model.Optim
import Verif.Lemmas.Transport
import Mathlib.Logic.Function.Iterate

/-! # Invariants of the conditional gradient loop -/

set_option linter.unusedSectionVars false

namespace POT.Optim

open Finset Spec

variable {R : Type*} [Field R] [LinearOrder R] [IsStrictOrderedRing R]
variable {I J : Type*} [Fintype I] [Fintype J]

/-- State after `k` iterations (without the stopping test). -/
def Problem.iter (P : Problem R I J) (G0 : I → J → R) : ℕ → State R I J
  | 0 => P.init G0
  | k + 1 => P.step (P.iter G0 k)

theorem Problem.iter_it (P : Problem R I J) (G0 : I → J → R) (k : ℕ) : (P.iter G0 k).it = k := by
  induction k with
  | zero => rfl
  | succ k ih => simp [iter, step, ih]

theorem Problem.iter_losses (P : Problem R I J) (G0 : I → J → R) (k : ℕ) :
    (P.iter G0 k).losses = (List.range (k + 1)).reverse.map fun i => (P.iter G0 i).costG := by
  induction k with
  | zero => simp [iter, init]
  | succ k ih =>
    rw [List.range_succ, List.reverse_append, List.map_append, ← ih]
    simp [iter, step]

/-- The loop stops at one of the first `max 1 numItermax` iterates. -/
theorem Problem.loop_iter (P : Problem R I J) (G0 : I → J → R) :
    ∀ (fuel k : ℕ), (P.numItermax ≤ k + fuel ∧ 1 ≤ fuel) →
      ∃ j, k < j ∧ j ≤ k + fuel ∧ P.loop fuel (P.iter G0 k) = some (P.iter G0 j) := by
  intro fuel
  induction fuel with
  | zero => intro k h; omega
  | succ fuel ih =>
    intro k h
    simp only [loop]
    split_ifs with hs
    · exact ⟨k + 1, by omega, by omega, rfl⟩
    · have hit : ¬ P.numItermax ≤ (P.step (P.iter G0 k)).it := by
        intro hc; apply hs; simp [stop, hc]
      have hit' : k + 1 < P.numItermax := by
        have := P.iter_it G0 (k + 1); simp only [iter] at this; omega
      obtain ⟨j, h1, h2, h3⟩ := ih (k + 1) ⟨by omega, by omega⟩
      exact ⟨j, by omega, by omega, h3⟩

theorem Problem.loop_init (P : Problem R I J) (G0 : I → J → R) :
    ∃ j, 1 ≤ j ∧ j ≤ max 1 P.numItermax ∧
      P.loop (max 1 P.numItermax) (P.init G0) = some (P.iter G0 j) := by
  obtain ⟨j, h1, h2, h3⟩ := P.loop_iter G0 (max 1 P.numItermax) 0 ⟨by omega, by omega⟩
  exact ⟨j, by omega, by omega, h3⟩

/-- What one iteration must guarantee for the losses to be true and non-increasing. -/
def Problem.Good (P : Problem R I J) (Inv : (I → J → R) → Prop) : Prop :=
  ∀ s : State R I J, Inv s.G → s.costG = P.cost s.G → (∀ d, s.dfG = some d → d = P.df s.G) →
    Inv (P.step s).G ∧ (P.step s).costG = P.cost (P.step s).G ∧
      (∀ d, (P.step s).dfG = some d → d = P.df (P.step s).G) ∧ (P.step s).costG ≤ s.costG

theorem Problem.Good.iter {P : Problem R I J} {Inv : (I → J → R) → Prop} (h : P.Good Inv) {G0 : I → J → R}
    (h0 : Inv G0) (k : ℕ) :
    Inv (P.iter G0 k).G ∧ (P.iter G0 k).costG = P.cost (P.iter G0 k).G ∧
      (∀ d, (P.iter G0 k).dfG = some d → d = P.df (P.iter G0 k).G) := by
  induction k with
  | zero => exact ⟨h0, rfl, fun d hd => by simp [Problem.iter, init] at hd⟩
  | succ k ih =>
    obtain ⟨h1, h2, h3, _⟩ := h _ ih.1 ih.2.1 ih.2.2
    exact ⟨h1, h2, h3⟩

theorem Problem.Good.mono {P : Problem R I J} {Inv : (I → J → R) → Prop} (h : P.Good Inv) {G0 : I → J → R}
    (h0 : Inv G0) (k : ℕ) : P.cost (P.iter G0 (k + 1)).G ≤ P.cost (P.iter G0 k).G := by
  obtain ⟨i1, i2, i3⟩ := h.iter h0 k
  obtain ⟨h1, h2, h3, h4⟩ := h _ i1 i2 i3
  have : (P.iter G0 (k + 1)) = P.step (P.iter G0 k) := rfl
  rw [this, ← h2, ← i2]; exact h4

theorem Problem.Good.losses {P : Problem R I J} {Inv : (I → J → R) → Prop} (h : P.Good Inv) {G0 : I → J → R}
    (h0 : Inv G0) (k : ℕ) :
    (P.iter G0 k).losses = (List.range (k + 1)).reverse.map fun i => P.cost (P.iter G0 i).G := by
  rw [P.iter_losses]
  exact List.map_congr_left fun i _ => (h.iter h0 i).2.1

/-- convex combinations of couplings -/
theorem _root_.POT.Spec.IsCoupling.line {a : I → R} {b : J → R} {G H : I → J → R} (hG : IsCoupling a b G)
    (hH : IsCoupling a b H) {t : R} (h0 : 0 ≤ t) (h1 : t ≤ 1) :
    IsCoupling a b (fun i j => G i j + t * (H i j - G i j)) where
  nonneg i j := by
    have := hG.nonneg i j; have := hH.nonneg i j
    have e : G i j + t * (H i j - G i j) = (1 - t) * G i j + t * H i j := by ring
    rw [e]; exact add_nonneg (mul_nonneg (by linarith) (hG.nonneg i j)) (mul_nonneg h0 (hH.nonneg i j))
  row i := by
    rw [sum_add_distrib, ← mul_sum, sum_sub_distrib, hG.row, hH.row]; ring
  col j := by
    rw [sum_add_distrib, ← mul_sum, sum_sub_distrib, hG.col, hH.col]; ring

theorem quadStep_mem (a b : R) : 0 ≤ quadStep a b ∧ quadStep a b ≤ 1 := by
  unfold quadStep
  split_ifs
  · exact ⟨le_min zero_le_one (le_max_left _ _), min_le_left _ _⟩
  · exact ⟨zero_le_one, le_rfl⟩
  · exact ⟨le_rfl, zero_le_one⟩

theorem quadStep_min (a b x : R) (hx0 : 0 ≤ x) (hx1 : x ≤ 1) :
    a * quadStep a b ^ 2 + b * quadStep a b ≤ a * x ^ 2 + b * x := by
  unfold quadStep
  split_ifs with ha hab
  · set m := -b / (2 * a) with hm
    have hb : b = -(2 * a * m) := by rw [hm]; field_simp
    rcases le_total m 0 with h | h
    · rw [max_eq_left h, min_eq_right zero_le_one, hb]
      have : 0 ≤ a * (x * (x - 2 * m)) := mul_nonneg ha.le (mul_nonneg hx0 (by linarith))
      nlinarith
    · rw [max_eq_right h]
      rcases le_total 1 m with h' | h'
      · rw [min_eq_left h', hb]
        have : 0 ≤ a * ((1 - x) * (2 * m - 1 - x)) := mul_nonneg ha.le (mul_nonneg (by linarith) (by linarith))
        nlinarith
      · rw [min_eq_right h', hb]
        have : 0 ≤ a * (x - m) ^ 2 := mul_nonneg ha.le (sq_nonneg _)
        nlinarith
  · push Not at ha
    -- concave: x(a x + b) ≥ x (a + b) ≥ a + b
    have h1 : 0 ≤ x * (1 - x) * (-a) := mul_nonneg (mul_nonneg hx0 (by linarith)) (by linarith)
    have h2 : 0 ≤ (1 - x) * (-(a + b)) := mul_nonneg (by linarith) (by linarith)
    nlinarith
  · push Not at ha hab
    have h1 : 0 ≤ x * (1 - x) * (-a) := mul_nonneg (mul_nonneg hx0 (by linarith)) (by linarith)
    have h2 : 0 ≤ x * (a + b) := mul_nonneg hx0 hab
    nlinarith

theorem Problem.returned {P : Problem R I J} {G0 : I → J → R} {Inv : (I → J → R) → Prop} {obj : (I → J → R) → R}
    (h : ∀ k, Inv (P.iter G0 k).G ∧
      (P.iter G0 k).losses = (List.range (k + 1)).reverse.map (fun i => obj (P.iter G0 i).G) ∧
      obj (P.iter G0 (k + 1)).G ≤ obj (P.iter G0 k).G) :
    ∃ s, P.loop (max 1 P.numItermax) (P.init G0) = some s ∧ Inv s.G ∧ s.losses.head? = some (obj s.G) ∧
      obj s.G ≤ obj G0 := by
  obtain ⟨j, h1, h2, h3⟩ := P.loop_init G0
  refine ⟨_, h3, (h j).1, ?_, ?_⟩
  · rw [(h j).2.1, List.range_succ]; simp
  · have : ∀ k, obj (P.iter G0 k).G ≤ obj (P.iter G0 0).G := by
      intro k
      induction k with
      | zero => exact le_rfl
      | succ k ih => exact (h k).2.2.trans ih
    exact this j

end POT.Optim
