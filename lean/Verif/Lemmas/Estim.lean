import Verif.Spec.Estim
import Verif.Model.Estim
import Mathlib.Algebra.BigOperators.Ring.Finset
import Mathlib.Algebra.BigOperators.Field
import Mathlib.Tactic.Linarith
import Mathlib.Tactic.Ring
import Mathlib.Tactic.FieldSimp
import Mathlib.Logic.Equiv.Basic

set_option linter.unusedSectionVars false

namespace POT.Estim

open Finset POT.Spec

section mean

variable {X Y : Type*} [Fintype X] [DecidableEq X] [Fintype Y] {w : X → Y → ℝ}

theorem mean_mul (h : ∀ x, ∑ y, w x y = 1) (g : X → Y → ℝ) (s : Finset X) : indepMean w (fun ω => ∏ x ∈ s, g x (ω x)) = ∏ x ∈ s, ∑ y, w x y * g x y := by
  unfold indepMean
  have e : ∀ ω : X → Y, (∏ x, w x (ω x)) * ∏ x ∈ s, g x (ω x) = ∏ x, (w x (ω x) * if x ∈ s then g x (ω x) else 1) := fun ω => by
    rw [prod_mul_distrib, prod_ite_mem, univ_inter]
  simp_rw [e]
  have := prod_univ_sum (fun _ : X => (univ : Finset Y)) fun x y => w x y * if x ∈ s then g x y else 1
  rw [Fintype.piFinset_univ] at this
  rw [← this]
  have e2 : ∀ x, ∑ y, (w x y * if x ∈ s then g x y else 1) = if x ∈ s then ∑ y, w x y * g x y else 1 := fun x => by
    split_ifs
    · rfl
    · simp [h x]
  simp_rw [e2]
  rw [prod_ite_mem, univ_inter]

theorem mean_point (h : ∀ x, ∑ y, w x y = 1) (x : X) (f : Y → ℝ) : indepMean w (fun ω => f (ω x)) = ∑ y, w x y * f y := by
  have := mean_mul h (fun _ => f) {x}
  simpa using this

theorem mean_sum {A : Type*} (s : Finset A) (f : A → (X → Y) → ℝ) : indepMean w (fun ω => ∑ a ∈ s, f a ω) = ∑ a ∈ s, indepMean w (f a) := by
  unfold indepMean
  simp_rw [mul_sum]
  exact sum_comm

theorem mean_const (h : ∀ x, ∑ y, w x y = 1) (c : ℝ) : indepMean w (fun _ => c) = c := by
  unfold indepMean
  rw [← sum_mul]
  have := mean_mul h (fun _ _ => (1 : ℝ)) ∅
  simp only [prod_empty] at this
  unfold indepMean at this
  simp only [mul_one] at this
  rw [this, one_mul]

theorem mean_div (f : (X → Y) → ℝ) (c : ℝ) : indepMean w (fun ω => f ω / c) = indepMean w f / c := by
  unfold indepMean
  rw [sum_div]
  exact sum_congr rfl fun ω _ => by rw [mul_div_assoc]

end mean

theorem sampleMean_point {n s : ℕ} (hs : s ≤ n) (hn : 0 < n) (a : Fin s) (f : Fin n → ℝ) : sampleMean n s (fun σ => f (σ a)) = (∑ i, f i) / n := by
  have hcard : 0 < Fintype.card (Fin s ↪ Fin n) := Fintype.card_pos_iff.2 ⟨Fin.castLEEmb hs⟩
  have hc : (Fintype.card (Fin s ↪ Fin n) : ℝ) ≠ 0 := by exact_mod_cast hcard.ne'
  have hnr : (n : ℝ) ≠ 0 := by exact_mod_cast hn.ne'
  unfold sampleMean
  rw [div_eq_div_iff hc hnr]
  -- average over translations by permutations
  have inv : ∀ π : Equiv.Perm (Fin n), ∑ σ : Fin s ↪ Fin n, f (π (σ a)) = ∑ σ : Fin s ↪ Fin n, f (σ a) := fun π =>
    Fintype.sum_equiv (Equiv.embeddingCongr (Equiv.refl _) π) _ _ fun σ => rfl
  haveI : NeZero n := ⟨hn.ne'⟩
  have e1 : ∑ k : Fin n, ∑ σ : Fin s ↪ Fin n, f (σ a + k) = ∑ σ : Fin s ↪ Fin n, ∑ k, f k := by
    rw [sum_comm]
    exact sum_congr rfl fun σ _ => Equiv.sum_comp (Equiv.addLeft (σ a)) f
  have e2 : ∀ k : Fin n, ∑ σ : Fin s ↪ Fin n, f (σ a + k) = ∑ σ : Fin s ↪ Fin n, f (σ a) := fun k => inv (Equiv.addRight k)
  simp_rw [e2] at e1
  rw [sum_const, sum_const, card_univ, card_univ, Fintype.card_fin, nsmul_eq_mul, nsmul_eq_mul] at e1
  linarith

theorem sampleMean_sum {n s : ℕ} {A : Type*} (t : Finset A) (f : A → (Fin s ↪ Fin n) → ℝ) : sampleMean n s (fun σ => ∑ a ∈ t, f a σ) = ∑ a ∈ t, sampleMean n s (f a) := by
  unfold sampleMean
  rw [sum_comm, sum_div]

theorem sampleMean_div {n s : ℕ} (f : (Fin s ↪ Fin n) → ℝ) (c : ℝ) : sampleMean n s (fun σ => f σ / c) = sampleMean n s f / c := by
  unfold sampleMean
  rw [← sum_div, div_right_comm]

/-- the expectation of the estimate over the columns -/
theorem estimate_mean {n m s r : ℕ} (hr : 0 < r) {L : ℝ → ℝ → ℝ} {C1 : Fin n → Fin n → ℝ} {C2 : Fin m → Fin m → ℝ} {T : Fin n → Fin m → ℝ} (hT : ∀ i, ∑ j, T i j ≠ 0) (i j : Fin s → Fin n) :
    indepMean (fun x : Fin s × Fin r => rowLaw T (i x.1)) (fun k => indepMean (fun x : Fin s × Fin r => rowLaw T (j x.1)) fun l => estimate L C1 C2 ⟨i, j, fun a c => k (a, c), fun b c => l (b, c)⟩) =
      (∑ a, ∑ b, ∑ k, ∑ l, rowLaw T (i a) k * rowLaw T (j b) l * L (C1 (i a) (j b)) (C2 k l)) / ((s : ℝ) * s) := by
  have h1 : ∀ g : Fin s → Fin n, ∀ x : Fin s × Fin r, ∑ y, rowLaw T (g x.1) y = 1 := fun g x => by
    unfold rowLaw
    rw [← sum_div, div_self (hT _)]
  have hr' : (r : ℝ) ≠ 0 := by exact_mod_cast hr.ne'
  unfold estimate
  simp only [mean_div, mean_sum]
  have e : ∀ (a b : Fin s) (c : Fin r), indepMean (fun x : Fin s × Fin r => rowLaw T (i x.1)) (fun k => indepMean (fun x : Fin s × Fin r => rowLaw T (j x.1)) fun l => L (C1 (i a) (j b)) (C2 (k (a, c)) (l (b, c)))) = ∑ k, ∑ l, rowLaw T (i a) k * rowLaw T (j b) l * L (C1 (i a) (j b)) (C2 k l) := fun a b c => by
    have e1 : ∀ k : Fin s × Fin r → Fin m, indepMean (fun x : Fin s × Fin r => rowLaw T (j x.1)) (fun l => L (C1 (i a) (j b)) (C2 (k (a, c)) (l (b, c)))) = ∑ l, rowLaw T (j b) l * L (C1 (i a) (j b)) (C2 (k (a, c)) l) := fun k =>
      mean_point (h1 j) (b, c) fun l => L (C1 (i a) (j b)) (C2 (k (a, c)) l)
    simp_rw [e1]
    rw [mean_point (h1 i) (a, c) fun k => ∑ l, rowLaw T (j b) l * L (C1 (i a) (j b)) (C2 k l)]
    refine sum_congr rfl fun k _ => ?_
    rw [mul_sum]
    exact sum_congr rfl fun l _ => by ring
  simp_rw [e]
  simp only [sum_const, card_univ, Fintype.card_fin, nsmul_eq_mul]
  simp_rw [← mul_sum]
  rw [mul_comm (r : ℝ), mul_div_mul_right _ _ hr']

end POT.Estim
