import Mathlib.LinearAlgebra.Vandermonde
import Mathlib.Analysis.SpecialFunctions.Exponential
import Mathlib.Topology.Algebra.InfiniteSum.Real
import Mathlib.Tactic.Ring
import Mathlib.Tactic.FieldSimp
import Mathlib.Tactic.Positivity

/-! # Positive definiteness of the Gaussian kernel -/

namespace POT.GaussKernel

open Finset

variable {ι : Type*} [Fintype ι]

theorem hasSum_exp (x : ℝ) : HasSum (fun k : ℕ => x ^ k / k.factorial) (Real.exp x) := by
  rw [Real.exp_eq_exp_ℝ]
  exact NormedSpace.expSeries_div_hasSum_exp x

theorem gauss_split {r : ℝ} (hr : r ≠ 0) (x y : ℝ) : Real.exp (-((x - y) ^ 2) / r) = Real.exp (-(x ^ 2) / r) * Real.exp (-(y ^ 2) / r) * Real.exp (2 * x * y / r) := by
  rw [← Real.exp_add, ← Real.exp_add]
  congr 1
  field_simp
  ring

/-- feature of order `k` -/
noncomputable def phi (r : ℝ) (k : ℕ) (x : ℝ) : ℝ := Real.exp (-(x ^ 2) / r) * x ^ k

theorem hasSum_gauss {r : ℝ} (hr : r ≠ 0) (x : ι → ℝ) (B : ι → ι → ℝ) :
    HasSum (fun k : ℕ => (2 / r) ^ k / k.factorial * ∑ i, ∑ j, B i j * (phi r k (x i) * phi r k (x j))) (∑ i, ∑ j, B i j * Real.exp (-((x i - x j) ^ 2) / r)) := by
  have h : ∀ i j, HasSum (fun k : ℕ => (2 / r) ^ k / k.factorial * (B i j * (phi r k (x i) * phi r k (x j)))) (B i j * Real.exp (-((x i - x j) ^ 2) / r)) := by
    intro i j
    have h1 := (hasSum_exp (2 * x i * x j / r)).mul_left (B i j * (Real.exp (-(x i ^ 2) / r) * Real.exp (-(x j ^ 2) / r)))
    rw [gauss_split hr]
    have e : (fun k : ℕ => (2 / r) ^ k / k.factorial * (B i j * (phi r k (x i) * phi r k (x j))))
        = fun k : ℕ => B i j * (Real.exp (-(x i ^ 2) / r) * Real.exp (-(x j ^ 2) / r)) * ((2 * x i * x j / r) ^ k / k.factorial) := by
      funext k
      unfold phi
      rw [show 2 * x i * x j / r = 2 / r * (x i * x j) by ring, mul_pow, mul_pow]
      ring
    have e2 : B i j * (Real.exp (-(x i ^ 2) / r) * Real.exp (-(x j ^ 2) / r) * Real.exp (2 * x i * x j / r))
        = B i j * (Real.exp (-(x i ^ 2) / r) * Real.exp (-(x j ^ 2) / r)) * Real.exp (2 * x i * x j / r) := by ring
    rw [e, e2]
    exact h1
  simp only [mul_sum]
  exact hasSum_sum fun i _ => hasSum_sum fun j _ => h i j

/-- if every coefficient form is nonnegative, so is the sum; it vanishes only if all of them do -/
theorem gauss_nonneg {r : ℝ} (hr : 0 < r) (x : ι → ℝ) (B : ι → ι → ℝ) (h : ∀ k, 0 ≤ ∑ i, ∑ j, B i j * (phi r k (x i) * phi r k (x j))) :
    0 ≤ ∑ i, ∑ j, B i j * Real.exp (-((x i - x j) ^ 2) / r) ∧
    (∑ i, ∑ j, B i j * Real.exp (-((x i - x j) ^ 2) / r) = 0 → ∀ k, ∑ i, ∑ j, B i j * (phi r k (x i) * phi r k (x j)) = 0) := by
  have hs := hasSum_gauss hr.ne' x B
  have hn : ∀ k : ℕ, 0 ≤ (2 / r) ^ k / k.factorial * ∑ i, ∑ j, B i j * (phi r k (x i) * phi r k (x j)) := fun k => mul_nonneg (by positivity) (h k)
  refine ⟨hs.nonneg hn, fun h0 k => ?_⟩
  rw [h0] at hs
  have := congrFun ((hasSum_zero_iff_of_nonneg hn).1 hs) k
  have hp : (0 : ℝ) < (2 / r) ^ k / k.factorial := by positivity
  exact (mul_eq_zero.1 this).resolve_left hp.ne'

theorem sum_sq_form (f g : ι → ℝ) : ∑ i, ∑ j, f i * f j * (g i * g j) = (∑ i, f i * g i) ^ 2 := by
  rw [sq, sum_mul_sum]
  exact sum_congr rfl fun i _ => sum_congr rfl fun j _ => by ring

/-- the features separate distinct points -/
theorem phi_separates {r : ℝ} {n : ℕ} {x : Fin n → ℝ} (hx : Function.Injective x) {v : Fin n → ℝ} (h : ∀ k, ∑ i, v i * phi r k (x i) = 0) : v = 0 := by
  have h1 := Matrix.eq_zero_of_forall_pow_sum_mul_pow_eq_zero (f := x) (v := fun i => v i * Real.exp (-(x i ^ 2) / r)) hx fun k => by
    rw [← h k]
    exact sum_congr rfl fun i _ => by unfold phi; ring
  funext i
  have := congrFun h1 i
  exact (mul_eq_zero.1 this).resolve_right (Real.exp_pos _).ne'

/-- one-dimensional kernel -/
theorem gauss1 {r : ℝ} (hr : 0 < r) {n : ℕ} {x : Fin n → ℝ} (hx : Function.Injective x) (z : Fin n → ℝ) :
    0 ≤ ∑ i, ∑ j, z i * z j * Real.exp (-((x i - x j) ^ 2) / r) ∧ (∑ i, ∑ j, z i * z j * Real.exp (-((x i - x j) ^ 2) / r) = 0 → z = 0) := by
  obtain ⟨h1, h2⟩ := gauss_nonneg hr x (fun i j => z i * z j) fun k => by
    rw [sum_sq_form z fun i => phi r k (x i)]
    exact sq_nonneg _
  refine ⟨h1, fun h0 => phi_separates hx (r := r) fun k => ?_⟩
  have := h2 h0 k
  rw [sum_sq_form z fun i => phi r k (x i)] at this
  exact pow_eq_zero_iff (two_ne_zero) |>.1 this

/-- two-dimensional kernel on a grid -/
theorem gauss2 {r : ℝ} (hr : 0 < r) {m n : ℕ} {x : Fin m → ℝ} {y : Fin n → ℝ} (hx : Function.Injective x) (hy : Function.Injective y) (z : Fin m → Fin n → ℝ) :
    0 ≤ ∑ i, ∑ j, (∑ a, ∑ b, z i a * z j b * Real.exp (-((y a - y b) ^ 2) / r)) * Real.exp (-((x i - x j) ^ 2) / r) ∧
    (∑ i, ∑ j, (∑ a, ∑ b, z i a * z j b * Real.exp (-((y a - y b) ^ 2) / r)) * Real.exp (-((x i - x j) ^ 2) / r) = 0 → z = 0) := by
  have e : ∀ k, ∑ i, ∑ j, (∑ a, ∑ b, z i a * z j b * Real.exp (-((y a - y b) ^ 2) / r)) * (phi r k (x i) * phi r k (x j))
      = ∑ a, ∑ b, (∑ i, z i a * phi r k (x i)) * (∑ i, z i b * phi r k (x i)) * Real.exp (-((y a - y b) ^ 2) / r) := by
    intro k
    simp only [sum_mul]
    rw [sum_congr rfl fun i _ => sum_comm, sum_comm]
    refine sum_congr rfl fun a _ => ?_
    rw [sum_congr rfl fun i _ => sum_comm, sum_comm]
    refine sum_congr rfl fun b _ => sum_congr rfl fun i _ => ?_
    rw [mul_sum, sum_mul]
    exact sum_congr rfl fun j _ => by ring
  obtain ⟨h1, h2⟩ := gauss_nonneg hr x (fun i j => ∑ a, ∑ b, z i a * z j b * Real.exp (-((y a - y b) ^ 2) / r)) fun k => by
    rw [e]
    exact (gauss1 hr hy _).1
  refine ⟨h1, fun h0 => ?_⟩
  have h3 : ∀ k a, ∑ i, z i a * phi r k (x i) = 0 := by
    intro k a
    have := h2 h0 k
    rw [e] at this
    exact congrFun ((gauss1 hr hy _).2 this) a
  funext i a
  have := phi_separates hx (r := r) (v := fun i => z i a) fun k => h3 k a
  exact congrFun this i

end POT.GaussKernel
