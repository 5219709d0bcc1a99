import Mathlib.Data.Matrix.Diagonal
import Mathlib.Data.Real.Basic
import Mathlib.LinearAlgebra.Matrix.Trace

/-! # Specification vocabulary: symmetric matrices with eigenvalues bounded below -/

namespace POT.Spec

open Finset

variable {n : Type*} [Fintype n]

/-- Symmetric, and `xᵀ X x ≥ v |x|²` for every `x`: the eigenvalues are at least `v`. -/
def EigGe (v : ℝ) (X : Matrix n n ℝ) : Prop := (∀ i j, X i j = X j i) ∧ ∀ x : n → ℝ, v * ∑ i, x i ^ 2 ≤ ∑ i, ∑ j, x i * X i j * x j

/-- Squared Frobenius distance. -/
def frobDistSq (A B : Matrix n n ℝ) : ℝ := ∑ i, ∑ j, (A i j - B i j) ^ 2

/-- `(w, P)` is an eigendecomposition of `S`: `P` is orthogonal and `S = P diag(w) Pᵀ`. -/
def IsEigh [DecidableEq n] (S : Matrix n n ℝ) (e : (n → ℝ) × Matrix n n ℝ) : Prop :=
  e.2.transpose * e.2 = 1 ∧ e.2 * e.2.transpose = 1 ∧ ∀ i j, S i j = ∑ k, e.2 i k * e.1 k * e.2 j k

end POT.Spec
