import Verif.Spec.LowRank
import Verif.Spec.Gromov

/-! # Specification vocabulary: low-rank Gromov-Wasserstein -/

namespace POT.Spec

open Finset

variable {I J K : Type*} [Fintype I] [Fintype J] [Fintype K]

/-- `∑ a_i a_k D₁(i,k)² + ∑ b_j b_l D₂(j,l)² - 2 ∑ D₁(i,k) D₂(j,l) S(i,j) T(k,l)`: for `S = T` a coupling of `a` and `b` this is the Gromov-Wasserstein energy of `T` for the square loss. -/
def gwMixed (D1 : I → I → ℝ) (D2 : J → J → ℝ) (a : I → ℝ) (b : J → ℝ) (S T : I → J → ℝ) : ℝ :=
  ∑ i, ∑ k, D1 i k ^ 2 * a i * a k + ∑ j, ∑ l, D2 j l ^ 2 * b j * b l - 2 * ∑ i, ∑ j, ∑ k, ∑ l, D1 i k * D2 j l * S i j * T k l

/-- The objective of low-rank Gromov-Wasserstein: energy of the plan `Q diag(1/g) Rᵀ` plus `reg` times the negative entropies of the factors. -/
noncomputable def lrGwObjective (D1 : I → I → ℝ) (D2 : J → J → ℝ) (a : I → ℝ) (b : J → ℝ) (reg : ℝ) (Q : I → K → ℝ) (R : J → K → ℝ) (g : K → ℝ) : ℝ :=
  gwMixed D1 D2 a b (lrPlan Q R g) (lrPlan Q R g) +
    reg * (∑ i, ∑ k, Q i k * (Real.log (Q i k) - 1) + ∑ j, ∑ k, R j k * (Real.log (R j k) - 1) + ∑ k, g k * (Real.log (g k) - 1))

end POT.Spec
