import Verif.Spec.GwEntropic

/-! # Specification vocabulary: Gromov-Wasserstein energies of matrices with entries in any set (edge features) -/

namespace POT.Spec

open Finset

variable {I J V : Type*} [Fintype I] [Fintype J]

/-- `∑_{ijkl} L(C1_ik, C2_jl) T_ij T_kl`, the entries of `C1`, `C2` being of any type. -/
def featEnergy (L : V → V → ℝ) (C1 : I → I → V) (C2 : J → J → V) (T : I → J → ℝ) : ℝ := ∑ i, ∑ j, ∑ k, ∑ l, L (C1 i k) (C2 j l) * T i j * T k l

/-- `(1 - α) ⟨M, T⟩ + α ∑_{ijkl} L(C1_ik, C2_jl) T_ij T_kl`. -/
noncomputable def featFused (L : V → V → ℝ) (C1 : I → I → V) (C2 : J → J → V) (M : I → J → ℝ) (α : ℝ) (T : I → J → ℝ) : ℝ := (1 - α) * cost M T + α * featEnergy L C1 C2 T

/-- squared Euclidean distance of two features -/
def featSq {D : Type*} [Fintype D] (x y : D → ℝ) : ℝ := ∑ d, (x d - y d) ^ 2

/-- `∑ y log(y / x)`: relative entropy of the second feature with respect to the first, with the guard `ε` inside the logarithms -/
noncomputable def featKl {D : Type*} [Fintype D] (ε : ℝ) (x y : D → ℝ) : ℝ := ∑ d, y d * (Real.log (y d + ε) - Real.log (x d + ε))

/-- `∑ y (log y - x)`, the first feature being a vector of logarithms -/
noncomputable def featLogits {D : Type*} [Fintype D] (ε : ℝ) (x y : D → ℝ) : ℝ := ∑ d, y d * (Real.log (y d + ε) - x d)

/-- first-order point among the plans with the same marginals: the derivative of the cost vanishes along every direction that keeps them -/
def IsFeatCritical (L : V → V → ℝ) (C1 : I → I → V) (C2 : J → J → V) (M : I → J → ℝ) (α : ℝ) (T : I → J → ℝ) : Prop :=
  ∀ Δ : I → J → ℝ, ZeroRows Δ → ZeroCols Δ → ∀ s : ℝ, featFused L C1 C2 M α (fun i j => T i j + s * Δ i j) = featFused L C1 C2 M α T + s ^ 2 * (α * featEnergy L C1 C2 Δ)

end POT.Spec
