import Verif.Spec.Transport
import Mathlib.Analysis.SpecialFunctions.Log.Basic

/-! # Specification vocabulary: Gromov-Wasserstein energies -/

namespace POT.Spec

open Finset

variable {R : Type*} [Field R]
variable {I J : Type*} [Fintype I] [Fintype J]

/-- The Gromov-Wasserstein energy `∑_{ijkl} L(C1_ik, C2_jl) T_ij T_kl`. -/
def gwEnergy (L : R → R → R) (C1 : I → I → R) (C2 : J → J → R) (T : I → J → R) : R :=
  ∑ i, ∑ j, ∑ k, ∑ l, L (C1 i k) (C2 j l) * T i j * T k l

/-- Inner product of two matrices. -/
def inner (A B : I → J → R) : R := ∑ i, ∑ j, A i j * B i j

/-- The square loss. -/
def sqLoss (a b : R) : R := (a - b) ^ 2

/-- The Kullback-Leibler loss `a log(a/b) - a + b`, with the guard `ε` the code adds inside the logarithms. -/
noncomputable def klLoss (ε : ℝ) (a b : ℝ) : ℝ := a * (Real.log (a + ε) - Real.log (b + ε)) - a + b

end POT.Spec
