import Verif.Spec.Transport
import Verif.Spec.Projection
import Mathlib.Analysis.SpecialFunctions.Exp
import Mathlib.Analysis.SpecialFunctions.Log.Basic

/-! # Specification vocabulary: transport regularised column by column -/

namespace POT.Spec

open Finset

/-- The regularisations of `smooth_ot_dual`: negative entropy, squared Euclidean norm, and the squared Euclidean norm with at most `maxNz` non-zeros in
every column. -/
inductive RegType where
  | kl
  | l2
  | sparse (maxNz : ℕ)

variable {n m : ℕ}

/-- Columns a plan may have. -/
def AdmCol (r : RegType) (y : Fin n → ℝ) : Prop :=
  (∀ i, 0 ≤ y i) ∧ match r with
    | .sparse k => nnz y ≤ k
    | _ => True

/-- The regularisation of one column: `γ ∑ y log y`, or `γ/2 ∑ y²`. -/
noncomputable def omega (r : RegType) (γ : ℝ) (y : Fin n → ℝ) : ℝ :=
  match r with
  | .kl => γ * ∑ i, y i * Real.log (y i)
  | _ => γ / 2 * ∑ i, y i ^ 2

/-- `⟨P, M⟩ + ∑ⱼ Ω(P[:, j])`. -/
noncomputable def regObjective (r : RegType) (γ : ℝ) (M P : Fin n → Fin m → ℝ) : ℝ :=
  cost M P + ∑ j, omega r γ (fun i => P i j)

/-- A coupling of `a` and `b` with admissible columns. -/
def RegCoupling (r : RegType) (a : Fin n → ℝ) (b : Fin m → ℝ) (P : Fin n → Fin m → ℝ) : Prop :=
  IsCoupling a b P ∧ ∀ j, AdmCol r (fun i => P i j)

/-- `P` minimises the regularised objective over the admissible couplings. -/
def RegOptimal (r : RegType) (γ : ℝ) (a : Fin n → ℝ) (b : Fin m → ℝ) (M P : Fin n → Fin m → ℝ) : Prop :=
  RegCoupling r a b P ∧ ∀ Q, RegCoupling r a b Q → regObjective r γ M P ≤ regObjective r γ M Q

/-- `P` is the only minimiser. -/
def RegUnique (r : RegType) (γ : ℝ) (a : Fin n → ℝ) (b : Fin m → ℝ) (M P : Fin n → Fin m → ℝ) : Prop :=
  ∀ Q, RegCoupling r a b Q → regObjective r γ M Q ≤ regObjective r γ M P → Q = P

end POT.Spec
