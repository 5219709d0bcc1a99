import Verif.Spec.Gromov
import Mathlib.Data.Real.Basic
import Mathlib.Data.Fintype.Card

/-!
# Specification vocabulary: unmixing a graph on a dictionary

Nothing here refers to the model of the code.
-/

namespace POT.Spec

open Finset

variable {I J D K : Type*} [Fintype I] [Fintype J] [Fintype D] [Fintype K]

/-- Weights on the atoms: non-negative, of sum one. -/
def IsWeights (w : D → ℝ) : Prop := (∀ d, 0 ≤ w d) ∧ ∑ d, w d = 1

/-- The atomMix `∑_d w_d A_d` of matrices. -/
def atomMix {A B : Type*} (w : D → ℝ) (M : D → A → B → ℝ) : A → B → ℝ := fun a b => ∑ d, w d * M d a b

/-- Squared Euclidean distances between the rows of `Y` and of `F`. -/
def featDist (Y : I → K → ℝ) (F : J → K → ℝ) : I → J → ℝ := fun i j => ∑ k, (Y i k - F j k) ^ 2

/-- Fused Gromov-Wasserstein energy of a plan: `α ∑ (C_ik - E_jl)² T_ij T_kl + (1 - α) ∑ ‖Y_i - F_j‖² T_ij`. -/
noncomputable def fgwEnergy (α : ℝ) (C : I → I → ℝ) (Y : I → K → ℝ) (E : J → J → ℝ) (F : J → K → ℝ) (T : I → J → ℝ) : ℝ :=
  α * gwEnergy sqLoss C E T + (1 - α) * cost (featDist Y F) T

/-- The documented objective of unmixing for a fixed plan: energy towards the atomMix, minus `reg ‖w‖²`. -/
noncomputable def unmixEnergy (α reg : ℝ) (C : I → I → ℝ) (Y : I → K → ℝ) (Cd : D → J → J → ℝ) (Yd : D → J → K → ℝ)
    (T : I → J → ℝ) (w : D → ℝ) : ℝ :=
  fgwEnergy α C Y (atomMix w Cd) (atomMix w Yd) T - reg * ∑ d, w d ^ 2

/-- The same without features. -/
noncomputable def unmixGwEnergy (reg : ℝ) (C : I → I → ℝ) (Cd : D → J → J → ℝ) (T : I → J → ℝ) (w : D → ℝ) : ℝ :=
  gwEnergy sqLoss C (atomMix w Cd) T - reg * ∑ d, w d ^ 2

/-- `b + a ε`-expansion at a point: `f (w + γ (z - w)) = f w + b γ + a γ²` for all `γ`; then `b` is the slope of
`f` at `w` towards `z`. -/
def ExpandsTo (f : (D → ℝ) → ℝ) (w z : D → ℝ) (a b : ℝ) : Prop :=
  ∀ γ : ℝ, f (fun d => w d + γ * (z d - w d)) = f w + b * γ + a * γ ^ 2

/-- First-order stationary point on the weights: no direction towards other weights has a negative slope. -/
def IsStationaryWeights (f : (D → ℝ) → ℝ) (w : D → ℝ) : Prop :=
  IsWeights w ∧ ∀ z, IsWeights z → ∀ a b, ExpandsTo f w z a b → 0 ≤ b

/-- The matrix is symmetric. -/
def IsSymm {A : Type*} (C : A → A → ℝ) : Prop := ∀ i j, C i j = C j i

/-- What is asked of a plan solver for the fused energy with structures `C`, `E`, feature cost `M`: started at a plan it
returns a plan between the same marginals, its energy, and this energy is not above that of the starting plan. -/
def IsFgwSolver (α : ℝ) (C : I → I → ℝ) (p : I → ℝ) (q : J → ℝ)
    (solve : (I → J → ℝ) → (J → J → ℝ) → (I → J → ℝ) → (I → J → ℝ) × ℝ) : Prop :=
  ∀ M E G, IsCoupling p q G → IsCoupling p q (solve M E G).1 ∧
    (solve M E G).2 = α * gwEnergy sqLoss C E (solve M E G).1 + (1 - α) * cost M (solve M E G).1 ∧
    (solve M E G).2 ≤ α * gwEnergy sqLoss C E G + (1 - α) * cost M G

/-- The same without features. -/
def IsGwSolver (C : I → I → ℝ) (p : I → ℝ) (q : J → ℝ) (solve : (J → J → ℝ) → (I → J → ℝ) → (I → J → ℝ) × ℝ) : Prop :=
  ∀ E G, IsCoupling p q G → IsCoupling p q (solve E G).1 ∧
    (solve E G).2 = gwEnergy sqLoss C E (solve E G).1 ∧ (solve E G).2 ≤ gwEnergy sqLoss C E G

/-- Mean squared reconstruction loss of structures `C_b` (plans `T_b`, weights `w_b`) on a dictionary. -/
noncomputable def meanReconstruction {B : Type*} [Fintype B] (C : B → I → I → ℝ) (w : B → D → ℝ) (T : B → I → J → ℝ)
    (Cd : D → J → J → ℝ) : ℝ := (∑ b, gwEnergy sqLoss (C b) (atomMix (w b) Cd) (T b)) / Fintype.card B

end POT.Spec
