import Verif.Model.Utils
import Verif.Spec.Smooth
import Mathlib.Data.Finset.Lattice.Fold

/-!
# Model of `ot/smooth.py`

Exact arithmetic over `ℝ`.  The optimiser (`scipy.optimize.minimize`, 352-359 and 441-448) is not modelled: the theorems hold for every
potential it may return, at whatever iteration it stops.
-/

set_option linter.unusedSectionVars false

namespace POT.Smooth

open Finset Spec

variable {n m : ℕ}

/-- one row of `projection_simplex(V, z, axis=1)` (ot/smooth.py 86-94); the same operations as `proj_simplex` in ot/utils.py, whose helpers are used here.
With `axis=0` (96-97) every column is projected. -/
noncomputable def projectionSimplex (v : Fin n → ℝ) (z : ℝ) : Fin n → ℝ :=
  let u := Utils.sortDesc (List.ofFn v)
  fun i => max (v i - Utils.theta u z) 0

/-- The part of numpy `SparsityConstrained` relies on: `part x` are the first `max_nz` indices of `np.argpartition(-x, max_nz)` (236), `sort x` is
`argsort x` (ot/utils.py 199). -/
structure Oracle (n : ℕ) where
  part : (Fin n → ℝ) → ℕ → Finset (Fin n)
  sort : (Fin n → ℝ) → Equiv.Perm (Fin n)

/-- what numpy promises -/
structure Oracle.Ok (o : Oracle n) : Prop where
  card : ∀ x k, k < n → (o.part x k).card = k
  top : ∀ x k, k < n → ∀ i ∈ o.part x k, ∀ j ∉ o.part x k, x j ≤ x i
  sorted : ∀ x, Monotone (x ∘ o.sort x)

/-- `np.max(X, axis=0)` for one column; `0` without rows (numpy raises) -/
noncomputable def maxOf (x : Fin n → ℝ) : ℝ := if h : (univ : Finset (Fin n)).Nonempty then univ.sup' h x else 0

/-- `delta_Omega` on one column: value and gradient (`NegEntropy` ot/smooth.py 191-194, `SquaredL2` 211-215, `SparsityConstrained` 234-245).
For `max_nz ≥ n` `argpartition` raises; here the column is then cut at whatever `part` returns. -/
noncomputable def deltaOmega (o : Oracle n) (r : RegType) (γ : ℝ) (x : Fin n → ℝ) : ℝ × (Fin n → ℝ) :=
  match r with
  | .kl =>
    let G := fun i => Real.exp (x i / γ - 1)
    (γ * ∑ i, G i, G)
  | .l2 =>
    let mx := fun i => max (x i) 0
    ((∑ i, mx i ^ 2) / (2 * γ), fun i => mx i / γ)
  | .sparse k =>
    let x' := fun i => if i ∈ o.part x k then x i else 0
    let mx := fun i => max (x' i) 0
    ((∑ i, mx i ^ 2) / (2 * γ), fun i => mx i / γ)

/-- `max_Omega` on one column `x` with weight `b` (`NegEntropy` ot/smooth.py 196-202, `SquaredL2` 217-221, `SparsityConstrained` 247-254).
`projection_sparse_simplex` raises for `max_nz > n ≥ 2`; here the projection is then `0`. -/
noncomputable def maxOmega (o : Oracle n) (r : RegType) (γ : ℝ) (x : Fin n → ℝ) (b : ℝ) : ℝ × (Fin n → ℝ) :=
  match r with
  | .kl =>
    let mx := maxOf x / γ
    let e := fun i => Real.exp (x i / γ - mx)
    (γ * (Real.log (∑ i, e i) + mx) - γ * Real.log b, fun i => e i / ∑ k, e k)
  | .l2 =>
    let G := projectionSimplex (fun i => x i / (b * γ)) 1
    (∑ i, x i * G i - 1 / 2 * γ * b * ∑ i, G i * G i, G)
  | .sparse k =>
    let v := fun i => x i / (b * γ)
    let G := (Utils.sparseProjRow (o.sort v) v k 1).getD fun _ => 0
    (∑ i, x i * G i - 1 / 2 * γ * b * ∑ i, G i * G i, G)

/-- `dual_obj_grad` (ot/smooth.py 260-301): objective, gradient in `alpha`, gradient in `beta` -/
noncomputable def dualObjGrad (o : Oracle n) (r : RegType) (γ : ℝ) (α : Fin n → ℝ) (β : Fin m → ℝ) (a : Fin n → ℝ) (b : Fin m → ℝ)
    (C : Fin n → Fin m → ℝ) : ℝ × (Fin n → ℝ) × (Fin m → ℝ) :=
  let X := fun i j => α i + β j - C i j
  let V := fun j => deltaOmega o r γ (fun i => X i j)
  (∑ i, α i * a i + ∑ j, β j * b j - ∑ j, (V j).1, fun i => a i - ∑ j, (V j).2 i, fun j => b j - ∑ i, (V j).2 i)

/-- `semi_dual_obj_grad` (ot/smooth.py 367-403) -/
noncomputable def semiDualObjGrad (o : Oracle n) (r : RegType) (γ : ℝ) (α : Fin n → ℝ) (a : Fin n → ℝ) (b : Fin m → ℝ)
    (C : Fin n → Fin m → ℝ) : ℝ × (Fin n → ℝ) :=
  let X := fun i j => α i - C i j
  let V := fun j => maxOmega o r γ (fun i => X i j) (b j)
  (∑ i, α i * a i - ∑ j, b j * (V j).1, fun i => a i - ∑ j, (V j).2 i * b j)

/-- `get_plan_from_dual` (ot/smooth.py 453-473) -/
noncomputable def planFromDual (o : Oracle n) (r : RegType) (γ : ℝ) (α : Fin n → ℝ) (β : Fin m → ℝ) (C : Fin n → Fin m → ℝ) : Fin n → Fin m → ℝ :=
  fun i j => (deltaOmega o r γ (fun i => α i + β j - C i j)).2 i

/-- `get_plan_from_semi_dual` (ot/smooth.py 476-496) -/
noncomputable def planFromSemiDual (o : Oracle n) (r : RegType) (γ : ℝ) (α : Fin n → ℝ) (b : Fin m → ℝ) (C : Fin n → Fin m → ℝ) : Fin n → Fin m → ℝ :=
  fun i j => (maxOmega o r γ (fun i => α i - C i j) (b j)).2 i * b j

end POT.Smooth
