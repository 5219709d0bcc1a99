import Verif.Spec.Transport
import Verif.Spec.Barycenter
import Mathlib.Data.Finset.Sort
import Mathlib.Data.Fintype.Basic
import Mathlib.Analysis.SpecialFunctions.Exp

/-!
# Model: helpers that set up problems (`clean_zeros`, `dist0` in ot/utils.py, `make_1D_gauss` in ot/datasets.py)

Real arithmetic.
-/

set_option linter.unusedSectionVars false

namespace POT.Helpers

open Finset

variable {n m : ℕ}

open Classical in
/-- number of entries selected by the mask `a > 0` -/
noncomputable def count (a : Fin n → ℝ) : ℕ := (univ.filter fun i => a i > 0).card

open Classical in
/-- position of the `r`-th entry selected by the mask `a > 0` (boolean indexing keeps the order) -/
noncomputable def pick (a : Fin n → ℝ) : Fin (count a) ↪o Fin n := (univ.filter fun i => a i > 0).orderEmbOfFin (by rw [count])

/-- `clean_zeros` (ot/utils.py 262-267): `(a2, b2, M2)` -/
noncomputable def cleanZeros (a : Fin n → ℝ) (b : Fin m → ℝ) (M : Fin n → Fin m → ℝ) : (Fin (count a) → ℝ) × (Fin (count b) → ℝ) × (Fin (count a) → Fin (count b) → ℝ) :=
  (fun r => a (pick a r), fun s => b (pick b s), fun r s => M (pick a r) (pick b s))

/-- `make_1D_gauss` (ot/datasets.py 14-33) -/
noncomputable def gauss1D (n : ℕ) (μ s : ℝ) : Fin n → ℝ := fun i =>
  Real.exp (-((i : ℕ) - μ) ^ 2 / (2 * s ^ 2)) / ∑ k : Fin n, Real.exp (-((k : ℕ) - μ) ^ 2 / (2 * s ^ 2))

/-- `dist0(n)` (ot/utils.py 529-550): `dist` of the points `0, …, n - 1` with themselves, squared Euclidean -/
noncomputable def dist0 (n : ℕ) : Fin n → Fin n → ℝ := fun i j => Spec.sqEuclid (fun _ : Fin 1 => ((i : ℕ) : ℝ)) fun _ => ((j : ℕ) : ℝ)

end POT.Helpers
