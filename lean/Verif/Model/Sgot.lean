import Verif.Spec.Sgot
import Verif.Spec.Transport

/-!
# Model of the spectral-Grassmann distance (`ot/sgot.py`)

Exact arithmetic on complex numbers.  Shapes are given by the types, so `_validate_sgot_inputs` (304-328) always succeeds.  The exact solver `emd2` is a parameter (C01 and following).
-/

set_option linter.unusedSectionVars false

namespace POT.Sgot

open Finset POT.Spec

/-- a spectral decomposition: eigenvalues, right and left eigenvectors in columns -/
structure Atoms (n L : ℕ) where
  D : Fin n → ℂ
  R : Fin L → Fin n → ℂ
  L : Fin L → Fin n → ℂ

variable {n m L : ℕ}

/-- `eigenvalue_cost_matrix` (ot/sgot.py 28-69) -/
noncomputable def eigenCost (Ds : Fin n → ℂ) (Dt : Fin m → ℂ) (q : ℝ) (scaling : Option (ℝ × ℝ)) (i : Fin n) (j : Fin m) : ℝ :=
  let (sr, si) := scaling.getD (1, 1)
  let Dsn : ℂ := ⟨(Ds i).re * sr, (Ds i).im * si⟩
  let Dtn : ℂ := ⟨(Dt j).re * sr, (Dt j).im * si⟩
  ((Dsn.re - Dtn.re) ^ 2 + (Dsn.im - Dtn.im) ^ 2) ^ (q / 2)

/-- `_normalize_columns` (ot/sgot.py 72-92) -/
noncomputable def normalizeColumns (eps : ℝ) (A : Fin L → Fin n → ℂ) (k : Fin L) (i : Fin n) : ℂ := A k i / (max (Real.sqrt (∑ k, ‖A k i‖ ^ 2)) eps : ℝ)

/-- `_delta_matrix_1d` (ot/sgot.py 95-131) -/
noncomputable def delta (eps : ℝ) (S : Atoms n L) (T : Atoms m L) (i : Fin n) (j : Fin m) : ℝ :=
  let Cr := ∑ k, (starRingEnd ℂ) (normalizeColumns eps S.R k i) * normalizeColumns eps T.R k j
  let Cl := ∑ k, (starRingEnd ℂ) (normalizeColumns eps S.L k i) * normalizeColumns eps T.L k j
  min (max ‖Cr * Cl‖ 0) 1

/-- `_grassmann_distance_squared` (ot/sgot.py 134-179); the check on the range of `delta` never fails after the clip -/
noncomputable def grassmannQ (eps : ℝ) (metric : Grassmann) (q : ℝ) (δ : ℝ) : ℝ :=
  (match metric with
    | .geodesic => Real.arccos δ ^ 2
    | .chordal => 1 - δ ^ 2
    | .procrustes => 2 * (1 - δ)
    | .martin => -Real.log (max (δ ^ 2) eps)) ^ (q / 2)

/-- `sgot_cost_matrix` (ot/sgot.py 187-301): `eps` goes to the Martin metric only, the eigenvectors are normalised with the default `1e-12` (289) -/
noncomputable def costMatrix (S : Atoms n L) (T : Atoms m L) (η p q : ℝ) (metric : Grassmann) (scaling : Option (ℝ × ℝ)) (eps : ℝ) (i : Fin n) (j : Fin m) : ℝ :=
  let Clambda := eigenCost S.D T.D q scaling i j
  let Cgrass := grassmannQ eps metric q (delta (1 / 10 ^ 12) S T i j)
  (η * Clambda + (1 - η) * Cgrass) ^ (p / 2)

/-- the signature of `emd2` -/
abbrev Emd2 := (n m : ℕ) → (Fin n → ℝ) → (Fin m → ℝ) → (Fin n → Fin m → ℝ) → ℝ

/-- `sgot_metric` (ot/sgot.py 331-471) -/
noncomputable def metric (emd2 : Emd2) (S : Atoms n L) (T : Atoms m L) (η p q r : ℝ) (gm : Grassmann) (scaling : Option (ℝ × ℝ)) (Ws : Option (Fin n → ℝ)) (Wt : Option (Fin m → ℝ)) (eps : ℝ) : ℝ :=
  let C := costMatrix S T η p q gm scaling eps
  let Ws := Ws.getD fun _ => 1 / n
  let Wt := Wt.getD fun _ => 1 / m
  let Ws := fun i => Ws i / ∑ k, Ws k
  let Wt := fun j => Wt j / ∑ k, Wt k
  (emd2 n m Ws Wt C ^ (1 / p)) ^ (1 / r)

end POT.Sgot
