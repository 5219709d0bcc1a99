import Mathlib.Data.Real.Basic
import Mathlib.Algebra.BigOperators.Fin

/-! # Model of `free_support_sinkhorn_barycenter` (ot/bregman/_barycenter.py 262-400)

Real arithmetic; the inner `sinkhorn` is a parameter (its convergence to the entropic plan is the subject of C07); `b` and `weights` are given (when they are not, they are uniform, 355-358). -/

set_option linter.unusedSectionVars false

namespace POT.FreeSinkhorn

open Finset

variable {N k d : ℕ} {n : Fin N → ℕ}

/-- `dist(X, measure_locations_i)` (ot/bregman/_barycenter.py 373) -/
def distMat {m : ℕ} (X : Fin k → Fin d → ℝ) (Y : Fin m → Fin d → ℝ) : Fin k → Fin m → ℝ := fun i j => ∑ c, (X i c - Y j c) ^ 2

variable (sk : ∀ s : Fin N, (Fin k → Fin (n s) → ℝ) → (Fin k → Fin (n s) → ℝ)) (Y : ∀ s, Fin (n s) → Fin d → ℝ) (b : Fin k → ℝ) (w : Fin N → ℝ)

/-- `T_sum` (ot/bregman/_barycenter.py 368-379); `sk s` is `sinkhorn(b, measure_weights_s, ·, reg)` -/
noncomputable def step (X : Fin k → Fin d → ℝ) : Fin k → Fin d → ℝ := fun i c =>
  ∑ s, w s * 1 / b i * ∑ j, sk s (distMat X (Y s)) i j * Y s j c

/-- `displacement_square_norm` (ot/bregman/_barycenter.py 381) -/
def displacement (X X' : Fin k → Fin d → ℝ) : ℝ := ∑ i, ∑ c, (X' i c - X i c) ^ 2

open Classical in
/-- the loop (ot/bregman/_barycenter.py 367-394): remaining iterations, current displacement, current positions; returns the positions and `displacement_square_norms` -/
noncomputable def loop (stopThr : ℝ) : ℕ → ℝ → (Fin k → Fin d → ℝ) → (Fin k → Fin d → ℝ) × List ℝ
  | 0, _, X => (X, [])
  | m + 1, disp, X =>
    if disp > stopThr then
      let X' := step sk Y b w X
      let r := loop stopThr m (displacement X X') X'
      (r.1, displacement X X' :: r.2)
    else (X, [])

/-- `free_support_sinkhorn_barycenter` (ot/bregman/_barycenter.py 348-400): positions and logged displacements -/
noncomputable def run (numItermax : ℕ) (stopThr : ℝ) (Xinit : Fin k → Fin d → ℝ) : (Fin k → Fin d → ℝ) × List ℝ := loop sk Y b w stopThr numItermax (stopThr + 1) Xinit

end POT.FreeSinkhorn
