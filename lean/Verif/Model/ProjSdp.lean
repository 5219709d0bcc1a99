import Mathlib.Data.Matrix.Diagonal
import Mathlib.Data.Real.Basic
import Mathlib.Data.Matrix.Mul

/-!
# Model of `proj_SDP` (`ot/utils.py`)
-/

namespace POT.ProjSdp

open Finset

variable {n : Type*} [Fintype n] [DecidableEq n]

/-- `nx.clip(w, vmin, None)` (ot/utils.py 1524). -/
noncomputable def clipMin (w : n → ℝ) (vmin : ℝ) : n → ℝ := fun k => max (w k) vmin

/-- `proj_SDP(S, vmin)` for one matrix (ot/utils.py 1523-1527); `eigh` is the routine of the backend (LAPACK), a parameter. -/
noncomputable def projSdp (eigh : Matrix n n ℝ → (n → ℝ) × Matrix n n ℝ) (S : Matrix n n ℝ) (vmin : ℝ) : Matrix n n ℝ :=
  (eigh S).2 * Matrix.diagonal (clipMin (eigh S).1 vmin) * (eigh S).2.transpose

/-- `proj_SDP(S, vmin)` for a stack of `N` matrices (ot/utils.py 1523-1524, 1529-1532): `eigh` acts on each matrix of the stack. -/
noncomputable def projSdpStack {N : ℕ} (eigh : Matrix n n ℝ → (n → ℝ) × Matrix n n ℝ) (S : Fin N → Matrix n n ℝ) (vmin : ℝ) : Fin N → Matrix n n ℝ :=
  let w : Fin N → n → ℝ := fun i => clipMin (eigh (S i)).1 vmin
  let P : Fin N → n → n → ℝ := fun i => (eigh (S i)).2
  let Q : Fin N → n → n → ℝ := fun i j k => P i j k * w i k            -- 1530: "ijk,ik->ijk"
  let Pt : Fin N → n → n → ℝ := fun i k l => P i l k                   -- transpose(P, (0, 2, 1))
  fun i => Matrix.of fun j l => ∑ k, Q i j k * Pt i k l                -- 1532: "ijk,ikl->ijl"

end POT.ProjSdp
