import Mathlib.Algebra.Order.Field.Basic
import Mathlib.Algebra.BigOperators.Ring.Finset
import Mathlib.Data.Fintype.BigOperators
import Mathlib.Data.Finset.Lattice.Fold

/-!
# Model of the Python layer around the exact solver

`ot/lp/_network_simplex.py`: `center_ot_dual`, `estimate_dual_null_weights`, the zero-weight filter and its inverse, the
post-processing of `emd` and the gradients of `emd2`.  Index sets are arbitrary finite types; arrays are functions.
-/

namespace POT.LpDual

open Finset

variable {R : Type*} [Field R] [LinearOrder R]
variable {I J : Type*} [Fintype I] [Fintype J]

/-- `center_ot_dual` (ot/lp/_network_simplex.py 80-89) with explicit weights. -/
def centerOtDual (α₀ : I → R) (β₀ : J → R) (a : I → R) (b : J → R) : (I → R) × (J → R) :=
  let ips := ∑ j, b j * β₀ j - ∑ i, a i * α₀ i   -- 81
  let denom := ∑ i, a i + ∑ j, b j                -- 82
  let c := ips / denom                            -- 83
  (fun i => α₀ i + c, fun j => β₀ j - c)          -- 86-87

/-- `estimate_dual_null_weights` (ot/lp/_network_simplex.py 157-175). -/
def estimateDualNullWeights [Nonempty I] [Nonempty J] (α₀ : I → R) (β₀ : J → R) (a : I → R) (b : J → R)
    (M : I → J → R) : (I → R) × (J → R) :=
  let viol : I → J → R := fun i j => α₀ i + β₀ j - M i j                       -- 162
  let aviol : I → R := fun i => univ.sup' univ_nonempty fun j => viol i j      -- 165
  let bviol : J → R := fun j => univ.sup' univ_nonempty fun i => viol i j      -- 166
  let α : I → R := fun i => α₀ i + (if a i ≠ 0 then 0 else -(max (aviol i) 0)) -- 169, 172
  let β : J → R := fun j => β₀ j + (if b j ≠ 0 then 0 else -(max (bviol j) 0)) -- 170, 173
  centerOtDual α β a b                                                         -- 175

/-- Rows (columns) kept by `_compute_active_subset` (ot/lp/_network_simplex.py 178-187, masks `a != 0`, `b != 0` of
lines 423-424).  `np.flatnonzero` lists them in increasing order; only the set matters here because
the same index list is used to gather and to scatter. -/
abbrev Active (w : I → R) := { i : I // w i ≠ 0 }

/-- The sub-problem handed to the solver (ot/lp/_network_simplex.py 184-187). -/
def subWeights (w : I → R) : Active w → R := fun i => w i

/-- The sub-matrix `M[np.ix_(row_idx, col_idx)]` (ot/lp/_network_simplex.py 186). -/
def subMatrix (a : I → R) (b : J → R) (M : I → J → R) : Active a → Active b → R := fun i j => M i j

/-- `G_full[np.ix_(row_idx, col_idx)] = G` on a zero matrix (ot/lp/_network_simplex.py 197-198). -/
def inflatePlan (a : I → R) (b : J → R) (G : Active a → Active b → R) : I → J → R := fun i j =>
  if h : a i ≠ 0 ∧ b j ≠ 0 then G ⟨i, h.1⟩ ⟨j, h.2⟩ else 0

/-- `u_full[row_mask] = u` on a zero vector (ot/lp/_network_simplex.py 200-203). -/
def inflateVec (a : I → R) (u : Active a → R) : I → R := fun i => if h : a i ≠ 0 then u ⟨i, h⟩ else 0

/-- Dense part of `emd` after the call of the solver (ot/lp/_network_simplex.py 457-474; the same lines are 771-784 of `emd2`): inflate, centre if
`center_dual`, repair the duals of zero-weight points if there are any. When no weight vanishes the filter is the identity
(`need_filter` false, 181-182), which `inflatePlan`, `inflateVec` then are as well. -/
noncomputable def emdPost [Nonempty I] [Nonempty J] (centerDual : Bool) (a : I → R) (b : J → R) (M : I → J → R)
    (G : Active a → Active b → R) (u : Active a → R) (v : Active b → R) :
    (I → J → R) × (I → R) × (J → R) :=
  let G' := inflatePlan a b G
  let uv : (I → R) × (J → R) := (inflateVec a u, inflateVec b v)
  let uv := if centerDual then centerOtDual uv.1 uv.2 a b else uv
  open Classical in
  let uv := if (∃ i, a i = 0) ∨ (∃ j, b j = 0) then estimateDualNullWeights uv.1 uv.2 a b M else uv
  (G', uv.1, uv.2)

/-- Gradients attached by `emd2` with respect to the weights (ot/lp/_network_simplex.py 855-858):
`u - np.mean(u)`, `v - np.mean(v)`. -/
def emd2Grad (u : I → R) (v : J → R) : (I → R) × (J → R) :=
  (fun i => u i - (∑ k, u k) / Fintype.card I, fun j => v j - (∑ k, v k) / Fintype.card J)

end POT.LpDual
