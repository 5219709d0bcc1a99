import Verif.Model.EmdWrap
import Verif.Model.EmdSparse
import Verif.Model.LpDual

/-! # `ot.emd` and `ot.emd2` on dense cost matrices

ot/lp/_network_simplex.py, one thread (`numThreads = 1`), no warm start. -/

namespace POT.EmdPy

open Simplex LpDual

variable {R : Type*} [Field R] [LinearOrder R]

/-- what `emd(..., log=True)` returns: the plan and the entries `u`, `v`, `cost`, `result_code` of the log, ot/lp/_network_simplex.py 507-517 -/
structure EmdOut (n1 n2 : ℕ) (R : Type*) where
  G : Fin n1 → Fin n2 → R
  u : Fin n1 → R
  v : Fin n2 → R
  cost : R
  status : Status

/-- how a call ends: an assertion fails, the model gives up because the bound `turns` on the loop was too small, or values are returned -/
inductive Outcome (n1 n2 : ℕ) (R : Type*) where
  | assertion
  | gaveUp
  | done (r : EmdOut n1 n2 R)

/-- `b = b * a.sum() / b.sum()`, ot/lp/_network_simplex.py 421 -/
def rescale {n1 n2 : ℕ} (a : Fin n1 → R) (b : Fin n2 → R) : Fin n2 → R := fun j => b j * (∑ i, a i) / ∑ j, b j

/-- `np.flatnonzero(w != 0)`, ot/lp/_network_simplex.py 184-185, 423-424 -/
def nzIdx {n : ℕ} (w : Fin n → R) : List (Fin n) := (List.finRange n).filter fun i => w i ≠ 0

/-- `G_full[np.ix_(row_idx, col_idx)] = G` on a zero matrix, ot/lp/_network_simplex.py 197-198 -/
def scatterM {n1 n2 : ℕ} (rows : List (Fin n1)) (cols : List (Fin n2)) (G : Fin rows.length → Fin cols.length → R) : Fin n1 → Fin n2 → R :=
  fun i j => scatter rows (fun r => scatter cols (fun c => G r c) j) i

/-- the dense part of `emd` after the weights are rescaled, ot/lp/_network_simplex.py 423-474: filter the support, call the solver, embed the result,
centre the potentials, repair those of zero-weight points.  Lines 737-784 of `emd2` are the same. -/
def solveDense {n1 n2 : ℕ} [NeZero n1] [NeZero n2] (centerDual : Bool) (a : Fin n1 → R) (b : Fin n2 → R) (M : Fin n1 → Fin n2 → R)
    (junk eps feps : R) (bs maxIter turns : ℕ) (arcs : ∀ N, List (Fin N)) : Option (EmdOut n1 n2 R) :=
  let needFilter := (∃ i, a i = 0) ∨ ∃ j, b j = 0
  let rows := nzIdx a
  let cols := nzIdx b
  let solved : Option (EmdOut n1 n2 R) :=
    if needFilter then
      (emdWrap (fun r => a (rows.get r)) (fun c => b (cols.get c)) (fun r c => M (rows.get r) (cols.get c)) junk eps feps bs maxIter turns arcs).map
        fun w => ⟨scatterM rows cols w.G, scatter rows w.alpha, scatter cols w.beta, w.cost, w.status⟩
    else (emdWrap a b M junk eps feps bs maxIter turns arcs).map fun w => ⟨w.G, w.alpha, w.beta, w.cost, w.status⟩
  solved.map fun o =>
    let uv := if centerDual then centerOtDual o.u o.v a b else (o.u, o.v)
    let uv := if needFilter then estimateDualNullWeights uv.1 uv.2 a b M else uv
    { o with u := uv.1, v := uv.2 }

/-- `emd`, ot/lp/_network_simplex.py 376-519, for a dense matrix.  `tol` is the tolerance of `assert_almost_equal(decimal=6)`, i.e. `1.5e-6`. -/
def emd {n1 n2 : ℕ} [NeZero n1] [NeZero n2] (centerDual checkMarginals : Bool) (tol : R) (a : Fin n1 → R) (b : Fin n2 → R) (M : Fin n1 → Fin n2 → R)
    (junk eps feps : R) (bs maxIter turns : ℕ) (arcs : ∀ N, List (Fin N)) : Outcome n1 n2 R :=
  if checkMarginals ∧ ¬ |∑ i, a i - ∑ j, b j| < tol then .assertion
  else
    match solveDense centerDual a (rescale a b) M junk eps feps bs maxIter turns arcs with
    | none => .gaveUp
    | some r => .done r

/-- how a call on a sparse matrix ends -/
inductive SparseOutcome (n1 n2 : ℕ) (R : Type*) where
  | assertion
  | gaveUp
  | done (r : SparseResult n1 n2 R)

/-- `emd`, ot/lp/_network_simplex.py 376-519, for a cost matrix in COO format with entries `c k` at `(src k, tgt k)`: line 434 calls the sparse solver and
lines 466-472 only centre the potentials. -/
def emdCoo {n1 n2 K : ℕ} (centerDual checkMarginals : Bool) (tol : R) (a : Fin n1 → R) (b : Fin n2 → R) (src : Fin K → Fin n1) (tgt : Fin K → Fin n2)
    (c : Fin K → R) (junk eps feps minFlow : R) (bs maxIter turns : ℕ) (arcs : ∀ N, List (Fin N)) : SparseOutcome n1 n2 R :=
  if checkMarginals ∧ ¬ |∑ i, a i - ∑ j, b j| < tol then .assertion
  else
    let b' := rescale a b
    match emdSparse a b' src tgt c junk eps feps minFlow bs maxIter turns arcs with
    | none => .gaveUp
    | some o =>
      let uv := if centerDual then centerOtDual o.alpha o.beta a b' else (o.alpha, o.beta)
      let uv := if (∃ i, a i = 0) ∨ ∃ j, b' j = 0 then centerOtDual uv.1 uv.2 a b' else uv
      .done { o with alpha := uv.1, beta := uv.2 }

end POT.EmdPy
