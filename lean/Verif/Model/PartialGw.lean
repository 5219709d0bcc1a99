import Verif.Model.Gromov
import Verif.Model.Partial

/-!
# Model of the exact partial (fused) Gromov-Wasserstein solvers (`ot/gromov/_partial.py`) and of `partial_cg` (`ot/optim.py`)
-/

set_option linter.unusedSectionVars false

namespace POT.PartialGw

open Finset Gromov Partial

variable {R : Type*} [Field R] [LinearOrder R] {n1 n2 : ℕ} [NeZero n1] [NeZero n2]

/-- `lp_solver` of `partial_cg` (ot/optim.py 768-786): the linearised cost `Mi` is extended by `d` dummy points on both sides, with zeros towards the
dummies and `np.max(M) * 1e2` between them, where `M` is the linear term of the problem (not `Mi`); the extended problem is solved by `emd` and the plan
is cut back.  `emd` is a parameter; with `warn=True` (the default) a call that does not end with the status of an optimal plan raises, which is not modelled. -/
def lpSolver {d : ℕ} (emd : (Fin (n1 + d) → R) → (Fin (n2 + d) → R) → (Fin (n1 + d) → Fin (n2 + d) → R) → (Fin (n1 + d) → Fin (n2 + d) → R))
    (aExt : Fin (n1 + d) → R) (bExt : Fin (n2 + d) → R) (M Mi : Fin n1 → Fin n2 → R) : Fin n1 → Fin n2 → R :=
  core (emd aExt bExt (extendM Mi d (maxEntry M * 100)))

/-- how a call ends: `ValueError`, `AssertionError`, or a plan with the logged value -/
inductive Out (n1 n2 : ℕ) (R : Type*) where
  | valueError
  | assertion
  | gaveUp
  | done (G : Fin n1 → Fin n2 → R) (value : R)

/-- `m` after the checks (ot/gromov/_partial.py 183-193, 658-668): `none` for `ValueError`. -/
def checkMass (p : Fin n1 → R) (q : Fin n2 → R) (m : Option R) : Option R :=
  match m with
  | none => some (min (∑ i, p i) (∑ j, q j))
  | some m => if m < 0 then none else if min (∑ i, p i) (∑ j, q j) < m then none else some m

/-- `np.outer(p, q) * m / (np.sum(p) * np.sum(q))` (ot/gromov/_partial.py 195-198, 670-673). -/
def defaultStart (p : Fin n1 → R) (q : Fin n2 → R) (m : R) : Fin n1 → Fin n2 → R := fun i j => p i * q j * m / ((∑ i, p i) * ∑ j, q j)

/-- Shared body of `partial_gromov_wasserstein` (ot/gromov/_partial.py 159-306; `M = 0`, `reg = 1`) and `partial_fused_gromov_wasserstein` (626-784;
`M` is `(1 - alpha) * M`, `reg` is `alpha`).  `symmetric` is the tested or given flag, `d` is `nb_dummies`, `tol` the stopping threshold (`stopThr2 = 0`).  Not modelled: backends,
the warning for integer structures, the unused `thres`, the deprecated form of the arguments. -/
def partialCall {d : ℕ} (emd : (Fin (n1 + d) → R) → (Fin (n2 + d) → R) → (Fin (n1 + d) → Fin (n2 + d) → R) → (Fin (n1 + d) → Fin (n2 + d) → R))
    (symmetric : Bool) (D : Decomp R) (M : Fin n1 → Fin n2 → R) (reg : R) (C1 : Fin n1 → Fin n1 → R) (C2 : Fin n2 → Fin n2 → R)
    (p : Fin n1 → R) (q : Fin n2 → R) (m : Option R) (G0 : Option (Fin n1 → Fin n2 → R)) (numItermax : ℕ) (tol : R) : Out n1 n2 R :=
  match checkMass p q m with
  | none => .valueError
  | some m =>
    let run := fun G0 : Fin n1 → Fin n2 → R =>
      let qExt := extend q d ((∑ i, p i - m) / (d : R))                     -- 206, 681
      let pExt := extend p d ((∑ j, q j - m) / (d : R))                     -- 207, 682
      let P := pgProblem symmetric D C1 C2 M reg (lpSolver emd pExt qExt M) numItermax tol 0
      match P.loop (max 1 numItermax) (P.init G0) with
      | some s => Out.done s.G (s.losses.headD 0)                           -- 285, 761
      | none => .gaveUp
    match G0 with
    | none => run (defaultStart p q m)
    | some G0 => if (∀ i, ∑ j, G0 i j ≤ p i) ∧ ∀ j, ∑ i, G0 i j ≤ q j then run G0 else .assertion   -- 203-204, 678-679

/-- `partial_gromov_wasserstein(C1, C2, p, q, m, nb_dummies=d, G0, log=True)` (ot/gromov/_partial.py 22-306); the value is `log["partial_gw_dist"]`, which
`partial_gromov_wasserstein2` (309-495) returns. -/
def partialGw {d : ℕ} (emd : (Fin (n1 + d) → R) → (Fin (n2 + d) → R) → (Fin (n1 + d) → Fin (n2 + d) → R) → (Fin (n1 + d) → Fin (n2 + d) → R))
    (symmetric : Bool) (D : Decomp R) (C1 : Fin n1 → Fin n1 → R) (C2 : Fin n2 → Fin n2 → R) (p : Fin n1 → R) (q : Fin n2 → R) (m : Option R)
    (G0 : Option (Fin n1 → Fin n2 → R)) (numItermax : ℕ) (tol : R) : Out n1 n2 R :=
  partialCall emd symmetric D (fun _ _ => 0) 1 C1 C2 p q m G0 numItermax tol

/-- `partial_fused_gromov_wasserstein(M, C1, C2, p, q, m, alpha, nb_dummies=d, G0, log=True)` (ot/gromov/_partial.py 498-784); the value is
`log["partial_fgw_dist"]`, which `partial_fused_gromov_wasserstein2` (787-985) returns. -/
def partialFgw {d : ℕ} (emd : (Fin (n1 + d) → R) → (Fin (n2 + d) → R) → (Fin (n1 + d) → Fin (n2 + d) → R) → (Fin (n1 + d) → Fin (n2 + d) → R))
    (symmetric : Bool) (D : Decomp R) (M : Fin n1 → Fin n2 → R) (alpha : R) (C1 : Fin n1 → Fin n1 → R) (C2 : Fin n2 → Fin n2 → R) (p : Fin n1 → R)
    (q : Fin n2 → R) (m : Option R) (G0 : Option (Fin n1 → Fin n2 → R)) (numItermax : ℕ) (tol : R) : Out n1 n2 R :=
  partialCall emd symmetric D (fun i j => (1 - alpha) * M i j) alpha C1 C2 p q m G0 numItermax tol

end POT.PartialGw
