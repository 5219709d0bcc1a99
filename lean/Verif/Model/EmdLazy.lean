import Verif.Model.EmdPy
import Verif.Spec.PointCost

/-! # `ot.lp.emd2_lazy`: exact transport between point clouds without a cost matrix

ot/lp/_network_simplex.py 893-1089, emd_wrap.pyx (`emd_c_lazy`), EMD_wrapper.cpp 538-658 and the lazy mode of network_simplex_simple.h.  Without warm start.  The sparse containers for flows,
states and endpoints (network_simplex_simple.h 607-760) are maps from arcs to values, as in the other modes.  `sqrt` is the square root of the arithmetic. -/

namespace POT.Simplex

open LpDual EmdPy

variable {R : Type*} [Field R] [LinearOrder R]

/-- `computeLazyCost`, network_simplex_simple.h:948-972; the metrics are those of `metric_map`, emd_wrap.pyx (`emd_c_lazy`) -/
def lazyCost (sqrt : R → R) (μ : Spec.PointMetric) {d : ℕ} (x y : Fin d → R) : R :=
  match μ with
  | .sqeuclidean => (List.finRange d).foldl (fun c k => c + (x k - y k) * (x k - y k)) 0
  | .euclidean => sqrt ((List.finRange d).foldl (fun c k => c + (x k - y k) * (x k - y k)) 0)
  | .cityblock => (List.finRange d).foldl (fun c k => c + |x k - y k|) 0

/-- one loop updating `min_value`, `max_value`, network_simplex_simple.h:568-577 -/
def minMax {n : ℕ} (f : Fin n → R) (mm : R × R) : R × R :=
  (List.finRange n).foldl (fun mm i => (if f i < mm.1 then f i else mm.1, if mm.2 < f i then f i else mm.2)) mm

/-- `range` of coordinate `k`, network_simplex_simple.h:564-579 -/
def coordRange {n m d : ℕ} (hn : 0 < n) (xa : Fin n → Fin d → R) (xb : Fin m → Fin d → R) (k : Fin d) : R :=
  let mm := minMax (fun j => xb j k) (minMax (fun i => xa i k) (xa ⟨0, hn⟩ k, xa ⟨0, hn⟩ k))
  mm.2 - mm.1

/-- `computeLazyCostUpperBound`, network_simplex_simple.h:560-587 -/
def lazyUpper (sqrt : R → R) (μ : Spec.PointMetric) {n m d : ℕ} (hn : 0 < n) (xa : Fin n → Fin d → R) (xb : Fin m → Fin d → R) : R :=
  let squared := (List.finRange d).foldl (fun c k => c + coordRange hn xa xb k * coordRange hn xa xb k) 0
  let l1 := (List.finRange d).foldl (fun c k => c + coordRange hn xa xb k) 0
  match μ with
  | .sqeuclidean => squared
  | .euclidean => sqrt squared
  | .cityblock => l1

/-- the problem in lazy mode: endpoints from arc numbers (`arcSource`, `arcTarget`, network_simplex_simple.h:607-627), costs from the points at the two ends (`getCostForArc`, 1006-1010), artificial
cost from the upper bound (`setLazyCost` 902-914, `init` 1818-1819) -/
def lazyProblem {n m : ℕ} [NeZero (n + m)] (wa : Fin n → R) (wb : Fin m → R) (c : Fin n → Fin m → R) (ub : R) : Problem (n + m) (n * m) R where
  src e := nodeId (Fin.castAdd m (Fin.rev e).divNat)
  tgt e := nodeId (Fin.natAdd n (Fin.rev e).modNat)
  cost e :=
    match finSumFinEquiv.symm (Fin.rev (nodeId (Fin.castAdd m (Fin.rev e).divNat))), finSumFinEquiv.symm (Fin.rev (nodeId (Fin.natAdd n (Fin.rev e).modNat))) with
    | .inl i, .inr j => c i j
    | _, _ => 0
  supply v := Fin.addCases (motive := fun _ => R) wa (fun j => -wb j) (nodeId v)
  art := (ub + 1) * ((n + m : ℕ) : R)

/-- `EMD_wrap_lazy`, EMD_wrapper.cpp:538-658.  `arcs` stands for the heuristic choice of initial pivots.  When the output arrays are too small the code returns `MAX_ITER_REACHED` with partly filled
arrays; the model returns empty ones. -/
def emdWrapLazy {n1 n2 d : ℕ} (sqrt : R → R) (μ : Spec.PointMetric) (a : Fin n1 → R) (b : Fin n2 → R) (xa : Fin n1 → Fin d → R) (xb : Fin n2 → Fin d → R) (junk eps feps : R)
    (bs maxIter turns maxOut : ℕ) (arcs : ∀ N, List (Fin N)) : Option (SparseResult n1 n2 R) :=
  let indI := posIdx a
  let indJ := posIdx b
  let n := indI.length
  let m := indJ.length
  if h : 0 < n ∧ 0 < m then
    haveI : NeZero (n + m) := ⟨by omega⟩
    let c : Fin n → Fin m → R := fun i j => lazyCost sqrt μ (xa (indI.get i)) (xb (indJ.get j))
    let P := lazyProblem (fun i => a (indI.get i)) (fun j => b (indJ.get j)) c (lazyUpper sqrt μ h.1 (fun i => xa (indI.get i)) fun j => xb (indJ.get j))
    match run P junk eps feps bs maxIter turns (arcs _) with
    | none => none
    | some sol =>
      if sol.status = .optimal ∨ sol.status = .maxIter then
        let alpha := scatter indI fun i => -sol.pi (some (nodeId (Fin.castAdd m i)))
        let beta := scatter indJ fun j => sol.pi (some (nodeId (Fin.natAdd n j)))
        match extractSparse false indI indJ (n * m) (fun k => k.divNat) (fun k => k.modNat) (fun k => c k.divNat k.modNat) (fun k => sol.flow (.inl k)) 0 maxOut with
        | some e => some ⟨sol.status, e.2, alpha, beta, e.1⟩
        | none => some ⟨.maxIter, [], alpha, beta, 0⟩
      else some ⟨sol.status, [], fun _ => 0, fun _ => 0, 0⟩
  else some ⟨.infeasible, [], fun _ => 0, fun _ => 0, 0⟩

/-- what `emd2_lazy(..., log=True, return_matrix=True)` returns: the loss, its gradients with respect to the weights, and the entries `G` (as a list of triples), `u`, `v`, `result_code` of the log,
ot/lp/_network_simplex.py 1057-1087 -/
structure LazyOut (n1 n2 : ℕ) (R : Type*) where
  cost : R
  gradA : Fin n1 → R
  gradB : Fin n2 → R
  flows : List (Fin n1 × Fin n2 × R)
  u : Fin n1 → R
  v : Fin n2 → R
  status : Status

/-- how a call ends -/
inductive LazyOutcome (n1 n2 : ℕ) (R : Type*) where
  | assertion
  | gaveUp
  | done (r : LazyOut n1 n2 R)

/-- `emd2_lazy`, ot/lp/_network_simplex.py 893-1089, and `emd_c_lazy`, emd_wrap.pyx, with room for `n1 + n2` flows.  `tol` is the tolerance of `assert_almost_equal(decimal=6)`. -/
def emd2Lazy {n1 n2 d : ℕ} (sqrt : R → R) (centerDual checkMarginals : Bool) (tol : R) (μ : Spec.PointMetric) (a0 : Option (Fin n1 → R)) (b0 : Option (Fin n2 → R)) (xa : Fin n1 → Fin d → R)
    (xb : Fin n2 → Fin d → R) (junk eps feps : R) (bs maxIter turns : ℕ) (arcs : ∀ N, List (Fin N)) : LazyOutcome n1 n2 R :=
  let a := a0.getD fun _ => 1 / n1
  let b := b0.getD fun _ => 1 / n2
  if checkMarginals ∧ ¬ |∑ i, a i - ∑ j, b j| < tol then .assertion
  else
    let b' := rescale a b
    match emdWrapLazy sqrt μ a b' xa xb junk eps feps bs maxIter turns (n1 + n2) arcs with
    | none => .gaveUp
    | some o =>
      let uv := if centerDual then centerOtDual o.alpha o.beta a b' else (o.alpha, o.beta)
      .done ⟨o.cost, fun i => uv.1 i - (∑ k, uv.1 k) / n1, fun j => uv.2 j - (∑ k, uv.2 k) / n2, o.flows, uv.1, uv.2, o.status⟩

end POT.Simplex
