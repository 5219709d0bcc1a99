import Verif.Model.EmdPy
import Verif.Model.Mm
import Verif.Model.Unbalanced
import Verif.Model.Smooth
import Verif.Model.Optim
import Verif.Model.Sinkhorn

/-! # Model of `ot.solve` (ot/solvers.py 57-604)

The branches call the models of the solvers. Arithmetic is exact. What is external to POT (SciPy's optimisers) or not modelled elsewhere is a field of `Ext`. -/

set_option linter.unusedSectionVars false

namespace POT.Solve

open Finset Sinkhorn

variable {n m : ℕ}

/-- Values of `reg_type` after `lower()`: the strings the code distinguishes, a pair of functions, or another string. -/
inductive RegArg (n m : ℕ) where
  | kl
  | entropy
  | l2
  | general (f : (Fin n → Fin m → ℝ) → ℝ) (df : (Fin n → Fin m → ℝ) → Fin n → Fin m → ℝ)
  | other

/-- Values of `unbalanced_type` after `lower()`. -/
inductive UnbArg where
  | kl
  | l2
  | tv
  | other
  deriving DecidableEq

/-- Values of `grad`. -/
inductive Grad where
  | autodiff
  | envelope
  | lastStep
  | detach
  deriving DecidableEq

/-- The fields of `OTResult` set by `ot.solve` (ot/solvers.py 595-602, ot/utils.py 1197-1221), and the gradients attached to `value` by `set_gradients`
(ot/solvers.py 487-496): with respect to `M`, `a` and `b`. -/
structure OTResult (n m : ℕ) where
  potentials : Option ((Fin n → ℝ) × (Fin m → ℝ))
  value : ℝ
  valueLinear : ℝ
  plan : Fin n → Fin m → ℝ
  status : Option Simplex.Status
  gradients : Option ((Fin n → Fin m → ℝ) × (Fin n → ℝ) × (Fin m → ℝ))

/-- What a call does: it returns, raises `NotImplementedError`, raises another exception (assertion of `emd2` on the masses, `ValueError` or unbound variable of `grad="last_step"`), the simplex
runs out of the fuel of its model, or it is outside the model (`mm_unbalanced` with an infinite parameter). -/
inductive Outcome (n m : ℕ) where
  | ok (r : OTResult n m)
  | notImplemented
  | error
  | gaveUp
  | unmodelled

/-- Parameters of the environment: pivot tolerance etc. of the simplex, SciPy's line search, SciPy's L-BFGS-B as used by `smooth_ot_dual` (returns the pair of dual vectors) and by
`lbfgsb_unbalanced` (returns plan, `cost` and `total_cost`), the oracle of the sparse projection, and the guard `1e-16` of the logarithms. -/
structure Ext (n m : ℕ) where
  junk : ℝ
  eps : ℝ
  feps : ℝ
  bs : ℕ
  turns : ℕ
  arcs : ∀ N, List (Fin N)
  massTol : ℝ
  search : (ℝ → ℝ) → ℝ → ℝ → Option (ℝ × ℝ)
  lp : (Fin n → ℝ) → (Fin m → ℝ) → (Fin n → Fin m → ℝ) → (Fin n → Fin m → ℝ)
  oracle : Smooth.Oracle n
  smooth : (Fin n → ℝ) → (Fin m → ℝ) → (Fin n → Fin m → ℝ) → ℝ → ℕ → ℝ → (Fin n → ℝ) × (Fin m → ℝ)
  lbfgs : (Fin n → Fin m → ℝ) × ℝ × ℝ
  guard : ℝ

/-- `nx.kl_div(p, q)` (ot/backend.py 1542-1546) of two matrices. -/
noncomputable def klDiv (guard : ℝ) (P Q : Fin n → Fin m → ℝ) : ℝ := ∑ i, ∑ j, P i j * Real.log (P i j / Q i j + guard)

/-- `value` of the entropic branch (ot/solvers.py 478-485). -/
noncomputable def entropicValue (guard reg : ℝ) (entropy : Bool) (a : Fin n → ℝ) (b : Fin m → ℝ) (M P : Fin n → Fin m → ℝ) : ℝ :=
  let linear := ∑ i, ∑ j, M i j * P i j
  if entropy then linear + reg * ∑ i, ∑ j, P i j * Real.log (P i j + guard) else linear + reg * klDiv guard P fun i j => a i * b j

/-- Mean of a vector. -/
noncomputable def mean {k : ℕ} (x : Fin k → ℝ) : ℝ := (∑ i, x i) / k

/-- The balanced entropic branch (ot/solvers.py 423-496), `reg_type` in `["entropy", "kl"]`. The parameters `c`, `plan_init` and `potentials_init` are not used. -/
noncomputable def solveEntropic (e : Ext n m) (entropy : Bool) (a : Fin n → ℝ) (b : Fin m → ℝ) (M : Fin n → Fin m → ℝ) (reg : ℝ) (maxIter : ℕ) (tol : ℝ) (grad : Grad) : Outcome n m :=
  let fin : UV (Fin n) (Fin m) → Outcome n m := fun s =>
    let P := logPlan M reg s
    .ok {
      potentials := some (s.u, s.v)
      value := entropicValue e.guard reg entropy a b M P
      valueLinear := ∑ i, ∑ j, M i j * P i j
      plan := P
      status := none
      gradients := if grad = .envelope then some (P, (fun i => reg * (s.u i - mean s.u)), fun j => reg * (s.v j - mean s.v)) else none }
  if grad = .lastStep then
    match solveLastStep a b M reg maxIter tol with
    | none => .error
    | some s => fin s
  else if maxIter = 0 then .error
  else fin (sinkhornLog a b M reg maxIter tol none).s

/-- `ot.solve` (ot/solvers.py 57-604). `unbalanced` is the pair of marginal parameters, `none` inside it is `float("inf")`. Simplifications: the potentials of the branch with a pair of functions
(those of the last linear problem) are left out, and so is the guard `1e-300` in the logarithms of the unbalanced scalings. -/
noncomputable def solve [NeZero n] [NeZero m] (e : Ext n m) (M : Fin n → Fin m → ℝ) (a0 : Option (Fin n → ℝ)) (b0 : Option (Fin m → ℝ)) (reg0 : Option ℝ) (c0 : Option (Fin n → Fin m → ℝ))
    (regType : RegArg n m) (unbalanced : Option (Option ℝ × Option ℝ)) (unbType : UnbArg) (maxIter : Option ℕ) (planInit : Option (Fin n → Fin m → ℝ))
    (potInit : Option ((Fin n → ℝ) × (Fin m → ℝ))) (tol : Option ℝ) (grad : Grad) : Outcome n m :=
  let a := a0.getD fun _ => 1 / n
  let b := b0.getD fun _ => 1 / m
  let c := c0.getD fun i j => a i * b j
  let reg := reg0.getD 0
  let lbfgs : Outcome n m := .ok { potentials := none, value := e.lbfgs.2.2, valueLinear := e.lbfgs.2.1, plan := e.lbfgs.1, status := none, gradients := none }
  if reg = 0 then
    match unbalanced with
    | none =>
      match EmdPy.emd true true e.massTol a b M e.junk e.eps e.feps e.bs (maxIter.getD 1000000) e.turns e.arcs with
      | .assertion => .error
      | .gaveUp => .gaveUp
      | .done r => .ok { potentials := some (r.u, r.v), value := r.cost, valueLinear := r.cost, plan := r.G, status := some r.status, gradients := none }
    | some ρ =>
      if unbType = .kl ∨ unbType = .l2 then
        match ρ with
        | (some ρ₁, some ρ₂) =>
          let G := (Mm.mm e.guard (decide (unbType = .kl)) a b M reg (some c) ρ₁ ρ₂ planInit (maxIter.getD 1000) (tol.getD (1 / 10 ^ 12))).s
          .ok { potentials := none, value := Mm.mmTotalCost e.guard (decide (unbType = .kl)) a b M reg (some c) ρ₁ ρ₂ G, valueLinear := ∑ i, ∑ j, G i j * M i j, plan := G, status := none, gradients := none }
        | _ => .unmodelled
      else if unbType = .tv then lbfgs
      else .notImplemented
  else
    match unbalanced with
    | none =>
      match regType with
      | .general f df =>
        match (Optim.cgProblem M f df reg (e.lp a b) e.search (maxIter.getD 1000) (tol.getD (1 / 10 ^ 9)) (1 / 10 ^ 9)).loop (max 1 (maxIter.getD 1000))
            ((Optim.cgProblem M f df reg (e.lp a b) e.search (maxIter.getD 1000) (tol.getD (1 / 10 ^ 9)) (1 / 10 ^ 9)).init (planInit.getD (Optim.outer a b))) with
        | none => .gaveUp
        | some s => .ok { potentials := none, value := s.losses.head?.getD 0, valueLinear := ∑ i, ∑ j, M i j * s.G i j, plan := s.G, status := none, gradients := none }
      | .entropy => solveEntropic e true a b M reg (maxIter.getD 1000) (tol.getD (1 / 10 ^ 9)) grad
      | .kl => solveEntropic e false a b M reg (maxIter.getD 1000) (tol.getD (1 / 10 ^ 9)) grad
      | .l2 =>
        let αβ := e.smooth a b M reg (maxIter.getD 1000) (tol.getD (1 / 10 ^ 9))
        let P := Smooth.planFromDual e.oracle .l2 reg αβ.1 αβ.2 M
        .ok { potentials := some αβ, value := (∑ i, ∑ j, M i j * P i j) + reg * ∑ i, ∑ j, P i j ^ 2, valueLinear := ∑ i, ∑ j, M i j * P i j, plan := P, status := none, gradients := none }
      | .other => .notImplemented
    | some ρ =>
      match regType, unbType with
      | .kl, .kl =>
        let s := (Unbalanced.sinkhornUnb a b M reg ρ.1 ρ.2 false (some c) potInit (maxIter.getD 1000) (tol.getD (1 / 10 ^ 9))).s
        let P := Unbalanced.sinkhornUnbPlan a b M reg ρ.1 ρ.2 false (some c) potInit (maxIter.getD 1000) (tol.getD (1 / 10 ^ 9))
        .ok { potentials := some (fun i => Real.log (s.u i), fun j => Real.log (s.v j)), value := Unbalanced.totalCost e.guard a b M reg c ρ.1 ρ.2 P, valueLinear := ∑ i, ∑ j, P i j * M i j,
              plan := P, status := none, gradients := none }
      | .other, _ => .notImplemented
      | _, .other => .notImplemented
      | _, _ => lbfgs

end POT.Solve
