import Verif.Spec.Scaler

/-!
# Model of `DataScaler` and `apply_scaler` (`ot/utils.py` 1590-1831)

Exact real arithmetic; arrays are lists of rows.  Warnings are not modelled, nor are arrays without rows (`nan` or an exception of the backend) and lists nested in lists.  An exception is an `Except.error`; the object is unchanged then, since every
exception is raised before the first assignment.
-/

set_option linter.unusedSectionVars false

namespace POT.Scaler

open Spec

/-- the values of `norm` (ot/utils.py 1630) -/
inductive Norm where
  | standard
  | minmax
  | l2
  deriving DecidableEq

/-- `ValueError`, `RuntimeError`, and the `TypeError` of arithmetic with `None` -/
inductive Exc where
  | value
  | runtime
  | type

/-- the attributes of the object (ot/utils.py 1637-1643) -/
structure State (B D : Type*) where
  norm : Norm
  mean : Option (D → ℝ)
  std : Option (D → ℝ)
  min : Option (D → ℝ)
  max : Option (D → ℝ)
  nx : Option B
  fitted : Bool

variable {B D : Type*} [DecidableEq B] [Fintype D]

/-- `__init__` (ot/utils.py 1632-1643) -/
def create (norm : String) : Except Exc (State B D) :=
  if norm = "standard" then .ok ⟨.standard, none, none, none, none, none, false⟩
  else if norm = "minmax" then .ok ⟨.minmax, none, none, none, none, none, false⟩
  else if norm = "l2" then .ok ⟨.l2, none, none, none, none, none, false⟩
  else .error .value

/-- `get_backend` (ot/backend.py 245-262): one backend for all arguments, otherwise a `ValueError` -/
def getBackend : List B → Except Exc B
  | [] => .error .value
  | be :: l => if ∀ b ∈ l, b = be then .ok be else .error .value

/-- backend and `X_concat` (ot/utils.py 1662-1669) -/
def concat : Batch B D → Except Exc (B × List (D → ℝ))
  | .one be X => .ok (be, X)
  | .many Xs => if Xs.length = 0 then .error .value else (getBackend (Xs.map Prod.fst)).map fun be => (be, (Xs.map Prod.snd).flatten)

/-- `nx.mean(X, axis=0)` -/
noncomputable def colMean (X : List (D → ℝ)) (d : D) : ℝ := (X.map fun x => x d).sum / X.length

/-- `nx.std(X, axis=0)` (biased, in all backends; ot/backend.py 1392, 1821, 2357) -/
noncomputable def colStd (X : List (D → ℝ)) (d : D) : ℝ := Real.sqrt ((X.map fun x => (x d - colMean X d) ^ 2).sum / X.length)

/-- `nx.min(X, axis=0)` -/
noncomputable def colMin : List (D → ℝ) → D → ℝ
  | [], _ => 0
  | [x], d => x d
  | x :: y :: X, d => Min.min (x d) (colMin (y :: X) d)

/-- `nx.max(X, axis=0)` -/
noncomputable def colMax : List (D → ℝ) → D → ℝ
  | [], _ => 0
  | [x], d => x d
  | x :: y :: X, d => Max.max (x d) (colMax (y :: X) d)

open Classical in
/-- `fit` (ot/utils.py 1645-1709) -/
noncomputable def fit (s : State B D) (X : Batch B D) : Except Exc (State B D) :=
  (concat X).map fun p =>
    match s.norm with
    | .l2 => { s with nx := some p.1, fitted := true }
    | .standard => { s with nx := some p.1, mean := some (colMean p.2), std := some fun d => if colStd p.2 d = 0 then 1 else colStd p.2 d, fitted := true }
    | .minmax => { s with nx := some p.1, min := some (colMin p.2), max := some fun d => if colMax p.2 d = colMin p.2 d then colMin p.2 d + 1 else colMax p.2 d, fitted := true }

open Classical in
/-- one row of an `l2` transform (ot/utils.py 1743-1756) -/
noncomputable def l2Row (x : D → ℝ) : D → ℝ := fun d => x d / if Real.sqrt (∑ d, x d ^ 2) = 0 then 1 else Real.sqrt (∑ d, x d ^ 2)

/-- `_apply_transform` of one array (ot/utils.py 1729-1756) -/
noncomputable def applyOne (s : State B D) (be : B) (X : List (D → ℝ)) : Except Exc (List (D → ℝ)) :=
  if s.nx ≠ none ∧ s.nx ≠ some be then .error .value
  else
    match s.norm with
    | .standard =>
      match s.mean, s.std with
      | some m, some σ => .ok (X.map fun x d => (x d - m d) / σ d)
      | _, _ => .error .type
    | .minmax =>
      match s.min, s.max with
      | some lo, some hi => .ok (X.map fun x d => (x d - lo d) / (hi d - lo d))
      | _, _ => .error .type
    | .l2 => .ok (X.map l2Row)

/-- the list comprehension over the arrays of a list -/
noncomputable def applyMany (s : State B D) : List (B × List (D → ℝ)) → Except Exc (List (B × List (D → ℝ)))
  | [] => .ok []
  | e :: Xs =>
    match applyOne s e.1 e.2 with
    | .error er => .error er
    | .ok Y =>
      match applyMany s Xs with
      | .error er => .error er
      | .ok Ys => .ok ((e.1, Y) :: Ys)

/-- `_apply_transform` (ot/utils.py 1711-1756) -/
noncomputable def applyTransform (s : State B D) : Batch B D → Except Exc (Batch B D)
  | .one be X => (applyOne s be X).map (.one be)
  | .many Xs => (applyMany s Xs).map .many

/-- `transform` (ot/utils.py 1758-1778) -/
noncomputable def transform (s : State B D) (X : Batch B D) : Except Exc (Batch B D) :=
  if s.norm ≠ .l2 ∧ s.fitted = false then .error .runtime else applyTransform s X

/-- the calls a user makes on the object -/
inductive Call (B D : Type*) where
  | fit (X : Batch B D)
  | transform (X : Batch B D)
  | fitTransform (X : Batch B D)

/-- the object after a call -/
noncomputable def after (s : State B D) : Call B D → State B D
  | .fit X => match fit s X with | .ok s' => s' | .error _ => s
  | .transform _ => s
  | .fitTransform X => match fit s X with | .ok s' => s' | .error _ => s

/-- the array returned by `fit_transform` (ot/utils.py 1780-1793) -/
noncomputable def fitTransform (s : State B D) (X : Batch B D) : Except Exc (Batch B D) :=
  match fit s X with
  | .error er => .error er
  | .ok s' => applyTransform s' X

/-- what `apply_scaler` can be given: `None`, an object with a `transform` method (called whether or not the object is callable itself), another callable, anything else -/
inductive Arg (A : Type*) where
  | none
  | object (transform : A → Except Exc A)
  | callable (f : A → Except Exc A)
  | other

/-- `apply_scaler` (ot/utils.py 1796-1831) -/
def applyScaler {A : Type*} (Xs Xt : A) : Arg A → Except Exc (A × A)
  | .none => .ok (Xs, Xt)
  | .object f | .callable f =>
    match f Xs with
    | .error er => .error er
    | .ok Ys =>
      match f Xt with
      | .error er => .error er
      | .ok Yt => .ok (Ys, Yt)
  | .other => .error .value

end POT.Scaler
