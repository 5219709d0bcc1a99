import Mathlib.Data.List.Sort
import Mathlib.Data.String.Basic

/-!
# Model: parameters of estimators (`BaseEstimator`, ot/utils.py 985-1116)

An estimator object has the parameter names of its constructor and attributes with values in `V`; `none` is Python's `None` (also what `getattr(self, key, None)` gives for a missing attribute).
Simplification: no attribute is itself an estimator (no class of POT has one), so `deep` makes no difference and a nested key `name__sub` ends in `AttributeError` for a valid `name`.
Deprecated parameters are not modelled.
-/

set_option linter.unusedSectionVars false

namespace POT.Estimator

variable {V : Type*}

/-- kinds of constructor arguments that the code distinguishes (ot/utils.py 1021-1027) -/
inductive Kind where
  | plain
  | varPositional
  | varKeyword
  deriving DecidableEq

/-- `_get_param_names` (ot/utils.py 1006-1036): names of the constructor arguments in order; `none` is the `RuntimeError` for varargs -/
def paramNames (signature : List (String × Kind)) : Option (List String) :=
  let parameters := signature.filter fun p => p.1 ≠ "self" ∧ p.2 ≠ .varKeyword
  if parameters.any fun p => p.2 = .varPositional then none else some ((parameters.map Prod.fst).mergeSort (· ≤ ·))

/-- an estimator object: class-level parameter names, attributes -/
structure Est (V : Type*) where
  names : List String
  attr : String → Option V

/-- `get_params` (ot/utils.py 1038-1073): the items of the dictionary -/
def getParams (e : Est V) : List (String × Option V) := e.names.map fun k => (k, e.attr k)

/-- `key.split("__", 1)` (ot/utils.py 1093) on characters; `none` if there is one piece only -/
def split2 : List Char → Option (List Char × List Char)
  | [] => none
  | [_] => none
  | c :: d :: r => if c = '_' ∧ d = '_' then some ([], r) else (split2 (d :: r)).map fun p => (c :: p.1, p.2)

/-- how `set_params` ends -/
inductive Res where
  | ok
  | valueError
  | attributeError
  deriving DecidableEq

/-- `setattr(self, key, value)` -/
def setAttr (e : Est V) (k : String) (v : Option V) : Est V := { e with attr := fun l => if l = k then v else e.attr l }

/-- the loop of `set_params` over the items (ot/utils.py 1092-1114): the object afterwards and how the call ended; the names in `valid` are those of `get_params` before the loop -/
def setLoop (valid : List String) (e : Est V) : List (String × Option V) → Est V × Res
  | [] => (e, .ok)
  | (k, v) :: r =>
    match split2 k.toList with
    | some p => if String.ofList p.1 ∈ valid then (e, .attributeError) else (e, .valueError)
    | none => if k ∈ valid then setLoop valid (setAttr e k v) r else (e, .valueError)

/-- `set_params(**params)` (ot/utils.py 1075-1116) -/
def setParams (e : Est V) (params : List (String × Option V)) : Est V × Res :=
  if params = [] then (e, .ok) else setLoop ((getParams e).map Prod.fst) e params

end POT.Estimator
