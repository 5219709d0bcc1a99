import Mathlib.Data.Real.Sqrt
import Mathlib.Data.Real.Archimedean
import Mathlib.Algebra.BigOperators.Group.Finset.Basic

/-!
# Specification vocabulary for data scaling

Rows are samples, `D` are the features.  A batch is one array or a list of arrays; every array belongs to a backend.
-/

namespace POT.Spec

/-- one array or a list of arrays -/
inductive Batch (B D : Type*) where
  | one (be : B) (X : List (D → ℝ))
  | many (Xs : List (B × List (D → ℝ)))

/-- all rows of a batch -/
def Batch.rows {B D : Type*} : Batch B D → List (D → ℝ)
  | .one _ X => X
  | .many Xs => (Xs.map Prod.snd).flatten

/-- the same shape with every row replaced -/
def Batch.mapRows {B D : Type*} (f : (D → ℝ) → (D → ℝ)) : Batch B D → Batch B D
  | .one be X => .one be (X.map f)
  | .many Xs => .many (Xs.map fun e => (e.1, e.2.map f))

/-- every array belongs to the backend -/
def Batch.uses {B D : Type*} (be : B) : Batch B D → Prop
  | .one b _ => b = be
  | .many Xs => ∀ e ∈ Xs, e.1 = be

/-- at least one array, and all of one backend -/
def Batch.hasBackend {B D : Type*} (be : B) : Batch B D → Prop
  | .one b _ => b = be
  | .many Xs => Xs ≠ [] ∧ ∀ e ∈ Xs, e.1 = be

/-- mean of a feature -/
noncomputable def columnMean {D : Type*} (rows : List (D → ℝ)) (d : D) : ℝ := (rows.map fun x => x d).sum / rows.length

/-- variance of a feature (division by the number of rows) -/
noncomputable def columnVar {D : Type*} (rows : List (D → ℝ)) (d : D) : ℝ := (rows.map fun x => (x d - columnMean rows d) ^ 2).sum / rows.length

/-- smallest value of a feature -/
noncomputable def columnMin {D : Type*} (rows : List (D → ℝ)) (d : D) : ℝ := sInf {v | ∃ x ∈ rows, x d = v}

/-- largest value of a feature -/
noncomputable def columnMax {D : Type*} (rows : List (D → ℝ)) (d : D) : ℝ := sSup {v | ∃ x ∈ rows, x d = v}

/-- Euclidean length of a row -/
noncomputable def rowNorm {D : Type*} [Fintype D] (x : D → ℝ) : ℝ := Real.sqrt (∑ d, x d ^ 2)

end POT.Spec
