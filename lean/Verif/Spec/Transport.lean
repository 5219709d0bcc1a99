import Mathlib.Algebra.Order.Field.Basic
import Mathlib.Algebra.Order.BigOperators.Ring.Finset
import Mathlib.Algebra.BigOperators.Ring.Finset
import Mathlib.Data.Fintype.BigOperators
import Mathlib.Tactic.Linarith
import Mathlib.Tactic.Ring
import Mathlib.Tactic.FieldSimp
import Mathlib.Tactic.NormNum
import Mathlib.Tactic.Positivity

/-!
# Specification vocabulary: discrete optimal transport

Nothing in this file refers to the model of the code.  It fixes what the words "coupling",
"transport cost", "optimal plan", "dual feasible" mean for finite index sets.
-/

namespace POT.Spec

open Finset

variable {R : Type*} [Field R] [LinearOrder R] [IsStrictOrderedRing R]
variable {I J : Type*} [Fintype I] [Fintype J]

/-- `G` is a transport plan (coupling) between the weight vectors `a` and `b`: it is non-negative, its row
sums are `a` and its column sums are `b`. -/
structure IsCoupling (a : I → R) (b : J → R) (G : I → J → R) : Prop where
  nonneg : ∀ i j, 0 ≤ G i j
  row : ∀ i, ∑ j, G i j = a i
  col : ∀ j, ∑ i, G i j = b j

/-- The cost `⟨G, M⟩` of a plan. -/
def cost (M G : I → J → R) : R := ∑ i, ∑ j, G i j * M i j

/-- `G` is an optimal transport plan: a coupling that no coupling beats. -/
def IsOptimal (a : I → R) (b : J → R) (M G : I → J → R) : Prop :=
  IsCoupling a b G ∧ ∀ G', IsCoupling a b G' → cost M G ≤ cost M G'

/-- `G` is an optimal transport plan up to `ε`. -/
def IsEpsOptimal (ε : R) (a : I → R) (b : J → R) (M G : I → J → R) : Prop :=
  IsCoupling a b G ∧ ∀ G', IsCoupling a b G' → cost M G ≤ cost M G' + ε

/-- `(u, v)` is feasible for the Kantorovich dual. -/
def DualFeasible (M : I → J → R) (u : I → R) (v : J → R) : Prop :=
  ∀ i j, u i + v j ≤ M i j

/-- Value of the Kantorovich dual objective. -/
def dualValue (a : I → R) (b : J → R) (u : I → R) (v : J → R) : R :=
  ∑ i, u i * a i + ∑ j, v j * b j

/-- `G` is a partial plan: non-negative, row sums at most `a`, column sums at most `b`. -/
structure IsPartial (a : I → R) (b : J → R) (G : I → J → R) : Prop where
  nonneg : ∀ i j, 0 ≤ G i j
  row : ∀ i, ∑ j, G i j ≤ a i
  col : ∀ j, ∑ i, G i j ≤ b j

/-- Total mass of a plan. -/
def mass (G : I → J → R) : R := ∑ i, ∑ j, G i j

end POT.Spec
