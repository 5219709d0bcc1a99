import Mathlib.Algebra.BigOperators.Group.Finset.Basic
import Mathlib.Algebra.Order.Field.Basic
import Mathlib.Data.Fintype.Basic

/-! # Flows on networks -/

namespace POT.Spec

variable {V A R : Type*} [DecidableEq V] [Fintype A] [Ring R]

/-- what leaves node `v` minus what enters it -/
def netFlow (src tgt : A → V) (f : A → R) (v : V) : R :=
  (∑ a, if src a = v then f a else 0) - ∑ a, if tgt a = v then f a else 0

/-- `f` is a nonnegative flow in which every node `v` sends out exactly `supply v` more than it receives. -/
structure IsFlow [LE R] (src tgt : A → V) (supply : V → R) (f : A → R) : Prop where
  nonneg : ∀ a, 0 ≤ f a
  conserve : ∀ v, netFlow src tgt f v = supply v

/-- the cost of a flow -/
def flowCost (c : A → R) (f : A → R) : R := ∑ a, c a * f a

end POT.Spec
