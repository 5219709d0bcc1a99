import Mathlib.Algebra.BigOperators.Fin
import Mathlib.Order.Bounds.Basic
import Mathlib.Algebra.Order.Floor.Ring
import Mathlib.Algebra.Order.Field.Basic

/-! # Specification vocabulary: the circle of length one -/

namespace POT.Spec

open scoped BigOperators

variable {K : Type*} [Field K] [LinearOrder K] [IsStrictOrderedRing K] [FloorRing K]

/-- Length of the shorter arc between two points given by coordinates modulo one. -/
def circDist (x y : K) : K := min (Int.fract (x - y)) (1 - Int.fract (x - y))

/-- `t` is the quantile of level `q` of the measure with weight `w i` on `x i`: the least `t` such that the measure of `(-∞, t]` is at least `q` -/
def IsQuantile {I : Type*} [Fintype I] (x w : I → K) (q t : K) : Prop := IsLeast {t | q ≤ ∑ i ∈ Finset.univ.filter (fun i : I => x i ≤ t), w i} t

end POT.Spec
