import Verif.Spec.Transport

/-! # Specification vocabulary: weak optimal transport and factored couplings -/

namespace POT.Spec

open Finset

variable {R : Type*} [Field R] [LinearOrder R] [IsStrictOrderedRing R]
variable {I J D : Type*} [Fintype I] [Fintype J] [Fintype D]

/-- The barycentric weak transport cost `∑ a_i ‖x_i - (∑_j T_ij y_j) / a_i‖²`. -/
def weakCost (a : I → R) (x : I → D → R) (y : J → D → R) (T : I → J → R) : R :=
  ∑ i, a i * ∑ d, (x i d - (∑ j, T i j * y j d) / a i) ^ 2

/-- The matrix of squared Euclidean distances. -/
def sqCost (x : I → D → R) (y : J → D → R) : I → J → R := fun i j => ∑ d, (x i d - y j d) ^ 2

end POT.Spec
