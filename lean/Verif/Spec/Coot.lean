import Verif.Spec.Transport

/-! # Specification vocabulary: co-optimal transport -/

namespace POT.Spec

open Finset

variable {R : Type*} [Field R] [LinearOrder R] [IsStrictOrderedRing R]
variable {I J A B : Type*} [Fintype I] [Fintype J] [Fintype A] [Fintype B]

/-- `∑ (X_ia - Y_jb)² P_ij Q_ab`: the transport cost between two data matrices for a sample plan `P` and a feature plan `Q`. -/
def cootCost (X : I → A → R) (Y : J → B → R) (P : I → J → R) (Q : A → B → R) : R :=
  ∑ i, ∑ j, ∑ a, ∑ b, (X i a - Y j b) ^ 2 * P i j * Q a b

/-- The co-optimal transport objective, with a penalty on each of the two plans. -/
def coOtObjective (X : I → A → R) (Y : J → B → R) (penS : (I → J → R) → R) (penF : (A → B → R) → R)
    (P : I → J → R) (Q : A → B → R) : R :=
  cootCost X Y P Q + penS P + penF Q

/-- The penalty on a plan: `alpha ⟨M, P⟩` if a matrix `M` is given, plus `eps` times a divergence. -/
def planPenalty (alpha : R) (M : Option (I → J → R)) (eps : R) (kl : (I → J → R) → R) (P : I → J → R) : R :=
  (M.elim 0 fun M => alpha * cost M P) + eps * kl P

/-- `P` minimises `⟨C, P⟩ + pen P` among the couplings of `a` and `b`. -/
def IsPenOptimal (a : I → R) (b : J → R) (pen : (I → J → R) → R) (C P : I → J → R) : Prop :=
  IsCoupling a b P ∧ ∀ P', IsCoupling a b P' → cost C P + pen P ≤ cost C P' + pen P'

end POT.Spec
