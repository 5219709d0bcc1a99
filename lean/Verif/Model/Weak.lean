import Verif.Model.Optim

/-!
# Model of `ot/weak.py`

`weak_optimal_transport`: conditional gradient (`ot/optim.py`, `Model/Optim.lean`) on the barycentric weak cost.  Weights are
positive in every statement: the code divides by `a` without a guard.
-/

namespace POT.Weak

open Finset

variable {R : Type*} [Field R] [LinearOrder R]
variable {I J D : Type*} [Fintype I] [Fintype J] [Fintype D]

/-- `f` (ot/weak.py 114-115). -/
def f (a : I → R) (x : I → D → R) (y : J → D → R) (T : I → J → R) : R :=
  ∑ i, a i * ∑ d, (x i d - (∑ j, T i j * y j d) / a i) ^ 2

/-- `df` (ot/weak.py 118-119). -/
def df (a : I → R) (x : I → D → R) (y : J → D → R) (T : I → J → R) : I → J → R := fun i j =>
  -2 * ∑ d, (x i d - (∑ j, T i j * y j d) / a i) * y j d

/-- The start (ot/weak.py 107-111). -/
def start (a : I → R) (b : J → R) (G0 : Option (I → J → R)) : I → J → R := G0.getD fun i j => a i * b j

/-- The call of `cg` (ot/weak.py 122-130): cost matrix `0`, regularisation `1`. -/
def problem (a : I → R) (x : I → D → R) (y : J → D → R) (lp : (I → J → R) → (I → J → R))
    (search : (R → R) → R → R → Option (R × R)) (numItermax : ℕ) (stopThr stopThr2 : R) : Optim.Problem R I J :=
  Optim.cgProblem 0 (f a x y) (df a x y) 1 lp search numItermax stopThr stopThr2

/-- `weak_optimal_transport` (ot/weak.py 18-130): the final state of the conditional gradient. -/
def weakOt (a : I → R) (b : J → R) (x : I → D → R) (y : J → D → R) (G0 : Option (I → J → R)) (lp : (I → J → R) → (I → J → R))
    (search : (R → R) → R → R → Option (R × R)) (numItermax : ℕ) (stopThr stopThr2 : R) : Option (Optim.State R I J) :=
  let P := problem a x y lp search numItermax stopThr stopThr2
  P.loop (max 1 numItermax) (P.init (start a b G0))

end POT.Weak
