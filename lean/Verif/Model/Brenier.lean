import Verif.Spec.Transport
import Verif.Spec.Mapping

/-! # Model of the nearest Brenier potential (`ot/mapping.py` 23-425) -/

set_option linter.unusedSectionVars false

namespace POT.Brenier

open Finset

variable {I J D C : Type*} [Fintype I] [Fintype J] [Fintype D]

/-- `_ssnb_qcqp_constants` (ot/mapping.py 202-225): `c`. -/
noncomputable def const (ℓ L : ℝ) : ℝ := 1 / (2 * (1 - ℓ / L))
/-- `c1` (ot/mapping.py 222). -/
noncomputable def c1 (ℓ L : ℝ) : ℝ := const ℓ L / L
/-- `c2` (ot/mapping.py 223). -/
noncomputable def c2 (ℓ L : ℝ) : ℝ := ℓ * const ℓ L
/-- `c3` (ot/mapping.py 224). -/
noncomputable def c3 (ℓ L : ℝ) : ℝ := 2 * ℓ * const ℓ L / L

/-- One constraint (ot/mapping.py 171-178; with the new point in the place of `i` 369-376, in the place of `j` 398-405): `phi[i] >= phi[j] + ...`. -/
def above (ℓ L : ℝ) (phii : ℝ) (Gi Xi : D → ℝ) (phij : ℝ) (Gj Xj : D → ℝ) : Prop :=
  phij + ∑ d, Gj d * (Xi d - Xj d) + c1 ℓ L * Spec.sqEuclid Gi Gj + c2 ℓ L * Spec.sqEuclid Xi Xj - c3 ℓ L * ∑ d, (Gj d - Gi d) * (Xj d - Xi d) ≤ phii

/-- All constraints of the fit (ot/mapping.py 168-178): every ordered pair of samples of the same class. -/
def Feasible (ℓ L : ℝ) (X : I → D → ℝ) (cls : I → C) (phi : I → ℝ) (G : I → D → ℝ) : Prop :=
  ∀ i j, cls i = cls j → above ℓ L (phi i) (G i) (X i) (phi j) (G j) (X j)

/-- What CVXPY is asked for in the fit (ot/mapping.py 156-181): values and gradients that minimise the transport cost of the given plan under the constraints.  The solver
is a parameter; `SolvesFit` states its contract for plans between the weights `a` and `b`. -/
def SolvesFit (ℓ L : ℝ) (X : I → D → ℝ) (cls : I → C) (V : I → D → ℝ) (a b : I → ℝ) (qp : (I → I → ℝ) → (I → ℝ) × (I → D → ℝ)) : Prop :=
  ∀ P, Spec.IsCoupling a b P → Feasible ℓ L X cls (qp P).1 (qp P).2 ∧ ∀ phi G, Feasible ℓ L X cls phi G → Spec.moveCost (qp P).2 V P ≤ Spec.moveCost G V P

/-- `dist(G_val, V)` (ot/mapping.py 151). -/
noncomputable def distM (G V : I → D → ℝ) : I → I → ℝ := fun i j => Spec.sqEuclid (G i) (V j)

/-- One iteration (ot/mapping.py 150-181): the plan for the present gradients (`emd` is `lp`), then new values and gradients. -/
noncomputable def fitStep (V : I → D → ℝ) (lp : (I → I → ℝ) → I → I → ℝ) (qp : (I → I → ℝ) → (I → ℝ) × (I → D → ℝ)) (G : I → D → ℝ) : (I → ℝ) × (I → D → ℝ) :=
  qp (lp (distM G V))

/-- Gradients before iteration `k` (ot/mapping.py 143-150, 181); `G0` is `V` or the barycentric projection. -/
noncomputable def fitG (V : I → D → ℝ) (lp : (I → I → ℝ) → I → I → ℝ) (qp : (I → I → ℝ) → (I → ℝ) × (I → D → ℝ)) (G0 : I → D → ℝ) : ℕ → I → D → ℝ
  | 0 => G0
  | k + 1 => (fitStep V lp qp (fitG V lp qp G0 k)).2

/-- The initial gradients for `init_method = "barycentric"` (ot/mapping.py 146). -/
noncomputable def baryInit (lp : (I → I → ℝ) → I → I → ℝ) (a : I → ℝ) (X V : I → D → ℝ) : I → D → ℝ := fun i d => (∑ j, lp (distM X V) i j * V j d) / a i

/-- `problem.value` of iteration `k` (ot/mapping.py 159-163, 187). -/
noncomputable def fitValue (V : I → D → ℝ) (lp : (I → I → ℝ) → I → I → ℝ) (qp : (I → I → ℝ) → (I → ℝ) × (I → D → ℝ)) (G0 : I → D → ℝ) (k : ℕ) : ℝ :=
  let plan := lp (distM (fitG V lp qp G0 k) V)
  ∑ i, ∑ j, Spec.sqEuclid ((qp plan).2 i) (V j) * plan i j

/-- The constraints of the lower bound at `y` (ot/mapping.py 367-376). -/
def LowerOk (ℓ L : ℝ) (X : I → D → ℝ) (cls : I → C) (phi : I → ℝ) (G : I → D → ℝ) (y : D → ℝ) (k : C) (t : ℝ) (g : D → ℝ) : Prop :=
  ∀ j, cls j = k → above ℓ L t g y (phi j) (G j) (X j)

/-- The constraints of the upper bound at `y` (ot/mapping.py 397-405). -/
def UpperOk (ℓ L : ℝ) (X : I → D → ℝ) (cls : I → C) (phi : I → ℝ) (G : I → D → ℝ) (y : D → ℝ) (k : C) (t : ℝ) (g : D → ℝ) : Prop :=
  ∀ i, cls i = k → above ℓ L (phi i) (G i) (X i) t g y

/-- What `nearest_brenier_potential_predict_bounds` returns for one query (ot/mapping.py 360-411): `phi_lu[0]`, `G_lu[0]` minimise under the first constraints, `phi_lu[1]`, `G_lu[1]`
maximise under the second. -/
structure Bounds (ℓ L : ℝ) (X : I → D → ℝ) (cls : I → C) (phi : I → ℝ) (G : I → D → ℝ) (y : D → ℝ) (k : C) (lo up : ℝ) (Glo Gup : D → ℝ) : Prop where
  low_ok : LowerOk ℓ L X cls phi G y k lo Glo
  low : ∀ t g, LowerOk ℓ L X cls phi G y k t g → lo ≤ t
  up_ok : UpperOk ℓ L X cls phi G y k up Gup
  upp : ∀ t g, UpperOk ℓ L X cls phi G y k t g → t ≤ up

end POT.Brenier
