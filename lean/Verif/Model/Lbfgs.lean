import Verif.Model.Mm
import Verif.Spec.Lbfgs

/-!
# Model: unbalanced transport with SciPy's bounded quasi-Newton solver (ot/unbalanced/_lbfgs.py)

`eps` is the constant `1e-16` of the logarithms.  `scipy.optimize.minimize` is a parameter.  Real arithmetic.
-/

set_option linter.unusedSectionVars false

namespace POT.Lbfgs

open Finset

variable {I J : Type*} [Fintype I] [Fintype J]

/-- `regm_div` (ot/unbalanced/_lbfgs.py 123-131) -/
inductive RegmDiv
  | kl | tv | l2

/-- `reg_div` (ot/unbalanced/_lbfgs.py 81-92): a name, or a pair of functions -/
inductive RegDiv (I J : Type*)
  | kl | entropy | l2
  | pair (f : (I → J → ℝ) → ℝ) (df : (I → J → ℝ) → I → J → ℝ)

/-- `reg_kl`, `reg_entropy`, `reg_l2` (ot/unbalanced/_lbfgs.py 63-79) -/
noncomputable def regFun (eps : ℝ) (c : I → J → ℝ) : RegDiv I J → (I → J → ℝ) → ℝ
  | .kl, G => Mm.klDivMass eps (fun x : I × J => G x.1 x.2) fun x => c x.1 x.2
  | .entropy, G => ∑ i, ∑ j, G i j * Real.log (G i j + eps) - ∑ i, ∑ j, G i j
  | .l2, G => (∑ i, ∑ j, (G i j - c i j) ^ 2) / 2
  | .pair f _, G => f G

/-- `grad_kl`, `grad_entropy`, `grad_l2` (ot/unbalanced/_lbfgs.py 66-79) -/
noncomputable def gradReg (eps : ℝ) (c : I → J → ℝ) : RegDiv I J → (I → J → ℝ) → I → J → ℝ
  | .kl, G => fun i j => Real.log (G i j / c i j + eps)
  | .entropy, G => fun i j => Real.log (G i j + eps)
  | .l2, G => fun i j => G i j - c i j
  | .pair _ df, G => df G

/-- `marg_kl`, `marg_tv`, `marg_l2` (ot/unbalanced/_lbfgs.py 94-116) -/
noncomputable def margFun (eps : ℝ) (a : I → ℝ) (b : J → ℝ) (m1 m2 : ℝ) : RegmDiv → (I → J → ℝ) → ℝ
  | .kl, G => m1 * Mm.klDivMass eps (fun i => ∑ j, G i j) a + m2 * Mm.klDivMass eps (fun j => ∑ i, G i j) b
  | .tv, G => m1 * ∑ i, |∑ j, G i j - a i| + m2 * ∑ j, |∑ i, G i j - b j|
  | .l2, G => m1 * 0.5 * ∑ i, (∑ j, G i j - a i) ^ 2 + m2 * 0.5 * ∑ j, (∑ i, G i j - b j) ^ 2

/-- `grad_marg_kl`, `grad_marg_tv`, `grad_marg_l2` (ot/unbalanced/_lbfgs.py 99-121) -/
noncomputable def gradMarg (eps : ℝ) (a : I → ℝ) (b : J → ℝ) (m1 m2 : ℝ) : RegmDiv → (I → J → ℝ) → I → J → ℝ
  | .kl, G => fun i j => m1 * Real.log ((∑ l, G i l) / a i + eps) + m2 * Real.log ((∑ l, G l j) / b j + eps)
  | .tv, G => fun i j => m1 * (SignType.sign (∑ l, G i l - a i) : ℝ) + m2 * (SignType.sign (∑ l, G l j - b j) : ℝ)
  | .l2, G => fun i j => m1 * (∑ l, G i l - a i) + m2 * (∑ l, G l j - b j)

open Classical in
/-- `_func`, first component (ot/unbalanced/_lbfgs.py 136-139) -/
noncomputable def value (eps : ℝ) (M : I → J → ℝ) (a : I → ℝ) (b : J → ℝ) (c : I → J → ℝ) (reg m1 m2 : ℝ) (rd : RegDiv I J) (md : RegmDiv) (G : I → J → ℝ) : ℝ :=
  let v := ∑ i, ∑ j, G i j * M i j + margFun eps a b m1 m2 md G
  if reg > 0 then v + reg * regFun eps c rd G else v

open Classical in
/-- `_func`, second component (ot/unbalanced/_lbfgs.py 140-145) -/
noncomputable def grad (eps : ℝ) (M : I → J → ℝ) (a : I → ℝ) (b : J → ℝ) (c : I → J → ℝ) (reg m1 m2 : ℝ) (rd : RegDiv I J) (md : RegmDiv) (G : I → J → ℝ) : I → J → ℝ := fun i j =>
  let v := M i j + gradMarg eps a b m1 m2 md G i j
  if reg > 0 then v + reg * gradReg eps c rd G i j else v

/-- `scipy.optimize.minimize(fun, x0, jac=True, bounds=Bounds(0, inf))`: the pair `(res.x, res.fun)` -/
def Minimize (I J : Type*) := ((I → J → ℝ) → ℝ × (I → J → ℝ)) → (I → J → ℝ) → (I → J → ℝ) × ℝ

/-- the plan, `log["cost"]` and `log["total_cost"]` -/
structure Result (I J : Type*) where
  G : I → J → ℝ
  linear : ℝ
  total : ℝ

/-- `lbfgsb_unbalanced` (ot/unbalanced/_lbfgs.py 274-337), with `reg_m` already split in two (`get_parameter_pair`) and given weights -/
noncomputable def lbfgsb (eps : ℝ) (minimize : Minimize I J) (a : I → ℝ) (b : J → ℝ) (M : I → J → ℝ) (reg m1 m2 : ℝ) (c : Option (I → J → ℝ)) (rd : RegDiv I J) (md : RegmDiv) (G0 : Option (I → J → ℝ)) : Result I J :=
  let start := G0.getD fun i j => a i * b j
  let ref := c.getD fun i j => a i * b j
  let res := minimize (fun G => (value eps M a b ref reg m1 m2 rd md G, grad eps M a b ref reg m1 m2 rd md G)) start
  ⟨res.1, ∑ i, ∑ j, res.1 i j * M i j, res.2⟩

/-- `lbfgsb_unbalanced2` (ot/unbalanced/_lbfgs.py 460-487); `none` models the `ValueError` -/
noncomputable def lbfgsb2 (eps : ℝ) (minimize : Minimize I J) (a : I → ℝ) (b : J → ℝ) (M : I → J → ℝ) (reg m1 m2 : ℝ) (c : Option (I → J → ℝ)) (rd : RegDiv I J) (md : RegmDiv) (G0 : Option (I → J → ℝ)) (returnCost : String) : Option ℝ :=
  let r := lbfgsb eps minimize a b M reg m1 m2 c rd md G0
  if returnCost = "linear" then some r.linear else if returnCost = "total" then some r.total else none

end POT.Lbfgs
