import Verif.Model.GwEntropic

/-! # Model of the Bregman alternated projected gradient solvers (ot/gromov/_bregman.py 403-751, 1406-1789)

Exact arithmetic. `BAPG_gromov_wasserstein` is the case `alpha = 1` of `BAPG_fused_gromov_wasserstein`: its gradients (550-573) are the ones of
1560-1586 without the factor and the linear term. -/

set_option linter.unusedSectionVars false

namespace POT.Bapg

open Finset Gromov GwEntropic

variable {I J : Type*} [Fintype I] [Fintype J]

/-- `nx.dot(nx.dot(A, T), B)` -/
def dotR (A : I → I → ℝ) (T : I → J → ℝ) (B : J → J → ℝ) : I → J → ℝ := fun i j => ∑ l, (∑ k, A i k * T k l) * B l j

/-- The four gradients `df` (ot/gromov/_bregman.py 1560-1586; 546-573 for `alpha = 1`). `marginal` is `marginal_loss`. -/
noncomputable def bapgDf (marginal symmetric : Bool) (D : Decomp ℝ) (C1 : I → I → ℝ) (C2 : J → J → ℝ) (p : I → ℝ) (q : J → ℝ) (M : I → J → ℝ) (alpha : ℝ)
    (T : I → J → ℝ) : I → J → ℝ :=
  let hC1 := mapM D.h1 C1
  let hC2 := mapM D.h2 C2
  let hC1t := mapM D.h1 (tr C1)
  let hC2t := mapM D.h2 (tr C2)
  let cC := constC (mapM D.f1 C1) (mapM D.f2 C2) p q
  let cCt := constC (mapM D.f1 (tr C1)) (mapM D.f2 (tr C2)) p q
  if marginal then
    if symmetric then fun i j => alpha * gwggrad cC hC1 hC2 T i j + (1 - alpha) * M i j
    else fun i j => (alpha * (1 / 2)) * (gwggrad cC hC1 hC2 T i j + gwggrad cCt hC1t hC2t T i j) + (1 - alpha) * M i j
  else
    if symmetric then fun i j => 2 * alpha * -dotR hC1 T (tr hC2) i j + (1 - alpha) * M i j
    else fun i j => alpha * (-dotR hC1 T hC2t i j + -dotR hC1t T hC2 i j) + (1 - alpha) * M i j

/-- Rows update with a gradient function (ot/gromov/_bregman.py 1597-1599, 585-587). -/
noncomputable def rowHalf (df : (I → J → ℝ) → I → J → ℝ) (epsilon : ℝ) (p : I → ℝ) (T : I → J → ℝ) : I → J → ℝ :=
  let K : I → J → ℝ := fun i j => T i j * Real.exp (-df T i j / epsilon)
  fun i j => p i / (∑ j, K i j) * K i j

/-- Columns update with a gradient function (ot/gromov/_bregman.py 1602-1604, 590-592). -/
noncomputable def colHalf (df : (I → J → ℝ) → I → J → ℝ) (epsilon : ℝ) (q : J → ℝ) (T : I → J → ℝ) : I → J → ℝ :=
  let K : I → J → ℝ := fun i j => T i j * Real.exp (-df T i j / epsilon)
  fun i j => q j / (∑ i, K i j) * K i j

/-- One iteration (ot/gromov/_bregman.py 1593-1604, 581-592). -/
noncomputable def bapgStep (df : (I → J → ℝ) → I → J → ℝ) (epsilon : ℝ) (p : I → ℝ) (q : J → ℝ) (T : I → J → ℝ) : I → J → ℝ :=
  colHalf df epsilon q (rowHalf df epsilon p T)

/-- `BAPG_fused_gromov_wasserstein` (ot/gromov/_bregman.py 1406-1637): the loop 1592-1618 has the shape of `egwLoop`, `err` starts at `1e15` (1588). -/
noncomputable def bapgFgw (marginal symmetric : Bool) (D : Decomp ℝ) (C1 : I → I → ℝ) (C2 : J → J → ℝ) (p : I → ℝ) (q : J → ℝ) (M : I → J → ℝ)
    (alpha epsilon : ℝ) (G0 : Option (I → J → ℝ)) (maxIter : ℕ) (tol : ℝ) : St I J :=
  egwLoop (bapgStep (bapgDf marginal symmetric D C1 C2 p q M alpha) epsilon p q) tol maxIter 0 { T := start p q G0, err := 10 ^ 15 }

/-- `log["loss"]`, present when `marginal_loss` is off (ot/gromov/_bregman.py 1631-1632, 611-612). -/
noncomputable def bapgLoss (D : Decomp ℝ) (C1 : I → I → ℝ) (C2 : J → J → ℝ) (p : I → ℝ) (q : J → ℝ) (M : I → J → ℝ) (alpha : ℝ) (T : I → J → ℝ) : ℝ :=
  fgwDist D C1 C2 p q M alpha T - alpha * ∑ i, ∑ j, constC (mapM D.f1 C1) (mapM D.f2 C2) p q i j * T i j

/-- What `BAPG_fused_gromov_wasserstein2` returns (ot/gromov/_bregman.py 1759-1789; `BAPG_gromov_wasserstein2`, 730-751, returns the first component with `alpha = 1`):
`fgw_dist`, `quad_loss`, `lin_loss`. The value is computed as in `entropic_fused_gromov_wasserstein` (1626-1628). -/
noncomputable def bapgFgw2 (marginal symmetric : Bool) (D : Decomp ℝ) (C1 : I → I → ℝ) (C2 : J → J → ℝ) (p : I → ℝ) (q : J → ℝ) (M : I → J → ℝ)
    (alpha epsilon : ℝ) (G0 : Option (I → J → ℝ)) (maxIter : ℕ) (tol : ℝ) : ℝ × ℝ × ℝ :=
  let T := (bapgFgw marginal symmetric D C1 C2 p q M alpha epsilon G0 maxIter tol).T
  (fgwDist D C1 C2 p q M alpha T, fgwParts D C1 C2 p q M alpha T)

end POT.Bapg
