import Verif.Model.Gromov
import Verif.Model.Sinkhorn

/-! # Model of the entropic Gromov-Wasserstein solvers (ot/gromov/_bregman.py, ot/gromov/_semirelaxed.py)

Exact arithmetic. The Sinkhorn solver of the inner problem is a parameter. -/

set_option linter.unusedSectionVars false

namespace POT.GwEntropic

open Finset Gromov

variable {I J : Type*} [Fintype I] [Fintype J]

/-- `tens` before the proximal term (ot/gromov/_bregman.py 1184-1190; `entropic_gromov_wasserstein`, 203-209, is the case `alpha = 1`). -/
noncomputable def fgwGrad (symmetric : Bool) (D : Decomp ℝ) (C1 : I → I → ℝ) (C2 : J → J → ℝ) (p : I → ℝ) (q : J → ℝ) (M : I → J → ℝ) (alpha : ℝ) (T : I → J → ℝ) : I → J → ℝ :=
  fun i j => alpha * gwDf symmetric D C1 C2 p q T i j + (1 - alpha) * M i j

/-- One iteration (ot/gromov/_bregman.py 1180-1212, 200-230). `sk` is the call of `ot.sinkhorn(p, q, ·, epsilon)`, with or without warm start. -/
noncomputable def egwStep (symmetric : Bool) (D : Decomp ℝ) (C1 : I → I → ℝ) (C2 : J → J → ℝ) (p : I → ℝ) (q : J → ℝ) (M : I → J → ℝ) (alpha epsilon : ℝ) (ppa : Bool)
    (sk : (I → J → ℝ) → I → J → ℝ) (T : I → J → ℝ) : I → J → ℝ :=
  let tens := fgwGrad symmetric D C1 C2 p q M alpha T
  sk (if ppa then fun i j => tens i j - epsilon * Real.log (T i j) else tens)

/-- `nx.norm(T - Tprev)` -/
noncomputable def frob (S T : I → J → ℝ) : ℝ := Real.sqrt (∑ i, ∑ j, (S i j - T i j) ^ 2)

/-- State of the loop: plan, `err`. -/
structure St (I J : Type*) where
  T : I → J → ℝ
  err : ℝ

/-- `while err > tol and cpt < max_iter` with the error evaluated when `cpt % 10 == 0` (ot/gromov/_bregman.py 1178-1227, 198-245; ot/gromov/_semirelaxed.py 999-1020); the first number is `max_iter - cpt`, the second `cpt`. -/
noncomputable def egwLoop (step : (I → J → ℝ) → I → J → ℝ) (tol : ℝ) : ℕ → ℕ → St I J → St I J
  | 0, _, s => s
  | n + 1, cpt, s =>
    if s.err > tol then
      let T := step s.T
      egwLoop step tol n (cpt + 1) { T := T, err := if cpt % 10 = 0 then frob T s.T else s.err }
    else s

/-- `nx.outer(p, q)` or the argument `G0` (ot/gromov/_bregman.py 1155-1158). -/
def start (p : I → ℝ) (q : J → ℝ) (G0 : Option (I → J → ℝ)) : I → J → ℝ := G0.getD fun i j => p i * q j

/-- `entropic_fused_gromov_wasserstein` (ot/gromov/_bregman.py 997-1241); the weights are given, `err` starts at 1 (1167). The result is `.T`. -/
noncomputable def entropicFgw (symmetric : Bool) (D : Decomp ℝ) (C1 : I → I → ℝ) (C2 : J → J → ℝ) (p : I → ℝ) (q : J → ℝ) (M : I → J → ℝ) (alpha epsilon : ℝ) (ppa : Bool)
    (sk : (I → J → ℝ) → I → J → ℝ) (G0 : Option (I → J → ℝ)) (maxIter : ℕ) (tol : ℝ) : St I J :=
  egwLoop (egwStep symmetric D C1 C2 p q M alpha epsilon ppa sk) tol maxIter 0 { T := start p q G0, err := 1 }

/-- `log["fgw_dist"]` (ot/gromov/_bregman.py 1234-1236). -/
noncomputable def fgwDist (D : Decomp ℝ) (C1 : I → I → ℝ) (C2 : J → J → ℝ) (p : I → ℝ) (q : J → ℝ) (M : I → J → ℝ) (alpha : ℝ) (T : I → J → ℝ) : ℝ :=
  (1 - alpha) * ∑ i, ∑ j, M i j * T i j + alpha * gwF D C1 C2 p q T

/-- `log["quad_loss"]`, `log["lin_loss"]` of `entropic_fused_gromov_wasserstein2` (ot/gromov/_bregman.py 1395-1397). -/
noncomputable def fgwParts (D : Decomp ℝ) (C1 : I → I → ℝ) (C2 : J → J → ℝ) (p : I → ℝ) (q : J → ℝ) (M : I → J → ℝ) (alpha : ℝ) (T : I → J → ℝ) : ℝ × ℝ :=
  let lin := ∑ i, ∑ j, T i j * M i j
  (fgwDist D C1 C2 p q M alpha T - (1 - alpha) * lin, lin * (1 - alpha))

/-- Gradient of `entropic_semirelaxed_fused_gromov_wasserstein` (ot/gromov/_semirelaxed.py 1277-1301; the case without features, 976-995, is `alpha = 1`). -/
noncomputable def srGrad (symmetric : Bool) (D : Decomp ℝ) (C1 : I → I → ℝ) (C2 : J → J → ℝ) (p : I → ℝ) (M : I → J → ℝ) (alpha : ℝ) (T : I → J → ℝ) : I → J → ℝ :=
  fun i j => alpha * srDf symmetric D C1 C2 p T i j + (1 - alpha) * M i j

/-- One iteration of mirror descent (ot/gromov/_semirelaxed.py 1311-1314, 1001-1004). -/
noncomputable def srStep (symmetric : Bool) (D : Decomp ℝ) (C1 : I → I → ℝ) (C2 : J → J → ℝ) (p : I → ℝ) (M : I → J → ℝ) (alpha epsilon : ℝ) (T : I → J → ℝ) : I → J → ℝ :=
  let K : I → J → ℝ := fun i j => T i j * Real.exp (-srGrad symmetric D C1 C2 p M alpha T i j / epsilon)
  fun i j => p i / (∑ j, K i j) * K i j

/-- `entropic_semirelaxed_fused_gromov_wasserstein` (ot/gromov/_semirelaxed.py 1169-1342); `err` starts at `1e15` (1303). The string initialisations are not modelled: any start may be given. -/
noncomputable def entropicSr (symmetric : Bool) (D : Decomp ℝ) (C1 : I → I → ℝ) (C2 : J → J → ℝ) (p : I → ℝ) (M : I → J → ℝ) (alpha epsilon : ℝ) (G0 : Option (I → J → ℝ)) (maxIter : ℕ) (tol : ℝ) : St I J :=
  egwLoop (srStep symmetric D C1 C2 p M alpha epsilon) tol maxIter 0 { T := G0.getD fun i _ => p i * (1 / Fintype.card J), err := 10 ^ 15 }

/-- `lin_loss`, `quad_loss` of the semi-relaxed solver (ot/gromov/_semirelaxed.py 1334-1337). -/
noncomputable def srParts (D : Decomp ℝ) (C1 : I → I → ℝ) (C2 : J → J → ℝ) (p : I → ℝ) (M : I → J → ℝ) (alpha : ℝ) (T : I → J → ℝ) : ℝ × ℝ :=
  ((∑ i, ∑ j, M i j * T i j) * (1 - alpha), alpha * srF D C1 C2 p T)

end POT.GwEntropic
