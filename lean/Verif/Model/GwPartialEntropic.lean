import Verif.Model.GwEntropic
import Verif.Model.Partial

/-! # Model of the entropic partial Gromov-Wasserstein solvers (ot/gromov/_partial.py 1071-1814)

Exact arithmetic. The inner solver is a parameter `sk`: it gets the mass and the cost. The weights are given. -/

set_option linter.unusedSectionVars false

namespace POT.GwPartialEntropic

open Finset Gromov GwEntropic

variable {I J : Type*} [Fintype I] [Fintype J]

/-- The mass: default and checks (ot/gromov/_partial.py 1215-1223, 1573-1581); `none` for `ValueError`. -/
noncomputable def epMass (p : I → ℝ) (q : J → ℝ) : Option ℝ → Option ℝ
  | none => some (min (∑ i, p i) (∑ j, q j))
  | some m => if m < 0 then none else if m > min (∑ i, p i) (∑ j, q j) then none else some m

open Classical in
/-- Initial plan (ot/gromov/_partial.py 1225-1233, 1583-1591); `none` for `AssertionError`. The marginals of a given plan are compared with `nx.any`. -/
noncomputable def epStart (p : I → ℝ) (q : J → ℝ) (m : ℝ) : Option (I → J → ℝ) → Option (I → J → ℝ)
  | none => some fun i j => p i * q j * m / ((∑ i, p i) * ∑ j, q j)
  | some G => if (∃ i, rowSum G i ≤ p i) ∧ ∃ j, colSum G j ≤ q j then some G else none

/-- `df` of `entropic_partial_gromov_wasserstein` (ot/gromov/_partial.py 1256-1278). -/
noncomputable def epGrad (symmetric : Bool) (D : Decomp ℝ) (C1 : I → I → ℝ) (C2 : J → J → ℝ) (G : I → J → ℝ) : I → J → ℝ :=
  pgDf symmetric D C1 C2 G

/-- `df` of `entropic_partial_fused_gromov_wasserstein` (ot/gromov/_partial.py 1616-1640): the feature term is the number `nx.sum(G * M)`, broadcast to all entries. In the asymmetric branch the factor is `0.5 * alpha`. -/
noncomputable def epfGrad (symmetric : Bool) (D : Decomp ℝ) (C1 : I → I → ℝ) (C2 : J → J → ℝ) (M : I → J → ℝ) (alpha : ℝ) (G : I → J → ℝ) : I → J → ℝ :=
  fun i j => alpha * pgDf symmetric D C1 C2 G i j + (1 - alpha) * ∑ i, ∑ j, G i j * M i j

/-- `entropic_partial_gromov_wasserstein` (ot/gromov/_partial.py 1071-1307); `none` if it raises. -/
noncomputable def entropicPartialGw (symmetric : Bool) (D : Decomp ℝ) (C1 : I → I → ℝ) (C2 : J → J → ℝ) (p : I → ℝ) (q : J → ℝ)
    (sk : ℝ → (I → J → ℝ) → I → J → ℝ) (m : Option ℝ) (G0 : Option (I → J → ℝ)) (numItermax : ℕ) (tol : ℝ) : Option (St I J) :=
  match epMass p q m with
  | none => none
  | some mm => match epStart p q mm G0 with
    | none => none
    | some G => some (egwLoop (fun T => sk mm (epGrad symmetric D C1 C2 T)) tol numItermax 0 { T := G, err := 1 })

/-- `entropic_partial_fused_gromov_wasserstein` (ot/gromov/_partial.py 1440-1670); `none` if it raises. -/
noncomputable def entropicPartialFgw (symmetric : Bool) (D : Decomp ℝ) (C1 : I → I → ℝ) (C2 : J → J → ℝ) (p : I → ℝ) (q : J → ℝ) (M : I → J → ℝ) (alpha : ℝ)
    (sk : ℝ → (I → J → ℝ) → I → J → ℝ) (m : Option ℝ) (G0 : Option (I → J → ℝ)) (numItermax : ℕ) (tol : ℝ) : Option (St I J) :=
  match epMass p q m with
  | none => none
  | some mm => match epStart p q mm G0 with
    | none => none
    | some G => some (egwLoop (fun T => sk mm (epfGrad symmetric D C1 C2 M alpha T)) tol numItermax 0 { T := G, err := 1 })

/-- `log["partial_gw_dist"]` (ot/gromov/_partial.py 1249-1254, 1304). -/
noncomputable def epValue (D : Decomp ℝ) (C1 : I → I → ℝ) (C2 : J → J → ℝ) (G : I → J → ℝ) : ℝ := pgF D C1 C2 G

/-- `log["partial_fgw_dist"]` (ot/gromov/_partial.py 1607-1614, 1666). -/
noncomputable def epfValue (D : Decomp ℝ) (C1 : I → I → ℝ) (C2 : J → J → ℝ) (M : I → J → ℝ) (alpha : ℝ) (G : I → J → ℝ) : ℝ :=
  alpha * pgF D C1 C2 G + (1 - alpha) * ∑ i, ∑ j, G i j * M i j

open Partial in
/-- The inner call `entropic_partial_wasserstein(p, q, M_entr, reg, m)` (ot/gromov/_partial.py 1287, 1649) with its defaults `numItermax`, `stopThr`. -/
noncomputable def dykSolver (p : I → ℝ) (q : J → ℝ) (reg : ℝ) (numItermax : ℕ) (stopThr : ℝ) : ℝ → (I → J → ℝ) → I → J → ℝ :=
  fun m N => (entropicPartial p q N reg (some m) numItermax stopThr).getD fun _ _ => 0

end POT.GwPartialEntropic
