import Verif.Model.Optim
import Mathlib.Analysis.SpecialFunctions.Log.Basic

/-!
# Model of `ot/gromov/_utils.py`, `_gw.py`, `_semirelaxed.py`, `_partial.py` (loss, gradient, line searches)
-/

namespace POT.Gromov

open Finset

variable {R : Type*} [Field R]
variable {I J : Type*} [Fintype I] [Fintype J]

/-- The four functions `f1, f2, h1, h2` of `_transform_matrix` (ot/gromov/_utils.py 114-139). -/
structure Decomp (R : Type*) where
  f1 : R → R
  f2 : R → R
  h1 : R → R
  h2 : R → R

/-- `loss_fun == "square_loss"` (ot/gromov/_utils.py 114-126). -/
def square : Decomp R where
  f1 a := a ^ 2
  f2 b := b ^ 2
  h1 a := a
  h2 b := 2 * b

/-- `loss_fun == "kl_loss"` (ot/gromov/_utils.py 127-139); `ε` is the guard `1e-18`. -/
noncomputable def kl (ε : ℝ) : Decomp ℝ where
  f1 a := a * Real.log (a + ε) - a
  f2 b := b
  h1 a := a
  h2 b := Real.log (b + ε)

/-- Entrywise application (ot/gromov/_utils.py 145-148). -/
def mapM {K L : Type*} (f : R → R) (C : K → L → R) : K → L → R := fun i k => f (C i k)

/-- `C.T` -/
def tr {K L : Type*} (C : K → L → R) : L → K → R := fun i k => C k i

/-- `constC` of `init_matrix` (ot/gromov/_utils.py 233-239), for given `fC1`, `fC2`. -/
def constC (fC1 : I → I → R) (fC2 : J → J → R) (p : I → R) (q : J → R) : I → J → R := fun i j =>
  (∑ k, fC1 i k * p k) * 1 + 1 * ∑ l, q l * fC2 j l

/-- `nx.dot(nx.dot(A, T), B.T)` -/
def dot3 (A : I → I → R) (T : I → J → R) (B : J → J → R) : I → J → R := fun i j =>
  ∑ l, (∑ k, A i k * T k l) * B j l

/-- `tensor_product` (ot/gromov/_utils.py 277-280). -/
def tensorProduct (cC : I → J → R) (hC1 : I → I → R) (hC2 : J → J → R) (T : I → J → R) : I → J → R :=
  fun i j => cC i j + -dot3 hC1 T hC2 i j

/-- `gwloss` (ot/gromov/_utils.py 315-320). -/
def gwloss (cC : I → J → R) (hC1 : I → I → R) (hC2 : J → J → R) (T : I → J → R) : R :=
  ∑ i, ∑ j, tensorProduct cC hC1 hC2 T i j * T i j

/-- `gwggrad` (ot/gromov/_utils.py 354). -/
def gwggrad (cC : I → J → R) (hC1 : I → I → R) (hC2 : J → J → R) (T : I → J → R) : I → J → R :=
  fun i j => 2 * tensorProduct cC hC1 hC2 T i j

/-- Row sums / column sums (`nx.sum(G, 1)`, `nx.sum(G, 0)`). -/
def rowSum (G : I → J → R) : I → R := fun i => ∑ j, G i j
def colSum (G : I → J → R) : J → R := fun j => ∑ i, G i j

/-! ### Balanced (`gromov_wasserstein`, `fused_gromov_wasserstein`) -/

/-- `f` of `gromov_wasserstein` (ot/gromov/_gw.py 170-173; also 576-579 for FGW). -/
def gwF (D : Decomp R) (C1 : I → I → R) (C2 : J → J → R) (p : I → R) (q : J → R) (G : I → J → R) : R :=
  gwloss (constC (mapM D.f1 C1) (mapM D.f2 C2) p q) (mapM D.h1 C1) (mapM D.h2 C2) G

/-- `df` of `gromov_wasserstein` (ot/gromov/_gw.py 175-185; also 581-591). -/
def gwDf (symmetric : Bool) (D : Decomp R) (C1 : I → I → R) (C2 : J → J → R) (p : I → R) (q : J → R)
    (G : I → J → R) : I → J → R :=
  let g := gwggrad (constC (mapM D.f1 C1) (mapM D.f2 C2) p q) (mapM D.h1 C1) (mapM D.h2 C2) G
  if symmetric then g else
    let gt := gwggrad (constC (mapM D.f1 (tr C1)) (mapM D.f2 (tr C2)) p q) (mapM D.h1 (tr C1)) (mapM D.h2 (tr C2)) G
    fun i j => 1 / 2 * (g i j + gt i j)

/-- Coefficients `(a, b)` computed by `solve_gromov_linesearch` (ot/gromov/_gw.py 930-937). -/
def linesearchCoef (symmetric : Bool) (hC1 : I → I → R) (hC2 : J → J → R) (M : I → J → R) (reg : R)
    (G deltaG : I → J → R) : R × R :=
  let dot := dot3 hC1 deltaG hC2
  let a := -reg * ∑ i, ∑ j, dot i j * deltaG i j
  let b := if symmetric then
      ∑ i, ∑ j, M i j * deltaG i j - 2 * reg * ∑ i, ∑ j, dot i j * G i j
    else
      ∑ i, ∑ j, M i j * deltaG i j - reg * (∑ i, ∑ j, dot i j * G i j
        + ∑ i, ∑ j, dot3 hC1 G hC2 i j * deltaG i j)
  (a, b)

/-- `solve_gromov_linesearch` (ot/gromov/_gw.py 857-946) without the optional clipping bounds `alpha_min/alpha_max`
(no caller inside the library passes them). -/
def gromovLinesearch [LinearOrder R] (symmetric : Bool) (hC1 : I → I → R) (hC2 : J → J → R) (M : I → J → R) (reg : R)
    (G deltaG : I → J → R) (costG : R) : Optim.LineSearchResult R I J :=
  let ab := linesearchCoef symmetric hC1 hC2 M reg G deltaG
  let alpha := Optim.quadStep ab.1 ab.2                                         -- 939
  { alpha := alpha, cost := costG + ab.1 * alpha ^ 2 + ab.2 * alpha, df := none } -- 944-946

/-- The conditional-gradient problem set up by `fused_gromov_wasserstein` (ot/gromov/_gw.py 576-659): `M` is
`(1 - alpha) * M`, `reg = alpha`; `gromov_wasserstein` (170-254) is the case `M = 0`, `reg = 1`.  `lp` is the exact linear
solver `emd`. -/
def fgwProblem [LinearOrder R] (symmetric : Bool) (D : Decomp R) (C1 : I → I → R) (C2 : J → J → R)
    (p : I → R) (q : J → R) (M : I → J → R) (reg : R) (lp : (I → J → R) → (I → J → R))
    (numItermax : ℕ) (stopThr stopThr2 : R) : Optim.Problem R I J where
  M := M
  f := gwF D C1 C2 p q
  df := gwDf symmetric D C1 C2 p q
  reg1 := reg
  lpSolver := lp
  lineSearch := fun G dG _ costG _ => gromovLinesearch symmetric (mapM D.h1 C1) (mapM D.h2 C2) M reg G dG costG
  numItermax := numItermax
  stopThr := stopThr
  stopThr2 := stopThr2

/-! ### Semi-relaxed -/

/-- `constC + marginal_product` of the semi-relaxed solvers (ot/gromov/_utils.py 441-446, ot/gromov/_semirelaxed.py 163-166). -/
def srConst (fC1 : I → I → R) (fC2 : J → J → R) (p : I → R) (G : I → J → R) : I → J → R := fun i j =>
  (∑ k, fC1 i k * p k) * 1 + 1 * ∑ l, colSum G l * fC2 j l

/-- `f` of `semirelaxed_gromov_wasserstein` (ot/gromov/_semirelaxed.py 163-166). -/
def srF (D : Decomp R) (C1 : I → I → R) (C2 : J → J → R) (p : I → R) (G : I → J → R) : R :=
  gwloss (srConst (mapM D.f1 C1) (mapM D.f2 C2) p G) (mapM D.h1 C1) (mapM D.h2 C2) G

/-- `df` of `semirelaxed_gromov_wasserstein` (ot/gromov/_semirelaxed.py 168-184). -/
def srDf (symmetric : Bool) (D : Decomp R) (C1 : I → I → R) (C2 : J → J → R) (p : I → R)
    (G : I → J → R) : I → J → R :=
  let g := gwggrad (srConst (mapM D.f1 C1) (mapM D.f2 C2) p G) (mapM D.h1 C1) (mapM D.h2 C2) G
  if symmetric then g else
    let gt := gwggrad (srConst (mapM D.f1 (tr C1)) (mapM D.f2 (tr C2)) p G) (mapM D.h1 (tr C1)) (mapM D.h2 (tr C2)) G
    fun i j => 1 / 2 * (g i j + gt i j)

/-- Coefficients of `solve_semirelaxed_gromov_linesearch` (ot/gromov/_semirelaxed.py 829-840);
`fC2t` is passed transposed, `fC2` is its transpose. -/
def srLinesearchCoef (hC1 : I → I → R) (hC2 : J → J → R) (fC2 : J → J → R) (M : I → J → R) (reg : R)
    (G deltaG : I → J → R) : R × R :=
  let dot := dot3 hC1 deltaG hC2
  let dotqG : I → J → R := fun _ j => ∑ l, 1 * colSum G l * fC2 j l
  let dotqdG : I → J → R := fun _ j => ∑ l, 1 * colSum deltaG l * fC2 j l
  let a := reg * ∑ i, ∑ j, (dotqdG i j - dot i j) * deltaG i j
  let b := ∑ i, ∑ j, M i j * deltaG i j + reg * (∑ i, ∑ j, (dotqdG i j - dot i j) * G i j
    + ∑ i, ∑ j, (dotqG i j - dot3 hC1 G hC2 i j) * deltaG i j)
  (a, b)

/-- `solve_semirelaxed_gromov_linesearch` (ot/gromov/_semirelaxed.py 755-849) without clipping bounds. -/
def srLinesearch [LinearOrder R] (hC1 : I → I → R) (hC2 : J → J → R) (fC2 : J → J → R) (M : I → J → R) (reg : R)
    (G deltaG : I → J → R) (costG : R) : Optim.LineSearchResult R I J :=
  let ab := srLinesearchCoef hC1 hC2 fC2 M reg G deltaG
  let alpha := Optim.quadStep ab.1 ab.2
  { alpha := alpha, cost := costG + ab.1 * alpha ^ 2 + ab.2 * alpha, df := none }

/-- The problem set up by the semi-relaxed (fused) solvers (ot/gromov/_semirelaxed.py 159-234, 500-600). -/
def srProblem [LinearOrder R] [Nonempty J] (symmetric : Bool) (D : Decomp R) (C1 : I → I → R) (C2 : J → J → R)
    (p : I → R) (M : I → J → R) (reg tol : R) (numItermax : ℕ) (stopThr stopThr2 : R) : Optim.Problem R I J where
  M := M
  f := srF D C1 C2 p
  df := srDf symmetric D C1 C2 p
  reg1 := reg
  lpSolver := Optim.semirelaxedLp tol p
  lineSearch := fun G dG _ costG _ =>
    srLinesearch (mapM D.h1 C1) (mapM D.h2 C2) (mapM D.f2 C2) M reg G dG costG
  numItermax := numItermax
  stopThr := stopThr
  stopThr2 := stopThr2

/-! ### Partial -/

/-- `f` of `partial_gromov_wasserstein` (ot/gromov/_partial.py 220-225): both marginals are those of `G`. -/
def pgF (D : Decomp R) (C1 : I → I → R) (C2 : J → J → R) (G : I → J → R) : R :=
  gwloss (constC (mapM D.f1 C1) (mapM D.f2 C2) (rowSum G) (colSum G)) (mapM D.h1 C1) (mapM D.h2 C2) G

/-- `df` of `partial_gromov_wasserstein` (ot/gromov/_partial.py 227-248). -/
def pgDf (symmetric : Bool) (D : Decomp R) (C1 : I → I → R) (C2 : J → J → R)
    (G : I → J → R) : I → J → R :=
  gwDf symmetric D C1 C2 (rowSum G) (colSum G) G

/-- Coefficients of `solve_partial_gromov_linesearch` (ot/gromov/_partial.py 1053-1058). -/
def pgLinesearchCoef (M : I → J → R) (reg : R) (deltaG dfG dfGc : I → J → R) : R × R :=
  let dfd : I → J → R := fun i j => dfGc i j - dfG i j
  (reg * (1 / 2 * ∑ i, ∑ j, dfd i j * deltaG i j),
   ∑ i, ∑ j, M i j * deltaG i j + reg * ∑ i, ∑ j, dfG i j * deltaG i j)

/-- `solve_partial_gromov_linesearch` (ot/gromov/_partial.py 988-1068) without clipping bounds. -/
def pgLinesearch [LinearOrder R] (M : I → J → R) (reg : R) (deltaG dfG dfGc : I → J → R) (costG : R) :
    Optim.LineSearchResult R I J :=
  let ab := pgLinesearchCoef M reg deltaG dfG dfGc
  let alpha := Optim.quadStep ab.1 ab.2
  { alpha := alpha, cost := costG + ab.1 * alpha ^ 2 + ab.2 * alpha,
    df := some fun i j => dfG i j + alpha * (dfGc i j - dfG i j) }   -- 1067

/-- The problem set up by `partial_gromov_wasserstein` (ot/gromov/_partial.py 220-306); `lp` is the linear solver of
`partial_cg` (ot/optim.py 768-786). -/
def pgProblem [LinearOrder R] (symmetric : Bool) (D : Decomp R) (C1 : I → I → R) (C2 : J → J → R)
    (M : I → J → R) (reg : R) (lp : (I → J → R) → (I → J → R)) (numItermax : ℕ) (stopThr stopThr2 : R) :
    Optim.Problem R I J where
  M := M
  f := pgF D C1 C2
  df := pgDf symmetric D C1 C2
  reg1 := reg
  lpSolver := lp
  lineSearch := fun G dG _ costG dfG =>
    pgLinesearch M reg dG dfG (pgDf symmetric D C1 C2 (fun i j => dG i j + G i j)) costG  -- 251-254
  numItermax := numItermax
  stopThr := stopThr
  stopThr2 := stopThr2

/-! ### Gradients with respect to the structures (`gromov_wasserstein2`) -/

/-- `gC1` for the square loss (ot/gromov/_gw.py 401). -/
def gradC1 (C1 : I → I → R) (C2 : J → J → R) (p : I → R) (T : I → J → R) : I → I → R := fun i k =>
  2 * C1 i k * (p i * p k) - 2 * ∑ j, T i j * ∑ l, C2 j l * T k l

/-- `gC2` for the square loss (ot/gromov/_gw.py 402). -/
def gradC2 (C1 : I → I → R) (C2 : J → J → R) (q : J → R) (T : I → J → R) : J → J → R := fun j l =>
  2 * C2 j l * (q j * q l) - 2 * ∑ i, T i j * ∑ k, C1 i k * T k l

end POT.Gromov
