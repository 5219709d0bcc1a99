import Mathlib.Analysis.SpecialFunctions.Log.Basic
import Mathlib.Algebra.BigOperators.Ring.Finset
import Mathlib.Data.Fintype.BigOperators

/-!
# Model of the barycenter updates of `ot/gromov/_utils.py`

`S` indexes the inputs; input `s` has its own node set `I s`; `J` is the node set of the barycenter.
-/

namespace POT.GromovBary

open Finset

variable {R : Type*} [Field R] [DecidableEq R]
variable {S : Type*} [Fintype S] {I : S → Type*} [∀ s, Fintype (I s)] {J : Type*} [Fintype J]

/-- `nx.nan_to_num(1.0 / x, nan=1.0, posinf=1.0, neginf=1.0)` (ot/gromov/_utils.py 766, 775, 884, 890). -/
def nanInv (x : R) : R := if x = 0 then 1 else 1 / x

/-- `p` when it is not given: the marginals of the plans on the side of the barycenter (ot/gromov/_utils.py 757-760). -/
def margTarget (T : (s : S) → I s → J → R) (s : S) (j : J) : R := ∑ i, T s i j

/-- `prod` for two-dimensional `p` (ot/gromov/_utils.py 773-775). -/
def prod2 (lam : S → R) (p : S → J → R) (j l : J) : R := nanInv (∑ s, lam s * (p s j * p s l))

/-- `prod` for one-dimensional `p` (ot/gromov/_utils.py 764-770). -/
def prod1 (p : J → R) (j l : J) : R := nanInv (p j) * nanInv (p l)

/-- `sum(lambdas[s] * dot(dot(Ts[s].T, Cs[s]), Ts[s]))` (ot/gromov/_utils.py 783-785, 795-797). -/
def structSum (lam : S → R) (T : (s : S) → I s → J → R) (C : (s : S) → I s → I s → R) (j l : J) : R :=
  ∑ s, lam s * ∑ k, (∑ i, T s i j * C s i k) * T s k l

/-- `update_barycenter_structure` with `target=True`, either loss, two-dimensional (or absent) `p`
(ot/gromov/_utils.py 757-760, 773-791, 794-799). -/
def updateTarget2 (lam : S → R) (T : (s : S) → I s → J → R) (C : (s : S) → I s → I s → R) (j l : J) : R :=
  structSum lam T C j l * prod2 lam (margTarget T) j l

/-- The same with a shared one-dimensional `p` (ot/gromov/_utils.py 764-770). -/
def updateTarget1 (lam : S → R) (T : (s : S) → I s → J → R) (C : (s : S) → I s → I s → R) (p : J → R) (j l : J) : R :=
  structSum lam T C j l * prod1 p j l

/-- `target=False`, square loss: plans have shape (barycenter, input) (ot/gromov/_utils.py 786-791). -/
def updateSource2 (lam : S → R) (T : (s : S) → J → I s → R) (C : (s : S) → I s → I s → R) (j l : J) : R :=
  (∑ s, lam s * ∑ k, (∑ i, T s j i * C s i k) * T s l k) *
    prod2 lam (fun s j => ∑ i, T s j i) j l

/-- `target=False`, KL loss (ot/gromov/_utils.py 800-807); `ε` is `1e-16`. -/
noncomputable def updateSourceKl (ε : ℝ) (lam : S → ℝ) (T : (s : S) → J → I s → ℝ) (C : (s : S) → I s → I s → ℝ)
    (j l : J) : ℝ :=
  Real.exp ((∑ s, lam s * ∑ k, (∑ i, T s j i * Real.log (max (C s i k) ε)) * T s l k) *
    (open Classical in prod2 lam (fun s j => ∑ i, T s j i) j l))

/-- `update_barycenter_feature`, `target=True`, two-dimensional (or absent) `p` (ot/gromov/_utils.py 872-873, 877-880, 888-894);
`d` is the feature coordinate. -/
def updateFeature2 {E : Type*} (lam : S → R) (T : (s : S) → I s → J → R) (Y : (s : S) → I s → E → R) (j : J) (d : E) : R :=
  (∑ s, lam s * ∑ i, T s i j * Y s i d) * nanInv (∑ s, lam s * margTarget T s j)

/-- The same with a shared one-dimensional `p` (ot/gromov/_utils.py 882-886). -/
def updateFeature1 {E : Type*} (lam : S → R) (T : (s : S) → I s → J → R) (Y : (s : S) → I s → E → R) (p : J → R)
    (j : J) (d : E) : R :=
  (∑ s, lam s * ∑ i, T s i j * Y s i d) * nanInv (p j)

end POT.GromovBary
