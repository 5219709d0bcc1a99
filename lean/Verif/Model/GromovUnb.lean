import Mathlib.Analysis.SpecialFunctions.Log.Basic
import Mathlib.Analysis.SpecialFunctions.Pow.Real
import Mathlib.Algebra.BigOperators.Ring.Finset
import Mathlib.Data.Fintype.BigOperators

/-!
# Model of the unbalanced across-spaces utilities (`ot/gromov/_utils.py` 902-1290, `ot/gromov/_unbalanced.py`)

`I`, `J` index the samples of `X`, `Y`; `D`, `E` their features.
-/

namespace POT.GromovUnb

open Finset

variable {K I J D E : Type*} [Fintype K] [Fintype I] [Fintype J] [Fintype D] [Fintype E]

/-- `nx.kl_div` (ot/backend.py 1542-1546) without the guard `1e-16` inside the logarithm. -/
noncomputable def klDiv (mass : Bool) (p q : K → ℝ) : ℝ :=
  ∑ k, p k * Real.log (p k / q k) + if mass then ∑ k, (q k - p k) else 0

/-- `divergence == "kl"` or `"l2"`. -/
inductive Div | kl | l2
  deriving DecidableEq

/-- `div_to_product` (ot/gromov/_utils.py 959-978) with explicit `pi1`, `pi2`. -/
noncomputable def divToProduct (pi : I → J → ℝ) (a : I → ℝ) (b : J → ℝ) (pi1 : I → ℝ) (pi2 : J → ℝ) (dv : Div)
    (mass : Bool) : ℝ :=
  match dv with
  | .kl =>
    (∑ i, ∑ j, pi i j * Real.log (pi i j + if pi i j = 0 then 1 else 0)) - (∑ i, pi1 i * Real.log (a i))
      - (∑ j, pi2 j * Real.log (b j))
      + if mass then -(∑ i, pi1 i) + (∑ i, a i) * ∑ j, b j else 0
  | .l2 => ((∑ i, ∑ j, pi i j ^ 2) + (∑ i, a i ^ 2) * (∑ j, b j ^ 2) - 2 * ∑ i, a i * ∑ j, pi i j * b j) / 2

/-- `div_between_product` (ot/gromov/_utils.py 1026-1043). -/
noncomputable def divBetweenProduct {K L : Type*} [Fintype K] [Fintype L] (mu : K → ℝ) (nu : L → ℝ) (alpha : K → ℝ)
    (beta : L → ℝ) (dv : Div) : ℝ :=
  match dv with
  | .kl =>
    let mMu := ∑ k, mu k; let mNu := ∑ l, nu l
    let mAlpha := ∑ k, alpha k; let mBeta := ∑ l, beta l
    mNu * klDiv true mu alpha + mMu * klDiv true nu beta + (mMu - mAlpha) * (mNu - mBeta)
  | .l2 => ((∑ k, alpha k ^ 2) * (∑ l, beta l ^ 2) - 2 * (∑ k, alpha k * mu k) * (∑ l, beta l * nu l)
      + (∑ k, mu k ^ 2) * (∑ l, nu l ^ 2)) / 2

/-- `reg_type == "joint"` or `"independent"`. -/
inductive RegType | joint | independent
  deriving DecidableEq

/-- `uot_cost_matrix` (ot/gromov/_utils.py 1089-1112), for the sample block: `pi` is the feature coupling, `a`, `b` the feature weights.
An infinite `rho` is treated by the code like `0` here; `rho` is finite in the model. -/
noncomputable def uotCostMatrix (X : I → D → ℝ) (Y : J → E → ℝ) (M : I → J → ℝ) (pi : D → E → ℝ) (a : D → ℝ) (b : E → ℝ)
    (rhoX rhoY eps : ℝ) (dv : Div) (rt : RegType) : I → J → ℝ :=
  let pi1 : D → ℝ := fun d => ∑ e, pi d e                                                   -- 1096
  let pi2 : E → ℝ := fun e => ∑ d, pi d e
  let base : I → J → ℝ := fun i j =>
    (∑ d, X i d ^ 2 * pi1 d) + (∑ e, Y j e ^ 2 * pi2 e) - 2 * (∑ e, (∑ d, X i d * pi d e) * Y j e) + M i j  -- 1097-1100
  match dv with
  | .kl => fun i j => base i j + (if rhoX = 0 then 0 else rhoX * klDiv false pi1 a)        -- 1103-1106
      + (if rhoY = 0 then 0 else rhoY * klDiv false pi2 b)
      + (if rt = .joint ∧ 0 < eps then eps * divToProduct pi a b pi1 pi2 .kl false else 0)   -- 1107-1110
  | .l2 => base

/-- The problem handed to `ot.solve` in a block (ot/gromov/_unbalanced.py 370-379, 397-406): cost, reference measures, marginal
penalties and regularisation.  Its objective is
`⟨G, M⟩ + rhoX Div(G1 | wx) + rhoY Div(G2 | wy) + eps Div(G | wxy)` (documentation of `ot.solve`). -/
structure Block (I J : Type*) where
  cost : I → J → ℝ
  wx : I → ℝ
  wy : J → ℝ
  wxy : I → J → ℝ
  rhoX : ℝ
  rhoY : ℝ
  eps : ℝ

/-- `uot_parameters_and_measures`, L2 branch (ot/gromov/_utils.py 1160-1170). -/
noncomputable def l2Params (pi : I → J → ℝ) (wx : I → ℝ) (wy : J → ℝ) (wxy : I → J → ℝ) (rhoX rhoY eps : ℝ) (rt : RegType)
    (cost : I → J → ℝ) : Block I J :=
  let pi1 : I → ℝ := fun i => ∑ j, pi i j
  let pi2 : J → ℝ := fun j => ∑ i, pi i j
  let l1 := ∑ i, pi1 i ^ 2; let l2 := ∑ j, pi2 j ^ 2; let l := ∑ i, ∑ j, pi i j ^ 2
  { cost := cost
    wx := fun i => wx i * (∑ i, pi1 i * wx i) / l1
    wy := fun j => wy j * (∑ j, pi2 j * wy j) / l2
    wxy := fun i j => match rt with
      | .joint => wxy i j * (∑ i, ∑ j, pi i j * wxy i j) / l
      | .independent => wxy i j
    rhoX := rhoX * l1
    rhoY := rhoY * l2
    eps := match rt with | .joint => eps * l | .independent => eps }

/-- Data of `fused_unbalanced_across_spaces_divergence` (ot/gromov/_unbalanced.py 212-299). `Ms`, `Mf` include the factors `alpha`. -/
structure Data (I J D E : Type*) where
  X : I → D → ℝ
  Y : J → E → ℝ
  wxs : I → ℝ
  wxf : D → ℝ
  wys : J → ℝ
  wyf : E → ℝ
  Ms : I → J → ℝ
  Mf : D → E → ℝ
  rhoX : ℝ
  rhoY : ℝ
  epsS : ℝ
  epsF : ℝ

/-- outer product of weights (ot/gromov/_unbalanced.py 288-289) -/
def outer {K L : Type*} (p : K → ℝ) (q : L → ℝ) : K → L → ℝ := fun k l => p k * q l

/-- The sample block (ot/gromov/_unbalanced.py 386-406) for the current plans; `piS` is only used by the L2 branch (394). -/
noncomputable def sampleBlock (d : Data I J D E) (dv : Div) (rt : RegType) (piS : I → J → ℝ) (piF : D → E → ℝ) : Block I J :=
  let mass := ∑ d, ∑ e, piF d e                                                             -- 386
  let cost := uotCostMatrix d.X d.Y d.Ms piF d.wxf d.wyf d.rhoX d.rhoY d.epsF dv rt          -- 387
  match dv with
  | .kl => { cost := cost, wx := d.wxs, wy := d.wys, wxy := outer d.wxs d.wys,
             rhoX := d.rhoX * mass, rhoY := d.rhoY * mass,
             eps := match rt with | .joint => mass * d.epsF | .independent => d.epsF }       -- 389-392
  | .l2 => l2Params piS d.wxs d.wys (outer d.wxs d.wys) d.rhoX d.rhoY d.epsS rt cost         -- 394-395

/-- The feature block (ot/gromov/_unbalanced.py 359-379). -/
noncomputable def featureBlock (d : Data I J D E) (dv : Div) (rt : RegType) (piS : I → J → ℝ) (piF : D → E → ℝ) : Block D E :=
  let mass := ∑ i, ∑ j, piS i j                                                             -- 359
  let cost := uotCostMatrix (fun k i => d.X i k) (fun l j => d.Y j l) d.Mf piS d.wxs d.wys d.rhoX d.rhoY d.epsS dv rt -- 360
  match dv with
  | .kl => { cost := cost, wx := d.wxf, wy := d.wyf, wxy := outer d.wxf d.wyf,
             rhoX := d.rhoX * mass, rhoY := d.rhoY * mass,
             eps := match rt with | .joint => mass * d.epsF | .independent => d.epsF }       -- 362-365
  | .l2 => l2Params piF d.wxf d.wyf (outer d.wxf d.wyf) d.rhoX d.rhoY d.epsF rt cost         -- 367-368

/-- `linear_cost` of `fused_unbalanced_across_spaces_cost` (ot/gromov/_utils.py 1236-1242). -/
def linearCost (d : Data I J D E) (piS : I → J → ℝ) (piF : D → E → ℝ) : ℝ :=
  (∑ i, (∑ k, d.X i k ^ 2 * ∑ l, piF k l) * ∑ j, piS i j)
    + (∑ j, (∑ l, d.Y j l ^ 2 * ∑ k, piF k l) * ∑ i, piS i j)
    - 2 * ∑ i, ∑ j, (∑ l, (∑ k, d.X i k * piF k l) * d.Y j l) * piS i j

/-- `ucoot_cost` of `fused_unbalanced_across_spaces_cost` (ot/gromov/_utils.py 1244-1290). -/
noncomputable def totalCost (d : Data I J D E) (dv : Div) (rt : RegType) (piS : I → J → ℝ) (piF : D → E → ℝ) : ℝ :=
  let s1 : I → ℝ := fun i => ∑ j, piS i j
  let s2 : J → ℝ := fun j => ∑ i, piS i j
  let f1 : D → ℝ := fun k => ∑ l, piF k l
  let f2 : E → ℝ := fun l => ∑ k, piF k l
  linearCost d piS piF + (∑ i, ∑ j, piS i j * d.Ms i j) + (∑ k, ∑ l, piF k l * d.Mf k l)
    + (if d.rhoX = 0 then 0 else d.rhoX * divBetweenProduct s1 f1 d.wxs d.wxf dv)
    + (if d.rhoY = 0 then 0 else d.rhoY * divBetweenProduct s2 f2 d.wys d.wyf dv)
    + match rt with
      | .joint => if d.epsS = 0 then 0 else d.epsS *
          divBetweenProduct (fun x : I × J => piS x.1 x.2) (fun x : D × E => piF x.1 x.2)
            (fun x : I × J => outer d.wxs d.wys x.1 x.2) (fun x : D × E => outer d.wxf d.wyf x.1 x.2) dv
      | .independent =>
        (if d.epsS = 0 then 0 else d.epsS * divToProduct piS s1 s2 d.wxs d.wys dv true)      -- 1265-1276
        + (if d.epsF = 0 then 0 else d.epsF * divToProduct piF f1 f2 d.wxf d.wyf dv true)    -- 1277-1288

/-- `rescale_plan` (ot/gromov/_unbalanced.py 382-383, 409-410): `mass` is the mass of the other plan. -/
noncomputable def rescale (mass : ℝ) (pi : I → J → ℝ) : I → J → ℝ := fun i j =>
  Real.sqrt (mass / ∑ i, ∑ j, pi i j) * pi i j

end POT.GromovUnb
