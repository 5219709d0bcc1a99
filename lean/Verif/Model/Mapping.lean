import Verif.Model.Optim
import Verif.Spec.Barycenter
import Mathlib.Analysis.SpecialFunctions.Exp
import Mathlib.LinearAlgebra.Matrix.NonsingularInverse
import Mathlib.LinearAlgebra.Matrix.Trace
import Mathlib.Data.Matrix.ColumnRowPartitioned
import Mathlib.Data.Matrix.Block

/-! # Model of the joint estimation of a plan and a map (`ot/mapping.py` 428-898) -/

set_option linter.unusedSectionVars false

namespace POT.Mapping

open Finset Optim Matrix

variable {I J D F : Type*} [Fintype I] [Fintype J] [Fintype D] [Fintype F] [DecidableEq I] [DecidableEq D] [DecidableEq F]

/-- The pieces in which the linear and kernel versions (with and without bias) differ: the features that the coefficients multiply, the update `solve_L` as
a function of `xst = ns * G @ xt`, and the penalty that `eta` multiplies.  `nx.solve` is the inverse matrix times the right-hand side; where the matrix is
singular NumPy raises an error, here the inverse is the zero matrix. -/
structure Variant (I D F : Type*) where
  feat : Matrix I F ℝ
  solveL : Matrix I D ℝ → Matrix F D ℝ
  pen : Matrix F D ℝ → ℝ

/-- `joint_OT_mapping_linear` with `bias=False` (ot/mapping.py 543-549, 561-572). -/
noncomputable def linear (xs : Matrix I D ℝ) (eta : ℝ) : Variant I D D where
  feat := xs                                                                                    -- 543
  solveL := fun xst => (xsᵀ * xs + eta • (1 : Matrix D D ℝ))⁻¹ * (xsᵀ * xst + eta • (1 : Matrix D D ℝ))   -- 572
  pen := fun L => ∑ d, ∑ e, ((L - 1) d e) ^ 2                                                   -- 566

/-- `xs1` (ot/mapping.py 534). -/
def withOne (x : Matrix I F ℝ) : Matrix I (F ⊕ Unit) ℝ := Matrix.fromCols x (fun _ _ => 1)

/-- `joint_OT_mapping_linear` with `bias=True` (ot/mapping.py 533-541, 561-572). -/
noncomputable def linearBias (xs : Matrix I D ℝ) (eta : ℝ) : Variant I D (D ⊕ Unit) where
  feat := withOne xs
  solveL := fun xst =>
    let Id : Matrix (D ⊕ Unit) (D ⊕ Unit) ℝ := Matrix.fromBlocks 1 0 0 0                        -- 536-537
    let I0 : Matrix (D ⊕ Unit) D ℝ := Matrix.fromRows 1 0                                       -- 538
    ((withOne xs)ᵀ * withOne xs + eta • Id)⁻¹ * ((withOne xs)ᵀ * xst + eta • I0)                -- 572
  pen := fun L => ∑ d, ∑ e, ((L - (Matrix.fromRows 1 0 : Matrix (D ⊕ Unit) D ℝ)) (Sum.inl d) e) ^ 2   -- 540-541, 566

/-- `kernel(xs, xs)` (ot/utils.py 42-49); other kernel names leave `K` undefined (an error in the code). -/
noncomputable def kern (xs : Matrix I D ℝ) (sigma : ℝ) : Matrix I I ℝ := fun i k => Real.exp (-Spec.sqEuclid (xs i) (xs k) / (2 * sigma ^ 2))

/-- `joint_OT_mapping_kernel` with `bias=False` (ot/mapping.py 764, 780-790, 802-813). -/
noncomputable def kernel (xs : Matrix I D ℝ) (sigma eta : ℝ) : Variant I D I where
  feat := kern xs sigma                                                                         -- 781
  solveL := fun xst => (kern xs sigma + eta • (1 : Matrix I I ℝ))⁻¹ * xst                       -- 789, 813
  pen := fun L => (Lᵀ * kern xs sigma * L).trace                                                -- 790, 807

/-- `joint_OT_mapping_kernel` with `bias=True` (ot/mapping.py 764-778, 802-808, 815-818). -/
noncomputable def kernelBias (xs : Matrix I D ℝ) (sigma eta : ℝ) : Variant I D (I ⊕ Unit) where
  feat := withOne (kern xs sigma)                                                               -- 766
  solveL := fun xst =>
    let Kp : Matrix (I ⊕ Unit) (I ⊕ Unit) ℝ := Matrix.fromBlocks (kern xs sigma) 0 0 1          -- 769-770
    let K1 := withOne (kern xs sigma)
    (K1ᵀ * K1 + eta • Kp)⁻¹ * (K1ᵀ * xst)                                                       -- 777, 818
  pen := fun L => (Lᵀ * Matrix.fromBlocks (kern xs sigma) 0 0 1 * L).trace                      -- 778, 807

/-- The remaining arguments: `xt`, `mu`, `eta`, the exact solver `emd` for uniform weights, SciPy's search, and the limits. -/
structure Args (I J D : Type*) where
  xs : Matrix I D ℝ
  xt : Matrix J D ℝ
  mu : ℝ
  eta : ℝ
  lp : (I → J → ℝ) → I → J → ℝ
  search : (ℝ → ℝ) → ℝ → ℝ → Option (ℝ × ℝ)
  numItermax : ℕ
  numInnerItermax : ℕ
  stopInnerThr : ℝ
  /-- `stopThr2` of `cg`, left at its default -/
  stopInnerThr2 : ℝ
  stopThr : ℝ

variable (p : Args I J D) (v : Variant I D F)

/-- `M = dist(xs, xt) * ns` (ot/mapping.py 556, 797). -/
noncomputable def Args.M : I → J → ℝ := fun i j => Spec.sqEuclid (p.xs i) (p.xt j) * Fintype.card I

/-- `ns * nx.dot(G, xt)`. -/
noncomputable def Args.xst (G : Matrix I J ℝ) : Matrix I D ℝ := (Fintype.card I : ℝ) • (G * p.xt)

/-- `loss` (ot/mapping.py 561-567, 802-808). -/
noncomputable def loss (L : Matrix F D ℝ) (G : Matrix I J ℝ) : ℝ :=
  ∑ i, ∑ d, ((v.feat * L - p.xst G) i d) ^ 2 + p.mu * ∑ i, ∑ j, G i j * p.M i j + p.eta * v.pen L

/-- `f` in `solve_G` (ot/mapping.py 576-579, 822-825). -/
noncomputable def fG (L : Matrix F D ℝ) (G : Matrix I J ℝ) : ℝ := ∑ i, ∑ d, ((v.feat * L - p.xst G) i d) ^ 2

/-- `df` in `solve_G` (ot/mapping.py 581-582, 827-828). -/
noncomputable def dfG (L : Matrix F D ℝ) (G : Matrix I J ℝ) : Matrix I J ℝ := (-2 * (Fintype.card I : ℝ)) • ((v.feat * L - p.xst G) * p.xtᵀ)

/-- The call of `cg` in `solve_G` (ot/mapping.py 584-595, 830-841). -/
noncomputable def inner (L : Matrix F D ℝ) : Problem ℝ I J :=
  cgProblem p.M (fun G => fG p v L G) (fun G => dfG p v L G) (1 / p.mu) p.lp p.search p.numInnerItermax p.stopInnerThr p.stopInnerThr2

/-- `solve_G` (ot/mapping.py 574-595, 820-841): the loop of `cg` ends after at most `max 1 numInnerItermax` rounds. -/
noncomputable def solveG (L : Matrix F D ℝ) (G0 : Matrix I J ℝ) : Matrix I J ℝ :=
  match (inner p v L).loop (max 1 p.numInnerItermax) ((inner p v L).init G0) with
  | some s => s.G
  | none => G0

/-- Variables of the outer loop; `vloss` newest first. -/
structure State (I J D F : Type*) where
  G : Matrix I J ℝ
  L : Matrix F D ℝ
  vloss : List ℝ
  it : ℕ

/-- Before the loop (ot/mapping.py 557, 597-599, 612; 798, 848-850, 863). -/
noncomputable def start : State I J D F :=
  let G : Matrix I J ℝ := p.lp p.M
  let L := v.solveL (p.xst G)
  { G := G, L := L, vloss := [loss p v L G], it := 0 }

/-- Loop body (ot/mapping.py 615-623, 866-874). -/
noncomputable def step (s : State I J D F) : State I J D F :=
  let G := solveG p v s.L s.G
  let L := v.solveL (p.xst G)
  { G := G, L := L, vloss := loss p v L G :: s.vloss, it := s.it + 1 }

/-- The tests (ot/mapping.py 625-629, 876-880); with a zero loss the relative change is not a number and the test fails. -/
noncomputable def stop (s : State I J D F) : Bool :=
  decide (p.numItermax ≤ s.it) ||
  match s.vloss with
  | v1 :: v0 :: _ => decide (v0 ≠ 0) && decide (|v1 - v0| / |v0| < p.stopThr)
  | _ => false

/-- The outer loop (ot/mapping.py 614-629, 865-880) with fuel. -/
noncomputable def loop : ℕ → State I J D F → Option (State I J D F)
  | 0, _ => none
  | fuel + 1, s => let s' := step p v s; if stop p s' then some s' else loop fuel s'

/-- The whole function (ot/mapping.py 607-611, 858-862: no iteration when `numItermax` is zero). -/
noncomputable def run : Option (State I J D F) := if 0 < p.numItermax then loop p v p.numItermax (start p v) else some (start p v)

end POT.Mapping
