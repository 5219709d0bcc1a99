import Mathlib.Algebra.Order.Field.Basic
import Mathlib.Algebra.BigOperators.Ring.Finset
import Mathlib.Data.Fintype.BigOperators
import Mathlib.Data.Finset.Lattice.Fold

/-!
# Model of `ot/optim.py`

Conditional gradient, the exact quadratic line search and the linear subproblem of the semi-relaxed solvers.
-/

namespace POT.Optim

open Finset

variable {R : Type*} [Field R] [LinearOrder R]
variable {I J : Type*} [Fintype I] [Fintype J]

/-- `solve_1d_linesearch_quad` (ot/optim.py 926-951). -/
def quadStep (a b : R) : R :=
  if 0 < a then min 1 (max 0 (-b / (2 * a)))   -- 944-946
  else if a + b < 0 then 1                      -- 948-949
  else 0                                        -- 951

/-- What a line search returns (ot/optim.py 364-372): the step, the new cost, and (4-tuple variant) the updated gradient. -/
structure LineSearchResult (R I J : Type*) where
  alpha : R
  cost : R
  df : Option (I → J → R)

/-- The arguments of `generic_conditional_gradient` (ot/optim.py 143-161) apart from the start: `M`, `f`, `df`, `reg1`, the linear solver, the
line search and the stopping parameters.  `reg2` is `None` in every call inside the library, so its branches (328-329, 356-357)
are not modelled. -/
structure Problem (R I J : Type*) where
  M : I → J → R
  f : (I → J → R) → R
  df : (I → J → R) → (I → J → R)
  reg1 : R
  lpSolver : (I → J → R) → (I → J → R)
  /-- arguments: `G`, `deltaG`, `Mi`, `cost_G`, `df_G` -/
  lineSearch : (I → J → R) → (I → J → R) → (I → J → R) → R → (I → J → R) → LineSearchResult R I J
  numItermax : ℕ
  stopThr : R
  stopThr2 : R

/-- Loop variables of `generic_conditional_gradient`: `G`, `cost_G`, `df_G`, `it`, and the recorded losses (newest first). -/
structure State (R I J : Type*) where
  G : I → J → R
  costG : R
  dfG : Option (I → J → R)
  it : ℕ
  losses : List R

/-- The objective (ot/optim.py 324-325). -/
def Problem.cost (P : Problem R I J) (G : I → J → R) : R := ∑ i, ∑ j, P.M i j * G i j + P.reg1 * P.f G

/-- State before the loop (ot/optim.py 316-336) for a given start `G0`. -/
def Problem.init (P : Problem R I J) (G0 : I → J → R) : State R I J :=
  { G := G0, costG := P.cost G0, dfG := none, it := 0, losses := [P.cost G0] }

/-- Body of the loop up to the convergence test (ot/optim.py 349-374, 387-388). -/
def Problem.step (P : Problem R I J) (s : State R I J) : State R I J :=
  let dfG := s.dfG.getD (P.df s.G)                               -- 352-353
  let Mi : I → J → R := fun i j => P.M i j + P.reg1 * dfG i j    -- 354
  let Gc := P.lpSolver Mi                                        -- 360
  let deltaG : I → J → R := fun i j => Gc i j - s.G i j          -- 362
  let r := P.lineSearch s.G deltaG Mi s.costG dfG                -- 364-372
  { G := fun i j => s.G i j + r.alpha * deltaG i j               -- 374
    costG := r.cost
    dfG := r.df
    it := s.it + 1
    losses := r.cost :: s.losses }

/-- The convergence test (ot/optim.py 376-385); `relative < stopThr` is false when `cost_G` is zero (nan). -/
def Problem.stop (P : Problem R I J) (old new : State R I J) : Bool :=
  decide (P.numItermax ≤ new.it) ||
  (decide (new.costG ≠ 0) && decide (|new.costG - old.costG| / |new.costG| < P.stopThr)) ||
  decide (|new.costG - old.costG| < P.stopThr2)

/-- The `while loop` (ot/optim.py 348-385) with fuel; `none` when the fuel does not suffice. -/
def Problem.loop (P : Problem R I J) : ℕ → State R I J → Option (State R I J)
  | 0, _ => none
  | fuel + 1, s =>
    let s' := P.step s
    if P.stop s s' then some s' else P.loop fuel s'

/-- Default start `nx.outer(a, b)` (ot/optim.py 316-317). -/
def outer (a : I → R) (b : J → R) : I → J → R := fun i j => a i * b j

/-- Linear subproblem of `semirelaxed_cg` (ot/optim.py 637-646): the mass of each row is split evenly over the entries within
`tol` (1e-15 in the code) of the row minimum. -/
def semirelaxedLp [Nonempty J] (tol : R) (a : I → R) (Mi : I → J → R) : I → J → R :=
  let min_ : I → R := fun i => univ.inf' univ_nonempty fun j => Mi i j      -- 639
  let mask : I → J → R := fun i j => if Mi i j ≤ min_ i + tol then 1 else 0 -- 643
  fun i j => mask i j * (a i / ∑ j, mask i j)                               -- 644

/-- `np.clip(alpha, alpha_min, alpha_max)` with an optional upper bound. -/
def clip (lo : R) (hi : Option R) (x : R) : R :=
  match hi with
  | none => max lo x
  | some h => min h (max lo x)

/-- `line_search_armijo` (ot/optim.py 100-140).  `search phi phi0 derphi0` stands for SciPy's `scalar_search_armijo` (external):
`none` if it gives up, otherwise the pair `(alpha, phi1)` it returns. -/
def armijo (search : (R → R) → R → R → Option (R × R)) (alphaMin : R) (alphaMax : Option R) (cost : (I → J → R) → R)
    (G deltaG Mi : I → J → R) (costG : R) : LineSearchResult R I J :=
  let phi : R → R := fun x => cost fun i j => G i j + clip alphaMin alphaMax x * deltaG i j   -- 108-112
  let derphi0 := ∑ i, ∑ j, deltaG i j * Mi i j                                                 -- 127
  match search phi costG derphi0 with
  | none => { alpha := 0, cost := costG, df := none }                                          -- 133
  | some (alpha, phi1) => { alpha := clip alphaMin alphaMax alpha, cost := phi1, df := none }  -- 135-140

/-- `cg` (ot/optim.py 412-538) with its default line search (`alpha_min = 0`, `alpha_max = None`); `lp` is the exact solver `emd`. -/
def cgProblem (M : I → J → R) (f : (I → J → R) → R) (df : (I → J → R) → (I → J → R)) (reg : R)
    (lp : (I → J → R) → (I → J → R)) (search : (R → R) → R → R → Option (R × R))
    (numItermax : ℕ) (stopThr stopThr2 : R) : Problem R I J where
  M := M
  f := f
  df := df
  reg1 := reg
  lpSolver := lp
  lineSearch := fun G dG Mi costG _ =>
    armijo search 0 none (fun G => ∑ i, ∑ j, M i j * G i j + reg * f G) G dG Mi costG
  numItermax := numItermax
  stopThr := stopThr
  stopThr2 := stopThr2

end POT.Optim
