import Mathlib.Algebra.Order.Field.Basic
import Mathlib.Algebra.BigOperators.Fin
import Mathlib.Data.Fintype.BigOperators
import Mathlib.Data.Fintype.Pi
import Mathlib.Data.List.FinRange
import Mathlib.Data.Fintype.Sum

/-!
# Model of `ot/lp/_barycenter_solvers.py`

The linear program of `barycenter`; `free_support_barycenter`; `generalized_free_support_barycenter`; the north-west gluing of plans; `free_support_barycenter_generic_costs`; `_clean_discrete_measure`.
Exact arithmetic.  `emd` and the LP solver of scipy are parameters (the first is the subject of C62).
-/

set_option linter.unusedSectionVars false

namespace POT.Bary

open Finset

variable {K : Type*} [Field K] [LinearOrder K]

/-! ### `barycenter` -/

section
variable {N n : ℕ}

/-- Positions of the unknown vector: plan entries `(s, k, l)` at `s n² + k n + l`, then the `n` entries of the barycenter (ot/lp/_barycenter_solvers.py 93-99, 136).
Here there are `N + 1` histograms with `n + 1` bins. -/
abbrev LpVar (N n : ℕ) := (Fin (N + 1) × Fin (n + 1) × Fin (n + 1)) ⊕ Fin (n + 1)

/-- `c` (ot/lp/_barycenter_solvers.py 94-99) -/
def lpC (M : Fin (n + 1) → Fin (n + 1) → K) (w : Fin (N + 1) → K) : LpVar N n → K
  | .inl (s, k, l) => M k l * w s
  | .inr _ => 0

/-- Positions of the equations: the rows of `A_eq1`, then those of `A_eq2`, where every block but the first lacks its last row (ot/lp/_barycenter_solvers.py 101-122). -/
abbrev LpEq (N n : ℕ) := (Fin (N + 1) × Fin (n + 1)) ⊕ (Fin (n + 1) ⊕ Fin N × Fin n)

/-- entry of an identity (possibly rectangular) -/
def eye (i j : ℕ) : K := if i = j then 1 else 0

/-- `A_eq`: block diagonal `kron(eye, ones)` with zero columns for the barycenter, then block diagonal `kron(ones, eye)` with columns `-eye` (ot/lp/_barycenter_solvers.py 101-122) -/
def lpA : LpEq N n → LpVar N n → K
  | .inl (s, k), .inl (s', k', _) => if s = s' then eye (k : ℕ) k' * 1 else 0
  | .inl _, .inr _ => 0
  | .inr (.inl l), .inl (s', _, l') => if s' = 0 then 1 * eye (l : ℕ) l' else 0
  | .inr (.inl l), .inr l' => -eye (l : ℕ) l'
  | .inr (.inr (s, l)), .inl (s', _, l') => if s.succ = s' then 1 * eye (l : ℕ) l' else 0
  | .inr (.inr (_, l)), .inr l' => -eye (l : ℕ) l'

/-- `b_eq` (ot/lp/_barycenter_solvers.py 95-98, 119, 123); the columns of `A` are the histograms -/
def lpB (A : Fin (n + 1) → Fin (N + 1) → K) : LpEq N n → K
  | .inl (s, k) => A k s
  | .inr _ => 0

/-- the returned vector `x[-n:]` (ot/lp/_barycenter_solvers.py 136) -/
def lpOut (x : LpVar N n → K) : Fin (n + 1) → K := fun l => x (.inr l)

end

/-! ### `free_support_barycenter` -/

section
variable {N k d : ℕ} {n : Fin N → ℕ}

/-- `dist(X, Y)`: squared Euclidean distances (ot/lp/_barycenter_solvers.py 261; `dist` is the subject of C21) -/
def sqMat {I J : Type*} (X : I → Fin d → K) (Y : J → Fin d → K) : I → J → K := fun i j => ∑ c, (X i c - Y j c) ^ 2

variable (emd : ∀ s : Fin N, (Fin k → K) → (Fin (n s) → K) → (Fin k → Fin (n s) → K) → (Fin k → Fin (n s) → K))
  (Y : ∀ s, Fin (n s) → Fin d → K) (a : ∀ s, Fin (n s) → K) (b : Fin k → K) (w : Fin N → K)

/-- one turn: `T_sum` (ot/lp/_barycenter_solvers.py 256-265) -/
def fsbStep (X : Fin k → Fin d → K) : Fin k → Fin d → K := fun i c =>
  ∑ s, w s * 1 / b i * ∑ j, emd s b (a s) (sqMat X (Y s)) i j * Y s j c

/-- `displacement_square_norm` (ot/lp/_barycenter_solvers.py 267) -/
def displacement (X X' : Fin k → Fin d → K) : K := ∑ i, ∑ c, (X' i c - X i c) ^ 2

/-- the loop (ot/lp/_barycenter_solvers.py 255-280): remaining iterations, current displacement, current positions; returns the positions and `displacement_square_norms` -/
def fsbLoop (stopThr : K) : ℕ → K → (Fin k → Fin d → K) → (Fin k → Fin d → K) × List K
  | 0, _, X => (X, [])
  | m + 1, disp, X =>
    if stopThr < disp then
      let X' := fsbStep emd Y a b w X
      let r := fsbLoop stopThr m (displacement X X') X'
      (r.1, displacement X X' :: r.2)
    else (X, [])

/-- `free_support_barycenter` with `b` and `weights` given (ot/lp/_barycenter_solvers.py 236-286); when they are not, they are uniform (243-246) -/
def freeSupport (numItermax : ℕ) (stopThr : K) (Xinit : Fin k → Fin d → K) : (Fin k → Fin d → K) × List K := fsbLoop emd Y a b w stopThr numItermax (stopThr + 1) Xinit

/-- `generalized_free_support_barycenter` with `eps = 0` (ot/lp/_barycenter_solvers.py 377-424): `X s` has `D s` coordinates, `P s` maps `d` coordinates to `D s`, `B` is the inverse square root computed at 385-390.
The call at 402-412 does not pass `weights`, so the inner solver uses uniform ones. -/
def generalizedFreeSupport {D : Fin N → ℕ} (X : ∀ s, Fin (n s) → Fin (D s) → K) (P : ∀ s, Fin (D s) → Fin d → K) (B : Fin d → Fin d → K) (numItermax : ℕ) (stopThr : K) (Yinit : Fin k → Fin d → K) :
    Fin k → Fin d → K :=
  let Z : ∀ s, Fin (n s) → Fin d → K := fun s j c => ∑ e, (∑ q, X s j q * P s q e) * B c e
  let out := (freeSupport emd Z a b (fun _ => 1 / (N : K)) numItermax stopThr Yinit).1
  fun i c => ∑ e, out i e * B c e

end

/-- the matrix `A` of `generalized_free_support_barycenter` (ot/lp/_barycenter_solvers.py 385-389), `eps = 0` -/
def genMat {N d : ℕ} {D : Fin N → ℕ} (P : ∀ s, Fin (D s) → Fin d → K) (w : Fin N → K) : Fin d → Fin d → K := fun c e => ∑ s, w s * ∑ q, P s q c * P s q e

/-! ### `NorthWestMMGluing` -/

section
variable {κ : ℕ} {n : Fin (κ + 1) → ℕ}

/-- the pairs `(j, P[i, j])` with positive entry, in order: `jjs[k]` together with the masses (ot/lp/_barycenter_solvers.py 897) -/
def positives {m : ℕ} (row : Fin m → K) : List (Fin m × K) := ((List.finRange m).filter fun j => 0 < row j).map fun j => (j, row j)

/-- `v`: the least mass at the heads (ot/lp/_barycenter_solvers.py 907) -/
def headMin (h : ∀ k : Fin (κ + 1), Fin (n k) × K) : K := univ.inf' univ_nonempty fun k => (h k).2

/-- after removing `v` from the head, the index moves on when nothing is left (ot/lp/_barycenter_solvers.py 915-919) -/
def advance {m : ℕ} (v : K) : List (Fin m × K) → List (Fin m × K)
  | [] => []
  | (j, x) :: t => if x - v = 0 then t else (j, x - v) :: t

/-- the inner loop for one row (ot/lp/_barycenter_solvers.py 899-919).  `L k` is the part of row `i` of the `k`-th plan not yet used: the pairs `(j, P_list[k][i, j])` for `j` in `jjs[k][jj_idx[k]:]`.
Returns the pairs (multi-index, mass) in the order in which they are found; `none` when `fuel` turns do not suffice. -/
def glueRow : ℕ → K → (∀ k : Fin (κ + 1), List (Fin (n k) × K)) → Option (List ((∀ k, Fin (n k)) × K))
  | 0, _, _ => none
  | fuel + 1, u, L =>
    if h : 0 < u ∧ ∀ k, L k ≠ [] then
      let hd := fun k => (L k).head (h.2 k)
      let v := headMin hd
      (glueRow fuel (u - v) fun k => advance v (L k)).map fun r => ((fun k => (hd k).1), v) :: r
    else some []

/-- `gamma_weights[jj] += v` or `= v` (ot/lp/_barycenter_solvers.py 910-913) -/
def addWeight {J : Type*} [DecidableEq J] (jj : J) (v : K) : List (J × K) → List (J × K)
  | [] => [(jj, v)]
  | (j, x) :: t => if j = jj then (j, x + v) :: t else (j, x) :: addWeight jj v t

/-- the loop over the rows (ot/lp/_barycenter_solvers.py 895-919), on the list of rows still to visit; returns the dictionary `gamma_weights` -/
def glueRows {I : Type*} (fuel : ℕ) (pi : ∀ k : Fin (κ + 1), I → Fin (n k) → K) (a : I → K) : List I → List ((∀ k, Fin (n k)) × K) → Option (List ((∀ k, Fin (n k)) × K))
  | [], acc => some acc
  | i :: is, acc => (glueRow fuel (a i) fun k => positives (pi k i)).bind fun out => glueRows fuel pi a is (out.foldl (fun acc e => addWeight e.1 e.2 acc) acc)

/-- `NorthWestMMGluing` with `a = None` (ot/lp/_barycenter_solvers.py 869-927): the pairs `(J[t], w[t])` -/
def glue {r : ℕ} (fuel : ℕ) (pi : ∀ k : Fin (κ + 1), Fin r → Fin (n k) → K) : Option (List ((∀ k, Fin (n k)) × K)) := glueRows fuel pi (fun i => ∑ j, pi 0 i j) (List.finRange r) []

end

/-! ### `_clean_discrete_measure` -/

section
variable {n : ℕ}

/-- the loop over the pairs `(i, j)`, `i ≤ j`, of points closer than `tol` (ot/lp/_barycenter_solvers.py 973-984).  `idx` is `X_idx_to_Y_idx`; the pair of lists `unique_X_idx`, `b` is one list of pairs, in order. -/
def cleanLoop (a : Fin n → K) : List (Fin n × Fin n) → (Fin n → Option ℕ) → List (Fin n × K) → List (Fin n × K)
  | [], _, out => out
  | (i, j) :: t, idx, out =>
    match idx i with
    | none => cleanLoop a t (Function.update idx i (some out.length)) (out ++ [(i, a i)])
    | some l => if idx j = none then cleanLoop a t (Function.update idx j (some l)) (out.modify l fun e => (e.1, e.2 + a j)) else cleanLoop a t idx out

/-- the pairs found by `nx.where(D < tol)` with `i ≤ j`, row by row (ot/lp/_barycenter_solvers.py 960-968) -/
def closePairs (near : Fin n → Fin n → Bool) : List (Fin n × Fin n) := ((List.finRange n).flatMap fun i => (List.finRange n).map fun j => (i, j)).filter fun e => near e.1 e.2 && decide (e.1 ≤ e.2)

/-- `_clean_discrete_measure` (ot/lp/_barycenter_solvers.py 958-988): indices of the points kept, with their weights -/
def clean (near : Fin n → Fin n → Bool) (a : Fin n → K) : List (Fin n × K) := cleanLoop a (closePairs near) (fun _ => none) []

end

/-! ### `free_support_barycenter_generic_costs` -/

/-- a discrete measure: the arrays `X` and `a` -/
structure DMeas (E K : Type*) where
  /-- number of points -/
  len : ℕ
  /-- `X` -/
  pts : Fin len → E
  /-- `a` -/
  wts : Fin len → K

section
variable {κ : ℕ} {n : Fin (κ + 1) → ℕ} {E : Type*} {Z : Fin (κ + 1) → Type*}

variable (emd : ∀ m k, (Fin m → K) → (Fin (n k) → K) → (Fin m → Fin (n k) → K) → (Fin m → Fin (n k) → K))
  (c : ∀ k, E → Z k → K) (Y : ∀ k, Fin (n k) → Z k) (b : ∀ k, Fin (n k) → K)

/-- the cost matrix `cost_list[k](X, measure_locations[k])` (ot/lp/_barycenter_solvers.py 489, 721) -/
def costMat (μ : DMeas E K) (k : Fin (κ + 1)) : Fin μ.len → Fin (n k) → K := fun i j => c k (μ.pts i) (Y k j)

/-- `pi_list[k]` (ot/lp/_barycenter_solvers.py 720-723) -/
def plan (μ : DMeas E K) (k : Fin (κ + 1)) : Fin μ.len → Fin (n k) → K := emd μ.len k μ.wts (b k) (costMat c Y μ k)

/-- `ot_barycenter_energy` (ot/lp/_barycenter_solvers.py 481-491); `emd2` is the cost of the plan of `emd` -/
def genericEnergy (μ : DMeas E K) : K := ∑ k, ∑ i, ∑ j, plan emd c Y b μ k i j * costMat c Y μ k i j

/-- one turn with `method="true_fixed_point"` (ot/lp/_barycenter_solvers.py 720-723, 741-748): `ground` is one row of `ground_bary`.
The loop of the gluing gets `Σ n_k + 1` turns per row, more than it needs (C71). -/
def fixedPointStep (ground : (∀ k, Z k) → E) (μ : DMeas E K) : DMeas E K :=
  let out := (glue (∑ k, n k + 1) (plan emd c Y b μ)).getD []
  { len := out.length, pts := fun t => ground fun k => Y k ((out.get t).1 k), wts := fun t => (out.get t).2 }

/-- the clean-up of a measure, `near` being the test `D < tol` on points (ot/lp/_barycenter_solvers.py 958-988) -/
def cleanMeas (near : E → E → Bool) (μ : DMeas E K) : DMeas E K :=
  let out := clean (fun i j => near (μ.pts i) (μ.pts j)) μ.wts
  { len := out.length, pts := fun t => μ.pts (out.get t).1, wts := fun t => (out.get t).2 }

/-- one turn with `clean_measure` (ot/lp/_barycenter_solvers.py 750-752) -/
def fixedPointTurn (ground : (∀ k, Z k) → E) (near : E → E → Bool) (cleanMeasure : Bool) (μ : DMeas E K) : DMeas E K :=
  if cleanMeasure then cleanMeas near (fixedPointStep emd c Y b ground μ) else fixedPointStep emd c Y b ground μ

/-- one turn with `method="L2_barycentric_proj"` (ot/lp/_barycenter_solvers.py 731-739); the target points of the `k`-th measure have `D k` coordinates -/
def l2Step {D : Fin (κ + 1) → ℕ} (c : ∀ k, E → (Fin (D k) → K) → K) (Y : ∀ k, Fin (n k) → Fin (D k) → K) (ground : (∀ k, Fin (D k) → K) → E) (μ : DMeas E K) : DMeas E K :=
  { len := μ.len, pts := fun i => ground fun k e => ∑ j, 1 / μ.wts i * plan emd c Y b μ k i j * Y k j e, wts := μ.wts }

end

/-- the loop (ot/lp/_barycenter_solvers.py 719-771): remaining iterations, current measure, current energy; returns the last measure, the rest of `V_list` and whether `exit_status` is "Stationary Point" -/
def genericLoop {S : Type*} (step : S → S) (V : S → K) (stopThr : K) : ℕ → S → K → S × List K × Bool
  | 0, s, _ => (s, [], false)
  | m + 1, s, v =>
    let s' := step s
    let v' := V s'
    if v - v' < stopThr then (s', [v'], true)
    else
      let r := genericLoop step V stopThr m s' v'
      (r.1, v' :: r.2.1, r.2.2)

/-- `free_support_barycenter_generic_costs` (ot/lp/_barycenter_solvers.py 712-789): the last measure, `V_list` and the exit status -/
def genericCosts {S : Type*} (step : S → S) (V : S → K) (stopThr : K) (numItermax : ℕ) (s : S) : S × List K × Bool :=
  let r := genericLoop step V stopThr numItermax s (V s)
  (r.1, (if numItermax = 0 then [] else [V s]) ++ r.2.1, r.2.2)

end POT.Bary
