import Mathlib.Algebra.Order.Field.Basic
import Mathlib.Algebra.BigOperators.Ring.Finset
import Mathlib.Data.Fintype.BigOperators
import Mathlib.Data.List.Sort
import Mathlib.Data.List.Dedup
import Mathlib.Data.Fin.Rev
import Mathlib.Analysis.SpecialFunctions.Pow.Real

/-!
# Model of `ot/utils.py` (projections, distances, batched reductions, label helpers)

One-dimensional arrays are functions `Fin n → R` or lists, matrices are functions of two indices or lists of rows.
Only exact arithmetic is modelled; backends are not distinguished except where the code does.
-/

set_option linter.unusedSectionVars false

namespace POT.Utils

open Finset

section Projection

variable {R : Type*} [Field R] [LinearOrder R]

/-- `nx.flip(nx.sort(v, axis=0), 0)` (ot/utils.py 134-137). -/
def sortDesc (l : List R) : List R := (l.mergeSort fun x y => decide (x ≤ y)).reverse

/-- Entry `k` of `nx.cumsum(u, axis=0) - z` (ot/utils.py 138 and 209). -/
def cssv (u : List R) (z : R) (k : ℕ) : R := (u.take (k + 1)).sum - z

/-- `rho = nx.sum(u - cssv / ind > 0)`, `ind = arange(len) + 1` (ot/utils.py 139-141, 210-213). -/
def rho (u : List R) (z : R) : ℕ :=
  ((List.range u.length).filter fun k => decide (0 < u.getD k 0 - cssv u z k / ((k : R) + 1))).length

/-- `theta = cssv[rho - 1] / rho` (ot/utils.py 142, 214). Simplification: for `rho = 0` python reads the last entry and divides by
zero; here the result is `0`. -/
def theta (u : List R) (z : R) : R := cssv u z (rho u z - 1) / (rho u z : R)

/-- `proj_simplex` on one column (ot/utils.py 125-147). -/
def projSimplex {n : ℕ} (v : Fin n → R) (z : R) : Fin n → R :=
  let u := sortDesc (List.ofFn v)
  fun i => max (v i - theta u z) 0

/-- `proj_simplex` on a matrix: every column is projected (ot/utils.py 133-147, all operations act along axis 0). -/
def projSimplexCols {n d : ℕ} (v : Fin n → Fin d → R) (z : R) : Fin n → Fin d → R :=
  fun i k => projSimplex (fun i => v i k) z i

/-- Column indices kept for one row by `nx.flip(nx.argsort(V, axis=1)[:, -max_nz:], axis=1)` (ot/utils.py 199-200); `σ` is what
argsort returns. For `max_nz ≥ n` the slice keeps all of them. -/
def topIndices {n : ℕ} (σ : Equiv.Perm (Fin n)) (k : ℕ) : List (Fin n) :=
  (((List.finRange n).map σ).drop (n - k)).reverse

/-- One row of `projection_sparse_simplex(V, max_nz, z, axis=1)` (ot/utils.py 195-229). `σ` is the permutation returned by `argsort`
(any sorting permutation: numpy does not fix the order of ties). `none` models the exception raised at line 211, where `U` with
`min(max_nz, n)` columns meets `arange(max_nz)`. Simplifications: `max_nz ≥ 1`; for a single column (`n = 1 < max_nz`) numpy broadcasts
instead of raising: `cond` then has `max_nz` columns and line 214 raises unless `rho - 1 = 0`. -/
def sparseProjRow {n : ℕ} (σ : Equiv.Perm (Fin n)) (v : Fin n → R) (k : ℕ) (z : R) : Option (Fin n → R) :=
  let idx := topIndices σ k
  let u := idx.map v
  if k ≤ n then
    let th := theta u z
    -- 219-229: zeros, then scatter of the projected values
    some fun i => if i ∈ idx then max (v i - th) 0 else 0
  else if n = 1 then
    let x := u.getD 0 0
    let r := ((List.range k).filter fun (l : ℕ) => decide (0 < x - (x - z) / ((l : R) + 1))).length
    if r = 1 then some fun i => if i ∈ idx then max (v i - (x - z)) 0 else 0 else none
  else none

end Projection

section Dist

variable {R : Type*} [Field R] [LinearOrder R]

/-- `euclidean_distances(X, Y, squared=True)` (ot/utils.py 289-307); `same` is the test `X is Y`. -/
def sqEuclidean {n m d : ℕ} (same : Bool) (X : Fin n → Fin d → R) (Y : Fin m → Fin d → R) : Fin n → Fin m → R :=
  fun i j =>
    let a2 := ∑ k, X i k * X i k                          -- 292
    let b2 := ∑ k, Y j k * Y j k                          -- 293
    let c := -2 * (∑ k, X i k * Y j k) + a2 + b2          -- 295-297
    let c := max c 0                                      -- 299
    if same then c * (1 - if i.val = j.val then 1 else 0) else c   -- 304-305

/-- `euclidean_distances(X, Y, squared=False)` (ot/utils.py 289-307): the square root is taken before the diagonal is
cleared. -/
noncomputable def euclidean {n m d : ℕ} (same : Bool) (X : Fin n → Fin d → ℝ) (Y : Fin m → Fin d → ℝ) :
    Fin n → Fin m → ℝ :=
  fun i j =>
    let c := Real.sqrt (sqEuclidean false X Y i j)        -- 301-302
    if same then c * (1 - if i.val = j.val then 1 else 0) else c   -- 304-305

/-- `dist_euclidean_batch(X, Y, squared=True)` for one batch element (ot/batch/_linear.py 79-82). -/
def sqEuclideanBatch {B n m d : ℕ} (X : Fin B → Fin n → Fin d → R) (Y : Fin B → Fin m → Fin d → R) :
    Fin B → Fin n → Fin m → R :=
  fun b i j => ∑ k, X b i k ^ 2 + ∑ k, Y b j k ^ 2 - 2 * ∑ k, X b i k * Y b j k

/-- `dist(x1, x2, metric="cityblock")` without tensors: accumulation over the coordinates (ot/utils.py 473-476). -/
def cityblock {n m d : ℕ} (X : Fin n → Fin d → R) (Y : Fin m → Fin d → R) : Fin n → Fin m → R :=
  (List.finRange d).foldl (fun M k i j => M i j + |X i k - Y j k|) fun _ _ => 0

/-- `dist(x1, x2, metric="minkowski", p, w)` without tensors (ot/utils.py 487-490 and 502-505); `w` constantly `1` models `w=None`. -/
noncomputable def minkowski {n m d : ℕ} (p : ℝ) (w : Fin d → ℝ) (X : Fin n → Fin d → ℝ) (Y : Fin m → Fin d → ℝ) :
    Fin n → Fin m → ℝ :=
  fun i j => (List.finRange d).foldl (fun M k i j => M i j + w k * |X i k - Y j k| ^ p) (fun _ _ => (0 : ℝ)) i j ^ (1 / p)

end Dist

section Batch

/-- `range(0, n, bs)` (ot/utils.py 391, 778 and others). -/
def pyRange (n bs : ℕ) : List ℕ := (List.range ((n + bs - 1) / bs)).map (· * bs)

/-- `l[i : i + k]`. -/
def slice {α : Type*} (l : List α) (i k : ℕ) : List α := (l.drop i).take k

/-- `res[i : i + len(vals)] = vals`. -/
def setSlice {α : Type*} (res : List α) (i : ℕ) (vals : List α) : List α :=
  res.take i ++ vals ++ res.drop (i + vals.length)

/-- `reduce_lazytensor(a, func, axis=None)` (ot/utils.py 776-780). A lazy tensor is represented by the list of its rows:
`a[i : i + bs]` evaluates to the same rows as the full tensor (1471-1486). -/
def reduceAll {α R : Type*} [AddMonoid R] (func : List α → R) (rows : List α) (bs : ℕ) : R :=
  (pyRange rows.length bs).foldl (fun res i => res + func (slice rows i bs)) 0

/-- `reduce_lazytensor(a, func, axis=1)` on numpy/torch (ot/utils.py 797, 803-806); with the list of columns it is `axis=0` (782, 788-791). -/
def reduceAxis {α β : Type*} [Zero β] (func : List α → List β) (rows : List α) (bs : ℕ) : List β :=
  (pyRange rows.length bs).foldl (fun res i => setSlice res i (func (slice rows i bs)))
    (List.replicate rows.length 0)

/-- the same on jax / tensorflow: concatenation (ot/utils.py 798-802, 783-787). -/
def reduceAxisConcat {α β : Type*} (func : List α → List β) (rows : List α) (bs : ℕ) : List β :=
  ((pyRange rows.length bs).map fun i => func (slice rows i bs)).flatten

variable {R : Type*} [Field R]

/-- Weights read by one batch of `sparse_ot_dist`, `w[i[b : b + bs]]` (ot/utils.py 394): the weights are indexed by the *sample
indices*. `none` models an out-of-range index (IndexError). -/
def gatherW (w : List R) (idx : List ℕ) : Option (List R) := idx.mapM fun i => w[i]?

/-- `sparse_ot_dist` (ot/utils.py 385-397); `dst i j` is the distance of samples `i` and `j` (379-383). -/
def sparseOtDist (dst : ℕ → ℕ → R) (i j : List ℕ) (w : Option (List R)) (bs : Option ℕ) : Option R :=
  let w := w.getD (List.replicate i.length (1 / (i.length : R)))      -- 385-386
  let bs := bs.getD i.length                                        -- 389-390
  (pyRange i.length bs).foldlM (fun d b => do
      let ww ← gatherW w (slice i b bs)
      pure (d + (List.zipWith (· * ·) (List.zipWith dst (slice i b bs) (slice j b bs)) ww).sum)) 0

end Batch

section Labels

/-- `label_normalization(y, start)` (ot/utils.py 629-630); `y` is not empty. -/
def labelNormalization (y : List ℤ) (start : ℤ) : List ℤ :=
  let diff := y.min?.getD 0 - start
  if diff = 0 then y else y.map (· - diff)

/-- `labels_u` of `nx.unique(y, return_inverse=True)` (ot/utils.py 654): the sorted distinct labels. -/
def labelsU (y : List ℤ) : List ℤ := y.dedup.mergeSort fun a b => decide (a ≤ b)

/-- `labels_to_masks` (ot/utils.py 654-657): row `i` is row `labels_idx[i]` of the identity. -/
def labelsToMasks (y : List ℤ) : List (List ℤ) :=
  let u := labelsU y
  y.map fun a => (List.range u.length).map fun k => if u.idxOf a = k then 1 else 0

/-- Argument of `get_parameter_pair`. -/
inductive Param (R : Type*) where
  | scalar (x : R)
  | seq (l : List R)

/-- `get_parameter_pair` (ot/utils.py 870-883); `none` models an exception (ValueError for more than two entries, IndexError for an
empty sequence). -/
def getParameterPair {R : Type*} : Param R → Option (R × R)
  | .scalar x => some (x, x)
  | .seq l =>
    if l.length = 1 then do let x ← l[0]?; pure (x, x)
    else if 2 < l.length then none
    else do let x ← l[0]?; let y ← l[1]?; pure (x, y)

/-- Argument of `check_number_threads`. -/
inductive Threads where
  | none
  | str (s : String)
  | int (k : ℤ)
  | other

/-- `check_number_threads` (ot/utils.py 1579-1587); `Option.none` models ValueError. -/
def checkNumberThreads : Threads → Option ℤ
  | .none => some (-1)
  | .str s => if s.toLower = "max" then some (-1) else Option.none
  | .int k => if k < 1 then Option.none else some k
  | .other => Option.none

end Labels

end POT.Utils
