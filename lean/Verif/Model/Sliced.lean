import Verif.Model.Emd1d
import Mathlib.Data.Fintype.Lattice
import Mathlib.Algebra.BigOperators.Field
import Mathlib.Analysis.SpecialFunctions.Log.Basic

/-!
# Model of the sliced solvers

`ot/sliced/_sliced_distances.py` (`sliced_wasserstein_distance`, `max_sliced_wasserstein_distance`), `ot/sliced/_utils.py` (`get_random_projections`),
`ot/sliced/_sliced_plans.py` (`sliced_plans`, `min_sliced_transport_plan`, `expected_sliced_plan`) and `sparse_ot_dist` of `ot/utils.py`.
Samples are real; `scaler=None`.  Every call to `argsort` is represented by the permutation it returns.
-/

namespace POT.Sliced

open Finset POT.Emd1d

variable {n m L : ℕ} {D : Type*} [Fintype D]

/-- `nx.dot(X, projections)`, column `k` (ot/sliced/_sliced_distances.py 128-129, 249-250; ot/sliced/_sliced_plans.py 122-123). -/
def proj (X : Fin n → D → ℝ) (θ : Fin L → D → ℝ) (k : Fin L) : Fin n → ℝ := fun i => ∑ d, X i d * θ k d

/-- The results of the `argsort` calls of all projections. -/
structure Sorters (n m L : ℕ) where
  permA : Fin L → Equiv.Perm (Fin n)
  permB : Fin L → Equiv.Perm (Fin m)

/-- What `argsort` guarantees. -/
def Sorters.Sorts (σ : Sorters n m L) (X : Fin n → D → ℝ) (Y : Fin m → D → ℝ) (θ : Fin L → D → ℝ) : Prop :=
  ∀ k, (Monotone fun i => proj X θ k (σ.permA k i)) ∧ Monotone fun j => proj Y θ k (σ.permB k j)

/-- `projected_emd` (ot/sliced/_sliced_distances.py 131, 252): `wasserstein_1d` column by column. -/
noncomputable def projectedEmd (p : ℝ) (X : Fin n → D → ℝ) (Y : Fin m → D → ℝ) (a : Fin n → ℝ) (b : Fin m → ℝ) (θ : Fin L → D → ℝ)
    (σ : Sorters n m L) (k : Fin L) : ℝ :=
  (wasserstein1d p (proj X θ k) (proj Y θ k) a b (σ.permA k) (σ.permB k)).2

/-- `sliced_wasserstein_distance` (ot/sliced/_sliced_distances.py 18-137; value line 133). -/
noncomputable def slicedWasserstein (p : ℝ) (X : Fin n → D → ℝ) (Y : Fin m → D → ℝ) (a : Fin n → ℝ) (b : Fin m → ℝ) (θ : Fin L → D → ℝ)
    (σ : Sorters n m L) : ℝ :=
  ((∑ k, projectedEmd p X Y a b θ σ k) / L) ^ (1 / p)

/-- `max_sliced_wasserstein_distance` (ot/sliced/_sliced_distances.py 140-258; value line 254); at least one projection. -/
noncomputable def maxSlicedWasserstein (p : ℝ) (X : Fin n → D → ℝ) (Y : Fin m → D → ℝ) (a : Fin n → ℝ) (b : Fin m → ℝ)
    (θ : Fin (L + 1) → D → ℝ) (σ : Sorters n m (L + 1)) : ℝ :=
  (univ.sup' univ_nonempty (projectedEmd p X Y a b θ σ)) ^ (1 / p)

/-- `get_random_projections` (ot/sliced/_utils.py 20-65) from the matrix `z` of normal samples (line 64). -/
noncomputable def randomProjections (z : Fin L → D → ℝ) : Fin L → D → ℝ := fun k d => z k d / Real.sqrt (∑ d, z k d ^ 2)

/-! ## Plans -/

/-- The exponent used, ot/utils.py 374-377 and ot/sliced/_sliced_plans.py 96-99. -/
noncomputable def effP (μ : Metric) (p : ℝ) : ℝ :=
  match μ with
  | .euclidean => 2
  | .cityblock => 1
  | _ => p

/-- `dist_idxs` for one pair (ot/utils.py 379-383); also `dist` for one pair with the same metric. -/
noncomputable def pairDist (μ : Metric) (p : ℝ) (x y : D → ℝ) : ℝ :=
  match μ with
  | .sqeuclidean => ∑ d, (x d - y d) ^ 2
  | _ => (∑ d, |x d - y d| ^ effP μ p) ^ (1 / effP μ p)

/-- The ground cost by indices (never read out of range). -/
noncomputable def distIdx (μ : Metric) (p : ℝ) (X : Fin n → D → ℝ) (Y : Fin m → D → ℝ) (i j : ℕ) : ℝ :=
  if h : i < n ∧ j < m then pairDist μ p (X ⟨i, h.1⟩) (Y ⟨j, h.2⟩) else 0

/-- The batches `range(0, len(i), batch_size)` (ot/utils.py 391-395): the sum over one batch is added to `d`; `fuel` bounds the number of
batches, `bs` is the batch size.  `w` is the weight array. The weight of an entry is read at the *source index* of the entry, as in the code (`w[i[b:b+bs]]`). -/
noncomputable def batchLoop (dist : ℕ → ℕ → ℝ) (w : List ℝ) (bs : ℕ) : ℕ → List (ℕ × ℕ) → ℝ → ℝ
  | 0, _, d => d
  | _ + 1, [], d => d
  | fuel + 1, e :: es, d =>
    batchLoop dist w bs fuel ((e :: es).drop bs) (d + (((e :: es).take bs).map fun ij => dist ij.1 ij.2 * w.getD ij.1 0).sum)

/-- `sparse_ot_dist` (ot/utils.py 310-397).  `w = none`: weights `1 / len(i)` (385-386).  `batch = none`: one batch (389-390). -/
noncomputable def sparseOtDist (dist : ℕ → ℕ → ℝ) (ij : List (ℕ × ℕ)) (w : Option (List ℝ)) (batch : Option ℕ) : ℝ :=
  let w := w.getD (ij.map fun _ => 1 / (ij.length : ℝ))
  batchLoop dist w (batch.getD ij.length) ij.length ij 0

/-- A permutation applied to an index (identity out of range, which is never read). -/
def permIdx (σ : Equiv.Perm (Fin n)) (i : ℕ) : ℕ := if h : i < n then σ ⟨i, h⟩ else i

/-- `is_perm` (ot/sliced/_sliced_plans.py 110). -/
def isPerm (a : Fin n → ℝ) (b : Fin m → ℝ) : Prop := n = m ∧ (∀ i, a i = (∑ i, a i) / n) ∧ ∀ j, b j = (∑ i, a i) / n

open Classical in
/-- The coordinate list of the plan of projection `k` (`sliced_plans`, ot/sliced/_sliced_plans.py 125-167): for uniform weights `data = a`,
`rows`, `cols` the two argsorts (126-149); otherwise the plan of `wasserstein_1d` (151-159), whose entries are written at the original
positions (ot/lp/solver_1d.py 168-187). -/
noncomputable def planList (μ : Metric) (p : ℝ) (X : Fin n → D → ℝ) (Y : Fin m → D → ℝ) (a : Fin n → ℝ) (b : Fin m → ℝ)
    (θ : Fin L → D → ℝ) (σ : Sorters n m L) (k : Fin L) : List (Entry ℝ) :=
  if isPerm a b then (List.range n).map fun t => (pad a t, permIdx (σ.permA k) t, permIdx (σ.permB k) t)
  else
    (wasserstein1dSorted n m (pad fun i => a (σ.permA k i)) (pad fun j => b (σ.permB k j))
      (fun i j => |pad (fun i => proj X θ k (σ.permA k i)) i - pad (fun j => proj Y θ k (σ.permB k j)) j| ^ effP μ p)).1.map
      fun e => (e.1, permIdx (σ.permA k) e.2.1, permIdx (σ.permB k) e.2.2)

open Classical in
/-- `costs[k]` of `sliced_plans` (ot/sliced/_sliced_plans.py 129-140 without weights, 160-172 with the weights of the plan). -/
noncomputable def planCost (μ : Metric) (p : ℝ) (batch : Option ℕ) (X : Fin n → D → ℝ) (Y : Fin m → D → ℝ) (a : Fin n → ℝ) (b : Fin m → ℝ)
    (θ : Fin L → D → ℝ) (σ : Sorters n m L) (k : Fin L) : ℝ :=
  let pl := planList μ p X Y a b θ σ k
  sparseOtDist (distIdx μ p X Y) (pl.map fun e => e.2) (if isPerm a b then none else some (pl.map fun e => e.1)) batch

/-- `todense` of the plan of projection `k` (ot/sliced/_sliced_plans.py 337-346). -/
noncomputable def slicedPlan (μ : Metric) (p : ℝ) (X : Fin n → D → ℝ) (Y : Fin m → D → ℝ) (a : Fin n → ℝ) (b : Fin m → ℝ)
    (θ : Fin L → D → ℝ) (σ : Sorters n m L) (k : Fin L) : Fin n → Fin m → ℝ :=
  fun i j => dense (planList μ p X Y a b θ σ k) i j

/-- `nx.argmin`: the first index with the least value. -/
noncomputable def argmin : {L : ℕ} → (Fin (L + 1) → ℝ) → Fin (L + 1)
  | 0, _ => 0
  | L + 1, f =>
    let r := argmin fun k : Fin (L + 1) => f k.succ
    if f r.succ < f 0 then r.succ else 0

/-- `min_sliced_transport_plan` (ot/sliced/_sliced_plans.py 187-352; 323-325 and 337-346). -/
noncomputable def minSlicedPlan (μ : Metric) (p : ℝ) (batch : Option ℕ) (X : Fin n → D → ℝ) (Y : Fin m → D → ℝ) (a : Fin n → ℝ)
    (b : Fin m → ℝ) (θ : Fin (L + 1) → D → ℝ) (σ : Sorters n m (L + 1)) : (Fin n → Fin m → ℝ) × ℝ :=
  let pos := argmin (planCost μ p batch X Y a b θ σ)
  (slicedPlan μ p X Y a b θ σ pos, planCost μ p batch X Y a b θ σ pos)

/-- `weights` of `expected_sliced_plan` (ot/sliced/_sliced_plans.py 486-493): softmax of `-β costs`, or uniform weights `1 / n_projections`
where `n_projections` is the argument when it is given and the number of projections otherwise. -/
noncomputable def expWeights (β : ℝ) (nProj : Option ℕ) (costs : Fin L → ℝ) : Fin L → ℝ :=
  if β ≠ 0 then fun k => Real.exp (-β * costs k - Real.log (∑ k, Real.exp (-β * costs k)))
  else fun _ => 1 / (nProj.getD L : ℝ)

/-- `expected_sliced_plan` (ot/sliced/_sliced_plans.py 355-521) with given `projections`; the concatenated coordinate lists (495-502) and the
cost (489, 504-508).  When `projections` is not given, `nProj = some L`.  An `nProj` smaller than the number of projections raises
`IndexError` in 495 when `β = 0` and is excluded by the callers of this definition. -/
noncomputable def expectedSlicedPlan (μ : Metric) (p : ℝ) (batch : Option ℕ) (β : ℝ) (nProj : Option ℕ) (X : Fin n → D → ℝ)
    (Y : Fin m → D → ℝ) (a : Fin n → ℝ) (b : Fin m → ℝ) (θ : Fin L → D → ℝ) (σ : Sorters n m L) : (Fin n → Fin m → ℝ) × ℝ :=
  let costs := planCost μ p batch X Y a b θ σ
  let w := expWeights β nProj costs
  let plan : Fin n → Fin m → ℝ := fun i j =>
    dense ((List.finRange L).flatMap fun k => (planList μ p X Y a b θ σ k).map fun e => (e.1 * w k, e.2)) i j
  (plan, if β ≠ 0 then ∑ k, costs k * w k else ∑ i, ∑ j, plan i j * pairDist μ p (X i) (Y j))

end POT.Sliced
