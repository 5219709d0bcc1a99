import Verif.Model.Utils
import Verif.Model.Sinkhorn
import Verif.Model.Sliced
import Verif.Spec.Da

/-! # Model of the transport estimators of `ot/da.py`

Arithmetic is exact. In `ℝ` Lean's `x / 0 = 0` is what `nan_to_num(·, nan=0, posinf=0, neginf=0)` makes of a division by a zero mass. -/

set_option linter.unusedSectionVars false

namespace POT.Da

open Finset Sinkhorn Spec

/-! ### Costs -/

/-- Values of `norm`. -/
inductive Norm where
  | none | median | max | log | loglog

/-- `cost_normalization(C, norm, value=value)` on one entry (ot/utils.py 553-595). -/
noncomputable def normEntry (norm : Norm) (value : ℝ) (c : ℝ) : ℝ :=
  match norm with
  | .none => c
  | .median => c / value
  | .max => c / value
  | .log => Real.log (1 + c)
  | .loglog => Real.log (1 + Real.log (1 + c))

/-- `cost_correction` for the pair of labels `ys[i]`, `yt[j]` (ot/da.py 603-620). `limit = none` is `np.inf`; then `0 * inf` is `nan`, and `nan_to_num(·, -np.inf)` passes `-np.inf` as the parameter `copy` (ot/backend.py 1598), so that
`nan` becomes `0.0` and `inf` the largest float `big`. -/
noncomputable def correction (limit : Option ℝ) (big : ℝ) (ys yt : ℤ) : ℝ :=
  let missing : ℝ := (if ys = -1 then 1 else 0) * (if yt = -1 then 1 else 0)
  let labelMatch : ℝ := if ys - yt ≠ 0 then 1 else 0
  match limit with
  | some l => labelMatch * missing * l
  | none => if labelMatch * missing = 0 then 0 else big

/-- Largest entry (`nx.max`). -/
noncomputable def maxEntry {n m : ℕ} [NeZero n] [NeZero m] (C : Fin n → Fin m → ℝ) : ℝ :=
  univ.sup' univ_nonempty fun i => univ.sup' univ_nonempty fun j => C i j

/-- What `BaseTransport.fit` stores: the cost matrix and the (overwritten) `limit_max` (ot/da.py 590-621). `C` is the cost after normalisation. -/
noncomputable def fitCost {n m : ℕ} [NeZero n] [NeZero m] (limit : Option ℝ) (big : ℝ) (C : Fin n → Fin m → ℝ) (ys : Option (Fin n → ℤ)) (yt : Option (Fin m → ℤ)) : (Fin n → Fin m → ℝ) × Option ℝ :=
  match ys, yt with
  | some ys, some yt =>
    let limit := limit.map fun l => l * maxEntry C
    (fun i j => max (C i j) (correction limit big (ys i) (yt j)), limit)
  | _, _ => (C, limit)

/-! ### Mappings -/

variable {n m d : ℕ}

/-- `transp = coupling_ / sum(coupling_, axis=1)[:, None]`, `nan_to_num`, `dot(transp, xt_)` (ot/da.py 692-698). -/
noncomputable def baryMap (P : Fin n → Fin m → ℝ) (xt : Fin m → Fin d → ℝ) (i : Fin n) : Fin d → ℝ := fun k => ∑ j, P i j / (∑ j, P i j) * xt j k

/-- `transp_ = coupling_.T / sum(coupling_, 0)[:, None]`, `dot(transp_, xs_)` (ot/da.py 798-804). -/
noncomputable def baryMapInv (P : Fin n → Fin m → ℝ) (xs : Fin n → Fin d → ℝ) (j : Fin m) : Fin d → ℝ := fun k => ∑ i, P i j / (∑ i, P i j) * xs i k

/-- Out of sample mapping of one point (ot/da.py 710-719): nearest source sample and its displacement. -/
noncomputable def oosPoint (T : Fin (n + 1) → Fin d → ℝ) (xs : Fin (n + 1) → Fin d → ℝ) (x : Fin d → ℝ) : Fin d → ℝ :=
  let idx := Sliced.argmin fun i => sqEuclid x (xs i)
  fun k => T idx k + x k - xs idx k

open Classical in
/-- `BaseTransport.transform` (ot/da.py 661-725). -/
noncomputable def transform (P : Fin (n + 1) → Fin m → ℝ) (xs : Fin (n + 1) → Fin d → ℝ) (xt : Fin m → Fin d → ℝ) (batch : ℕ) (X : List (Fin d → ℝ)) : List (Fin d → ℝ) :=
  if X = List.ofFn xs then List.ofFn (baryMap P xt)
  else Utils.reduceAxisConcat (fun rows => rows.map (oosPoint (baryMap P xt) xs)) X batch

open Classical in
/-- `BaseTransport.inverse_transform` (ot/da.py 767-830). -/
noncomputable def inverseTransform (P : Fin n → Fin (m + 1) → ℝ) (xs : Fin n → Fin d → ℝ) (xt : Fin (m + 1) → Fin d → ℝ) (batch : ℕ) (X : List (Fin d → ℝ)) : List (Fin d → ℝ) :=
  if X = List.ofFn xt then List.ofFn (baryMapInv P xs)
  else Utils.reduceAxisConcat (fun rows => rows.map (oosPoint (baryMapInv P xs) xt)) X batch

/-- One point of `SinkhornTransport.transform` with `out_of_sample_map='continuous'` (ot/da.py 1360-1366). `c` is the row of costs between the point and the target samples before normalisation. -/
noncomputable def contPoint (norm : Norm) (value reg : ℝ) (g : Fin m → ℝ) (xt : Fin m → Fin d → ℝ) (c : Fin m → ℝ) : Fin d → ℝ :=
  fun k => (∑ j, Real.exp (-normEntry norm value (c j) / reg + g j) * xt j k) / ∑ j, Real.exp (-normEntry norm value (c j) / reg + g j)

/-- `SinkhornTransport.transform`, continuous map (ot/da.py 1348-1372); `dst` is the metric. -/
noncomputable def transformCont (dst : (Fin d → ℝ) → (Fin d → ℝ) → ℝ) (norm : Norm) (value reg : ℝ) (g : Fin m → ℝ) (xt : Fin m → Fin d → ℝ) (batch : ℕ) (X : List (Fin d → ℝ)) : List (Fin d → ℝ) :=
  Utils.reduceAxisConcat (fun rows => rows.map fun x => contPoint norm value reg g xt fun j => dst x (xt j)) X batch

/-- `SinkhornTransport.inverse_transform`, continuous map (ot/da.py 1407-1428). -/
noncomputable def inverseTransformCont (dst : (Fin d → ℝ) → (Fin d → ℝ) → ℝ) (norm : Norm) (value reg : ℝ) (f : Fin n → ℝ) (xs : Fin n → Fin d → ℝ) (batch : ℕ) (X : List (Fin d → ℝ)) : List (Fin d → ℝ) :=
  Utils.reduceAxisConcat (fun rows => rows.map fun y => contPoint norm value reg f xs fun i => dst y (xs i)) X batch

/-- Coupling and potentials of `SinkhornTransport.fit` with method `sinkhorn_log` (ot/da.py 1286-1314). -/
noncomputable def sinkhornFit (dst : (Fin d → ℝ) → (Fin d → ℝ) → ℝ) (norm : Norm) (value reg : ℝ) (numItermax : ℕ) (stopThr : ℝ) (xs : Fin n → Fin d → ℝ) (xt : Fin m → Fin d → ℝ) (a : Fin n → ℝ) (b : Fin m → ℝ) :
    (Fin n → Fin m → ℝ) × (Fin n → ℝ) × (Fin m → ℝ) :=
  let M : Fin n → Fin m → ℝ := fun i j => normEntry norm value (dst (xs i) (xt j))
  let s := (sinkhornLog a b M reg numItermax stopThr none).s
  (logPlan M reg s, s.u, s.v)

/-! ### Labels -/

/-- `dot(masks.T, transp).T` with `masks` of the labels `ys` (ot/da.py 755-765): entry `(j, c)`, `c` a position in the list of classes. -/
noncomputable def transformLabels (P : Fin n → Fin m → ℝ) (ys : Fin n → ℤ) : Fin m → ℕ → ℝ :=
  let masks := Utils.labelsToMasks (Utils.labelNormalization (List.ofFn ys) 0)
  fun j c => ∑ i : Fin n, (((masks.getD i []).getD c 0 : ℤ) : ℝ) * (P i j / ∑ i, P i j)

/-- `inverse_transform_labels` (ot/da.py 850-859). -/
noncomputable def inverseTransformLabels (P : Fin n → Fin m → ℝ) (yt : Fin m → ℤ) : Fin n → ℕ → ℝ :=
  let masks := Utils.labelsToMasks (Utils.labelNormalization (List.ofFn yt) 0)
  fun i c => ∑ j : Fin m, (((masks.getD j []).getD c 0 : ℤ) : ℝ) * (P i j / ∑ j, P i j)

/-! ### `sinkhorn_lpl1_mm` -/

section Lpl1

variable {I J : Type*} [Fintype I] [Fintype J]

/-- The weights `W` from the plan (ot/da.py 179-185): `unroll` is the matrix of class indicators. -/
noncomputable def lplWeights {L : ℕ} (idx : I → Fin L) (eps : ℝ) (T : I → J → ℝ) : I → J → ℝ :=
  let unroll : I → Fin L → ℝ := fun i c => if c = idx i then 1 else 0
  let W : J → Fin L → ℝ := fun j c => ∑ i, T i j * unroll i c
  let W2 : J → I → ℝ := fun j i => ∑ c, W j c * unroll i c
  fun i j => (1 / 2 : ℝ) * (W2 j i + eps) ^ ((1 / 2 : ℝ) - 1)

/-- `sinkhorn_lpl1_mm` (ot/da.py 156-190); `idx` is `labels_idx`, `sk` the inner solver (cost to plan), `none` for `numItermax = 0` (the plan is then undefined). -/
noncomputable def lpl1 {L : ℕ} (idx : I → Fin L) (M : I → J → ℝ) (eta eps : ℝ) (sk : (I → J → ℝ) → I → J → ℝ) : ℕ → Option (I → J → ℝ)
  | 0 => none
  | k + 1 =>
    let W : I → J → ℝ := match lpl1 idx M eta eps sk k with
      | none => fun _ _ => 0
      | some T => lplWeights idx eps T
    some (sk fun i j => M i j + eta * W i j)

end Lpl1

end POT.Da
