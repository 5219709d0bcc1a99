import Verif.Spec.Transport
import Mathlib.Data.Real.Basic
import Mathlib.Analysis.SpecialFunctions.Sqrt

/-! # `semirelaxed_init_plan` (ot/gromov/_utils.py 449-675)

Parameters of the model: the labels found by the clustering libraries (asynchronous fluid communities, spectral clustering, k-means) for `C1` in `m` clusters and for `C2`
in `n` clusters, the exact solver `emd`, and the random numbers.  Not modelled: missing libraries, `p = None`. -/

set_option linter.unusedSectionVars false

namespace POT.SemiInit

variable {n m : ℕ}

/-- what the function is given from outside -/
structure Ext (n m : ℕ) where
  /-- labels of the nodes of the first graph, ot/gromov/_utils.py 620-667 (case `n > m`) -/
  part1 : String → Fin n → Fin m
  /-- labels of the nodes of the second graph (case `m > n`) -/
  part2 : String → Fin m → Fin n
  /-- `ot.emd` -/
  emd : ∀ {k l : ℕ}, (Fin k → ℝ) → (Fin l → ℝ) → (Fin k → Fin l → ℝ) → Fin k → Fin l → ℝ
  /-- random numbers of "random_product", line 609 -/
  rq : Fin m → ℝ
  /-- random numbers of "random", line 616 -/
  rU : Fin n → Fin m → ℝ

/-- `ValueError`, or a result with NaN (a division by zero) -/
inductive Err | value | nan

/-- `T_ = w[:, None] * nx.eye(l)[part]`, ot/gromov/_utils.py 564-565, 581 -/
def labelPlan {k l : ℕ} (w : Fin k → ℝ) (part : Fin k → Fin l) : Fin k → Fin l → ℝ := fun i c => w i * if part i = c then 1 else 0

/-- `nx.sum(T, 0)` -/
def colSum {k l : ℕ} (T : Fin k → Fin l → ℝ) (c : Fin l) : ℝ := ∑ i, T i c

/-- `nx.dot(nx.dot(T_.T, C), T_) / nx.outer(q, q)`, ot/gromov/_utils.py 568, 584 -/
noncomputable def factored {k l : ℕ} (T : Fin k → Fin l → ℝ) (C : Fin k → Fin k → ℝ) (q : Fin l → ℝ) : Fin l → Fin l → ℝ :=
  fun c c' => (∑ j, (∑ i, T i c * C i j) * T j c') / (q c * q c')

/-- `euclidean_distances`, ot/utils.py 289-307 -/
noncomputable def eucl {k l d : ℕ} (X : Fin k → Fin d → ℝ) (Y : Fin l → Fin d → ℝ) : Fin k → Fin l → ℝ :=
  fun i j => Real.sqrt (max (-2 * (∑ e, X i e * Y j e) + ∑ e, X i e * X i e + ∑ e, Y j e * Y j e) 0)

/-- `nx.dot(T_, inv_q[:, None] * T_emd)`, ot/gromov/_utils.py 574-576, 589-591 -/
noncomputable def through {k l r : ℕ} (T : Fin k → Fin l → ℝ) (q : Fin l → ℝ) (E : Fin l → Fin r → ℝ) : Fin k → Fin r → ℝ :=
  fun i j => ∑ c, T i c * (1 / q c * E c j)

/-- `get_transport_from_partition`, ot/gromov/_utils.py 562-600; `none` if a division by zero makes the plan NaN -/
noncomputable def fromPartition (E : Ext n m) (C1 : Fin n → Fin n → ℝ) (C2 : Fin m → Fin m → ℝ) (p : Fin n → ℝ) (useTarget : Bool) (method : String) :
    Option ((Fin n → Fin m → ℝ) × (Fin m → ℝ)) :=
  if h1 : m < n then
    let T := labelPlan p (E.part1 method)
    let q := colSum T
    if useTarget then
      open Classical in if ∃ c, q c = 0 then none else some (through T q (E.emd q q (eucl (factored T C1 q) C2)), q)
    else some (T, q)
  else if h2 : n < m then
    let T := labelPlan (fun _ => 1 / (m : ℝ)) (E.part2 method)
    let q := colSum T
    open Classical in
    if ∃ c, q c = 0 then none
    else
      let T' : Fin n → Fin m → ℝ := fun i j => through T q (E.emd q p (eucl (factored T C2 q) C1)) j i
      some (T', colSum T')
  else
    have h : m = n := by omega
    let q : Fin m → ℝ := fun j => p (Fin.cast h j)
    some (E.emd p q (eucl C1 fun j e => C2 j (Fin.cast h.symm e)), q)

/-- ot/gromov/_utils.py 519-526 -/
def partitioning : List String := ["fluid", "spectral", "kmeans", "fluid_soft", "spectral_soft", "kmeans_soft"]

/-- `"soft" in method` for the supported methods, ot/gromov/_utils.py 635, 649, 664 -/
def soft : List String := ["fluid_soft", "spectral_soft", "kmeans_soft"]

/-- the plan from the structures, ot/gromov/_utils.py 528-538, 602-665 -/
noncomputable def structPlan (E : Ext n m) (C1 : Fin n → Fin n → ℝ) (C2 : Fin m → Fin m → ℝ) (p : Fin n → ℝ) (useTarget : Bool) (method : String) :
    Except Err (Fin n → Fin m → ℝ) :=
  open Classical in
  if method = "product" then .ok fun i _ => p i * (1 / (m : ℝ))
  else if method = "random_product" then if ∑ j, E.rq j = 0 then .error .nan else .ok fun i j => p i * (E.rq j / ∑ j, E.rq j)
  else if method = "random" then if ∃ i, ∑ j, E.rU i j = 0 then .error .nan else .ok fun i j => p i / (∑ j, E.rU i j) * E.rU i j
  else if method ∈ partitioning then
    match fromPartition E C1 C2 p useTarget method with
    | none => .error .nan
    | some (T, q) => .ok (if method ∈ soft then fun i j => (T i j + p i * q j) / 2 else T)
  else .error .value

/-- `TM`, ot/gromov/_utils.py 667-673: the weight of each row is shared equally between the columns where its cost is least -/
noncomputable def featurePlan [NeZero m] (p : Fin n → ℝ) (M : Fin n → Fin m → ℝ) : Fin n → Fin m → ℝ :=
  open Classical in
  let mask : Fin n → Fin m → ℝ := fun i j => if M i j = Finset.univ.inf' ⟨0, Finset.mem_univ _⟩ (M i) then 1 else 0
  fun i j => mask i j * (p i / ∑ j, mask i j)

/-- `semirelaxed_init_plan`, ot/gromov/_utils.py 449-675 -/
noncomputable def initPlan [NeZero m] (E : Ext n m) (C1 : Fin n → Fin n → ℝ) (C2 : Fin m → Fin m → ℝ) (p : Fin n → ℝ) (M : Option (Fin n → Fin m → ℝ)) (alpha : ℝ)
    (method : String) (useTarget : Bool) : Except Err (Fin n → Fin m → ℝ) :=
  match structPlan E C1 C2 p useTarget method with
  | .error e => .error e
  | .ok T =>
    match M with
    | none => .ok T
    | some M => .ok fun i j => alpha * T i j + (1 - alpha) * featurePlan p M i j

end POT.SemiInit
