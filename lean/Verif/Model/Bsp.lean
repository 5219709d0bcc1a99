import Mathlib.Analysis.SpecialFunctions.Pow.Real
import Mathlib.Data.List.FinRange

/-!
# Model: `ot/bsp` (binary space partition matchings and their merging)

Real numbers instead of `float`.  Arrays of `n` integers that index points are functions `Fin n → Fin n`:
the C++ code indexes without bounds checks, so other contents are undefined behaviour there.
Random draws, the eigenvector of the Gaussian transport map, and the order in which `std::nth_element` and
`std::sort` leave equal keys are left open (relations), so that every outcome is covered.
-/

set_option linter.unusedSectionVars false

namespace POT.Bsp

/-- A matching: `X[i]` goes to `Y[T i]` (ot/bsp/BSP-OT_header_only.h:610-676, `TransportPlan = ints`). -/
abbrev Plan (n : ℕ) := Fin n → Fin n

/-- A point or a direction. -/
abbrev Vec (d : ℕ) := Fin d → ℝ

/-! ## Costs -/

/-- `makeCost` (ot/bsp/bsp_wrapper.cpp:15-30): squared norm for 2, largest coordinate for -1 (`maxCoeff` of the
absolute values; they are non-negative so starting at 0 changes nothing when there is a coordinate), sum of
powers otherwise. -/
noncomputable def makeCost {d : ℕ} (p : ℤ) (x y : Vec d) : ℝ :=
  if p = 2 then ∑ k, (x k - y k) ^ 2
  else if p = -1 then (List.ofFn fun k => |x k - y k|).foldl max 0
  else ∑ k, |x k - y k| ^ p

/-- `evalMatching` (ot/bsp/BSP-OT_header_only.h:756-766). -/
noncomputable def evalMatching {n : ℕ} (c : Fin n → Fin n → ℝ) (T : Plan n) : ℝ :=
  (List.finRange n).foldl (fun s i => s + c i (T i)) 0 / n

/-- The cost computed by the Python functions from `perm` (ot/bsp/bsp_ot.py:95-101, 159-165). -/
noncomputable def pyCost {n d : ℕ} (p : ℤ) (X Y : Fin n → Vec d) (perm : Plan n) : ℝ :=
  (if p = -1 then ∑ i, (List.ofFn fun k => |X i k - Y (perm i) k|).foldl max 0
    else ∑ i, ∑ k, |X i k - Y (perm i) k| ^ p) / n

/-! ## Merging (ot/bsp/BSP-OT_header_only.h:814-988) -/

/-- `getInverse` (ot/bsp/BSP-OT_header_only.h:814-820).  Simplification: entries never written hold -1 in the
code and their own index here. -/
def getInverse {n : ℕ} (T : Plan n) : Plan n :=
  (List.finRange n).foldl (fun TI i => Function.update TI (T i) i) id

/-- The variables `rslt, rsltI, C, Tp, Cp` of `MergePlansNoPar` (ot/bsp/BSP-OT_header_only.h:890-988). -/
structure MState (n : ℕ) where
  rslt : Plan n
  rsltI : Plan n
  C : Fin n → ℝ
  Tp : Plan n
  Cp : Fin n → ℝ

/-- `while (visited[j] == -1) {CC.push_back(j); …; visited[j] = c; j = sig[j];}`
(ot/bsp/BSP-OT_header_only.h:933-939); the first argument bounds the number of rounds. -/
def walk {n : ℕ} (sig : Plan n) : ℕ → (Fin n → Bool) → Fin n → List (Fin n) × (Fin n → Bool)
  | 0, v, _ => ([], v)
  | f + 1, v, j =>
    if v j then ([], v)
    else (j :: (walk sig f (Function.update v j true) (sig j)).1,
      (walk sig f (Function.update v j true) (sig j)).2)

/-- `do {body; j = sig[j];} while (j != i0);` (ot/bsp/BSP-OT_header_only.h:943-952); the first number bounds the
rounds. -/
def doWhile {n : ℕ} {S : Type} (body : Fin n → S → S) (sig : Plan n) (i0 : Fin n) : ℕ → Fin n → S → S
  | 0, _, s => s
  | f + 1, j, s => if sig j = i0 then body j s else doWhile body sig i0 f (sig j) (body j s)

/-- `std::swap(Tp[j],rslt[j]); std::swap(C[j],Cp[j]);` (ot/bsp/BSP-OT_header_only.h:944-945). -/
def swapAt {n : ℕ} (j : Fin n) (s : MState n) : MState n where
  rslt := Function.update s.rslt j (s.Tp j)
  rsltI := s.rsltI
  C := Function.update s.C j (s.Cp j)
  Tp := Function.update s.Tp j (s.rslt j)
  Cp := Function.update s.Cp j (s.C j)

/-- `rsltI[rslt[j]] = j;` (ot/bsp/BSP-OT_header_only.h:950). -/
def setInv {n : ℕ} (j : Fin n) (s : MState n) : MState n :=
  { s with rsltI := Function.update s.rsltI (s.rslt j) j }

/-- One round of the loop over cycles (ot/bsp/BSP-OT_header_only.h:921-957): state, `visited`, `CCs`. -/
noncomputable def cycleAt {n : ℕ} (sig : Plan n) (st : MState n × (Fin n → Bool) × List (List (Fin n))) (i : Fin n) :
    MState n × (Fin n → Bool) × List (List (Fin n)) :=
  if st.2.1 i then st
  else if sig i = i then st
  else
    let w := walk sig (n + 1) st.2.1 i
    let costT := w.1.foldl (fun c j => c + st.1.C j) 0
    let costTP := w.1.foldl (fun c j => c + st.1.Cp j) 0
    let s' := if costTP < costT then
        doWhile setInv sig i (n + 1) i (doWhile swapAt sig i (n + 1) i st.1)
      else st.1
    (s', w.2, st.2.2 ++ [w.1])

/-- One round of the local improvement (ot/bsp/BSP-OT_header_only.h:963-982). -/
noncomputable def localAt {n : ℕ} (c : Fin n → Fin n → ℝ) (s : MState n) (a : Fin n) : MState n :=
  let b := s.rslt a
  let bp := s.Tp a
  let ap := s.rsltI bp
  if a = ap ∨ b = bp then s
  else
    let old := s.C a + s.C ap
    let cabp := s.Cp a
    if cabp > old then s
    else
      let capb := c ap b
      if cabp + capb < old then
        { s with
          rslt := Function.update (Function.update s.rslt a bp) ap b
          rsltI := Function.update (Function.update s.rsltI bp a) b ap
          C := Function.update (Function.update s.C a cabp) ap capb }
      else s

/-- What is kept from one plan to the next: `rslt, rsltI, C`. -/
structure Cur (n : ℕ) where
  rslt : Plan n
  rsltI : Plan n
  C : Fin n → ℝ

/-- One round of the loop over the plans (ot/bsp/BSP-OT_header_only.h:907-985), with `cycle = true`. -/
noncomputable def mergeOne {n : ℕ} (c : Fin n → Fin n → ℝ) (s : Cur n) (T : Plan n) : Cur n :=
  let Tpi := getInverse T
  let sig : Plan n := fun i => Tpi (s.rslt i)
  let r := (List.finRange n).foldl (cycleAt sig)
    (⟨s.rslt, s.rsltI, s.C, T, fun i => c i (T i)⟩, (fun _ => false), [])
  let t := r.2.2.foldl (fun t CC => CC.foldl (localAt c) t) r.1
  ⟨t.rslt, t.rsltI, t.C⟩

/-- State before the loop over the plans (ot/bsp/BSP-OT_header_only.h:897-905). -/
def curOf {n : ℕ} (c : Fin n → Fin n → ℝ) (T : Plan n) : Cur n := ⟨T, getInverse T, fun i => c i (T i)⟩

/-- `MergePlansNoPar` once the plans are ranked (ot/bsp/BSP-OT_header_only.h:890-988).  `none` when there is no
plan: the code then reads `plans[0]` of an empty vector. -/
noncomputable def mergeRanked {n : ℕ} (c : Fin n → Fin n → ℝ) (ranked : List (Plan n)) (T0 : Option (Plan n)) :
    Option (Plan n) :=
  match T0, ranked with
  | _, [] => none
  | some T, l => some (l.foldl (mergeOne c) (curOf c T)).rslt
  | none, T :: l => some (l.foldl (mergeOne c) (curOf c T)).rslt

/-- `rankPlans` (ot/bsp/BSP-OT_header_only.h:682-695): the plans by increasing cost, ties in any order. -/
def IsRanking {n : ℕ} (c : Fin n → Fin n → ℝ) (plans ranked : List (Plan n)) : Prop :=
  ranked.Perm plans ∧ ranked.Pairwise fun S T => evalMatching c S ≤ evalMatching c T

/-- A possible result of `MergePlansNoPar`. -/
def Merged {n : ℕ} (c : Fin n → Fin n → ℝ) (plans : List (Plan n)) (T0 : Option (Plan n)) (T : Plan n) : Prop :=
  ∃ ranked, IsRanking c plans ranked ∧ mergeRanked c ranked T0 = some T

/-! ## Binary space partition matchings (ot/bsp/BSP-OT_header_only.h:1723-2010) -/

/-- Which of the three recursions is running: `partialBSPOT`, `partialOrthogonalBSPOT` with its previous slice
(`none` once it is NaN), `gaussianPartialBSPOT`. -/
inductive Ctx (d : ℕ)
  | plain
  | ortho (prev : Option (Vec d))
  | gauss

/-- `d.dot(x)`. -/
def dot {d : ℕ} (v x : Vec d) : ℝ := ∑ k, v k * x k

/-- Eigen's `normalize`, which leaves the zero vector alone. -/
noncomputable def normalize {d : ℕ} (v : Vec d) : Vec d :=
  if 0 < dot v v then fun k => v k / Real.sqrt (dot v v) else v

/-- `d -= d.dot(prev)*prev/prev.squaredNorm(); d.normalize();` (ot/bsp/BSP-OT_header_only.h:1915-1916); `none`
stands for the NaN vector obtained when `prev` is zero. -/
noncomputable def orthoDir {d : ℕ} (g prev : Vec d) : Option (Vec d) :=
  if dot prev prev = 0 then none
  else some (normalize fun k => g k - dot g prev * prev k / dot prev prev)

/-- The direction drawn for a block of `gap` points, and the recursion used for the two halves.
`plain`: `getSlice` (1773-1775), any vector; `gauss`: an eigenvector (1805-1815), any vector here;
blocks under 50 points switch to the orthogonal recursion with a random previous slice (1826-1832);
`ortho`: 1904-1920. -/
inductive Dir {d : ℕ} : Ctx d → ℕ → Option (Vec d) → Ctx d → Prop
  | plain (gap : ℕ) (g : Vec d) : Dir .plain gap (some g) .plain
  | gauss (gap : ℕ) (v : Vec d) : 50 ≤ gap → Dir .gauss gap (some v) .gauss
  | gaussSmall (gap : ℕ) (g0 g : Vec d) : gap < 50 → Dir .gauss gap (orthoDir g g0) (.ortho (orthoDir g g0))
  | ortho (gap : ℕ) (prev g : Vec d) : Dir (.ortho (some prev)) gap (orthoDir g prev) (.ortho (orthoDir g prev))
  | nan (gap : ℕ) : Dir (.ortho none) gap none (.ortho none)

/-- The pivot, counted from the start of the block: `randint(beg+1,end-1)` when `random_pivot`
(`computeMatching(true)`), the middle otherwise (`computeGaussianMatching`) (ot/bsp/BSP-OT_header_only.h:1838,
1885, 1913). -/
def PivotOk {d : ℕ} : Ctx d → ℕ → ℕ → Prop
  | .plain, gap, k => 1 ≤ k ∧ k ≤ gap - 1
  | _, gap, k => k = gap / 2

/-- `std::nth_element` (ot/bsp/BSP-OT_header_only.h:1783-1784): the block is rearranged so that no key of the
first `k` exceeds a key of the others.  No constraint when the keys are NaN. -/
def NthElement {n : ℕ} (key : Option (Fin n → ℝ)) (k : ℕ) (L L1 L2 : List (Fin n)) : Prop :=
  (L1 ++ L2).Perm L ∧ L1.length = k ∧ ∀ κ, key = some κ → ∀ x ∈ L1, ∀ y ∈ L2, κ x ≤ κ y

/-- The recursions (ot/bsp/BSP-OT_header_only.h:1818-1858, 1875-1891, 1904-1921) on a block of `idA` and the same
block of `idB`, before and after.  `P` restricts the directions that were drawn (no restriction: `fun _ => True`).
Simplification: a block of the array is a list. -/
inductive Run {n d : ℕ} (P : Option (Vec d) → Prop) (X Y : Fin n → Vec d) :
    Ctx d → List (Fin n) → List (Fin n) → List (Fin n) → List (Fin n) → Prop
  | leaf (ctx : Ctx d) (a b : Fin n) : Run P X Y ctx [a] [b] [a] [b]
  | node (ctx ctx' : Ctx d) (v : Option (Vec d)) (k : ℕ) (LA LB A1 A2 B1 B2 A1' A2' B1' B2' : List (Fin n)) :
      2 ≤ LA.length → LB.length = LA.length → Dir ctx LA.length v ctx' → P v → PivotOk ctx LA.length k →
      NthElement (v.map fun w i => dot w (X i)) k LA A1 A2 →
      NthElement (v.map fun w j => dot w (Y j)) k LB B1 B2 →
      Run P X Y ctx' A1 B1 A1' B1' → Run P X Y ctx' A2 B2 A2' B2' →
      Run P X Y ctx LA LB (A1' ++ A2') (B1' ++ B2')

/-- `plan[idA[i].id] = idB[i].id` for all `i`, from an array of zeros (ot/bsp/BSP-OT_header_only.h:1963-1966). -/
def planOf {n : ℕ} (LA LB : List (Fin n)) : Plan n :=
  (LA.zip LB).foldl (fun T ab => Function.update T ab.1 ab.2) fun i => ⟨0, i.pos⟩

/-- A possible result of `computeMatching(true)` (`ctx = plain`, ot/bsp/BSP-OT_header_only.h:1953-1967) or
`computeGaussianMatching()` (`ctx = gauss`, 1989-2010). -/
def Matching {n d : ℕ} (P : Option (Vec d) → Prop) (X Y : Fin n → Vec d) (ctx : Ctx d) (T : Plan n) : Prop :=
  ∃ LA LB, Run P X Y ctx (List.finRange n) (List.finRange n) LA LB ∧ T = planOf LA LB

/-- A possible result `(cost, perm, perms)` of `compute_bspot_bijection` (ot/bsp/bsp_ot.py:9-111,
bsp_wrapper.cpp:33-112) with `gaussian_slicing = gaussian`. -/
def Bspot {n d : ℕ} (P : Option (Vec d) → Prop) (X Y : Fin n → Vec d) (nPlans : ℕ) (p : ℤ) (T0 : Option (Plan n))
    (gaussian : Bool) (out : ℝ × Plan n × List (Plan n)) : Prop :=
  out.2.2.length = nPlans ∧
  (∀ T ∈ out.2.2, Matching P X Y (if gaussian then .gauss else .plain) T) ∧
  Merged (fun i j => makeCost p (X i) (Y j)) out.2.2 T0 out.2.1 ∧
  out.1 = pyCost p X Y out.2.1

/-! ## `merge_bijections` -/

/-- The copy of plan `i` out of the flat buffer (ot/bsp/bsp_wrapper.cpp:131-140); `none` when it runs past the end
of the buffer. -/
def readPlan {n : ℕ} (buf : List (Fin n)) (i : ℕ) : Option (Plan n) :=
  if h : (i + 1) * n ≤ buf.length then
    some fun j => buf[i * n + j.val]'(by have := j.isLt; rw [Nat.add_mul] at h; omega)
  else none

/-- The plans seen by `MergeBijections`: `k = plans.shape[1]` of them (ot/bsp/bsp_wrap.pyx, `merge_bijections_c`),
where `plans` has one row of `n` entries per bijection. -/
def readPlans {n : ℕ} (perms : List (Plan n)) : Option (List (Plan n)) :=
  (List.range n).mapM (readPlan (perms.flatMap List.ofFn))

/-- A possible result `(cost, perm)` of `merge_bijections` (ot/bsp/bsp_ot.py:114-175). -/
def MergeCall {n d : ℕ} (X Y : Fin n → Vec d) (perms : List (Plan n)) (p : ℤ) (out : ℝ × Plan n) : Prop :=
  ∃ plans, readPlans perms = some plans ∧
    Merged (fun i j => makeCost p (X i) (Y j)) plans none out.2 ∧ out.1 = pyCost p X Y out.2

/-! ## Random generators -/

/-- State of the generators of a process: for each thread, `none` until its first draw, then the seed it was
created with and the number of draws made (`thread_local std::mt19937 eng(global_seed)`,
ot/bsp/BSP-OT_header_only.h:547-553). -/
abbrev Engines := ℕ → Option (ℕ × ℕ)

/-- One plan computed by thread `t`: `one` turns the remaining stream of draws into a plan and the number of draws
used; `gen s k` is the `k`-th draw of a generator created with seed `s`. -/
def drawPlan {Ω Q : Type} (gen : ℕ → ℕ → Ω) (one : (ℕ → Ω) → Q × ℕ) (seed : ℕ) (st : Engines) (t : ℕ) : Q × Engines :=
  let e := (st t).getD (seed, 0)
  let r := one fun k => gen e.1 (e.2 + k)
  (r.1, Function.update st t (some (e.1, e.2 + r.2)))

/-- The parallel loop of `computeBSPMatchings_dim` after `global_seed = seed` (ot/bsp/bsp_wrapper.cpp:33-50, 73):
`sched` lists the thread of each plan. -/
def drawPlans {Ω Q : Type} (gen : ℕ → ℕ → Ω) (one : (ℕ → Ω) → Q × ℕ) (seed : ℕ) :
    List ℕ → Engines → List Q × Engines
  | [], st => ([], st)
  | t :: ts, st =>
    let r := drawPlan gen one seed st t
    let q := drawPlans gen one seed ts r.2
    (r.1 :: q.1, q.2)

end POT.Bsp
