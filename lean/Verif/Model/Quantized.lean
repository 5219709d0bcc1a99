import Verif.Model.Emd1d
import Verif.Model.Gromov
import Mathlib.Algebra.BigOperators.Fin
import Mathlib.Data.Finset.Sort
import Mathlib.Data.List.FinRange
import Mathlib.Logic.Equiv.Fin.Basic

/-!
# Model of the quantized (fused) Gromov-Wasserstein solvers (`ot/gromov/_quantized.py`)

Exact arithmetic.  The global alignment between the representants is an input, as returned by `gromov_wasserstein` or `fused_gromov_wasserstein`; a partition is an array of labels, as returned by
any partitioning method; random choices are arbitrary.  Every call to `argsort` is represented by the permutation it returns.
-/

set_option linter.unusedSectionVars false

namespace POT.Quantized

open Finset POT.Emd1d

/-- the lists `list_R` and `list_p` of one space (ot/gromov/_quantized.py 36-43) -/
structure Parted where
  K : ℕ
  size : Fin K → ℕ
  R : ∀ k, Fin (size k) → ℝ
  w : ∀ k, Fin (size k) → ℝ

/-- `pR1` (ot/gromov/_quantized.py 170-171) -/
def Parted.mass (S : Parted) (k : Fin S.K) : ℝ := ∑ i, S.w k i

/-- `list_p1_norm` (ot/gromov/_quantized.py 227-228) -/
noncomputable def Parted.norm (S : Parted) (k : Fin S.K) : Fin (S.size k) → ℝ := fun i => S.w k i / S.mass k

/-- the permutations found by the sorts of `emd_1d` for each pair of partitions -/
structure Sorts (S S' : Parted) where
  left : ∀ k : Fin S.K, Fin S'.K → Equiv.Perm (Fin (S.size k))
  right : Fin S.K → ∀ l : Fin S'.K, Equiv.Perm (Fin (S'.size l))

/-- `Ts_local[(i, j)]` (ot/gromov/_quantized.py 230-247); `none` when `emd_1d` fails -/
noncomputable def localPlan (S S' : Parted) (σ : Sorts S S') (k : Fin S.K) (l : Fin S'.K) : Option (Fin (S.size k) → Fin (S'.size l) → ℝ) :=
  match emd1d .sqeuclidean 1 (S.R k) (S'.R l) (S.norm k) (S'.norm l) (σ.left k l) (σ.right k l) with
  | some (.ok r) => some r.1
  | _ => none

open Classical in
/-- one block of `T` (ot/gromov/_quantized.py 254-259) -/
noncomputable def block (S S' : Parted) (Tg : Fin S.K → Fin S'.K → ℝ) (σ : Sorts S S') (k : Fin S.K) (l : Fin S'.K) : Option (Fin (S.size k) → Fin (S'.size l) → ℝ) :=
  if Tg k l = 0 then some fun _ _ => 0 else (localPlan S S' σ k l).map fun G i j => Tg k l * G i j

/-- `quantized_fused_gromov_wasserstein_partitioned` with `build_OT=True` (ot/gromov/_quantized.py 224-268): the blocks are concatenated, partition after partition -/
noncomputable def partitioned (S S' : Parted) (Tg : Fin S.K → Fin S'.K → ℝ) (σ : Sorts S S') : Option (Fin (∑ k, S.size k) → Fin (∑ l, S'.size l) → ℝ) :=
  if h : ∀ k l, (block S S' Tg σ k l).isSome then
    some fun r s => (block S S' Tg σ (finSigmaFinEquiv.symm r).1 (finSigmaFinEquiv.symm s).1).get (h _ _) (finSigmaFinEquiv.symm r).2 (finSigmaFinEquiv.symm s).2
  else none

section
variable {n m : ℕ}

/-- `part_ids = nx.unique(part)` (ot/gromov/_quantized.py 421, 534, 1031) -/
def partIds (part : Fin n → ℕ) : List ℕ := (univ.image part).sort (· ≤ ·)

/-- `indices = nx.where(part == part_id)[0]` (ot/gromov/_quantized.py 429, 537, 1034) -/
def indices (part : Fin n → ℕ) (id : ℕ) : List (Fin n) := (List.finRange n).filter fun u => part u = id

/-- the node at position `i` of partition `k` -/
def node (part : Fin n → ℕ) (k : Fin (partIds part).length) (i : Fin (indices part ((partIds part).get k)).length) : Fin n := (indices part ((partIds part).get k)).get i

/-- `format_partitioned_graph` (ot/gromov/_quantized.py 526-540) for the relation `Cnew`, equal to `C` or `alpha * C + (1 - alpha) * M`; `format_partitioned_samples` (1031-1048) does the same with the
distances to the representants -/
def format (Cnew : Fin n → Fin n → ℝ) (p : Fin n → ℝ) (part : Fin n → ℕ) (rep : Fin (partIds part).length → Fin n) : Parted where
  K := (partIds part).length
  size k := (indices part ((partIds part).get k)).length
  R k i := Cnew (rep k) (node part k i)
  w k i := p (node part k i)

/-- `get_graph_representants` (ot/gromov/_quantized.py 420-454): one node per partition, chosen by `choice` in its index list, except that the representants are `0, 1, …` when there are as many partitions as
nodes -/
def representants (part : Fin n → ℕ) (choice : ∀ k : Fin (partIds part).length, Fin (indices part ((partIds part).get k)).length) : Fin (partIds part).length → Fin n := fun k =>
  if h : (partIds part).length = n then Fin.cast h k else node part k (choice k)

theorem mem_partIds (part : Fin n → ℕ) (u : Fin n) : part u ∈ partIds part := by simp [partIds]

theorem node_part (part : Fin n → ℕ) (k i) : part (node part k i) = (partIds part).get k := by
  have := List.get_mem (indices part ((partIds part).get k)) i
  exact of_decide_eq_true (List.mem_filter.1 this).2

/-- every node has exactly one position -/
theorem node_bijective (part : Fin n → ℕ) : Function.Bijective fun x : Σ k : Fin (partIds part).length, Fin (indices part ((partIds part).get k)).length => node part x.1 x.2 := by
  constructor
  · rintro ⟨k, i⟩ ⟨l, j⟩ h
    have h' : node part k i = node part l j := h
    have hk : (partIds part).get k = (partIds part).get l := by rw [← node_part part k i, ← node_part part l j, h']
    have hnd : (partIds part).Nodup := Finset.sort_nodup _ _
    obtain rfl := hnd.injective_get hk
    have hnd' : (indices part ((partIds part).get k)).Nodup := (List.nodup_finRange n).filter _
    rw [hnd'.injective_get h']
  · intro u
    obtain ⟨k, hk⟩ := List.get_of_mem (mem_partIds part u)
    have : u ∈ indices part ((partIds part).get k) := List.mem_filter.2 ⟨List.mem_finRange u, decide_eq_true hk.symm⟩
    obtain ⟨i, hi⟩ := List.get_of_mem this
    exact ⟨⟨k, i⟩, hi⟩

/-- row `r` of the concatenated matrix belongs to this node -/
noncomputable def order (part : Fin n → ℕ) : Fin (∑ k : Fin (partIds part).length, (indices part ((partIds part).get k)).length) ≃ Fin n :=
  finSigmaFinEquiv.symm.trans (Equiv.ofBijective _ (node_bijective part))

theorem size_sum (part : Fin n → ℕ) : n = ∑ k : Fin (partIds part).length, (indices part ((partIds part).get k)).length := by
  have := Fintype.card_congr (order part)
  simpa using this.symm

/-- `quantized_fused_gromov_wasserstein` and `quantized_fused_gromov_wasserstein_samples` after the choice of the partitions and of the representants (ot/gromov/_quantized.py 797-866, 1226-1290): the matrix `T` that
is returned -/
noncomputable def quantized (C1 : Fin n → Fin n → ℝ) (C2 : Fin m → Fin m → ℝ) (p : Fin n → ℝ) (q : Fin m → ℝ) (part1 : Fin n → ℕ) (part2 : Fin m → ℕ) (rep1 : Fin (partIds part1).length → Fin n)
    (rep2 : Fin (partIds part2).length → Fin m) (Tg : Fin (partIds part1).length → Fin (partIds part2).length → ℝ) (σ : Sorts (format C1 p part1 rep1) (format C2 q part2 rep2)) : Option (Fin n → Fin m → ℝ) :=
  (partitioned (format C1 p part1 rep1) (format C2 q part2 rep2) Tg σ).map fun T r s => T (Fin.cast (size_sum part1) r) (Fin.cast (size_sum part2) s)

open Classical in
/-- `log_["qFGW_dist"]` (ot/gromov/_quantized.py 850-860): the loss of `T` with the matrices in their original order; `M` is the cost between features -/
noncomputable def reported (α : ℝ) (M : Fin n → Fin m → ℝ) (C1 : Fin n → Fin n → ℝ) (C2 : Fin m → Fin m → ℝ) (p : Fin n → ℝ) (q : Fin m → ℝ) (T : Fin n → Fin m → ℝ) : ℝ :=
  α * Gromov.gwF Gromov.square C1 C2 p q T + (1 - α) * if α ≠ 1 then ∑ r, ∑ s, M r s * T r s else 0
end

/-! ### choice of the methods -/

/-- the choice of the global solver (ot/gromov/_quantized.py 174-217): `none` is the `ValueError` -/
noncomputable def globalSolver {X : Type*} (α : ℝ) (gw fgw : X) : Option X := open Classical in if α = 1 then some gw else if α < 1 ∧ 0 < α then some fgw else none

/-- values of `part_method` -/
inductive PartMethod
  | random | louvain | fluid | spectral | louvainFused | fluidFused | spectralFused
  deriving DecidableEq

/-- values of `rep_method` -/
inductive RepMethod
  | random | pagerank | pagerankFused
  deriving DecidableEq

/-- the methods used by `quantized_fused_gromov_wasserstein` (ot/gromov/_quantized.py 696-719); `nxImport`, `skImport` tell whether networkx and scikit-learn are installed -/
def methods (nxImport skImport : Bool) (pm : PartMethod) (rm : RepMethod) : PartMethod × RepMethod :=
  let (pm, rm) := if pm ∈ [.fluid, .louvain, .fluidFused, .louvainFused] ∨ rm ∈ [.pagerank, .pagerankFused] then
      let _warn := !nxImport
      (PartMethod.random, RepMethod.random)
    else (pm, rm)
  if pm ∈ [.spectral, .spectralFused] ∧ skImport = false then (.random, .random) else (pm, rm)

/-- values of `method` in the functions on samples -/
inductive SampleMethod
  | random | kmeans | kmeansFused
  deriving DecidableEq

open Classical in
/-- the method used by `quantized_fused_gromov_wasserstein_samples` (ot/gromov/_quantized.py 1217-1223, 929-959): `none` is the `ValueError` for an unknown method. Only for `1 < npart < n`, with features given and scikit-learn installed. -/
noncomputable def sampleMethod (α : ℝ) (method : SampleMethod) : Option SampleMethod :=
  match if method = .kmeansFused ∧ α ≠ 1 then .kmeans else method with
  | .random => some .random
  | .kmeans => some .kmeans
  | .kmeansFused => none

end POT.Quantized
