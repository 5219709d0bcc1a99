import Mathlib.Analysis.SpecialFunctions.Pow.Real
import Mathlib.Analysis.SpecialFunctions.Log.Basic
import Mathlib.Data.Fintype.BigOperators
import Mathlib.Data.List.OfFn

/-!
# Model: `screenkhorn` (ot/bregman/_screenkhorn.py)

Real arithmetic; the solver `fmin_l_bfgs_b` (400-402) is outside the model: its result `(usc, vsc)` is a variable, with contracts stated in the theorems. The selections `Isel`, `Jsel` are
predicates and the restricted arrays are functions on the subtypes.
-/

set_option linter.unusedSectionVars false

namespace POT.Screen

open Finset Classical

variable {I J : Type*} [Fintype I] [Fintype J]

/-- `K = exp(-M / reg)` (156) -/
noncomputable def kern (M : I → J → ℝ) (reg : ℝ) : I → J → ℝ := fun i j => Real.exp (-M i j / reg)

/-- `flip(sort(x))` (221, 224, 234, 242) -/
noncomputable def sortDesc {n : ℕ} (x : Fin n → ℝ) : List ℝ := (List.ofFn x).mergeSort fun s t => decide (t ≤ s)

/-- `sort(x)` (195, 207); `bottleneck.partition(x, k)[k]` (199-201) is the same entry -/
noncomputable def sortAsc {n : ℕ} (x : Fin n → ℝ) : List ℝ := (List.ofFn x).mergeSort fun s t => decide (s ≤ t)

/-- `epsilon_u_square` (193-204, 217-222), `epsilon_v_square` (206-216, 224-225); `S` are the sums of the kernel, `m ≥ 1` the budget (for `m = 0` the code indexes from the end or divides by zero) -/
noncomputable def thr {n : ℕ} [NeZero n] (uniform : Bool) (w S : Fin n → ℝ) (m : ℕ) : ℝ :=
  if uniform then w 0 / (sortAsc S).getD (m - 1) 0 else (sortDesc fun i => w i / S i).getD (m - 1) 0

/-- `mean(aK_sort[m - 1 : m + 1])` (235, 243) -/
noncomputable def meanTwo (L : List ℝ) (m : ℕ) : ℝ := if m < L.length then (L.getD (m - 1) 0 + L.getD m 0) / 2 else L.getD (m - 1) 0

/-- the threshold after the correction (231-237, 239-245) -/
noncomputable def epsSq {n : ℕ} [NeZero n] (uniform : Bool) (w S : Fin n → ℝ) (m : ℕ) : ℝ :=
  if (univ.filter fun i => thr uniform w S m * S i ≤ w i).card ≠ m then meanTwo (sortDesc fun i => w i / S i) m else thr uniform w S m

/-- `Isel = a >= epsilon_u_square * K_sum_cols` (228, 236, 244) -/
def sel (w S : I → ℝ) (e : ℝ) : I → Prop := fun i => e * S i ≤ w i

/-- `epsilon = (epsilon_u_square * epsilon_v_square) ** (1 / 4)` (247) -/
noncomputable def epsilon (eu ev : ℝ) : ℝ := (eu * ev) ^ (1 / 4 : ℝ)

/-- `kappa = (epsilon_v_square / epsilon_u_square) ** (1 / 2)` (248) -/
noncomputable def kappa (eu ev : ℝ) : ℝ := (ev / eu) ^ (1 / 2 : ℝ)

/-- `bounds_u` (285-297): lower and upper bound; `ns`, `nt`, `nsb`, `ntb` are the sizes and the numbers of selected points. With `uniform=True` the code takes the first selected weight for all four extremes (279-282). -/
noncomputable def boundsU (ns nt ntb : ℕ) (ε κ Kmin aMin aMax bMax : ℝ) : ℝ × ℝ :=
  (max (aMin / (((nt : ℝ) - ntb) * ε + ntb * (bMax / (ns * ε * κ * Kmin)))) (ε / κ), aMax / (nt * ε * Kmin))

/-- `bounds_v` (299-311) -/
noncomputable def boundsV (ns nt nsb : ℕ) (ε κ Kmin bMin bMax aMax : ℝ) : ℝ × ℝ :=
  (max (bMin / (((ns : ℝ) - nsb) * ε + nsb * (κ * aMax / (nt * ε * Kmin)))) (ε * κ), bMax / (ns * ε * Kmin))

variable (K : I → J → ℝ) (a : I → ℝ) (b : J → ℝ) (ε κ : ℝ) (S : I → Prop) (T : J → Prop)

/-- `vec_eps_IJc` (314-318, 185; the same as `cst_u`, 330 and 173) -/
noncomputable def vecIJc (i : {i // S i}) : ℝ := ε * κ * ∑ j : {j // ¬ T j}, K i j

/-- `vec_eps_IcJ` (319-321, 186; the same as `cst_v`, 331 and 174) -/
noncomputable def vecIcJ (j : {j // T j}) : ℝ := ε / κ * ∑ i : {i // ¬ S i}, K i j

/-- `screened_obj` (361-370) -/
noncomputable def screenedObj (u : {i // S i} → ℝ) (v : {j // T j} → ℝ) : ℝ :=
  (∑ i : {i // S i}, ∑ j : {j // T j}, u i * K i j * v j - κ * ∑ i : {i // S i}, a i * Real.log (u i) - 1 / κ * ∑ j : {j // T j}, b j * Real.log (v j)) + ∑ i, u i * vecIJc K ε κ S T i + ∑ j, vecIcJ K ε κ S T j * v j

/-- `screened_grad` (372-376) -/
noncomputable def gradU (u : {i // S i} → ℝ) (v : {j // T j} → ℝ) (i : {i // S i}) : ℝ := ∑ j : {j // T j}, K i j * v j + vecIJc K ε κ S T i - κ * a i / u i

noncomputable def gradV (u : {i // S i} → ℝ) (v : {j // T j} → ℝ) (j : {j // T j}) : ℝ := ∑ i : {i // S i}, K i j * u i + vecIcJ K ε κ S T j - 1 / κ * b j / v j

/-- one iteration of the restricted Sinkhorn algorithm (334-337, 351-354) -/
noncomputable def rsStep (u : {i // S i} → ℝ) : ({i // S i} → ℝ) × ({j // T j} → ℝ) :=
  let v : {j // T j} → ℝ := fun j => b j / (κ * (∑ i : {i // S i}, K i j * u i + vecIcJ K ε κ S T j))
  (fun i => κ * a i / (∑ j : {j // T j}, K i j * v j + vecIJc K ε κ S T i), v)

/-- `n` iterations from `u` (333-337, 350-354) -/
noncomputable def rsIter (u : {i // S i} → ℝ) : ℕ → {i // S i} → ℝ
  | 0 => u
  | n + 1 => (rsStep K a b ε κ S T (rsIter u n)).1

/-- the starting point of the solver: `5` iterations if `restricted`, projection, `5` iterations, projection (324-359, 392); `none`: `cst_u`, `cst_v` are unbound (334, 351), because they are only defined for the full budget
(173-174), or with `restricted` when not all points are selected (328-331). `full`: the full budget was asked for (166). -/
noncomputable def start [Nonempty {i // S i}] (restricted full : Bool) : Option (({i // S i} → ℝ) × ({j // T j} → ℝ)) :=
  let u0 : {i // S i} → ℝ := fun _ => 1 / (Fintype.card {i // S i} : ℝ) + ε / κ
  let u1 : {i // S i} → ℝ := if restricted then fun i => max (rsIter K a b ε κ S T u0 5 i) (ε / κ) else u0
  if full ∨ (restricted ∧ ¬ ((∀ i, S i) ∧ ∀ j, T j)) then
    some (fun i => max (rsIter K a b ε κ S T u1 5 i) (ε / κ), fun j => max ((rsStep K a b ε κ S T (rsIter K a b ε κ S T u1 4)).2 j) (ε * κ))
  else none

/-- `usc_full`, `vsc_full` (408-411) -/
noncomputable def ext {X : Type*} (P : X → Prop) (u : {x // P x} → ℝ) (d : ℝ) : X → ℝ := fun x => if h : P x then u ⟨x, h⟩ else d

/-- `gamma` (420-421) -/
noncomputable def screenPlan (u : {i // S i} → ℝ) (v : {j // T j} → ℝ) : I → J → ℝ := fun i j =>
  ext S u (ε / κ) i * K i j * ext T v (ε * κ) j / ∑ i, ∑ j, ext S u (ε / κ) i * K i j * ext T v (ε * κ) j

/-- what the screening step decides (166-260): selections, `epsilon`, `kappa` -/
structure Setup (I J : Type*) where
  S : I → Prop
  T : J → Prop
  ε : ℝ
  κ : ℝ

/-- the screening step (166-260) -/
noncomputable def setup {ns nt : ℕ} [NeZero ns] [NeZero nt] (uniform : Bool) (K : Fin ns → Fin nt → ℝ) (a : Fin ns → ℝ) (b : Fin nt → ℝ) (nsb ntb : ℕ) : Setup (Fin ns) (Fin nt) :=
  if nsb = ns ∧ ntb = nt then ⟨fun _ => True, fun _ => True, 0, 1⟩ else
  let eu := epsSq uniform a (fun i => ∑ j, K i j) nsb
  let ev := epsSq uniform b (fun j => ∑ i, K i j) ntb
  ⟨sel a (fun i => ∑ j, K i j) eu, sel b (fun j => ∑ i, K i j) ev, epsilon eu ev, kappa eu ev⟩

/-- `nx.dot` of two vectors: an error (`none`) if their lengths differ -/
def npDot (x y : List ℝ) : Option ℝ := if x.length = y.length then some (List.sum (List.zipWith (· * ·) x y)) else none

/-- `part_IJc`, `part_IcJ` (367-368) for the full budget, where `vec_eps_IJc` has `nt` and `vec_eps_IcJ` has `ns` zeros (185-186) -/
def fullParts (ns nt : ℕ) (u v : List ℝ) : Option (ℝ × ℝ) := do
  let p ← npDot u (List.replicate nt 0)
  let q ← npDot (List.replicate ns 0) v
  return (p, q)

/-- the default budget `floor(0.5 * n)` (150-153) -/
def defaultBudget (n : ℕ) : ℕ := n / 2

end POT.Screen
