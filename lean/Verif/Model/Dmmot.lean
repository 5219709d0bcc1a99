import Mathlib.Algebra.BigOperators.Fin
import Mathlib.Algebra.Order.Field.Basic
import Mathlib.Data.Finset.Lattice.Fold
import Mathlib.Data.Finset.Max
import Mathlib.Logic.Function.Basic

/-!
# Model of `ot/lp/dmmot.py`

Exact arithmetic over an ordered field.  `A j b` is `A[b, j]`: there are `d + 1` histograms with `n` bins.  Arrays are functions on `ℕ` of which only the entries below `n`
are used.
-/

set_option linter.unusedSectionVars false

namespace POT.Dmmot

open Finset

variable {K : Type*} [Field K] [LinearOrder K] [IsStrictOrderedRing K] {d : ℕ}

/-- `dist_monge_max_min` (ot/lp/dmmot.py 16-57) -/
def dist (i : Fin (d + 1) → ℕ) : K := ((univ.sup' univ_nonempty i : ℕ) : K) - ((univ.inf' univ_nonempty i : ℕ) : K)

/-- the variables of the loop of `dmmot_monge_1dgrid_loss`; the dictionary `xx` is zero where it has no entry -/
structure State (K : Type*) (d : ℕ) where
  AA : Fin (d + 1) → ℕ → K
  idx : Fin (d + 1) → ℕ
  xx : (Fin (d + 1) → ℕ) → K
  dual : Fin (d + 1) → ℕ → K
  obj : K

/-- initial values (ot/lp/dmmot.py 143-151) -/
def init (A : Fin (d + 1) → ℕ → K) : State K d := ⟨A, fun _ => 0, fun _ => 0, fun _ _ => 0, 0⟩

/-- `vals.index(min(vals))` (ot/lp/dmmot.py 158-160): the first position of the minimum -/
def firstMin (vals : Fin (d + 1) → K) : Fin (d + 1) :=
  (univ.filter fun i => ∀ j, vals i ≤ vals j).min' (by
    obtain ⟨i, -, hi⟩ := exists_min_image univ vals univ_nonempty
    exact ⟨i, by simpa using fun j => hi j (mem_univ j)⟩)

/-- one turn of the loop (ot/lp/dmmot.py 158-176) -/
def step (n : ℕ) (s : State K d) : State K d :=
  let vals := fun j => s.AA j (s.idx j)
  let i := firstMin vals
  let minval := vals i
  let idx' := Function.update s.idx i (s.idx i + 1)
  { xx := Function.update s.xx s.idx minval
    obj := s.obj + dist s.idx * minval
    AA := fun j => Function.update (s.AA j) (s.idx j) (s.AA j (s.idx j) - minval)
    idx := idx'
    dual := if idx' i < n then
        Function.update s.dual i (Function.update (s.dual i) (idx' i) (s.dual i (idx' i) + (dist idx' - dist s.idx + s.dual i (idx' i - 1))))
      else s.dual }

/-- the loop (ot/lp/dmmot.py 157-176), with a bound on the number of turns; `none` when it is exhausted -/
def loop (n : ℕ) : ℕ → State K d → Option (State K d)
  | 0, _ => none
  | t + 1, s => if ∀ j, s.idx j < n then loop n t (step n s) else some s

/-- the remaining entries of the dual variables (ot/lp/dmmot.py 181-185); reading `dual[_][n]` raises and leaves the array as it is -/
def fill (n : ℕ) (s : State K d) : Fin (d + 1) → ℕ → K :=
  fun j b => if s.idx j < n ∧ s.idx j ≤ b then s.dual j (s.idx j) else s.dual j b

/-- what `dmmot_monge_1dgrid_loss` returns (ot/lp/dmmot.py 187-203) -/
structure Result (K : Type*) (d : ℕ) where
  obj : K
  plan : (Fin (d + 1) → ℕ) → K
  dual : Fin (d + 1) → ℕ → K
  dualObj : K

/-- `dmmot_monge_1dgrid_loss` (ot/lp/dmmot.py 135-203) -/
def loss (n turns : ℕ) (A : Fin (d + 1) → ℕ → K) : Option (Result K d) :=
  (loop n turns (init A)).map fun s =>
    { obj := s.obj, plan := s.xx, dual := fill n s, dualObj := ∑ j, ∑ b ∈ range n, A j b * fill n s j b }

/-- `renormalize` in `dmmot_monge_1dgrid_optimize` (ot/lp/dmmot.py 314-320), one column with at least one entry -/
def renormalize {n : ℕ} (a : Fin (n + 1) → K) : Fin (n + 1) → K :=
  let mn := univ.inf' univ_nonempty a
  let a1 := if mn < 0 then fun b => a b - mn else a
  fun b => a1 b / ∑ c, a1 c

end POT.Dmmot
