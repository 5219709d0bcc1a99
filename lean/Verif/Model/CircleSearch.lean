import Verif.Model.Circle
import Mathlib.Data.Fin.Tuple.Sort

/-!
# Model of `binary_search_circle` and `wasserstein_circle` (`ot/lp/solver_circle.py`)

One batch entry, exact arithmetic.  `h` stands for `nx.power(nx.abs(·), p)`; the theorems instantiate it.  `U` and `V` are the cumulative weights, the values are sorted and lie in `[0, 1)`.
All columns of `theta` are equal (ot/lp/solver_circle.py 372-375), so it is one number.
-/

set_option linter.unusedSectionVars false

namespace POT.Circle

open Finset

variable {K : Type*} [Field K] [LinearOrder K] [IsStrictOrderedRing K] [FloorRing K]

section
variable {n m : ℕ}

/-- `v_cdf - (theta - floor(theta))` (ot/lp/solver_circle.py 92, 192) -/
def cutDiff (θ : K) (V : Fin (m + 1) → K) : Fin (m + 1) → K := fun j => V j - (θ - ⌊θ⌋)

/-- `v_cdf_theta`: negative entries are raised by one when there are entries of both kinds (ot/lp/solver_circle.py 92-101, 192-201) -/
def cutCdf (θ : K) (V : Fin (m + 1) → K) : Fin (m + 1) → K := fun j =>
  if (∃ j, cutDiff θ V j < 0) ∧ (∃ j, 0 ≤ cutDiff θ V j) ∧ cutDiff θ V j < 0 then cutDiff θ V j + 1 else cutDiff θ V j

/-- `v_values` moved to the turn of the cut (ot/lp/solver_circle.py 97-98, 197-198) -/
def cutValues (θ : K) (V v : Fin (m + 1) → K) : Fin (m + 1) → K := fun j => if cutDiff θ V j < 0 then v j + (⌊θ⌋ + 1) else v j + ⌊θ⌋

/-- `roll_cols` by `-argmin` of the non-negative entries (ot/lp/solver_circle.py 18-56, 103-108, 203-209) -/
def rolled (θ : K) (V f : Fin (m + 1) → K) : Fin (m + 1) → K := fun k =>
  f ⟨((k : ℕ) + argminNonneg (cutDiff θ V)) % (m + 1), Nat.mod_lt _ (Nat.succ_pos m)⟩

/-- the rolled cumulative weights (ot/lp/solver_circle.py 107, 208) -/
def cutW (θ : K) (V : Fin (m + 1) → K) : Fin (m + 1) → K := rolled θ V (cutCdf θ V)

/-- the rolled values (ot/lp/solver_circle.py 108, 209) -/
def cutY (θ : K) (V v : Fin (m + 1) → K) : Fin (m + 1) → K := rolled θ V (cutValues θ V v)

/-- values with the first one plus one appended (ot/lp/solver_circle.py 109-111, 210-212, and 126-128 for `u`) -/
def wrap (x : Fin (m + 1) → K) : Fin (m + 2) → K := Fin.snoc x (x 0 + 1)

/-- `searchsorted(u_cdf, q)` clipped (ot/lp/solver_circle.py 120-121, 228-229) -/
def leftIdx (U : Fin (n + 1) → K) (q : K) : Fin (n + 1) := ⟨min (univ.filter fun i => U i < q).card n, by omega⟩

/-- `searchsorted(u_cdfm, q, side="right")` clipped (ot/lp/solver_circle.py 124-137) -/
def rightIdx (U : Fin (n + 1) → K) (q : K) : Fin (n + 2) := ⟨min (univ.filter fun i => wrap U i ≤ q).card (n + 1), by omega⟩

variable (h : K → K) (U u : Fin (n + 1) → K) (V v : Fin (m + 1) → K)

/-- `dCp` of `derivative_cost_on_circle` (ot/lp/solver_circle.py 139-143) -/
def dCp (θ : K) : K :=
  let Y := wrap (cutY θ V v)
  ∑ k : Fin (m + 1), (h (u (leftIdx U (cutW θ V k)) - Y k.succ) - h (u (leftIdx U (cutW θ V k)) - Y k.castSucc))

/-- `dCm` of `derivative_cost_on_circle` (ot/lp/solver_circle.py 145-149) -/
def dCm (θ : K) : K :=
  let Y := wrap (cutY θ V v)
  ∑ k : Fin (m + 1), (h (wrap u (rightIdx U (cutW θ V k)) - Y k.succ) - h (wrap u (rightIdx U (cutW θ V k)) - Y k.castSucc))

/-- `cdf_axis` (ot/lp/solver_circle.py 215) -/
def cutAxis (θ : K) : Fin (n + 1 + m + 1) → K :=
  let a : Fin (n + 1 + (m + 1)) → K := Fin.append U (cutW θ V)
  fun t => a (Tuple.sort a t)

/-- `delta` (ot/lp/solver_circle.py 216-218) -/
def cutDelta (θ : K) (t : Fin (n + 1 + m + 1)) : K := cutAxis U V θ t - if h : (t : ℕ) = 0 then 0 else cutAxis U V θ ⟨(t : ℕ) - 1, by omega⟩

/-- index of `v_icdf` (ot/lp/solver_circle.py 231-235): the second copy of `v_values[:, 0] + 1` appended there is never reached by the clipped index -/
def cutIdx (θ q : K) : Fin (m + 2) := ⟨min (univ.filter fun k => cutW θ V k < q).card (m + 1), by omega⟩

/-- `ot_cost_on_circle` (ot/lp/solver_circle.py 183-240) -/
def otCost (θ : K) : K := ∑ t, cutDelta U V θ t * h (u (leftIdx U (cutAxis U V θ t)) - wrap (cutY θ V v) (cutIdx V θ (cutAxis U V θ t)))

/-- the loop of `binary_search_circle` for one batch entry (ot/lp/solver_circle.py 376-421): returns the final `tc`, and whether the derivative test stopped it; `none` when `fuel` turns do not suffice -/
def search (eps L : K) : ℕ → K → K → K → Option (K × Bool)
  | 0, _, _, _ => none
  | fuel + 1, tm, tp, tc =>
    if dCp h U u V v tc * dCm h U u V v tc ≤ 0 then some (tc, true)
    else if tp - tm < eps / L then
      let a := dCp h U u V v tm
      let b := dCm h U u V v tp
      some (if 1 / 1000 < |a - b| then (otCost h U u V v tp - otCost h U u V v tm + tm * a - tp * b) / (a - b) else tc, false)
    else if dCp h U u V v tc < 0 then search eps L fuel tc tp ((tc + tp) / 2)
    else search eps L fuel tm tc ((tm + tc) / 2)

end

/-- `binary_search_circle`, hence `wasserstein_circle` (ot/lp/solver_circle.py 331-427, 620-634), for one batch entry with given weights; `su`, `sv` are the permutations found by `argsort`.
Returns the cost and whether the derivative test stopped the search. -/
def binarySearch {n m : ℕ} (h : K → K) (u uw : Fin (n + 1) → K) (v vw : Fin (m + 1) → K) (su : Equiv.Perm (Fin (n + 1))) (sv : Equiv.Perm (Fin (m + 1))) (Lm Lp tm tp eps : K) (fuel : ℕ) :
    Option (K × Bool) :=
  let u' := fun i => Int.fract (u (su i))
  let v' := fun j => Int.fract (v (sv j))
  let U := cdfs fun i => uw (su i)
  let V := cdfs fun j => vw (sv j)
  (search h U u' V v' eps (max Lm Lp) fuel tm tp ((tm + tp) / 2)).map fun r => (otCost h U u' V v' r.1, r.2)

end POT.Circle
