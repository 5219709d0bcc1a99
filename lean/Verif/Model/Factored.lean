import Mathlib.Algebra.BigOperators.Ring.Finset
import Mathlib.Data.Fintype.BigOperators
import Mathlib.Analysis.Real.Sqrt

/-!
# Model of `ot/factored.py`

`factored_optimal_transport`.  The two inner solvers (`sinkhorn` for `reg > 0`, `emd` otherwise) are parameters, as functions of
the cost matrix; exact real arithmetic.
-/

namespace POT.Factored

open Finset

variable {I J D : Type*} [Fintype I] [Fintype J] [Fintype D] {r : ℕ}

/-- `dist(X1, X2)` (ot/factored.py 120): squared Euclidean distances. -/
def dist {A B : Type*} (x : A → D → ℝ) (y : B → D → ℝ) : A → B → ℝ := fun i j => ∑ d, (x i d - y j d) ^ 2

/-- `w` (ot/factored.py 117). -/
noncomputable def w (r : ℕ) : Fin r → ℝ := fun _ => 1 / (r : ℝ)

/-- The update of the template (ot/factored.py 138). -/
noncomputable def update (xa : I → D → ℝ) (xb : J → D → ℝ) (Ga : I → Fin r → ℝ) (Gb : Fin r → J → ℝ) : Fin r → D → ℝ :=
  fun k d => 0.5 * (∑ i, Ga i k * xa i d + ∑ j, Gb k j * xb j d) * r

/-- `nx.norm(X - old_X)` (ot/factored.py 140). -/
noncomputable def delta (X X' : Fin r → D → ℝ) : ℝ := Real.sqrt (∑ k, ∑ d, (X k d - X' k d) ^ 2)

/-- What the loop computes: the two plans, the template, the template the plans were computed for, `norm_delta`, and whether the loop was left by `break`. -/
structure Result (I J D : Type*) (r : ℕ) where
  Ga : I → Fin r → ℝ
  Gb : Fin r → J → ℝ
  X : Fin r → D → ℝ
  old : Fin r → D → ℝ
  deltas : List ℝ
  broke : Bool

/-- The loop (ot/factored.py 131-144) with `n + 1` iterations left; `solveA M` and `solveB M` are the plans of `solve_ot` for the
cost `M`.  `norm_delta` is recorded as with `log=True`, newest first, so without the last displacement when the loop breaks. -/
noncomputable def loop (xa : I → D → ℝ) (xb : J → D → ℝ) (solveA : (I → Fin r → ℝ) → (I → Fin r → ℝ))
    (solveB : (Fin r → J → ℝ) → (Fin r → J → ℝ)) (stopThr : ℝ) : ℕ → (Fin r → D → ℝ) → List ℝ → Result I J D r
  | n, X, deltas =>
    let Ga := solveA (dist xa X)                                  -- 135
    let Gb := solveB (dist X xb)                                  -- 136
    let X' := update xa xb Ga Gb                                  -- 138
    if delta X' X < stopThr then                                  -- 140-142
      { Ga, Gb, X := X', old := X, deltas, broke := true }
    else
      match n with
      | 0 => { Ga, Gb, X := X', old := X, deltas := delta X' X :: deltas, broke := false }
      | n + 1 => loop xa xb solveA solveB stopThr n X' (delta X' X :: deltas)

/-- `factored_optimal_transport` (ot/factored.py 18-159) from the template `X0`, with `numItermax = n + 1`. -/
noncomputable def factored (xa : I → D → ℝ) (xb : J → D → ℝ) (solveA : (I → Fin r → ℝ) → (I → Fin r → ℝ))
    (solveB : (Fin r → J → ℝ) → (Fin r → J → ℝ)) (stopThr : ℝ) (n : ℕ) (X0 : Fin r → D → ℝ) : Result I J D r :=
  loop xa xb solveA solveB stopThr n X0 []

/-- `lazy_plan` (ot/factored.py 155): `get_lowrank_lazytensor(Ga * r, Gb.T)` (ot/utils.py), entry `Q[i] @ R[j].T`. -/
noncomputable def lazyPlan (Ga : I → Fin r → ℝ) (Gb : Fin r → J → ℝ) : I → J → ℝ := fun i j => ∑ k, (Ga i k * r) * Gb k j

/-- `costa` (ot/factored.py 123, 153): cost of the plan at the template it was computed for. -/
noncomputable def costA (xa : I → D → ℝ) (s : Result I J D r) : ℝ := ∑ i, ∑ k, s.Ga i k * dist xa s.old i k

/-- `costb` (ot/factored.py 123, 154). -/
noncomputable def costB (xb : J → D → ℝ) (s : Result I J D r) : ℝ := ∑ k, ∑ j, s.Gb k j * dist s.old xb k j

end POT.Factored
