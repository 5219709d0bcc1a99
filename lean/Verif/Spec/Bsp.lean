import Mathlib.Analysis.SpecialFunctions.Pow.Real
import Mathlib.Algebra.BigOperators.Fin
import Verif.Spec.Transport

/-!
# Specification vocabulary: bijections between two point clouds

`X i` is matched with `Y (σ i)`.  Nothing here refers to the model of the code.
-/

namespace POT.Spec

open Finset

/-- Ground cost documented by `ot.bsp`: `‖x - y‖_p^p`. -/
noncomputable def lpPow {d : ℕ} (p : ℤ) (x y : Fin d → ℝ) : ℝ := ∑ k, |x k - y k| ^ p

/-- `m` is the largest coordinate distance between `x` and `y` (the ground cost documented for `p = -1`). -/
def IsMaxDist {d : ℕ} (x y : Fin d → ℝ) (m : ℝ) : Prop :=
  (∀ k, |x k - y k| ≤ m) ∧ ∃ k, m = |x k - y k|

/-- Mean ground cost of the matching `i ↦ σ i`. -/
noncomputable def bijCost {n : ℕ} (c : Fin n → Fin n → ℝ) (σ : Fin n → Fin n) : ℝ := (∑ i, c i (σ i)) / n

/-- `σ` is a best bijection: no other one is cheaper. -/
def IsBestBijection {n : ℕ} (c : Fin n → Fin n → ℝ) (σ : Fin n → Fin n) : Prop :=
  Function.Bijective σ ∧ ∀ τ : Fin n → Fin n, Function.Bijective τ → bijCost c σ ≤ bijCost c τ

/-- `ρ` mixes `σ` and `τ`: each point goes where one of the two sends it. -/
def Mixes {n : ℕ} (σ τ ρ : Fin n → Fin n) : Prop := ∀ i, ρ i = σ i ∨ ρ i = τ i

/-- Plan of mass `1/n` on each matched pair. -/
noncomputable def bijectionPlan {n : ℕ} (σ : Fin n → Fin n) : Fin n → Fin n → ℝ :=
  fun i j => if σ i = j then 1 / (n : ℝ) else 0

/-- `c` is the ground cost documented by `ot.bsp` for the power `p`: the largest coordinate distance when
`p = -1`, `‖x - y‖_p^p` otherwise. -/
def IsGroundCost {d : ℕ} (p : ℤ) (x y : Fin d → ℝ) (c : ℝ) : Prop :=
  (p = -1 → IsMaxDist x y c) ∧ (p ≠ -1 → c = lpPow p x y)

/-- Position reached in the stream `s` after `m` readings; `one` tells what it makes of a stream and how many
elements it consumes. -/
def streamPos {Ω Q : Type} (one : (ℕ → Ω) → Q × ℕ) (s : ℕ → Ω) : ℕ → ℕ
  | 0 => 0
  | m + 1 => streamPos one s m + (one fun k => s (streamPos one s m + k)).2

/-- What the `m`-th reading (from 0) of the stream `s` gives. -/
def streamItem {Ω Q : Type} (one : (ℕ → Ω) → Q × ℕ) (s : ℕ → Ω) (m : ℕ) : Q :=
  (one fun k => s (streamPos one s m + k)).1

end POT.Spec
