import Verif.Model.Emd1d
import Verif.Model.LpDual
import Verif.Model.Mm

/-!
# Model of `uot_1d` (ot/unbalanced/_solver_1d.py) and `emd_1d_dual_backprop` (ot/lp/solver_1d.py)

One-dimensional inputs (no batch dimension).  Potentials and weights are kept in the order of the sorted supports; `uot1d` returns
them in the original order.
-/

namespace POT.Uot1d

open Finset POT.Emd1d POT.LpDual

set_option linter.unusedSectionVars false

section Potentials

variable {I J : Type*} [Fintype I] [Fintype J]

/-- `nx.logsumexp(x + nx.log(a), axis=0)`; a zero weight has logarithm `-inf` and contributes nothing -/
noncomputable def lse {K : Type*} [Fintype K] (x a : K → ℝ) : ℝ := Real.log (∑ k, a k * Real.exp (x k))

/-- `rescale_potentials` (ot/unbalanced/_solver_1d.py 15-69); `none` stands for `float("inf")` -/
noncomputable def rescaleTransl (f : I → ℝ) (g : J → ℝ) (a : I → ℝ) (b : J → ℝ) (ρ₁ ρ₂ : Option ℝ) : ℝ :=
  match ρ₁, ρ₂ with
  | none, none => 0
  | none, some r₂ => r₂ * (Real.log (∑ i, a i) - lse (fun j => -g j / r₂) b)
  | some r₁, none => r₁ * (lse (fun i => -f i / r₁) a - Real.log (∑ j, b j))
  | some r₁, some r₂ =>
      r₁ * r₂ / (r₁ + r₂) * (lse (fun i => -f i / r₁) a - lse (fun j => -g j / r₂) b)

/-- one reweighted marginal (ot/unbalanced/_solver_1d.py 117-125) -/
noncomputable def reweight {K : Type*} (ρ : Option ℝ) (a f : K → ℝ) : K → ℝ :=
  match ρ with
  | some r => fun k => a k * Real.exp (-f k / r)
  | none => a

/-- the result of `get_reweighted_marginal_uot` -/
structure Rw (I J : Type*) where
  f : I → ℝ
  g : J → ℝ
  u : I → ℝ
  v : J → ℝ
  mass : ℝ

/-- `get_reweighted_marginal_uot` (ot/unbalanced/_solver_1d.py 72-133) -/
noncomputable def getReweighted (f : I → ℝ) (g : J → ℝ) (a : I → ℝ) (b : J → ℝ) (ρ₁ ρ₂ : Option ℝ) : Rw I J :=
  let t := rescaleTransl f g a b ρ₁ ρ₂
  let f' := fun i => f i + t
  let g' := fun j => g j - t
  let u := reweight ρ₁ a f'
  let v := reweight ρ₂ b g'
  { f := f', g := g', u := fun i => u i / ∑ k, u k, v := fun j => v j / ∑ k, v k, mass := ∑ i, u i }

end Potentials

section Backprop

variable {n m : ℕ}

/-- `abs(u_values - v_values) ** p` on the sorted supports -/
noncomputable def cost1d (p : ℝ) (xs : Fin n → ℝ) (ys : Fin m → ℝ) (i j : ℕ) : ℝ := |pad xs i - pad ys j| ^ p

/-- `nx.cumsum` of a vector -/
def cum {n : ℕ} (w : Fin n → ℝ) (i : Fin n) : ℝ := ∑ k with k ≤ i, w k

/-- the concatenated cumulative weights (ot/lp/solver_1d.py 155-158) -/
def keys (u : Fin n → ℝ) (v : Fin m → ℝ) : Fin n ⊕ Fin m → ℝ := Sum.elim (cum u) (cum v)

/-- `qs[k]`: `σ` is the permutation applied by `nx.sort` (158) -/
def gridQ (σ : Fin (n + m) ≃ Fin n ⊕ Fin m) (u : Fin n → ℝ) (v : Fin m → ℝ) (k : ℕ) : ℝ :=
  if h : k < n + m then keys u v (σ ⟨k, h⟩) else 0

/-- `diff_quantiles[k] ** p` (159-168, 190-193): the cost of the two quantiles at `qs[k]`; zero beyond the grid -/
noncomputable def gridC (σ : Fin (n + m) ≃ Fin n ⊕ Fin m) (M : ℕ → ℕ → ℝ) (u : Fin n → ℝ) (v : Fin m → ℝ) (k : ℕ) : ℝ :=
  if k < n + m then
    M (quantileIdx (gridQ σ u v k) (cumsum (pad u) n) n) (quantileIdx (gridQ σ u v k) (cumsum (pad v) m) m)
  else 0

/-- Derivative of `∑ k, (qs[k] - qs[k-1]) * diff[k]` with respect to `qs[k]`, as back-propagation computes it: `diff` depends on the weights
only through the integer indices of `searchsorted`, which carry no derivative. -/
noncomputable def gradQ (σ : Fin (n + m) ≃ Fin n ⊕ Fin m) (M : ℕ → ℕ → ℝ) (u : Fin n → ℝ) (v : Fin m → ℝ) (k : ℕ) : ℝ :=
  gridC σ M u v k - gridC σ M u v (k + 1)

/-- Derivative with respect to the first weights: the derivative of the sort sends `gradQ k` to the entry that was moved to position `k`, the
derivative of `cumsum` sums over the later entries. -/
noncomputable def gradU (σ : Fin (n + m) ≃ Fin n ⊕ Fin m) (M : ℕ → ℕ → ℝ) (u : Fin n → ℝ) (v : Fin m → ℝ) (i : Fin n) : ℝ :=
  ∑ i' with i ≤ i', gradQ σ M u v (σ.symm (Sum.inl i'))

/-- Derivative with respect to the second weights -/
noncomputable def gradV (σ : Fin (n + m) ≃ Fin n ⊕ Fin m) (M : ℕ → ℕ → ℝ) (u : Fin n → ℝ) (v : Fin m → ℝ) (j : Fin m) : ℝ :=
  ∑ j' with j ≤ j', gradQ σ M u v (σ.symm (Sum.inr j'))

/-- `emd_1d_dual_backprop` with `require_sort=False` (ot/lp/solver_1d.py 469-560): the back-propagated derivatives, centred -/
noncomputable def dualBackprop (σ : Fin (n + m) ≃ Fin n ⊕ Fin m) (M : ℕ → ℕ → ℝ) (u : Fin n → ℝ) (v : Fin m → ℝ) : (Fin n → ℝ) × (Fin m → ℝ) :=
  centerOtDual (gradU σ M u v) (gradV σ M u v) u v

/-- `emd_1d_dual_backprop` with `require_sort=True` (ot/lp/solver_1d.py 469-560): `permA`, `permB` are the results of `argsort` inside `wasserstein_1d` (143-150),
through which the derivatives are carried back to the original order; the third component is the loss -/
noncomputable def emd1dDualBackprop (σ : Fin (n + m) ≃ Fin n ⊕ Fin m) (p : ℝ) (xa : Fin n → ℝ) (xb : Fin m → ℝ) (a : Fin n → ℝ) (b : Fin m → ℝ)
    (permA : Equiv.Perm (Fin n)) (permB : Equiv.Perm (Fin m)) : (Fin n → ℝ) × (Fin m → ℝ) × ℝ :=
  let M := cost1d p (fun i => xa (permA i)) (fun j => xb (permB j))
  let as := fun i => a (permA i)
  let bs := fun j => b (permB j)
  let d := centerOtDual (fun i => gradU σ M as bs (permA.symm i)) (fun j => gradV σ M as bs (permB.symm j)) a b
  (d.1, d.2, (wasserstein1d p xa xb a b permA permB).2)

end Backprop

section Uot

variable {n m : ℕ}

/-- A sorting routine: the permutation `nx.sort` applies to the concatenated cumulative weights. -/
abbrev Sorter (n m : ℕ) := (Fin n ⊕ Fin m → ℝ) → Fin (n + m) ≃ Fin n ⊕ Fin m

/-- one Frank-Wolfe step (ot/unbalanced/_solver_1d.py 245-262) -/
noncomputable def fwStep (srt : Sorter n m) (M : ℕ → ℕ → ℝ) (ρ₁ ρ₂ : Option ℝ) (a : Fin n → ℝ) (b : Fin m → ℝ) (i : ℕ) (fg : (Fin n → ℝ) × (Fin m → ℝ)) :
    (Fin n → ℝ) × (Fin m → ℝ) :=
  let r := getReweighted fg.1 fg.2 a b ρ₁ ρ₂
  let d := dualBackprop (srt (keys r.u r.v)) M r.u r.v
  let t : ℝ := 2 / (2 + i)
  (fun k => r.f k + t * (d.1 k - r.f k), fun k => r.g k + t * (d.2 k - r.g k))

/-- the potentials after `k` Frank-Wolfe steps (ot/unbalanced/_solver_1d.py 240-262) -/
noncomputable def fwLoop (srt : Sorter n m) (M : ℕ → ℕ → ℝ) (ρ₁ ρ₂ : Option ℝ) (a : Fin n → ℝ) (b : Fin m → ℝ) : ℕ → (Fin n → ℝ) × (Fin m → ℝ)
  | 0 => (fun _ => 0, fun _ => 0)
  | k + 1 => fwStep srt M ρ₁ ρ₂ a b k (fwLoop srt M ρ₁ ρ₂ a b k)

/-- what `uot_1d` returns with `log=True` -/
structure Out (n m : ℕ) where
  u : Fin n → ℝ
  v : Fin m → ℝ
  f : Fin n → ℝ
  g : Fin m → ℝ
  linear : ℝ
  total : ℝ

/-- `uot_1d` (ot/unbalanced/_solver_1d.py 136-307), `require_sort=True`.  `permA`, `permB` are the results of `argsort`; `eps` is the constant `1e-16` of
`kl_div`. -/
noncomputable def uot1d (srt : Sorter n m) (eps p : ℝ) (xa : Fin n → ℝ) (xb : Fin m → ℝ) (ρ₁ ρ₂ : Option ℝ) (a : Fin n → ℝ) (b : Fin m → ℝ)
    (permA : Equiv.Perm (Fin n)) (permB : Equiv.Perm (Fin m)) (numItermax : ℕ) : Out n m :=
  let xs := fun i => xa (permA i)
  let ys := fun j => xb (permB j)
  let as := fun i => a (permA i)
  let bs := fun j => b (permB j)
  let M := cost1d p xs ys
  let fg := fwLoop srt M ρ₁ ρ₂ as bs numItermax
  let r := getReweighted fg.1 fg.2 as bs ρ₁ ρ₂                                   -- 264-266
  let loss := (wasserstein1d p xs ys r.u r.v (Equiv.refl _) (Equiv.refl _)).2    -- 268-275
  let u := fun i => r.u (permA.symm i) * r.mass                                  -- 280
  let v := fun j => r.v (permB.symm j) * r.mass                                  -- 281
  let linear := loss * r.mass                                                    -- 284
  { u := u, v := v
    f := fun i => r.f (permA.symm i)                                             -- 278
    g := fun j => r.g (permB.symm j)                                             -- 279
    linear := linear
    total :=                                                                     -- 286-297
      match ρ₁, ρ₂ with
      | none, none => linear
      | none, some r₂ => linear + r₂ * Mm.klDivMass eps v b
      | some r₁, none => linear + r₁ * Mm.klDivMass eps u a
      | some r₁, some r₂ => linear + r₁ * Mm.klDivMass eps u a + r₂ * Mm.klDivMass eps v b }

end Uot

end POT.Uot1d
