import Verif.Model.Uot1d
import Verif.Model.Sliced

/-!
# Model of sliced unbalanced transport

`ot/unbalanced/_sliced.py`: `sliced_unbalanced_ot`, `get_reweighted_marginals_usot` and `unbalanced_sliced_ot`.  Samples and weights are real; the projections are given (drawing them,
`get_random_projections`, is in `Model/Sliced`); an infinite parameter is `none`.  Every call to `argsort` is represented by the permutation it returns; `X_s_rev_sorter`, the argsort of a
permutation, is its inverse.
-/

namespace POT.Usot

open Finset POT.Emd1d POT.Uot1d POT.Sliced

set_option linter.unusedSectionVars false

variable {n m L : ℕ} {D : Type*} [Fintype D]

/-- `sliced_unbalanced_ot` (ot/unbalanced/_sliced.py 17-146): `uot_1d` column by column (122-132); the result is the mean of the total costs (134). -/
noncomputable def projectedUot (srt : Sorter n m) (eps p : ℝ) (X : Fin n → D → ℝ) (Y : Fin m → D → ℝ) (ρ₁ ρ₂ : Option ℝ) (a : Fin n → ℝ) (b : Fin m → ℝ)
    (θ : Fin L → D → ℝ) (σ : Sorters n m L) (N : ℕ) (k : Fin L) : Out n m :=
  uot1d srt eps p (proj X θ k) (proj Y θ k) ρ₁ ρ₂ a b (σ.permA k) (σ.permB k) N

/-- the value returned by `sliced_unbalanced_ot` (ot/unbalanced/_sliced.py 134) -/
noncomputable def slicedUnbalanced (srt : Sorter n m) (eps p : ℝ) (X : Fin n → D → ℝ) (Y : Fin m → D → ℝ) (ρ₁ ρ₂ : Option ℝ) (a : Fin n → ℝ) (b : Fin m → ℝ)
    (θ : Fin L → D → ℝ) (σ : Sorters n m L) (N : ℕ) : ℝ :=
  (∑ k, (projectedUot srt eps p X Y ρ₁ ρ₂ a b θ σ N k).total) / L

/-- the result of `get_reweighted_marginals_usot` -/
structure Rws (n m L : ℕ) where
  f : Fin n → ℝ
  g : Fin m → ℝ
  u : Fin L → Fin n → ℝ
  v : Fin L → Fin m → ℝ
  mass : Fin L → ℝ

/-- `get_reweighted_marginals_usot` (ot/unbalanced/_sliced.py 149-222): the weights are sorted along every projection and normalised there -/
noncomputable def getReweighteds (σ : Sorters n m L) (f : Fin n → ℝ) (g : Fin m → ℝ) (a : Fin n → ℝ) (b : Fin m → ℝ) (ρ₁ ρ₂ : Option ℝ) : Rws n m L :=
  let t := rescaleTransl f g a b ρ₁ ρ₂                                  -- 197
  let f' := fun i => f i + t                                            -- 199
  let g' := fun j => g j - t                                            -- 200
  let w := reweight ρ₁ a f'
  let z := reweight ρ₂ b g'
  let u := fun (k : Fin L) i => w (σ.permA k i)                         -- 203-206
  let v := fun (k : Fin L) j => z (σ.permB k j)                         -- 208-211
  { f := f', g := g'
    mass := fun k => ∑ i, u k i                                         -- 213
    u := fun k i => u k i / ∑ i', u k i'                                -- 216
    v := fun k j => v k j / ∑ j', v k j' }                              -- 217

/-- one Frank-Wolfe step (ot/unbalanced/_sliced.py 347-366) -/
noncomputable def usotStep (srt : Sorter n m) (p : ℝ) (xs : Fin L → Fin n → ℝ) (ys : Fin L → Fin m → ℝ) (σ : Sorters n m L) (ρ₁ ρ₂ : Option ℝ) (a : Fin n → ℝ) (b : Fin m → ℝ)
    (i : ℕ) (fg : (Fin n → ℝ) × (Fin m → ℝ)) : (Fin n → ℝ) × (Fin m → ℝ) :=
  let r := getReweighteds σ fg.1 fg.2 a b ρ₁ ρ₂
  let d := fun k => dualBackprop (srt (keys (r.u k) (r.v k))) (cost1d p (fun i => xs k (σ.permA k i)) (fun j => ys k (σ.permB k j))) (r.u k) (r.v k)
  let t : ℝ := 2 / (2 + i)
  (fun i => r.f i + t * ((∑ k, (d k).1 ((σ.permA k).symm i)) / L - r.f i),
   fun j => r.g j + t * ((∑ k, (d k).2 ((σ.permB k).symm j)) / L - r.g j))

/-- the potentials after `N` steps (ot/unbalanced/_sliced.py 343-366) -/
noncomputable def usotLoop (srt : Sorter n m) (p : ℝ) (xs : Fin L → Fin n → ℝ) (ys : Fin L → Fin m → ℝ) (σ : Sorters n m L) (ρ₁ ρ₂ : Option ℝ) (a : Fin n → ℝ) (b : Fin m → ℝ) :
    ℕ → (Fin n → ℝ) × (Fin m → ℝ)
  | 0 => (fun _ => 0, fun _ => 0)
  | N + 1 => usotStep srt p xs ys σ ρ₁ ρ₂ a b N (usotLoop srt p xs ys σ ρ₁ ρ₂ a b N)

/-- what `unbalanced_sliced_ot` returns with `log=True`, and the final potentials (which it does not return) -/
structure Res (n m L : ℕ) where
  a' : Fin n → ℝ
  b' : Fin m → ℝ
  loss : ℝ
  sot : ℝ
  losses : Fin L → ℝ
  mass : Fin L → ℝ
  f : Fin n → ℝ
  g : Fin m → ℝ

/-- `unbalanced_sliced_ot` (ot/unbalanced/_sliced.py 225-414).  `eps` is the constant `1e-16` of `kl_div`. -/
noncomputable def unbalancedSliced (srt : Sorter n m) (eps p : ℝ) (X : Fin n → D → ℝ) (Y : Fin m → D → ℝ) (ρ₁ ρ₂ : Option ℝ) (a : Fin n → ℝ) (b : Fin m → ℝ)
    (θ : Fin L → D → ℝ) (σ : Sorters n m L) (N : ℕ) : Res n m L :=
  let xs := proj X θ                                                    -- 331
  let ys := proj Y θ                                                    -- 332
  let fg := usotLoop srt p xs ys σ ρ₁ ρ₂ a b N
  let r := getReweighteds σ fg.1 fg.2 a b ρ₁ ρ₂                         -- 368-370
  let losses := fun k => (wasserstein1d p (fun i => xs k (σ.permA k i)) (fun j => ys k (σ.permB k j)) (r.u k) (r.v k) (Equiv.refl _) (Equiv.refl _)).2
  let sot := (∑ k, losses k * r.mass k) / L                             -- 381
  let a' := reweight ρ₁ a r.f                                           -- 383-386
  let b' := reweight ρ₂ b r.g                                           -- 388-391
  { a' := a', b' := b', sot := sot, losses := losses, mass := r.mass, f := r.f, g := r.g
    loss :=                                                             -- 393-404
      match ρ₁, ρ₂ with
      | none, none => sot
      | none, some r₂ => sot + r₂ * Mm.klDivMass eps b' b
      | some r₁, none => sot + r₁ * Mm.klDivMass eps a' a
      | some r₁, some r₂ => sot + r₁ * Mm.klDivMass eps a' a + r₂ * Mm.klDivMass eps b' b }

end POT.Usot
