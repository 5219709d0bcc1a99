import Verif.Model.Unmix

/-!
# Model: `jcpot_barycenter` (ot/bregman/_barycenter.py 876-1063)

`Δ` indexes the source domains, `X d` the samples of domain `d`, `J` the target samples. The cost matrices `dist(Xs[d], Xt)` are arguments. Labels are integers. A call with a single domain is outside the model: `list_to_array(*Xs)` (962-963; ot/utils.py 85-94) then returns the array instead of a list and the samples are taken for domains. Real arithmetic is exact.
-/

set_option linter.unusedSectionVars false

namespace POT.Jcpot

open Finset Classical POT.Unmix

/-! ### labels -/

section labels

variable {X : Type*} [Fintype X] [Nonempty X]

/-- `nx.min(classes)` (988) -/
noncomputable def minLabel (y : X → ℤ) : ℤ := univ.inf' univ_nonempty y

/-- `Ys[d] -= nx.min(classes)` (988-989): executed in place, so this is also the caller's array after the call -/
noncomputable def shifted (y : X → ℤ) : X → ℤ := if minLabel y ≠ 0 then fun i => y i - minLabel y else y

/-- `nbclasses = len(nx.unique(Ys[0]))` (968) -/
noncomputable def nbClasses (y : X → ℤ) : ℕ := (univ.image y).card

/-- rows of `D_1`, `D_2` (993-1000): `Dtmp1[int(c), …]` raises an `IndexError` (`none`) for a class at or above `nbclasses` -/
noncomputable def classIndex (nb : ℕ) (y : X → ℤ) : Option (X → Fin nb) :=
  if h : ∀ i, (shifted y i).toNat < nb then some fun i => ⟨(shifted y i).toNat, h i⟩ else none

end labels

variable {Δ : Type*} {X : Δ → Type*} {C J : Type*} [Fintype Δ] [∀ d, Fintype (X d)] [Fintype C] [Fintype J]

/-- `nx.dot(D1[d], other)` (1024): mass of a class -/
noncomputable def classSum {X : Type*} [Fintype X] (ℓ : X → C) (w : X → ℝ) (c : C) : ℝ := ∑ i, if ℓ i = c then w i else 0

/-- `nx.dot(D2[d].T, bary)` (1030) -/
noncomputable def spread {X : Type*} [Fintype X] (ℓ : X → C) (h : C → ℝ) (i : X) : ℝ := h (ℓ i) / (univ.filter fun i' => ℓ i' = ℓ i).card

/-- uniform target weights (1012) -/
noncomputable def target : J → ℝ := fun _ => 1 / Fintype.card J

/-- `bary` (1018-1026): geometric mean over the domains; `exp(-inf) = 0` if the class has no mass in some domain -/
noncomputable def baryOf (ℓ : ∀ d, X d → C) (K : ∀ d, X d → J → ℝ) (c : C) : ℝ :=
  if ∃ d, classSum (ℓ d) (rows (projC (K d) target)) c = 0 then 0
  else Real.exp (∑ d, Real.log (classSum (ℓ d) (rows (projC (K d) target)) c) / Fintype.card Δ)

/-- one iteration on the plans (1021-1031) -/
noncomputable def step (ℓ : ∀ d, X d → C) (K : ∀ d, X d → J → ℝ) : ∀ d, X d → J → ℝ :=
  fun d => projR (projC (K d) target) (spread (ℓ d) (baryOf ℓ K))

/-- the loop (1017-1041) on `K` and `bary`, which is `old_bary` between iterations (1035) -/
noncomputable def loop (ℓ : ∀ d, X d → C) (thr : ℝ) : ℕ → (∀ d, X d → J → ℝ) → (C → ℝ) → (∀ d, X d → J → ℝ) × (C → ℝ)
  | 0, K, old => (K, old)
  | n + 1, K, old => if Spec.norm2 (fun c => baryOf ℓ K c - old c) < thr then (step ℓ K, baryOf ℓ K) else loop ℓ thr n (step ℓ K) (baryOf ℓ K)

/-- Gibbs kernels (1005-1009) -/
noncomputable def kernels (M : ∀ d, X d → J → ℝ) (reg : ℝ) : ∀ d, X d → J → ℝ := fun d i j => Real.exp (-M d i j / reg)

/-- `gamma` and `bary` after the loop: `old_bary` starts at one (1015) -/
noncomputable def run (ℓ : ∀ d, X d → C) (M : ∀ d, X d → J → ℝ) (reg : ℝ) (N : ℕ) (thr : ℝ) : (∀ d, X d → J → ℝ) × (C → ℝ) := loop ℓ thr N (kernels M reg) fun _ => 1

/-- the proportions from class indices (1013-1063): normalised at the end (1053); `none` (`bary` unbound) without iterations -/
noncomputable def estimate (ℓ : ∀ d, X d → C) (M : ∀ d, X d → J → ℝ) (reg : ℝ) (N : ℕ) (thr : ℝ) : Option (C → ℝ) :=
  if N = 0 then none else some fun c => (run ℓ M reg N thr).2 c / ∑ c', (run ℓ M reg N thr).2 c'

/-- `jcpot_barycenter` with `nb` rows in `D_1`, `D_2`; `none` on an error -/
noncomputable def jcpotWith [∀ d, Nonempty (X d)] (nb : ℕ) (y : ∀ d, X d → ℤ) (M : ∀ d, X d → J → ℝ) (reg : ℝ) (N : ℕ) (thr : ℝ) : Option (Fin nb → ℝ) :=
  if h : ∀ d, (classIndex nb (y d)).isSome then estimate (fun d => (classIndex nb (y d)).get (h d)) M reg N thr else none

/-- `jcpot_barycenter`: `d₀` is the first domain -/
noncomputable def jcpot [∀ d, Nonempty (X d)] (d₀ : Δ) (y : ∀ d, X d → ℤ) (M : ∀ d, X d → J → ℝ) (reg : ℝ) (N : ℕ) (thr : ℝ) : Option (Σ nb, Fin nb → ℝ) :=
  (jcpotWith (nbClasses (y d₀)) y M reg N thr).map (Sigma.mk _)

/-- `JCPOTTransport.transform_labels` (ot/da.py 2533-2559) from the class indices of the domains: soft label of target sample `j` for class `c`; a division by a zero row sum is `0` (`nan_to_num`) -/
noncomputable def transformLabels (ℓ : ∀ d, X d → C) (γ : ∀ d, X d → J → ℝ) (j : J) (c : C) : ℝ := ∑ d, classSum (ℓ d) (fun i => γ d i j / rows (γ d) i) c / Fintype.card Δ

end POT.Jcpot
