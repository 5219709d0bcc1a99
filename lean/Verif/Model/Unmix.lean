import Verif.Spec.Entropic

/-!
# Model: `unmix` (ot/bregman/_dictionary.py 20-162)

`I` indexes the histogram bins, `K` the atoms. The prior is indexed by the atoms as well: line 140 subtracts `old = h0` (122) from the row sums of `K0`, which raises (or broadcasts) when `dim_prior ≠ n_atoms`. Real arithmetic is exact; warnings and printing are not modelled.
-/

set_option linter.unusedSectionVars false

namespace POT.Unmix

open Finset Spec

variable {I J K : Type*} [Fintype I] [Fintype J] [Fintype K]

/-- the constant `1e-10` of `projR`, `projC` (ot/bregman/_utils.py 34, 41) -/
noncomputable def guard : ℝ := 1 / 10 ^ 10

/-- `nx.sum(gamma, axis=1)` -/
def rows (G : I → J → ℝ) : I → ℝ := fun i => ∑ j, G i j

/-- `nx.sum(gamma, axis=0)` -/
def cols (G : I → J → ℝ) : J → ℝ := fun j => ∑ i, G i j

/-- `projR` (ot/bregman/_utils.py 30-34) -/
noncomputable def projR (G : I → J → ℝ) (p : I → ℝ) : I → J → ℝ := fun i j => G i j * p i / max (rows G i) guard

/-- `projC` (ot/bregman/_utils.py 37-41) -/
noncomputable def projC (G : I → J → ℝ) (q : J → ℝ) : I → J → ℝ := fun i j => G i j * q j / max (cols G j) guard

/-- the variables `K`, `K0`, `old` of the loop -/
structure St (I K : Type*) where
  P : I → I → ℝ
  P0 : K → K → ℝ
  old : K → ℝ

/-- `K`, `K0`, `old` before the loop (ot/bregman/_dictionary.py 118-122) -/
noncomputable def start (M : I → I → ℝ) (M0 : K → K → ℝ) (h0 : K → ℝ) (reg reg0 : ℝ) : St I K :=
  ⟨fun i j => Real.exp (-M i j / reg), fun k l => Real.exp (-M0 k l / reg0), h0⟩

/-- `inv_new` (132-134): the observation recombined from the current row sums -/
noncomputable def invNew (D : I → K → ℝ) (h0 : K → ℝ) (s : St I K) : I → ℝ := fun i => ∑ k, D i k * rows (projC s.P0 h0) k

/-- `other` (135) -/
noncomputable def other (a : I → ℝ) (s : St I K) : I → ℝ := rows (projC s.P a)

/-- `delta` (137) -/
noncomputable def delta (a : I → ℝ) (D : I → K → ℝ) (h0 : K → ℝ) (α : ℝ) (s : St I K) : I → ℝ :=
  fun i => Real.exp (α * Real.log (other a s i) + (1 - α) * Real.log (invNew D h0 s i))

/-- one iteration (130-141) -/
noncomputable def step (a : I → ℝ) (D : I → K → ℝ) (h0 : K → ℝ) (α : ℝ) (s : St I K) : St I K :=
  ⟨projR (projC s.P a) (delta a D h0 α s),
   fun k l => (∑ i, D i k * (delta a D h0 α s i / invNew D h0 s i)) * projC s.P0 h0 k l,
   rows (projC s.P0 h0)⟩

/-- `err` (140) of the iteration that starts at `s` -/
noncomputable def err (a : I → ℝ) (D : I → K → ℝ) (h0 : K → ℝ) (α : ℝ) (s : St I K) : ℝ :=
  norm2 fun k => rows (step a D h0 α s).P0 k - s.old k

/-- the loop (129-150) -/
noncomputable def loop (a : I → ℝ) (D : I → K → ℝ) (h0 : K → ℝ) (α thr : ℝ) : ℕ → St I K → St I K
  | 0, s => s
  | n + 1, s => if err a D h0 α s < thr then step a D h0 α s else loop a D h0 α thr n (step a D h0 α s)

/-- `unmix` (113-162) -/
noncomputable def unmix (a : I → ℝ) (D : I → K → ℝ) (M : I → I → ℝ) (M0 : K → K → ℝ) (h0 : K → ℝ) (reg reg0 α : ℝ) (numItermax : ℕ) (thr : ℝ) : K → ℝ :=
  rows (loop a D h0 α thr numItermax (start M M0 h0 reg reg0)).P0

end POT.Unmix
