import Verif.Spec.Unbalanced
import Verif.Model.Sinkhorn
import Mathlib.Analysis.SpecialFunctions.Pow.Real

/-!
# Model of the unbalanced Sinkhorn solvers (`ot/unbalanced/_sinkhorn.py`)

Real arithmetic is exact. `reg_m = float("inf")` is `none`. The `nan`/`inf` tests are modelled by the divisions by zero that cause them (for positive exponents).
-/

set_option linter.unusedSectionVars false

namespace POT.Unbalanced

open Finset Spec Sinkhorn

variable {I J : Type*} [Fintype I] [Fintype J]

/-- `fi = reg_m / (reg_m + reg) if reg_m != float("inf") else 1` (ot/unbalanced/_sinkhorn.py 747-748, 1010-1011, 1284-1285) -/
noncomputable def fi (reg : ℝ) (ρ : Option ℝ) : ℝ :=
  match ρ with
  | some r => r / (r + reg)
  | none => 1

open Classical in
/-- the reference measure `c` for one histogram (ot/unbalanced/_sinkhorn.py 735-739, 744): all ones if `reg_type = "entropy"`, the argument `c`, or `a bᵀ` -/
noncomputable def reference (a : I → ℝ) (b : J → ℝ) (entropy : Bool) (c : Option (I → J → ℝ)) : I → J → ℝ :=
  if entropy then fun _ _ => 1 else c.getD fun i j => a i * b j

/-- `K = nx.exp(-M / reg) * c` (ot/unbalanced/_sinkhorn.py 745) -/
noncomputable def unbKernel (M : I → J → ℝ) (reg : ℝ) (c : I → J → ℝ) : I → J → ℝ := fun i j => Real.exp (-M i j / reg) * c i j

/-- `nx.dot(K, v)` (ot/unbalanced/_sinkhorn.py 756) -/
def kv (K : I → J → ℝ) (v : J → ℝ) : I → ℝ := fun i => ∑ j, K i j * v j

/-- `nx.dot(K.T, u)` (ot/unbalanced/_sinkhorn.py 758) -/
def ktu (K : I → J → ℝ) (u : I → ℝ) : J → ℝ := fun j => ∑ i, K i j * u i

/-- one iteration of `sinkhorn_knopp_unbalanced` (ot/unbalanced/_sinkhorn.py 756-759) -/
noncomputable def unbStep (a : I → ℝ) (b : J → ℝ) (K : I → J → ℝ) (f₁ f₂ : ℝ) (s : UV I J) : UV I J :=
  let u := fun i => (a i / kv K s.v i) ^ f₁
  { u := u, v := fun j => (b j / ktu K u j) ^ f₂ }

/-- the numerical test of lines 761-773: a zero in `Ktu`, or a division by zero in `u` -/
def unbBad (a : I → ℝ) (K : I → J → ℝ) (f₁ : ℝ) (s : UV I J) : Prop :=
  (∃ i, kv K s.v i = 0) ∨ ∃ j, ktu K (fun i => (a i / kv K s.v i) ^ f₁) j = 0

/-- `nx.max` -/
noncomputable def vmax {L : Type*} [Fintype L] [Nonempty L] (x : L → ℝ) : ℝ := univ.sup' univ_nonempty x

/-- `nx.max(nx.abs(x - xprev)) / max(nx.max(nx.abs(x)), nx.max(nx.abs(xprev)), 1.0)` (ot/unbalanced/_sinkhorn.py 775-780) -/
noncomputable def relErr {L : Type*} [Fintype L] [Nonempty L] (xprev x : L → ℝ) : ℝ :=
  vmax (fun l => |x l - xprev l|) / max (max (vmax fun l => |x l|) (vmax fun l => |xprev l|)) 1

/-- `err = 0.5 * (err_u + err_v)` (ot/unbalanced/_sinkhorn.py 781) -/
noncomputable def unbErr [Nonempty I] [Nonempty J] (s t : UV I J) : ℝ := 1 / 2 * (relErr s.u t.u + relErr s.v t.v)

/-- initial scalings (ot/unbalanced/_sinkhorn.py 724-733) -/
noncomputable def unbInit (warm : Option ((I → ℝ) × (J → ℝ))) : UV I J :=
  match warm with
  | none => { u := fun _ => 1, v := fun _ => 1 }
  | some w => { u := fun i => Real.exp (w.1 i), v := fun j => Real.exp (w.2 j) }

/-- `sinkhorn_knopp_unbalanced` for one histogram (ot/unbalanced/_sinkhorn.py 703-818); the returned matrix is `plan K run.s` -/
noncomputable def sinkhornUnb [Nonempty I] [Nonempty J] (a : I → ℝ) (b : J → ℝ) (M : I → J → ℝ) (reg : ℝ) (ρ₁ ρ₂ : Option ℝ) (entropy : Bool)
    (c : Option (I → J → ℝ)) (warm : Option ((I → ℝ) × (J → ℝ))) (numItermax : ℕ) (stopThr : ℝ) : Run (UV I J) :=
  let K := unbKernel M reg (reference a b entropy c)
  loop (unbStep a b K (fi reg ρ₁) (fi reg ρ₂)) (unbBad a K (fi reg ρ₁)) (fun _ s t => unbErr s t < stopThr) numItermax 0 (unbInit warm)

/-- the returned matrix (ot/unbalanced/_sinkhorn.py 803) -/
noncomputable def sinkhornUnbPlan [Nonempty I] [Nonempty J] (a : I → ℝ) (b : J → ℝ) (M : I → J → ℝ) (reg : ℝ) (ρ₁ ρ₂ : Option ℝ) (entropy : Bool)
    (c : Option (I → J → ℝ)) (warm : Option ((I → ℝ) × (J → ℝ))) (numItermax : ℕ) (stopThr : ℝ) : I → J → ℝ :=
  plan (unbKernel M reg (reference a b entropy c)) (sinkhornUnb a b M reg ρ₁ ρ₂ entropy c warm numItermax stopThr).s

/-- `nx.kl_div(p, q)` with its default `mass=False` (ot/backend.py 1542-1546); `eps` is `1e-16` -/
noncomputable def klDivNoMass {L : Type*} [Fintype L] (eps : ℝ) (p q : L → ℝ) : ℝ := ∑ l, p l * Real.log (p l / q l + eps)

/-- the entry `total_cost` of the log dictionary (ot/unbalanced/_sinkhorn.py 806-814) -/
noncomputable def totalCost (eps : ℝ) (a : I → ℝ) (b : J → ℝ) (M : I → J → ℝ) (reg : ℝ) (c : I → J → ℝ) (ρ₁ ρ₂ : Option ℝ) (P : I → J → ℝ) : ℝ :=
  ∑ i, ∑ j, P i j * M i j + reg * klDivNoMass eps (fun x : I × J => P x.1 x.2) (fun x => c x.1 x.2)
    + (match ρ₁ with | some r => r * klDivNoMass eps (fun i => ∑ j, P i j) a | none => 0)
    + (match ρ₂ with | some r => r * klDivNoMass eps (fun j => ∑ i, P i j) b | none => 0)

/-! ## Several histograms -/

variable {H : Type*} [Fintype H]

/-- one iteration with `b` of shape `(dim_b, n_hists)` (ot/unbalanced/_sinkhorn.py 756-759) -/
noncomputable def unbStepH (a : I → ℝ) (b : J → H → ℝ) (K : I → J → ℝ) (f₁ f₂ : ℝ) (s : UVH I J H) : UVH I J H :=
  let u : I → H → ℝ := fun i h => (a i / ∑ j, K i j * s.v j h) ^ f₁
  { u := u, v := fun j h => (b j h / ∑ i, K i j * u i h) ^ f₂ }

/-- the numerical test for several histograms (ot/unbalanced/_sinkhorn.py 761-773) -/
def unbBadH (a : I → ℝ) (K : I → J → ℝ) (f₁ : ℝ) (s : UVH I J H) : Prop :=
  (∃ i h, ∑ j, K i j * s.v j h = 0) ∨ ∃ j h, ∑ i, K i j * (a i / ∑ j, K i j * s.v j h) ^ f₁ = 0

/-- the error for several histograms: maxima over all entries (ot/unbalanced/_sinkhorn.py 775-781) -/
noncomputable def unbErrH [Nonempty I] [Nonempty J] [Nonempty H] (s t : UVH I J H) : ℝ :=
  1 / 2 * (relErr (fun x : I × H => s.u x.1 x.2) (fun x => t.u x.1 x.2) + relErr (fun x : J × H => s.v x.1 x.2) (fun x => t.v x.1 x.2))

/-- `sinkhorn_knopp_unbalanced` for several histograms, without warm start (ot/unbalanced/_sinkhorn.py 703-796); `K = nx.exp(-M / reg)`, whatever `reg_type` and `c` (line 742) -/
noncomputable def sinkhornUnbH [Nonempty I] [Nonempty J] [Nonempty H] (a : I → ℝ) (b : J → H → ℝ) (M : I → J → ℝ) (reg : ℝ) (ρ₁ ρ₂ : Option ℝ)
    (numItermax : ℕ) (stopThr : ℝ) : Run (UVH I J H) :=
  let K := fun i j => Real.exp (-M i j / reg)
  loop (unbStepH a b K (fi reg ρ₁) (fi reg ρ₂)) (unbBadH a K (fi reg ρ₁)) (fun _ s t => unbErrH s t < stopThr) numItermax 0
    { u := fun _ _ => 1, v := fun _ _ => 1 }

/-- the returned losses `nx.einsum("ik,ij,jk,ij->k", u, K, v, M)` (ot/unbalanced/_sinkhorn.py 796) -/
noncomputable def unbLoss (M : I → J → ℝ) (reg : ℝ) (s : UVH I J H) : H → ℝ :=
  fun h => ∑ i, ∑ j, s.u i h * Real.exp (-M i j / reg) * s.v j h * M i j

end POT.Unbalanced
