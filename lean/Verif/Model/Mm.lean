import Verif.Model.Sinkhorn
import Mathlib.Analysis.SpecialFunctions.Pow.Real

/-!
# Model of `mm_unbalanced` (`ot/unbalanced/_mm.py` 16-210)

The matrix operations are written entry by entry; `x ** y` is `Real.rpow`.  The guard `1e-16` added to the denominators is the parameter `eps`.
-/

set_option linter.unusedSectionVars false

namespace POT.Mm

open Finset Sinkhorn

variable {I J : Type*} [Fintype I] [Fintype J]

/-- `c`: the reference measure, `0` without regularisation (ot/unbalanced/_mm.py 138-141) -/
noncomputable def mmRef (a : I → ℝ) (b : J → ℝ) (reg : ℝ) (c : Option (I → J → ℝ)) : I → J → ℝ :=
  if 0 < reg then c.getD fun i j => a i * b j else fun _ _ => 0

/-- `K` for the KL divergence (ot/unbalanced/_mm.py 149-152) -/
noncomputable def mmKernelKl (a : I → ℝ) (b : J → ℝ) (M : I → J → ℝ) (reg : ℝ) (c : I → J → ℝ) (ρ₁ ρ₂ : ℝ) : I → J → ℝ :=
  let s := reg + ρ₁ + ρ₂
  fun i j => a i ^ (ρ₁ / s) * b j ^ (ρ₂ / s) * c i j ^ (reg / s) * Real.exp (-M i j / s)

/-- `K` for the L2 divergence (ot/unbalanced/_mm.py 154-155) -/
noncomputable def mmKernelL2 (a : I → ℝ) (b : J → ℝ) (M : I → J → ℝ) (reg : ℝ) (c : I → J → ℝ) (ρ₁ ρ₂ : ℝ) : I → J → ℝ :=
  fun i j => max (ρ₁ * a i + ρ₂ * b j + reg * c i j - M i j) 0

/-- one iteration for the KL divergence (ot/unbalanced/_mm.py 162-166) -/
noncomputable def mmStepKl (eps : ℝ) (K : I → J → ℝ) (reg ρ₁ ρ₂ : ℝ) (G : I → J → ℝ) : I → J → ℝ :=
  let s := reg + ρ₁ + ρ₂
  fun i j => K i j * G i j ^ (ρ₁ / s + ρ₂ / s) / ((∑ j', G i j') ^ (ρ₁ / s) * (∑ i', G i' j) ^ (ρ₂ / s) + eps)

/-- one iteration for the L2 divergence (ot/unbalanced/_mm.py 168-174) -/
noncomputable def mmStepL2 (eps : ℝ) (K : I → J → ℝ) (reg ρ₁ ρ₂ : ℝ) (G : I → J → ℝ) : I → J → ℝ :=
  fun i j => K i j * G i j / (ρ₁ * (∑ j', G i j') + ρ₂ * (∑ i', G i' j) + reg * G i j + eps)

/-- `err` (ot/unbalanced/_mm.py 176) -/
noncomputable def mmErr (G G' : I → J → ℝ) : ℝ := Real.sqrt (∑ i, ∑ j, (G' i j - G i j) ^ 2)

/-- `mm_unbalanced(a, b, M, reg_m=(ρ₁, ρ₂), c, reg, div, G0, numItermax, stopThr)` (ot/unbalanced/_mm.py 125-183). Not modelled: empty `a`, `b`. -/
noncomputable def mm (eps : ℝ) (kl : Bool) (a : I → ℝ) (b : J → ℝ) (M : I → J → ℝ) (reg : ℝ) (c : Option (I → J → ℝ)) (ρ₁ ρ₂ : ℝ) (G0 : Option (I → J → ℝ))
    (numItermax : ℕ) (stopThr : ℝ) : Run (I → J → ℝ) :=
  let C := mmRef a b reg c
  let step := if kl then mmStepKl eps (mmKernelKl a b M reg C ρ₁ ρ₂) reg ρ₁ ρ₂ else mmStepL2 eps (mmKernelL2 a b M reg C ρ₁ ρ₂) reg ρ₁ ρ₂
  loop step (fun _ => False) (fun _ G G' => mmErr G G' < stopThr) numItermax 0 (G0.getD fun i j => a i * b j)

/-- `nx.kl_div(p, q, mass=True)` (ot/backend.py 1542-1546); the guard `1e-16` inside the logarithm is `eps` -/
noncomputable def klDivMass {L : Type*} [Fintype L] (eps : ℝ) (p q : L → ℝ) : ℝ := ∑ l, p l * Real.log (p l / q l + eps) + ∑ l, (q l - p l)

/-- the entry `total_cost` of the log dictionary (ot/unbalanced/_mm.py 185-205) -/
noncomputable def mmTotalCost (eps : ℝ) (kl : Bool) (a : I → ℝ) (b : J → ℝ) (M : I → J → ℝ) (reg : ℝ) (c : Option (I → J → ℝ)) (ρ₁ ρ₂ : ℝ) (G : I → J → ℝ) : ℝ :=
  let C := mmRef a b reg c
  let linear := ∑ i, ∑ j, G i j * M i j
  if kl then
    linear + ρ₁ * klDivMass eps (fun i => ∑ j, G i j) a + ρ₂ * klDivMass eps (fun j => ∑ i, G i j) b
      + if 0 < reg then reg * klDivMass eps (fun x : I × J => G x.1 x.2) (fun x => C x.1 x.2) else 0
  else
    linear + ρ₁ * (1 / 2) * ∑ i, (∑ j, G i j - a i) ^ 2 + ρ₂ * (1 / 2) * ∑ j, (∑ i, G i j - b j) ^ 2
      + if 0 < reg then reg * (1 / 2) * ∑ i, ∑ j, (G i j - C i j) ^ 2 else 0

end POT.Mm
