import Verif.Model.Unbalanced

/-!
# Model of `sinkhorn_stabilized_unbalanced` for one histogram (`ot/unbalanced/_sinkhorn.py` 821-1118)

The guard `1e-16` is the parameter `eps`. The kernel `K` that the code stores is always `exp((alpha + beta - M0) / reg)` and is recomputed here.
-/

set_option linter.unusedSectionVars false

namespace POT.Unbalanced

open Finset Spec Sinkhorn

variable {I J : Type*} [Fintype I] [Fintype J]

/-- The state of the loop: scalings and absorbed potentials. -/
@[ext] structure StU (I J : Type*) where
  u : I → ℝ
  v : J → ℝ
  α : I → ℝ
  β : J → ℝ

/-- `M0 = M - reg * nx.log(c)` (ot/unbalanced/_sinkhorn.py 1002-1007) -/
noncomputable def m0 (M : I → J → ℝ) (reg : ℝ) (c : I → J → ℝ) : I → J → ℝ := fun i j => M i j - reg * Real.log (c i j)

/-- the current kernel (ot/unbalanced/_sinkhorn.py 1008, 1045) -/
noncomputable def stabK (M0 : I → J → ℝ) (reg : ℝ) (s : StU I J) : I → J → ℝ := fun i j => Real.exp ((s.α i + s.β j - M0 i j) / reg)

/-- `f_alpha`, `f_beta` (ot/unbalanced/_sinkhorn.py 1025-1026) -/
noncomputable def fAlpha (reg : ℝ) (ρ : Option ℝ) (x : ℝ) : ℝ :=
  match ρ with
  | some r => Real.exp (-x / (reg + r))
  | none => 1

/-- the scalings computed in one iteration (ot/unbalanced/_sinkhorn.py 1024, 1031-1033) -/
noncomputable def stabUpd (eps : ℝ) (a : I → ℝ) (b : J → ℝ) (M0 : I → J → ℝ) (reg : ℝ) (ρ₁ ρ₂ : Option ℝ) (s : StU I J) : UV I J :=
  let K := stabK M0 reg s
  let u : I → ℝ := fun i => (a i / (kv K s.v i + eps)) ^ fi reg ρ₁ * fAlpha reg ρ₁ (s.α i)
  { u := u, v := fun j => (b j / (ktu K u j + eps)) ^ fi reg ρ₂ * fAlpha reg ρ₂ (s.β j) }

/-- `nx.any(u > tau) or nx.any(v > tau)` (ot/unbalanced/_sinkhorn.py 1035) -/
def absorbs (tau : ℝ) (w : UV I J) : Prop := (∃ i, tau < w.u i) ∨ ∃ j, tau < w.v j

open Classical in
/-- one iteration with absorption (ot/unbalanced/_sinkhorn.py 1021-1046); note that only `v` is reset to one -/
noncomputable def stabStepU [Nonempty I] [Nonempty J] (eps tau : ℝ) (a : I → ℝ) (b : J → ℝ) (M0 : I → J → ℝ) (reg : ℝ) (ρ₁ ρ₂ : Option ℝ) (s : StU I J) : StU I J :=
  let w := stabUpd eps a b M0 reg ρ₁ ρ₂ s
  if absorbs tau w then
    { u := w.u, v := fun _ => 1, α := fun i => s.α i + reg * Real.log (vmax w.u), β := fun j => s.β j + reg * Real.log (vmax w.v) }
  else { u := w.u, v := w.v, α := s.α, β := s.β }

/-- the numerical test (ot/unbalanced/_sinkhorn.py 1049-1061): a division by zero, or a zero in `Ktu`.  Simplification: if such an iteration also absorbs, the code keeps the new `alpha`, `beta` with the
old `u`, `v`; here all four go back. -/
def stabBad (eps : ℝ) (a : I → ℝ) (b : J → ℝ) (M0 : I → J → ℝ) (reg : ℝ) (ρ₁ ρ₂ : Option ℝ) (s : StU I J) : Prop :=
  (∃ i, kv (stabK M0 reg s) s.v i + eps = 0) ∨ ∃ j, ktu (stabK M0 reg s) (stabUpd eps a b M0 reg ρ₁ ρ₂ s).u j = 0

/-- the test that ends the `while` loop after iteration `cpt` (ot/unbalanced/_sinkhorn.py 1020, 1062-1067): the error of `u` is measured only in the first iteration and in every tenth one that does not absorb -/
noncomputable def stabStop [Nonempty I] (eps tau : ℝ) (a : I → ℝ) (b : J → ℝ) (M0 : I → J → ℝ) (reg : ℝ) (ρ₁ ρ₂ : Option ℝ) (stopThr : ℝ) (cpt : ℕ) (s t : StU I J) : Prop :=
  (cpt % 10 = 0 ∧ ¬ absorbs tau (stabUpd eps a b M0 reg ρ₁ ρ₂ s) ∨ cpt = 0) ∧ relErr s.u t.u ≤ stopThr

/-- initial state (ot/unbalanced/_sinkhorn.py 985-994, 1015-1016) -/
noncomputable def stabInit (warm : Option ((I → ℝ) × (J → ℝ))) : StU I J :=
  { u := (unbInit warm : UV I J).u, v := (unbInit warm : UV I J).v, α := fun _ => 0, β := fun _ => 0 }

open Classical in
/-- `sinkhorn_stabilized_unbalanced` for one histogram (ot/unbalanced/_sinkhorn.py 821-1104); `err` starts with `1.0`, so nothing is done if `stopThr ≥ 1` -/
noncomputable def stabUnb [Nonempty I] [Nonempty J] (eps tau : ℝ) (a : I → ℝ) (b : J → ℝ) (M : I → J → ℝ) (reg : ℝ) (ρ₁ ρ₂ : Option ℝ) (entropy : Bool)
    (c : Option (I → J → ℝ)) (warm : Option ((I → ℝ) × (J → ℝ))) (numItermax : ℕ) (stopThr : ℝ) : Run (StU I J) :=
  let M0 := m0 M reg (reference a b entropy c)
  if 1 ≤ stopThr then ⟨stabInit warm, 0, .exhausted⟩
  else loop (stabStepU eps tau a b M0 reg ρ₁ ρ₂) (stabBad eps a b M0 reg ρ₁ ρ₂) (stabStop eps tau a b M0 reg ρ₁ ρ₂ stopThr) numItermax 0 (stabInit warm)

/-- `logu = alpha / reg + nx.log(u)`, `logv`, `plan = nx.exp(logu[:, None] + logv[None, :] - M0 / reg)` (ot/unbalanced/_sinkhorn.py 1083-1084, 1104) -/
noncomputable def stabPlan (M0 : I → J → ℝ) (reg : ℝ) (s : StU I J) : I → J → ℝ :=
  fun i j => Real.exp ((s.α i / reg + Real.log (s.u i)) + (s.β j / reg + Real.log (s.v j)) - M0 i j / reg)

/-- the returned matrix -/
noncomputable def stabUnbPlan [Nonempty I] [Nonempty J] (eps tau : ℝ) (a : I → ℝ) (b : J → ℝ) (M : I → J → ℝ) (reg : ℝ) (ρ₁ ρ₂ : Option ℝ) (entropy : Bool)
    (c : Option (I → J → ℝ)) (warm : Option ((I → ℝ) × (J → ℝ))) (numItermax : ℕ) (stopThr : ℝ) : I → J → ℝ :=
  stabPlan (m0 M reg (reference a b entropy c)) reg (stabUnb eps tau a b M reg ρ₁ ρ₂ entropy c warm numItermax stopThr).s

end POT.Unbalanced
