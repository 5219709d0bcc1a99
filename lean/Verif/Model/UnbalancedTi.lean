import Verif.Model.Unbalanced

/-!
# Model of `sinkhorn_unbalanced_translation_invariant` for one histogram (`ot/unbalanced/_sinkhorn.py` 1121-1402)

`reg_m = float("inf")` is `none`; `x / inf` is `0`.
-/

set_option linter.unusedSectionVars false

namespace POT.Unbalanced

open Finset Spec Sinkhorn

variable {I J : Type*} [Fintype I] [Fintype J]

/-- The exponents of the iteration: `fi_1`, `fi_2`, `k_rho1`, `k_rho2`, `xi_rho1`, `xi_rho2`, `reg_ratio1`, `reg_ratio2`, `fi_12 / reg`. -/
structure TiCoef where
  f₁ : ℝ
  f₂ : ℝ
  k₁ : ℝ
  k₂ : ℝ
  ξ₁ : ℝ
  ξ₂ : ℝ
  r₁ : ℝ
  r₂ : ℝ
  e : ℝ

/-- `k_rho1 = k1 * reg_m1 / reg` with `k1 = reg * reg_m1 / ((reg + reg_m1) * (reg_m1 + reg_m2))` (ot/unbalanced/_sinkhorn.py 1287-1299); `k_rho2` has the arguments exchanged -/
noncomputable def kRho (reg : ℝ) (ρ ρ' : Option ℝ) : ℝ :=
  match ρ, ρ' with
  | some r, some r' => reg * r / ((reg + r) * (r + r')) * r / reg
  | _, _ => 0

/-- `xi_rho1 = xi1 * reg_m1 / reg` (ot/unbalanced/_sinkhorn.py 1301-1318); `xi_rho2` has the arguments exchanged -/
noncomputable def xiRho (reg : ℝ) (ρ ρ' : Option ℝ) : ℝ :=
  match ρ, ρ' with
  | some r, some r' => r' * reg / (r * (reg + r + r')) * r / reg
  | some r, none => reg / r * r / reg
  | none, _ => 0

/-- `reg_ratio` (ot/unbalanced/_sinkhorn.py 1320-1321) -/
noncomputable def regRatio (reg : ℝ) (ρ : Option ℝ) : ℝ :=
  match ρ with
  | some r => reg / r
  | none => 0

/-- `fi_12` (ot/unbalanced/_sinkhorn.py 1301-1315) -/
noncomputable def fi12 (ρ₁ ρ₂ : Option ℝ) : ℝ :=
  match ρ₁, ρ₂ with
  | none, none => 1
  | none, some r => r
  | some r, none => r
  | some r, some r' => r * r' / (r + r')

/-- all coefficients (ot/unbalanced/_sinkhorn.py 1284-1321) -/
noncomputable def tiCoef (reg : ℝ) (ρ₁ ρ₂ : Option ℝ) : TiCoef :=
  { f₁ := fi reg ρ₁, f₂ := fi reg ρ₂, k₁ := kRho reg ρ₁ ρ₂, k₂ := kRho reg ρ₂ ρ₁, ξ₁ := xiRho reg ρ₁ ρ₂, ξ₂ := xiRho reg ρ₂ ρ₁,
    r₁ := regRatio reg ρ₁, r₂ := regRatio reg ρ₂, e := fi12 ρ₁ ρ₂ / reg }

/-- `u_hat`, `u_` (ot/unbalanced/_sinkhorn.py 1328-1330). The exponent of `v_` is positive in the code, unlike its counterparts in lines 1333 and 1350. -/
noncomputable def tiU (C : TiCoef) (a : I → ℝ) (b : J → ℝ) (K : I → J → ℝ) (v : J → ℝ) : I → ℝ :=
  let uHat : I → ℝ := fun i => (a i / kv K v i) ^ C.f₁ * (∑ j, b j * v j ^ C.r₂) ^ C.k₂
  fun i => uHat i * (∑ i', a i' * uHat i' ^ (-C.r₁)) ^ (-C.ξ₁)

/-- `v_hat`, `v_` (ot/unbalanced/_sinkhorn.py 1332-1334) -/
noncomputable def tiV (C : TiCoef) (a : I → ℝ) (b : J → ℝ) (K : I → J → ℝ) (u : I → ℝ) : J → ℝ :=
  let vHat : J → ℝ := fun j => (b j / ktu K u j) ^ C.f₂ * (∑ i, a i * u i ^ (-C.r₁)) ^ C.k₁
  fun j => vHat j * (∑ j', b j' * vHat j' ^ (-C.r₂)) ^ (-C.ξ₂)

/-- `t` (ot/unbalanced/_sinkhorn.py 1350-1352) -/
noncomputable def tiT (C : TiCoef) (a : I → ℝ) (b : J → ℝ) (u : I → ℝ) (v : J → ℝ) : ℝ :=
  ((∑ i, a i * u i ^ (-C.r₁)) / ∑ j, b j * v j ^ (-C.r₂)) ^ C.e

/-- The loop carries the raw scalings `u_`, `v_` and the translated ones. -/
structure Ti (I J : Type*) where
  raw : UV I J
  out : UV I J

/-- one iteration (ot/unbalanced/_sinkhorn.py 1325-1355) -/
noncomputable def tiStep (C : TiCoef) (a : I → ℝ) (b : J → ℝ) (K : I → J → ℝ) (s : Ti I J) : Ti I J :=
  let u := tiU C a b K s.raw.v
  let v := tiV C a b K u
  let t := tiT C a b u v
  { raw := ⟨u, v⟩, out := ⟨fun i => u i * t, fun j => v j / t⟩ }

/-- the numerical test (ot/unbalanced/_sinkhorn.py 1336-1348): a division by zero, or a zero in `Ktu` -/
def tiBad (C : TiCoef) (a : I → ℝ) (b : J → ℝ) (K : I → J → ℝ) (s : Ti I J) : Prop :=
  (∃ i, kv K s.raw.v i = 0) ∨ ∃ j, ktu K (tiU C a b K s.raw.v) j = 0

/-- `sinkhorn_unbalanced_translation_invariant` for one histogram (ot/unbalanced/_sinkhorn.py 1254-1375). Simplification: `M0 = M - reg log c`, `K = exp(-M0/reg)` is written as
`exp(-M/reg) * c`, which is the same for positive `c`. -/
noncomputable def tiUnb [Nonempty I] [Nonempty J] (a : I → ℝ) (b : J → ℝ) (M : I → J → ℝ) (reg : ℝ) (ρ₁ ρ₂ : Option ℝ) (entropy : Bool)
    (c : Option (I → J → ℝ)) (warm : Option ((I → ℝ) × (J → ℝ))) (numItermax : ℕ) (stopThr : ℝ) : Run (Ti I J) :=
  let K := unbKernel M reg (reference a b entropy c)
  loop (tiStep (tiCoef reg ρ₁ ρ₂) a b K) (tiBad (tiCoef reg ρ₁ ρ₂) a b K) (fun _ s t => unbErr s.out t.out < stopThr) numItermax 0 ⟨unbInit warm, unbInit warm⟩

/-- the returned matrix (ot/unbalanced/_sinkhorn.py 1387) -/
noncomputable def tiUnbPlan [Nonempty I] [Nonempty J] (a : I → ℝ) (b : J → ℝ) (M : I → J → ℝ) (reg : ℝ) (ρ₁ ρ₂ : Option ℝ) (entropy : Bool)
    (c : Option (I → J → ℝ)) (warm : Option ((I → ℝ) × (J → ℝ))) (numItermax : ℕ) (stopThr : ℝ) : I → J → ℝ :=
  plan (unbKernel M reg (reference a b entropy c)) (tiUnb a b M reg ρ₁ ρ₂ entropy c warm numItermax stopThr).s.out

end POT.Unbalanced
