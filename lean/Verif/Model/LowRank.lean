import Verif.Spec.LowRank
import Verif.Model.Sinkhorn
import Mathlib.Data.Real.Sqrt
import Mathlib.Analysis.SpecialFunctions.Pow.Real

/-!
# Model: low-rank Sinkhorn (ot/lowrank.py)

`Q : I → K → ℝ`, `R : J → K → ℝ`, `g : K → ℝ` are the low-rank factors; `K` is the set of the `rank` inner indices.  Real arithmetic.  The k-means initialisation is not modelled; `kernel_nystroem` is in `Model/Nystroem`.
-/

set_option linter.unusedSectionVars false

namespace POT.LowRank

open Finset

variable {I J K D : Type*} [Fintype I] [Fintype J] [Fintype K] [Fintype D]

/-- `M1 = concatenate((sum(X_s**2, 1), 1, -2 * X_s))` (ot/lowrank.py 190-192) -/
def fac1 (X : I → D → ℝ) : I → Fin 2 ⊕ D → ℝ := fun i c => match c with
  | .inl k => if k = 0 then ∑ d, X i d ^ 2 else 1
  | .inr d => -2 * X i d

/-- `M2 = concatenate((1, sum(X_t**2, 1), X_t))` (ot/lowrank.py 195-197) -/
def fac2 (Y : J → D → ℝ) : J → Fin 2 ⊕ D → ℝ := fun j c => match c with
  | .inl k => if k = 0 then 1 else ∑ d, Y j d ^ 2
  | .inr d => Y j d

/-- `nx.max(M)` -/
noncomputable def maxM [Nonempty I] {C : Type*} [Fintype C] [Nonempty C] (M : I → C → ℝ) : ℝ := (univ : Finset (I × C)).sup' univ_nonempty fun x => M x.1 x.2

/-- `compute_lr_sqeuclidean_matrix` (ot/lowrank.py 150-203) -/
noncomputable def lrSq [Nonempty I] [Nonempty J] (X : I → D → ℝ) (Y : J → D → ℝ) (rescale : Bool) : (I → Fin 2 ⊕ D → ℝ) × (J → Fin 2 ⊕ D → ℝ) :=
  if rescale then (fun i c => fac1 X i c / √(maxM (fac1 X)), fun j c => fac2 Y j c / √(maxM (fac2 Y))) else (fac1 X, fac2 Y)

/-- `arange(1, n + 1) / sum(arange(1, n + 1))` (ot/lowrank.py 95-96, 99-100, 103-104) -/
noncomputable def ramp {n : ℕ} (i : Fin n) : ℝ := ((i : ℕ) + 1 : ℝ) / ∑ k : Fin n, ((k : ℕ) + 1 : ℝ)

/-- `lambda_1 = min(min(a), min(g), min(b)) / 2` with `g = ones(rank) / rank` (ot/lowrank.py 92-94) -/
noncomputable def lam {n m r : ℕ} [NeZero n] [NeZero m] (a : Fin n → ℝ) (b : Fin m → ℝ) : ℝ :=
  min (min (univ.inf' univ_nonempty a) (1 / (r : ℝ))) (univ.inf' univ_nonempty b) / 2

/-- `l * a1 g1ᵀ + (1 - l) * a2 g2ᵀ` with `a2 = (a - l * a1) / (1 - l)`, `g2 = (g - l * g1) / (1 - l)` (ot/lowrank.py 97, 101, 105, 108-115) -/
noncomputable def detFactor {n r : ℕ} (l : ℝ) (a : Fin n → ℝ) : Fin n → Fin r → ℝ := fun i k =>
  l * (ramp i * ramp k) + (1 - l) * (((a i - l * ramp i) / (1 - l)) * ((1 / (r : ℝ) - l * ramp k) / (1 - l)))

/-- `_init_lr_sinkhorn` for `init = "deterministic"` (ot/lowrank.py 90-115) -/
noncomputable def initDet {n m r : ℕ} [NeZero n] [NeZero m] (a : Fin n → ℝ) (b : Fin m → ℝ) : (Fin n → Fin r → ℝ) × (Fin m → Fin r → ℝ) × (Fin r → ℝ) :=
  (detFactor (lam (r := r) a b) a, detFactor (lam (r := r) a b) b, fun _ => 1 / (r : ℝ))

/-- `(Q.T * (a / sum(Q, axis=1))).T` for the positive random matrix `W` (ot/lowrank.py 83-84, 87-88) -/
noncomputable def randFactor (W : I → K → ℝ) (a : I → ℝ) : I → K → ℝ := fun i k => W i k * (a i / ∑ l, W i l)

/-- the variables of `_LR_Dysktra` -/
structure Dyk (I J K : Type*) where
  g : K → ℝ
  q31 : K → ℝ
  q32 : K → ℝ
  v1 : K → ℝ
  v2 : K → ℝ
  q1 : K → ℝ
  q2 : K → ℝ
  u1 : I → ℝ
  u2 : J → ℝ
  err : ℝ

/-- ot/lowrank.py 258-265; `u1`, `u2` are not yet bound there (`0` here) -/
def dyk0 (e3 : K → ℝ) : Dyk I J K := ⟨e3, fun _ => 1, fun _ => 1, fun _ => 1, fun _ => 1, fun _ => 1, fun _ => 1, fun _ => 0, fun _ => 0, 1⟩

/-- one iteration of `_LR_Dysktra` (ot/lowrank.py 273-303) -/
noncomputable def dykStep (E1 : I → K → ℝ) (E2 : J → K → ℝ) (p1 : I → ℝ) (p2 : J → ℝ) (α : ℝ) (s : Dyk I J K) : Dyk I J K :=
  let u1 := fun i => p1 i / ∑ k, E1 i k * s.v1 k
  let u2 := fun j => p2 j / ∑ k, E2 j k * s.v2 k
  let gA := fun k => max α (s.g k * s.q31 k)
  let q31 := fun k => s.g k * s.q31 k / gA k
  let prod1 := fun k => s.v1 k * s.q1 k * ∑ i, E1 i k * u1 i
  let prod2 := fun k => s.v2 k * s.q2 k * ∑ j, E2 j k * u2 j
  let g := fun k => (gA k * s.q32 k * prod1 k * prod2 k) ^ (1 / 3 : ℝ)
  let v1 := fun k => g k / ∑ i, E1 i k * u1 i
  let v2 := fun k => g k / ∑ j, E2 j k * u2 j
  { g := g, q31 := q31, q32 := fun k => gA k * s.q32 k / g k, v1 := v1, v2 := v2, q1 := fun k => s.v1 k * s.q1 k / v1 k, q2 := fun k => s.v2 k * s.q2 k / v2 k, u1 := u1, u2 := u2,
    err := ∑ i, |u1 i * (∑ k, E1 i k * v1 k) - p1 i| + ∑ j, |u2 j * (∑ k, E2 j k * v2 k) - p2 j| }

open Classical in
/-- the loop (ot/lowrank.py 271-306); `n` iterations are left -/
noncomputable def dykLoop (E1 : I → K → ℝ) (E2 : J → K → ℝ) (p1 : I → ℝ) (p2 : J → ℝ) (α stopThr : ℝ) : ℕ → Dyk I J K → Dyk I J K
  | 0, s => s
  | n + 1, s => if s.err > stopThr then dykLoop E1 E2 p1 p2 α stopThr n (dykStep E1 E2 p1 p2 α s) else s

/-- `Q = u1[:, None] * eps1 * v1[None, :]` (ot/lowrank.py 316-317) -/
def dykQ (E1 : I → K → ℝ) (s : Dyk I J K) : I → K → ℝ := fun i k => s.u1 i * E1 i k * s.v1 k

def dykR (E2 : J → K → ℝ) (s : Dyk I J K) : J → K → ℝ := fun j k => s.u2 j * E2 j k * s.v2 k

open Classical in
/-- `_LR_Dysktra` (ot/lowrank.py 206-319); `none`: `u1` is unbound because no iteration has been carried out -/
noncomputable def dykstra (E1 : I → K → ℝ) (E2 : J → K → ℝ) (e3 : K → ℝ) (p1 : I → ℝ) (p2 : J → ℝ) (α stopThr : ℝ) (numItermax : ℕ) : Option ((I → K → ℝ) × (J → K → ℝ) × (K → ℝ)) :=
  if numItermax = 0 ∨ (1 : ℝ) ≤ stopThr then none else
  let s := dykLoop E1 E2 p1 p2 α stopThr numItermax (dyk0 e3)
  some (dykQ E1 s, dykR E2 s, s.g)

/-- the gradients of `⟨C, Q diag(1/g) Rᵀ⟩` computed from the factors `C = M1 M2ᵀ` (ot/lowrank.py 470-481): `CR_ * diag_g`, `CQ_ * diag_g` and `omega` -/
noncomputable def gradQ {C : Type*} [Fintype C] (M1 : I → C → ℝ) (M2 : J → C → ℝ) (R : J → K → ℝ) (g : K → ℝ) : I → K → ℝ := fun i k => (∑ c, M1 i c * ∑ j, M2 j c * R j k) * (1 / g k)

noncomputable def gradR {C : Type*} [Fintype C] (M1 : I → C → ℝ) (M2 : J → C → ℝ) (Q : I → K → ℝ) (g : K → ℝ) : J → K → ℝ := fun j k => (∑ c, M2 j c * ∑ i, M1 i c * Q i k) * (1 / g k)

def omega {C : Type*} [Fintype C] (M1 : I → C → ℝ) (M2 : J → C → ℝ) (Q : I → K → ℝ) (R : J → K → ℝ) : K → ℝ := fun k => ∑ i, Q i k * ∑ c, M1 i c * ∑ j, M2 j c * R j k

/-- the kernels `eps1`, `eps2`, `eps3` (ot/lowrank.py 490-492) -/
noncomputable def kern1 (γ reg : ℝ) (G Q : I → K → ℝ) : I → K → ℝ := fun i k => Real.exp (-γ * G i k - (γ * reg - 1) * Real.log (Q i k))

noncomputable def kern3 (γ reg : ℝ) (ω g : K → ℝ) : K → ℝ := fun k => Real.exp (γ * ω k / g k ^ 2 - (γ * reg - 1) * Real.log (g k))

/-- `value_linear` (ot/lowrank.py 509-511); `g` is the `g` of `diag_g` (ot/lowrank.py 472) -/
noncomputable def valueLinear {C : Type*} [Fintype C] (M1 : I → C → ℝ) (M2 : J → C → ℝ) (Q : I → K → ℝ) (R : J → K → ℝ) (g : K → ℝ) : ℝ :=
  ∑ c, ∑ k, (∑ i, M1 i c * Q i k) * ∑ j, M2 j c * (R j k * (1 / g k))

/-- the outer loop (ot/lowrank.py 468-500): `n` iterations from `(Q, R, g)`, with the step size `γ` of an iteration as a function of the current factors; the last component is the `g` of `diag_g` -/
noncomputable def outer {C : Type*} [Fintype C] (M1 : I → C → ℝ) (M2 : J → C → ℝ) (a : I → ℝ) (b : J → ℝ) (reg α stopThr : ℝ) (numItermax : ℕ) (tiny : ℝ)
    (γ : (I → K → ℝ) → (J → K → ℝ) → (K → ℝ) → ℝ) (init : (I → K → ℝ) × (J → K → ℝ) × (K → ℝ)) : ℕ → Option ((I → K → ℝ) × (J → K → ℝ) × (K → ℝ) × (K → ℝ))
  | 0 => some (init.1, init.2.1, init.2.2, init.2.2)
  | n + 1 => (outer M1 M2 a b reg α stopThr numItermax tiny γ init n).bind fun s =>
    let Q := s.1; let R := s.2.1; let g := s.2.2.1
    let γ' := γ Q R g
    (dykstra (kern1 γ' reg (gradQ M1 M2 R g) Q) (kern1 γ' reg (gradR M1 M2 Q g) R) (kern3 γ' reg (omega M1 M2 Q R) g) a b α stopThr numItermax).map fun t =>
      (fun i k => t.1 i k + tiny, fun j k => t.2.1 j k + tiny, fun k => t.2.2 k + tiny, g)

/-- `K2 @ (transpose(K1) @ u)` (ot/lowrank.py 678) -/
def lrkTu {C : Type*} [Fintype C] (K1 : I → C → ℝ) (K2 : J → C → ℝ) (u : I → ℝ) : J → ℝ := fun j => ∑ c, K2 j c * ∑ i, K1 i c * u i

/-- `K1 @ (transpose(K2) @ v)` (ot/lowrank.py 680) -/
def lrkV {C : Type*} [Fintype C] (K1 : I → C → ℝ) (K2 : J → C → ℝ) (v : J → ℝ) : I → ℝ := fun i => ∑ c, K1 i c * ∑ j, K2 j c * v j

/-- one iteration of `sinkhorn_low_rank_kernel` (ot/lowrank.py 678-681) -/
noncomputable def lrkStep {C : Type*} [Fintype C] (K1 : I → C → ℝ) (K2 : J → C → ℝ) (a : I → ℝ) (b : J → ℝ) (s : Sinkhorn.UV I J) : Sinkhorn.UV I J :=
  let v := fun j => b j / lrkTu K1 K2 s.u j
  { u := fun i => a i / lrkV K1 K2 v i, v := v }

/-- the test for numerical errors (ot/lowrank.py 683-689), for positive weights: a division by zero -/
def lrkBad {C : Type*} [Fintype C] (K1 : I → C → ℝ) (K2 : J → C → ℝ) (b : J → ℝ) (s : Sinkhorn.UV I J) : Prop :=
  (∃ j, lrkTu K1 K2 s.u j = 0) ∨ ∃ i, lrkV K1 K2 (fun j => b j / lrkTu K1 K2 s.u j) i = 0

/-- `err = nx.norm(tmp2 - b)` (ot/lowrank.py 699-702) -/
noncomputable def lrkErr {C : Type*} [Fintype C] (K1 : I → C → ℝ) (K2 : J → C → ℝ) (b : J → ℝ) (s : Sinkhorn.UV I J) : ℝ := Spec.norm2 fun j => s.v j * lrkTu K1 K2 s.u j - b j

/-- `sinkhorn_low_rank_kernel` (ot/lowrank.py 590-730) -/
noncomputable def lrKernel {C : Type*} [Fintype C] (K1 : I → C → ℝ) (K2 : J → C → ℝ) (a : I → ℝ) (b : J → ℝ) (numItermax : ℕ) (stopThr : ℝ) (warm : Option ((I → ℝ) × (J → ℝ))) : Sinkhorn.Run (Sinkhorn.UV I J) :=
  Sinkhorn.loop (lrkStep K1 K2 a b) (lrkBad K1 K2 b) (fun ii _ s => ii % 10 = 0 ∧ lrkErr K1 K2 b s < stopThr) numItermax 0 (Sinkhorn.knoppInit warm)

/-- the logged `lazy_plan`: `(u * K1) (v * K2)ᵀ` (ot/lowrank.py 724-726) -/
def lrkPlan {C : Type*} [Fintype C] (K1 : I → C → ℝ) (K2 : J → C → ℝ) (s : Sinkhorn.UV I J) : I → J → ℝ := fun i j => ∑ c, s.u i * K1 i c * (s.v j * K2 j c)

end POT.LowRank
