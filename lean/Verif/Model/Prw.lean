import Verif.Spec.Dr
import Verif.Model.Sinkhorn

/-! # Model of `projection_robust_wasserstein` (ot/dr.py 286-423)

Data are matrices with one sample per row.  `np.linalg.qr` is a parameter `qr` (its `Q` factor).  The random start used when `U0` is not given is `qr` of the sampled matrix, so `U0` ranges over it as well.
Simplified: real arithmetic, no printing. -/

set_option linter.unusedSectionVars false

namespace POT.Prw

open Finset Matrix POT.Sinkhorn Spec

variable {I J D K : Type*} [Fintype I] [Fintype J] [Fintype D] [Fintype K] [DecidableEq I] [DecidableEq J]

/-- The projected cost matrix (ot/dr.py 388-393). -/
def projCost (X : Matrix I D ℝ) (Y : Matrix J D ℝ) (U : Matrix D K ℝ) : I → J → ℝ :=
  fun i j => (X * ((U * Uᵀ) * Xᵀ)) i i + (Y * ((U * Uᵀ) * Yᵀ)) j j - 2 * (X * ((U * Uᵀ) * Yᵀ)) i j

/-- `Vpi` (ot/dr.py 373-381): the first term uses the weights `a`, the second the column sums of the plan. -/
def vpi (X : Matrix I D ℝ) (Y : Matrix J D ℝ) (a : I → ℝ) (P : Matrix I J ℝ) : Matrix D D ℝ :=
  Xᵀ * diagonal a * X + Yᵀ * diagonal (fun j => ∑ i, P i j) * Y - Xᵀ * P * Y - (Xᵀ * P * Y)ᵀ

/-- `G` (ot/dr.py 409). -/
noncomputable def grad (reg : ℝ) (V : Matrix D D ℝ) (U : Matrix D K ℝ) : Matrix D K ℝ := (2 / reg) • (V * U)

/-- `xi`, the Riemannian gradient (ot/dr.py 410-411). -/
noncomputable def xi (reg : ℝ) (V : Matrix D D ℝ) (U : Matrix D K ℝ) : Matrix D K ℝ :=
  grad reg V U - (1 / 2 : ℝ) • (U * ((grad reg V U)ᵀ * U + ((grad reg V U)ᵀ * U)ᵀ))

/-- Variables of the loop; `pi` is not bound before the first iteration. -/
structure St (I J D K : Type*) where
  uv : UV I J
  U : Matrix D K ℝ
  pi : Option (Matrix I J ℝ)
  err : ℝ

/-- One iteration (ot/dr.py 387-421). -/
noncomputable def step (qr : Matrix D K ℝ → Matrix D K ℝ) (X : Matrix I D ℝ) (Y : Matrix J D ℝ) (a : I → ℝ) (b : J → ℝ) (tau reg : ℝ) (s : St I J D K) : St I J D K :=
  let A := kernel (projCost X Y s.U) reg
  let uv := knoppStep a b A s.uv
  let P : Matrix I J ℝ := of (plan A uv)
  let x := xi reg (vpi X Y a P) s.U
  { uv := uv, U := qr (s.U + tau • x), pi := some P, err := max (reg * frob x) (∑ j, |∑ i, P i j - b j|) }

/-- Initial values (ot/dr.py 360-371, 383). -/
noncomputable def init (U0 : Matrix D K ℝ) : St I J D K := { uv := ⟨fun _ => 1 / Fintype.card I, fun _ => 1 / Fintype.card J⟩, U := U0, pi := none, err := 1 }

open Classical in
/-- The loop `while err > stopThr and iter < maxiter` (ot/dr.py 386). -/
noncomputable def loop (f : St I J D K → St I J D K) (stopThr : ℝ) : ℕ → St I J D K → St I J D K
  | 0, s => s
  | n + 1, s => if stopThr < s.err then loop f stopThr n (f s) else s

/-- `projection_robust_wasserstein` (ot/dr.py 286-423); `none` is the error raised by `assert d > k` or by returning the unbound `pi`. -/
noncomputable def prw (qr : Matrix D K ℝ → Matrix D K ℝ) (X : Matrix I D ℝ) (Y : Matrix J D ℝ) (a : I → ℝ) (b : J → ℝ) (tau : ℝ) (U0 : Matrix D K ℝ) (reg stopThr : ℝ) (maxiter : ℕ) : Option (Matrix I J ℝ × Matrix D K ℝ) :=
  if Fintype.card K < Fintype.card D then
    let s := loop (step qr X Y a b tau reg) stopThr maxiter (init U0)
    s.pi.map fun P => (P, s.U)
  else none

end POT.Prw
