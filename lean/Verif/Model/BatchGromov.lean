import Verif.Model.BatchSolve

/-!
# Model of the batched Gromov-Wasserstein solver (`ot/batch/_quadratic.py`)

`C1`, `C2` have entries in `D → ℝ` (arrays of shape `(B, n, n, d)`); an array of shape `(B, n, n)` is the case of one feature, for which the code adds the last axis itself (123-130).  Exact arithmetic;
`grad` has no influence on the values.
-/

set_option linter.unusedSectionVars false

namespace POT.BatchGromov

open Finset Sinkhorn BatchSolve

variable {B I J D : Type*} [Fintype B] [Fintype I] [Fintype J] [Fintype D]

/-- The four functions of a loss (ot/batch/_quadratic.py 108-150). -/
structure VDecomp (D : Type*) where
  f1 : (D → ℝ) → ℝ
  f2 : (D → ℝ) → ℝ
  h1 : (D → ℝ) → D → ℝ
  h2 : (D → ℝ) → D → ℝ

/-- `loss="sqeuclidean"` (ot/batch/_quadratic.py 108-130). -/
def sqDec : VDecomp D where
  f1 x := ∑ d, x d ^ 2
  f2 y := ∑ d, y d ^ 2
  h1 x := fun d => 2 * x d
  h2 y := y

/-- `loss="kl"` (ot/batch/_quadratic.py 132-150); `eps` is `1e-15`. -/
noncomputable def klDec (eps : ℝ) (logits : Bool) : VDecomp D where
  f1 _ := 0
  f2 y := ∑ d, y d * Real.log (y d + eps)
  h1 x := if logits then x else fun d => Real.log (x d + eps)
  h2 y := y

/-- The dictionary `L` (ot/batch/_quadratic.py 530). -/
structure Tensor (B I J D : Type*) where
  constC : B → I → J → ℝ
  hC1 : B → I → I → D → ℝ
  hC2 : B → J → J → D → ℝ
  fC1 : B → I → I → ℝ
  fC2 : B → J → J → ℝ

/-- `compute_const_from_marginals` (ot/batch/_quadratic.py 581-590). -/
def constMarginals (fC1 : B → I → I → ℝ) (fC2 : B → J → J → ℝ) (a : B → I → ℝ) (b : B → J → ℝ) : B → I → J → ℝ :=
  fun t i j => ∑ k, fC1 t i k * a t k + ∑ l, fC2 t j l * b t l

/-- `compute_tensor_batch` (ot/batch/_quadratic.py 504-532). -/
noncomputable def computeTensor (dec : VDecomp D) (a : B → I → ℝ) (b : B → J → ℝ) (C1 : B → I → I → D → ℝ) (C2 : B → J → J → D → ℝ) (symmetric : Bool) : Tensor B I J D :=
  let fC1 : B → I → I → ℝ := fun t i k => dec.f1 (C1 t i k)
  let fC2 : B → J → J → ℝ := fun t j l => dec.f2 (C2 t j l)
  let fC1 : B → I → I → ℝ := if symmetric then fC1 else fun t i k => 0.5 * (fC1 t i k + fC1 t k i)
  let fC2 : B → J → J → ℝ := if symmetric then fC2 else fun t j l => 0.5 * (fC2 t j l + fC2 t l j)
  { constC := constMarginals fC1 fC2 a b, hC1 := fun t i k => dec.h1 (C1 t i k), hC2 := fun t j l => dec.h2 (C2 t j l), fC1 := fC1, fC2 := fC2 }

/-- `tensor_product_batch` (ot/batch/_quadratic.py 535-572). -/
noncomputable def tensorProduct (L : Tensor B I J D) (T : B → I → J → ℝ) (recompute symmetric : Bool) : B → I → J → ℝ :=
  let const := if recompute then constMarginals L.fC1 L.fC2 (fun t i => ∑ j, T t i j) (fun t j => ∑ i, T t i j) else L.constC
  let dot : B → I → J → ℝ := fun t i j => ∑ d, ∑ l, (∑ k, L.hC1 t i k d * T t k l) * L.hC2 t j l d
  let dotT : B → I → J → ℝ := fun t i j => ∑ d, ∑ l, (∑ k, L.hC1 t k i d * T t k l) * L.hC2 t l j d
  fun t i j => const t i j - if symmetric then dot t i j else (dot t i j + dotT t i j) / 2

/-- `loss_quadratic_batch` (ot/batch/_quadratic.py 155-198). -/
noncomputable def lossQuadratic (L : Tensor B I J D) (T : B → I → J → ℝ) (recompute symmetric : Bool) : B → ℝ :=
  fun t => ∑ i, ∑ j, tensorProduct L T recompute symmetric t i j * T t i j

/-- `loss_quadratic_samples_batch` (ot/batch/_quadratic.py 201-266); `symmetric=None` is not replaced and counts as false. -/
noncomputable def lossQuadraticSamples (dec : VDecomp D) (a : B → I → ℝ) (b : B → J → ℝ) (C1 : B → I → I → D → ℝ) (C2 : B → J → J → D → ℝ) (T : B → I → J → ℝ) (symmetric : Option Bool) (recompute : Bool) : B → ℝ :=
  lossQuadratic (computeTensor dec a b C1 C2 (symmetric.getD false)) T recompute (symmetric.getD false)

/-- `nx.allclose(C, transpose(C), atol=1e-10)` (ot/batch/_quadratic.py 412-414); `rtol` is NumPy's default `1e-5`. -/
def AllcloseT {K : Type*} (rtol atol : ℝ) (C : B → K → K → D → ℝ) : Prop := ∀ t i k d, |C t i k d - C t k i d| ≤ atol + rtol * |C t k i d|

open Classical in
/-- The flag used by the solver (ot/batch/_quadratic.py 411-414). -/
noncomputable def symFlag (rtol atol : ℝ) (symmetric : Option Bool) (C1 : B → I → I → D → ℝ) (C2 : B → J → J → D → ℝ) : Bool :=
  symmetric.getD (decide (AllcloseT rtol atol C1 ∧ AllcloseT rtol atol C2))

/-- State of the outer loop: plan, its logarithm, and the potentials of the last projection (ot/batch/_quadratic.py 456-468). -/
structure GSt (B I J : Type*) where
  T : B → I → J → ℝ
  logT : B → I → J → ℝ
  pot : Batch B I J

/-- `Mk` (ot/batch/_quadratic.py 460-462). -/
noncomputable def linearised (L : Tensor B I J D) (symmetric : Bool) (M : B → I → J → ℝ) (alpha : ℝ) (T : B → I → J → ℝ) : B → I → J → ℝ :=
  fun t i j => (1 - alpha) * M t i j + 2 * alpha * tensorProduct L T false symmetric t i j

/-- One outer iteration (ot/batch/_quadratic.py 459-468). `proj K` are the potentials computed by `bregman_log_projection_batch`. -/
noncomputable def gStep (L : Tensor B I J D) (symmetric : Bool) (M : B → I → J → ℝ) (alpha reg : ℝ) (proj : (B → I → J → ℝ) → Batch B I J) (s : GSt B I J) : GSt B I J :=
  let K : B → I → J → ℝ := fun t i j => -linearised L symmetric M alpha s.T t i j / reg + s.logT t i j
  { T := batchLogPlan K (proj K), logT := fun t i j => K t i j + (proj K).f t i + (proj K).g t j, pot := proj K }

/-- `max_err < tol` (ot/batch/_quadratic.py 469-470). -/
def gStop (tol : ℝ) (s s' : GSt B I J) : Prop := ∀ t, (∑ i, ∑ j, |s.T t i j - s'.T t i j|) / (Fintype.card I * Fintype.card J) < tol

/-- `T_init` (ot/batch/_quadratic.py 450-452). -/
noncomputable def initPlan (a : B → I → ℝ) (b : B → J → ℝ) : B → I → J → ℝ := fun t i j => a t i * b t j / Real.sqrt ((∑ i, a t i) * ∑ j, b t j)

/-- State before the loop (ot/batch/_quadratic.py 456-457); `eps` is `1e-15`. -/
noncomputable def gInit (eps : ℝ) (T : B → I → J → ℝ) : GSt B I J := { T := T, logT := fun t i j => Real.log (T t i j + eps), pot := { f := fun _ _ => 0, g := fun _ _ => 0 } }

/-- The outer loop (ot/batch/_quadratic.py 456-471). -/
noncomputable def gLoop (L : Tensor B I J D) (symmetric : Bool) (M : B → I → J → ℝ) (alpha reg : ℝ) (proj : (B → I → J → ℝ) → Batch B I J) (eps : ℝ) (T0 : B → I → J → ℝ) (maxIter : ℕ) (tol : ℝ) :
    Run (GSt B I J) :=
  loop (gStep L symmetric M alpha reg proj) (fun _ => False) (fun _ s s' => gStop tol s s') maxIter 0 (gInit eps T0)

/-- The fields of the `OTResult` (ot/batch/_quadratic.py 487-496) and how the loop ended (not part of the result). -/
structure GResult (B I J : Type*) where
  value : B → ℝ
  valueLinear : B → ℝ
  valueQuad : B → ℝ
  plan : B → I → J → ℝ
  potentials : (B → I → ℝ) × (B → J → ℝ)
  exit : Exit

/-- `M` and `alpha` after the checks (ot/batch/_quadratic.py 427-446). -/
noncomputable def linearPart (M : Option (B → I → J → ℝ)) (alpha : Option ℝ) : Option ((B → I → J → ℝ) × ℝ) :=
  match M, alpha with
  | none, none => some (fun _ _ _ => 0, 1)
  | some M, some alpha => if alpha < 0 ∨ 1 < alpha then none else some (M, alpha)
  | _, _ => none

/-- `solve_gromov_batch` (ot/batch/_quadratic.py 403-498). `none` models the exceptions: inconsistent `M`, `alpha`; unbound loop counters for `max_iter = 0` or `max_iter_inner = 0`. -/
noncomputable def solveGromovBatch (eps rtol atol : ℝ) (dec : VDecomp D) (C1 : B → I → I → D → ℝ) (C2 : B → J → J → D → ℝ) (reg : ℝ) (a : Option (B → I → ℝ)) (b : Option (B → J → ℝ))
    (symmetric : Option Bool) (M : Option (B → I → J → ℝ)) (alpha : Option ℝ) (Tinit : Option (B → I → J → ℝ)) (maxIter : ℕ) (tol : ℝ) (maxIterInner : ℕ) (tolInner : ℝ) : Option (GResult B I J) :=
  let a := a.getD fun _ _ => 1 / Fintype.card I
  let b := b.getD fun _ _ => 1 / Fintype.card J
  let sym := symFlag rtol atol symmetric C1 C2
  let L := computeTensor dec a b C1 C2 sym
  (linearPart M alpha).bind fun (M, alpha) =>
    if maxIter = 0 ∨ maxIterInner = 0 then none
    else
      let r := gLoop L sym M alpha reg (fun K => (bregmanLogBatch K a b maxIterInner tolInner).s) eps (Tinit.getD (initPlan a b)) maxIter tol
      let T := r.s.T
      let vl := lossLinear M T
      let vq := lossQuadratic L T true sym
      some
        { value := fun t => (1 - alpha) * vl t + alpha * vq t
          valueLinear := fun t => vl t * (1 - alpha)
          valueQuad := fun t => vq t * alpha
          plan := T
          potentials := (r.s.pot.f, r.s.pot.g)
          exit := r.exit }

end POT.BatchGromov
