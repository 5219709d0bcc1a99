import Verif.Model.EntBary

/-!
# Model of the convolutional barycenters (`ot/bregman/_convolutional.py`)

Images are functions `Fin w → Fin h → ℝ`, stacks of images are indexed by `S`. Real arithmetic is exact. `stabThr` is the parameter `δ` (it is an argument of the functions, reachable through
`**kwargs`). Printing, logging and the warning are not modelled.
-/

set_option linter.unusedSectionVars false

namespace POT.Conv

open Finset Sinkhorn

variable {S : Type*} [Fintype S] {w h : ℕ}

/-- `nx.linspace(0, 1, n)` (ot/bregman/_convolutional.py 27, 31): `i / (n - 1)`, and `0` for `n = 1`. -/
noncomputable def linspace01 (n : ℕ) : Fin n → ℝ := fun i => (i : ℝ) / ((n : ℝ) - 1)

/-- `Y1, X1 = nx.meshgrid(t1, t1)`, `M1 = -((X1 - Y1) ** 2) / reg` (ot/bregman/_convolutional.py 28-29, 32-33): `X1[i, j] = t1[i]`, `Y1[i, j] = t1[j]`
(up to the order of the two arrays, which does not matter here). -/
noncomputable def axisLog (n : ℕ) (reg : ℝ) : Fin n → Fin n → ℝ := fun i j => -((linspace01 n i - linspace01 n j) ^ 2) / reg

/-- `convol_imgs` (ot/bregman/_convolutional.py 37-42). -/
noncomputable def convol (reg : ℝ) (imgs : S → Fin w → Fin h → ℝ) : S → Fin w → Fin h → ℝ :=
  let kx : S → Fin w → Fin h → ℝ := fun k i l => ∑ j, Real.exp (axisLog w reg i j) * imgs k j l
  fun k l i => ∑ j, Real.exp (axisLog h reg i j) * kx k l j

/-- `convol_imgs` in the log domain (ot/bregman/_convolutional.py 47-50). -/
noncomputable def logConvol (reg : ℝ) (img : Fin w → Fin h → ℝ) : Fin w → Fin h → ℝ :=
  let l1 : Fin w → Fin h → ℝ := fun i l => logsumexp fun j => axisLog w reg i j + img j l
  fun i a => logsumexp fun b => axisLog h reg a b + l1 i b

/-- `nx.sum(nx.std(X, axis=0))` (ot/bregman/_convolutional.py 210, 282, 449, 522). -/
noncomputable def stdSum (X : S → Fin w → Fin h → ℝ) : ℝ :=
  ∑ i, ∑ l, Real.sqrt ((∑ k, (X k i l - (∑ r, X r i l) / Fintype.card S) ^ 2) / Fintype.card S)

/-- Weights used when `weights is None` (ot/bregman/_convolutional.py 186, 260, 420, 496). -/
noncomputable def uniformW : S → ℝ := fun _ => 1 / Fintype.card S

/-! ### `_convolutional_barycenter2d` -/

/-- The variables `bar`, `U`, `V`, `KU`. -/
structure State (S : Type*) (w h : ℕ) where
  bar : Fin w → Fin h → ℝ
  U : S → Fin w → Fin h → ℝ
  V : S → Fin w → Fin h → ℝ
  KU : S → Fin w → Fin h → ℝ

/-- Initial values (ot/bregman/_convolutional.py 193-202). -/
noncomputable def init (reg : ℝ) : State S w h :=
  { bar := fun _ _ => 1 / ∑ _i : Fin w, ∑ _l : Fin h, (1 : ℝ), U := fun _ _ _ => 1, V := fun _ _ _ => 1, KU := convol reg fun _ _ _ => 1 }

/-- One iteration (ot/bregman/_convolutional.py 204-208). -/
noncomputable def step (δ reg : ℝ) (A : S → Fin w → Fin h → ℝ) (wt : S → ℝ) (x : State S w h) : State S w h :=
  let V : S → Fin w → Fin h → ℝ := fun k i l => x.bar i l / x.KU k i l
  let KV := convol reg V
  let U : S → Fin w → Fin h → ℝ := fun k i l => A k i l / KV k i l
  let KU := convol reg U
  { bar := fun i l => Real.exp (∑ k, wt k * Real.log (KU k i l + δ)), U := U, V := V, KU := KU }

/-- The loop (ot/bregman/_convolutional.py 203-217). -/
noncomputable def run (δ reg : ℝ) (A : S → Fin w → Fin h → ℝ) (wt : S → ℝ) (thr : ℝ) (numItermax : ℕ) : Run (State S w h) :=
  loop (step δ reg A wt) (fun _ => False) (fun ii _ x => ii % 10 = 9 ∧ stdSum (fun k i l => x.V k i l * x.KU k i l) < thr) numItermax 0 (init reg)

/-- `_convolutional_barycenter2d` (ot/bregman/_convolutional.py 165-228). -/
noncomputable def barycenter2d (δ reg : ℝ) (A : S → Fin w → Fin h → ℝ) (wt : S → ℝ) (thr : ℝ) (numItermax : ℕ) : Fin w → Fin h → ℝ :=
  (run δ reg A wt thr numItermax).s.bar

/-! ### `_convolutional_barycenter2d_log` -/

/-- `G`, and `log_KU`, `log_bar` and the stack `G + log_KU` (at the time of the test) of the last iteration. -/
structure LogState (S : Type*) (w h : ℕ) where
  G : S → Fin w → Fin h → ℝ
  KU : S → Fin w → Fin h → ℝ
  bar : Fin w → Fin h → ℝ
  GKU : S → Fin w → Fin h → ℝ

/-- One iteration (ot/bregman/_convolutional.py 275-290) with `logA = nx.log(A + stabThr)` (271). When the loop breaks the code leaves `G` at its old value, but it is not used any more. -/
noncomputable def logStep (δ reg : ℝ) (A : S → Fin w → Fin h → ℝ) (wt : S → ℝ) (x : LogState S w h) : LogState S w h :=
  let f : S → Fin w → Fin h → ℝ := fun k i l => Real.log (A k i l + δ) - logConvol reg (x.G k) i l
  let KU : S → Fin w → Fin h → ℝ := fun k => logConvol reg (f k)
  let bar : Fin w → Fin h → ℝ := fun i l => ∑ k, wt k * KU k i l
  { G := fun k i l => bar i l - KU k i l, KU := KU, bar := bar, GKU := fun k i l => x.G k i l + KU k i l }

/-- Initial values (ot/bregman/_convolutional.py 272, 275). -/
def logInit : LogState S w h := { G := fun _ _ _ => 0, KU := fun _ _ _ => 0, bar := fun _ _ => 0, GKU := fun _ _ _ => 0 }

/-- The loop (ot/bregman/_convolutional.py 274-290). -/
noncomputable def logRun (δ reg : ℝ) (A : S → Fin w → Fin h → ℝ) (wt : S → ℝ) (thr : ℝ) (numItermax : ℕ) : Run (LogState S w h) :=
  loop (logStep δ reg A wt) (fun _ => False) (fun ii _ x => ii % 10 = 9 ∧ stdSum (fun k i l => Real.exp (x.GKU k i l)) < thr) numItermax 0 logInit

/-- `_convolutional_barycenter2d_log` (ot/bregman/_convolutional.py 231-299). -/
noncomputable def barycenter2dLog (δ reg : ℝ) (A : S → Fin w → Fin h → ℝ) (wt : S → ℝ) (thr : ℝ) (numItermax : ℕ) : Fin w → Fin h → ℝ :=
  fun i l => Real.exp ((logRun δ reg A wt thr numItermax).s.bar i l)

/-! ### shapes in the debiased method -/

/-- Shape of `nx.squeeze(x)`: all axes of length one are removed (ot/bregman/_convolutional.py 446). -/
def squeeze (shape : List ℕ) : List ℕ := shape.filter (· ≠ 1)

/-- Broadcasting of two shapes given from the last axis to the first; `none` is an error. -/
def broadcastRev : List ℕ → List ℕ → Option (List ℕ)
  | [], t => some t
  | s, [] => some s
  | a :: s, b :: t =>
    if a = b ∨ b = 1 then (broadcastRev s t).map (a :: ·)
    else if a = 1 then (broadcastRev s t).map (b :: ·)
    else none

/-- Shape of an elementwise operation on arrays of these shapes. -/
def broadcast (s t : List ℕ) : Option (List ℕ) := (broadcastRev s.reverse t.reverse).map List.reverse

/-- Shape of `(c * bar / nx.squeeze(convol_imgs(c[None]))) ** 0.5` for `c` and `bar` of shape `(w, h)` (ot/bregman/_convolutional.py 446). -/
def debCShape (w h : ℕ) : Option (List ℕ) := (broadcast [w, h] [w, h]).bind fun s => broadcast s (squeeze [1, w, h])

/-! ### `_convolutional_barycenter2d_debiased` -/

/-- The variables `bar`, `V`, `KU`, `c`. -/
structure DebState (S : Type*) (w h : ℕ) where
  bar : Fin w → Fin h → ℝ
  V : S → Fin w → Fin h → ℝ
  KU : S → Fin w → Fin h → ℝ
  c : Fin w → Fin h → ℝ

/-- Initial values (ot/bregman/_convolutional.py 427-437). -/
noncomputable def debInit (reg : ℝ) : DebState S w h :=
  { bar := fun _ _ => 1 / ((w : ℝ) * h), V := fun _ _ _ => 1, KU := convol reg fun _ _ _ => 1, c := fun _ _ => 1 }

/-- `c = (c * bar / nx.squeeze(convol_imgs(c[None]))) ** 0.5` (ot/bregman/_convolutional.py 446), when its shape is that of the images (see `debCShape`). -/
noncomputable def debC (reg : ℝ) (bar c : Fin w → Fin h → ℝ) : Fin w → Fin h → ℝ :=
  fun i l => Real.sqrt (c i l * bar i l / convol reg (fun _ : Unit => c) () i l)

/-- One iteration (ot/bregman/_convolutional.py 439-446). -/
noncomputable def debStep (δ reg : ℝ) (A : S → Fin w → Fin h → ℝ) (wt : S → ℝ) (x : DebState S w h) : DebState S w h :=
  let V : S → Fin w → Fin h → ℝ := fun k i l => x.bar i l / x.KU k i l
  let KV := convol reg V
  let U : S → Fin w → Fin h → ℝ := fun k i l => A k i l / KV k i l
  let KU := convol reg U
  let bar : Fin w → Fin h → ℝ := fun i l => x.c i l * Real.exp (∑ k, wt k * Real.log (KU k i l + δ))
  { bar := bar, V := V, KU := KU, c := (debC reg bar)^[10] x.c }

/-- The loop (ot/bregman/_convolutional.py 438-459). -/
noncomputable def debRun (δ reg : ℝ) (A : S → Fin w → Fin h → ℝ) (wt : S → ℝ) (thr : ℝ) (numItermax : ℕ) : Run (DebState S w h) :=
  loop (debStep δ reg A wt) (fun _ => False) (fun ii _ x => ii % 10 = 9 ∧ stdSum (fun k i l => x.V k i l * x.KU k i l) < thr ∧ 20 < ii) numItermax 0 (debInit reg)

/-- `_convolutional_barycenter2d_debiased` (ot/bregman/_convolutional.py 401-469): `none` when the result does not have the shape of the images. The wrong shape of `c` reaches `bar` in the
second iteration. -/
noncomputable def debiased2d (δ reg : ℝ) (A : S → Fin w → Fin h → ℝ) (wt : S → ℝ) (thr : ℝ) (numItermax : ℕ) : Option (Fin w → Fin h → ℝ) :=
  if numItermax ≤ 1 ∨ debCShape w h = some [w, h] then some (debRun δ reg A wt thr numItermax).s.bar else none

/-! ### `_convolutional_barycenter2d_debiased_log` -/

/-- `G`, `c`, and `log_bar` and the stack `G + log_KU` (at the time of the test) of the last iteration. -/
structure DebLogState (S : Type*) (w h : ℕ) where
  G : S → Fin w → Fin h → ℝ
  c : Fin w → Fin h → ℝ
  bar : Fin w → Fin h → ℝ
  GKU : S → Fin w → Fin h → ℝ

/-- `c = 0.5 * (c + log_bar - convol_img(c))` (ot/bregman/_convolutional.py 519). -/
noncomputable def debLogC (reg : ℝ) (bar c : Fin w → Fin h → ℝ) : Fin w → Fin h → ℝ := fun i l => 0.5 * (c i l + bar i l - logConvol reg c i l)

/-- One iteration (ot/bregman/_convolutional.py 512-530). When the loop breaks the code leaves `G` at its old value, but it is not used any more. -/
noncomputable def debLogStep (δ reg : ℝ) (A : S → Fin w → Fin h → ℝ) (wt : S → ℝ) (x : DebLogState S w h) : DebLogState S w h :=
  let f : S → Fin w → Fin h → ℝ := fun k i l => Real.log (A k i l + δ) - logConvol reg (x.G k) i l
  let KU : S → Fin w → Fin h → ℝ := fun k => logConvol reg (f k)
  let bar : Fin w → Fin h → ℝ := fun i l => (∑ k, wt k * KU k i l) + x.c i l
  { G := fun k i l => bar i l - KU k i l, c := (debLogC reg bar)^[10] x.c, bar := bar, GKU := fun k i l => x.G k i l + KU k i l }

/-- Initial values (ot/bregman/_convolutional.py 508-509). -/
def debLogInit : DebLogState S w h := { G := fun _ _ _ => 0, c := fun _ _ => 0, bar := fun _ _ => 0, GKU := fun _ _ _ => 0 }

/-- The loop (ot/bregman/_convolutional.py 511-530). -/
noncomputable def debLogRun (δ reg : ℝ) (A : S → Fin w → Fin h → ℝ) (wt : S → ℝ) (thr : ℝ) (numItermax : ℕ) : Run (DebLogState S w h) :=
  loop (debLogStep δ reg A wt) (fun _ => False) (fun ii _ x => ii % 10 = 9 ∧ stdSum (fun k i l => Real.exp (x.GKU k i l)) < thr ∧ 20 < ii) numItermax 0 debLogInit

/-- `_convolutional_barycenter2d_debiased_log` (ot/bregman/_convolutional.py 472-539). -/
noncomputable def debiased2dLog (δ reg : ℝ) (A : S → Fin w → Fin h → ℝ) (wt : S → ℝ) (thr : ℝ) (numItermax : ℕ) : Fin w → Fin h → ℝ :=
  fun i l => Real.exp ((debLogRun δ reg A wt thr numItermax).s.bar i l)

end POT.Conv
