import Verif.Spec.Dr
import Verif.Model.Sinkhorn
import Mathlib.LinearAlgebra.Matrix.NonsingularInverse

/-! # Model of `fda` and of the loss of `wda` (ot/dr.py 37-283)

Labels are indices `Fin nc` into `np.unique(y)`.  The generalised eigenvalue solver `scipy.linalg.eig` and `np.argsort` are parameters.  Simplified: real arithmetic (the code casts the class samples to `float32`), and the manifold solver of
`pymanopt` is not modelled: only the function it is given. -/

set_option linter.unusedSectionVars false

namespace POT.Fda

open Finset Matrix POT.Sinkhorn

variable {N : Type*} [Fintype N] {nc d p : ℕ}

/-- `np.mean(X)` (ot/dr.py 104, 221): the mean of all the entries. -/
noncomputable def meanAll (X : N → Fin d → ℝ) : ℝ := (∑ i, ∑ e, X i e) / ((Fintype.card N : ℝ) * d)

/-- `X -= mx` (ot/dr.py 105, 222): what the caller's array holds afterwards. -/
noncomputable def shift (X : N → Fin d → ℝ) : N → Fin d → ℝ := fun i e => X i e - meanAll X

/-- `np.mean(xc[i])` (ot/dr.py 122): the mean of all the entries of the samples of class `c`. -/
noncomputable def classMean (X : N → Fin d → ℝ) (y : N → Fin nc) (c : Fin nc) : ℝ := (∑ i with y i = c, ∑ e, X i e) / ((#{i | y i = c} : ℝ) * d)

/-- Column means used by `np.cov`. -/
noncomputable def covMean (X : N → Fin d → ℝ) (y : N → Fin nc) (c : Fin nc) (e : Fin d) : ℝ := (∑ i with y i = c, X i e) / #{i | y i = c}

/-- `np.cov(x, rowvar=False)` for the samples of class `c` (ot/dr.py 116). -/
noncomputable def cov (X : N → Fin d → ℝ) (y : N → Fin nc) (c : Fin nc) : Matrix (Fin d) (Fin d) ℝ :=
  of fun e f => (∑ i with y i = c, (X i e - covMean X y c e) * (X i f - covMean X y c f)) / ((#{i | y i = c} : ℝ) - 1)

/-- `Cw` (ot/dr.py 114-117). -/
noncomputable def within (X : N → Fin d → ℝ) (y : N → Fin nc) : Matrix (Fin d) (Fin d) ℝ := (1 / (nc : ℝ)) • ∑ c, cov X y c

/-- `mxc` (ot/dr.py 119-122): the same number in every row. -/
noncomputable def mxc (X : N → Fin d → ℝ) (y : N → Fin nc) : Matrix (Fin d) (Fin nc) ℝ := of fun _ c => classMean X y c

/-- `Cb` (ot/dr.py 124-127). -/
noncomputable def between (X : N → Fin d → ℝ) (y : N → Fin nc) : Matrix (Fin d) (Fin d) ℝ :=
  of fun e f => ∑ c, (mxc X y e c - (∑ c', mxc X y e c') / nc) * (mxc X y f c - (∑ c', mxc X y f c') / nc)

/-- `scipy.linalg.eig(A, B)` and `np.argsort`. -/
structure Ext (d : ℕ) where
  w : Matrix (Fin d) (Fin d) ℝ → Matrix (Fin d) (Fin d) ℝ → Fin d → ℝ
  V : Matrix (Fin d) (Fin d) ℝ → Matrix (Fin d) (Fin d) ℝ → Matrix (Fin d) (Fin d) ℝ
  argsort : (Fin d → ℝ) → List (Fin d)

/-- What they promise: independent generalised eigenvectors for a symmetric matrix and a positive definite one, and a sorted list of all the indices. -/
def Ext.Ok (E : Ext d) : Prop :=
  (∀ A B : Matrix (Fin d) (Fin d) ℝ, Aᵀ = A → (∀ x, x ≠ 0 → 0 < x ⬝ᵥ (B *ᵥ x)) → Bᵀ = B → IsUnit (E.V A B).det ∧ ∀ j e, ∑ f, A e f * E.V A B f j = E.w A B j * ∑ f, B e f * E.V A B f j) ∧
  ∀ w : Fin d → ℝ, (E.argsort w).Perm (List.finRange d) ∧ (E.argsort w).Pairwise fun a b => w a ≤ w b

/-- The slice `idx[-p:]` (ot/dr.py 133): everything for `p = 0`. -/
def lastSlice {α : Type*} (l : List α) (p : ℕ) : List α := if p = 0 then l else l.drop (l.length - p)

/-- What `fda` returns: the directions, the projection function, and the content of the caller's array. -/
structure Out (N : Type*) (d : ℕ) where
  P : List (Fin d → ℝ)
  proj : (Fin d → ℝ) → List ℝ
  X : N → Fin d → ℝ

/-- `fda` (ot/dr.py 82-138). -/
noncomputable def fda (E : Ext d) (X : N → Fin d → ℝ) (y : N → Fin nc) (p : ℕ) (reg : ℝ) : Out N d :=
  let X' := shift X
  let A := between X' y
  let B := within X' y + reg • 1
  let P := (lastSlice (E.argsort (E.w A B)) (min (nc - 1) p)).map fun j e => E.V A B e j
  { P := P, proj := fun x => P.map fun v => ∑ e, (x e - meanAll X) * v e, X := X' }

/-! ## The loss of `wda` -/

variable {I J : Type*} [Fintype I] [Fintype J] {k : ℕ}

/-- One iteration of `ot.dr.sinkhorn` (ot/dr.py 50-51), `δ = 1e-50`. -/
noncomputable def gStep (δ : ℝ) (w1 : I → ℝ) (w2 : J → ℝ) (K : I → J → ℝ) (s : UV I J) : UV I J :=
  let v := fun j => w2 j / (∑ i, K i j * s.u i + δ)
  { u := fun i => w1 i / (∑ j, K i j * v j + δ), v := v }

/-- `ot.dr.sinkhorn` (ot/dr.py 44-53). -/
noncomputable def sinkhornK (δ : ℝ) (w1 : I → ℝ) (w2 : J → ℝ) (M : I → J → ℝ) (reg : ℝ) (k : ℕ) : I → J → ℝ :=
  plan (fun i j => Real.exp (-M i j / reg)) ((gStep δ w1 w2 fun i j => Real.exp (-M i j / reg))^[k] { u := fun _ => 1, v := fun _ => 1 })

/-- One iteration of `ot.dr.sinkhorn_log` (ot/dr.py 70-71).  The maximum subtracted inside `logsumexp` (56-59) cancels in real arithmetic. -/
noncomputable def lStep (w1 : I → ℝ) (w2 : J → ℝ) (M : I → J → ℝ) (reg : ℝ) (s : UV I J) : UV I J :=
  let v := fun j => Real.log (w2 j) - Real.log (∑ i, Real.exp (-M i j / reg + s.u i))
  { u := fun i => Real.log (w1 i) - Real.log (∑ j, Real.exp (-M i j / reg + v j)), v := v }

/-- `ot.dr.sinkhorn_log` (ot/dr.py 62-73). -/
noncomputable def sinkhornKLog (w1 : I → ℝ) (w2 : J → ℝ) (M : I → J → ℝ) (reg : ℝ) (k : ℕ) : I → J → ℝ :=
  let s := (lStep w1 w2 M reg)^[k] { u := fun _ => 0, v := fun _ => 0 }
  fun i j => Real.exp (s.u i + -M i j / reg + s.v j)

inductive Solver | plain | log

/-- The solver chosen by `sinkhorn_method` (ot/dr.py 214-219). -/
noncomputable def solve (m : Solver) (δ : ℝ) (w1 : I → ℝ) (w2 : J → ℝ) (M : I → J → ℝ) (reg : ℝ) (k : ℕ) : I → J → ℝ :=
  match m with
  | .plain => sinkhornK δ w1 w2 M reg k
  | .log => sinkhornKLog w1 w2 M reg k

/-- `np.dot(xi, P)` (ot/dr.py 251, 253). -/
def projP (P : Matrix (Fin d) (Fin p) ℝ) (x : Fin d → ℝ) (q : Fin p) : ℝ := ∑ e, x e * P e q

/-- `ot.dr.dist` of two projected samples (ot/dr.py 37-41). -/
def distP (P : Matrix (Fin d) (Fin p) ℝ) (x z : Fin d → ℝ) : ℝ := ∑ q, projP P x q ^ 2 + ∑ q, projP P z q ^ 2 - 2 * ∑ q, projP P x q * projP P z q

/-- `regmean[i, j]` for the pair of classes `c`, `c'` (ot/dr.py 231-241); the code stores it at the offset `c' - c` and reads it there. -/
noncomputable def regMean (X : N → Fin d → ℝ) (y : N → Fin nc) (P0 : Option (Matrix (Fin d) (Fin p) ℝ)) (normalize : Bool) (c c' : Fin nc) : ℝ :=
  match P0, normalize with
  | some P, true => (∑ i : {i // y i = c}, ∑ j : {i // y i = c'}, distP P (X i.1) (X j.1)) / ((Fintype.card {i // y i = c} : ℝ) * Fintype.card {i // y i = c'})
  | _, _ => 1

/-- `np.sum(G * M)` for two classes (ot/dr.py 251-259). -/
noncomputable def classLoss (m : Solver) (δ : ℝ) (X : N → Fin d → ℝ) (y : N → Fin nc) (P : Matrix (Fin d) (Fin p) ℝ) (reg : ℝ) (k : ℕ) (c c' : Fin nc) : ℝ :=
  ∑ i : {i // y i = c}, ∑ j : {i // y i = c'}, solve m δ (fun _ : {i // y i = c} => 1 / (Fintype.card {i // y i = c} : ℝ)) (fun _ : {i // y i = c'} => 1 / (Fintype.card {i // y i = c'} : ℝ))
    (fun i j => distP P (X i.1) (X j.1)) reg k i j * distP P (X i.1) (X j.1)

/-- The function minimised by `wda` (ot/dr.py 244-262), on the shifted samples. -/
noncomputable def wdaLoss (m : Solver) (δ : ℝ) (X : N → Fin d → ℝ) (y : N → Fin nc) (reg : ℝ) (k : ℕ) (P0 : Option (Matrix (Fin d) (Fin p) ℝ)) (normalize : Bool) (P : Matrix (Fin d) (Fin p) ℝ) : ℝ :=
  (∑ c, classLoss m δ (shift X) y P (reg * regMean (shift X) y P0 normalize c c) k c c) /
    ∑ c, ∑ c' with c < c', classLoss m δ (shift X) y P (reg * regMean (shift X) y P0 normalize c c') k c c'

end POT.Fda
