import Verif.Model.LowRank
import Mathlib.Data.Matrix.Mul

/-!
# Model: Nyström kernels and the Sinkhorn solvers that use them (ot/lowrank.py 528-587, ot/bregman/_empirical.py 766-1000)

`n` source and `m` target points with `D` coordinates.  Real arithmetic.  `nx.randperm` is a parameter (a permutation of the source and one of the target points), and so is
`nx.pinv(·, hermitian=True)`; the theorems quantify over them.  The cut-off of small eigenvalues in `pinv` is not modelled.
-/

set_option linter.unusedSectionVars false

namespace POT.Nystroem

open Finset Spec LowRank Sinkhorn

variable {n m : ℕ} {D : Type*} [Fintype D]

/-- indices of the anchors: `min(n, k)` source and `min(m, k)` target points, `k = anchors // 2` (ot/lowrank.py 561-562) -/
abbrev Anchor (n m k : ℕ) := Fin (min n k) ⊕ Fin (min m k)

/-- `basis = concatenate((X_s[inds_source[:n_components_source]], X_t[inds_target[:n_components_target]]))` (ot/lowrank.py 564-570) -/
def basis (X : Fin n → D → ℝ) (Y : Fin m → D → ℝ) (k : ℕ) (indsSource : Equiv.Perm (Fin n)) (indsTarget : Equiv.Perm (Fin m)) : Anchor n m k → D → ℝ
  | .inl r => X (indsSource (Fin.castLE (min_le_left _ _) r))
  | .inr r => Y (indsTarget (Fin.castLE (min_le_left _ _) r))

/-- `exp(-dist(X, Z, metric="sqeuclidean") / (2.0 * sigma**2))` (ot/lowrank.py 572-573, 577-578, 580-581) -/
noncomputable def gauss {I L : Type*} (σ : ℝ) (X : I → D → ℝ) (Z : L → D → ℝ) : Matrix I L ℝ := fun i l => Real.exp (-(sqEuclid (X i) (Z l)) / (2 * σ ^ 2))

/-- `kernel_nystroem` for an accepted number of anchors (ot/lowrank.py 561-583): the pair `(left_factor, right_factor)` -/
noncomputable def factors {k : ℕ} (pinv : Matrix (Anchor n m k) (Anchor n m k) ℝ → Matrix (Anchor n m k) (Anchor n m k) ℝ) (X : Fin n → D → ℝ) (Y : Fin m → D → ℝ)
    (indsSource : Equiv.Perm (Fin n)) (indsTarget : Equiv.Perm (Fin m)) (σ : ℝ) : Matrix (Fin n) (Anchor n m k) ℝ × Matrix (Fin m) (Anchor n m k) ℝ :=
  let Z := basis X Y k indsSource indsTarget
  (gauss σ X Z * pinv (gauss σ Z Z), gauss σ Y Z)

/-- What the caller sees: the scalings with the way the loop ended (`log`), the kernel factors, the lazy plan and the loss of the second function. -/
structure Out (n m : ℕ) where
  k : ℕ
  left : Matrix (Fin n) (Anchor n m k) ℝ
  right : Matrix (Fin m) (Anchor n m k) ℝ
  run : Run (UV (Fin n) (Fin m))
  plan : Fin n → Fin m → ℝ
  loss : ℝ

/-- `loss = sum((Q.T @ M1) * (R.T @ M2))` with `Q = u * left_factor`, `R = v * right_factor` (ot/bregman/_empirical.py 986-991) -/
noncomputable def loss {C E : Type*} [Fintype C] [Fintype E] (M1 : Fin n → E → ℝ) (M2 : Fin m → E → ℝ) (left : Matrix (Fin n) C ℝ) (right : Matrix (Fin m) C ℝ) (s : UV (Fin n) (Fin m)) : ℝ :=
  ∑ c, ∑ e, (∑ i, s.u i * left i c * M1 i e) * ∑ j, s.v j * right j c * M2 j e

/-- `empirical_sinkhorn_nystroem` (ot/bregman/_empirical.py 766-867; the plan) and `empirical_sinkhorn_nystroem2` (869-1000; the loss).  Both draw the factors with
`sigma = (reg / 2.0) ** 0.5` and run `sinkhorn_low_rank_kernel`; `none` stands for the `ValueError` of ot/lowrank.py 558-559 (`anchors` is an integer here).
With an iteration limit of `0` the log is requested although the loop counter is unbound, and `empirical_sinkhorn_nystroem` raises; the model then gives the initial scalings. -/
noncomputable def empirical [NeZero n] [NeZero m] (pinv : ∀ k, Matrix (Anchor n m k) (Anchor n m k) ℝ → Matrix (Anchor n m k) (Anchor n m k) ℝ) (X : Fin n → D → ℝ) (Y : Fin m → D → ℝ)
    (indsSource : Equiv.Perm (Fin n)) (indsTarget : Equiv.Perm (Fin m)) (reg : ℝ) (anchors : ℤ) (a : Option (Fin n → ℝ)) (b : Option (Fin m → ℝ)) (numItermax : ℕ) (stopThr : ℝ)
    (warm : Option ((Fin n → ℝ) × (Fin m → ℝ))) : Option (Out n m) :=
  if anchors < 2 then none
  else
    let f := factors (pinv (anchors / 2).toNat) X Y indsSource indsTarget (√(reg / 2))
    let r := lrKernel f.1 f.2 (a.getD fun _ => 1 / n) (b.getD fun _ => 1 / m) numItermax stopThr warm
    let M := lrSq X Y false
    some ⟨_, f.1, f.2, r, lrkPlan f.1 f.2 r.s, loss M.1 M.2 f.1 f.2 r.s⟩

/-- How `solve_sample(method="nystroem")` ends; `ok value plan lazyPlan` with the other fields of the result `None`. -/
inductive SampleOut (n m : ℕ) where
  | notImplemented
  | error
  | ok (value : ℝ) (plan : Option (Fin n → Fin m → ℝ)) (lazyPlan : Fin n → Fin m → ℝ)

/-- the branch `method == "nystroem"` of `solve_sample` (ot/solvers.py 1894-1922, 2013-2023). `sqeuclidean` says that the metric is `sqeuclidean`, `lazy0` is the argument `lazy`. The arguments `c`, `reg_type`,
`unbalanced`, `plan_init`, `potentials_init` are not used by the branch. With `max_iter=0` the loop counter is unbound and the call raises. -/
noncomputable def solveSample [NeZero n] [NeZero m] (pinv : ∀ k, Matrix (Anchor n m k) (Anchor n m k) ℝ → Matrix (Anchor n m k) (Anchor n m k) ℝ) (X : Fin n → D → ℝ) (Y : Fin m → D → ℝ)
    (indsSource : Equiv.Perm (Fin n)) (indsTarget : Equiv.Perm (Fin m)) (sqeuclidean : Bool) (reg : Option ℝ) (rank : ℤ) (a : Option (Fin n → ℝ)) (b : Option (Fin m → ℝ)) (maxIter : Option ℕ) (tol : Option ℝ) (lazy0 : Bool) : SampleOut n m :=
  if sqeuclidean = false then .notImplemented
  else if maxIter = some 0 then .error
  else match empirical pinv X Y indsSource indsTarget (reg.getD 1) rank a b (maxIter.getD 1000) (tol.getD (1 / 10 ^ 7)) none with
    | none => .error
    | some o => .ok o.loss (if lazy0 then none else some o.plan) o.plan

end POT.Nystroem
