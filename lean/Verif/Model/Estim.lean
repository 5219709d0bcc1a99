import Verif.Model.Emd1d
import Verif.Spec.Transport
import Mathlib.Data.Fin.Tuple.Sort
import Mathlib.Data.Finset.Max
import Mathlib.Analysis.SpecialFunctions.Log.Basic

/-!
# Model: stochastic estimators of Gromov-Wasserstein (ot/gromov/_estimators.py)

The random generator is outside the model: everything it returns (`generator.choice`, `generator.rand`) is an argument, and what is random is quantified or averaged over in the theorems. Real arithmetic.
-/

set_option linter.unusedSectionVars false

namespace POT.Estim

open Finset Classical POT.Emd1d

/-- `generator.choice(n, size=size, p=w, replace=False)` succeeds: there are at least `size` non-zero probabilities (116-121, 404-406, 414-419) -/
def canDraw {n : ℕ} (w : Fin n → ℝ) (size : ℕ) : Prop := size ≤ (univ.filter fun i => w i ≠ 0).card

/-- `T_indexi / sum(T_indexi)`: the law of a column drawn in row `i` (131-142, 253-257, 409-419) -/
noncomputable def rowLaw {n m : ℕ} (T : Fin n → Fin m → ℝ) (i : Fin n) (j : Fin m) : ℝ := T i j / ∑ j, T i j

/-- `nb_samples_p` (99-107); `sparse`: the plan is a sparse matrix -/
noncomputable def nbSamplesP (n : ℕ) (sparse : Bool) (given : Option ℕ) : ℕ :=
  match given with
  | some k => min k n
  | none => if sparse then min ⌊5 * Real.sqrt (n * Real.log n)⌋₊ n else n

/-- `nb_samples_q` (108-111) -/
def nbSamplesQ (std : Bool) (given : Option ℕ) : ℕ := let r := given.getD 1; if std then max 2 r else r

/-- the draws of `GW_distance_estimation` (113-142): rows `i`, `j` and columns `k`, `l` -/
structure Draws (n m s r : ℕ) where
  i : Fin s → Fin n
  j : Fin s → Fin n
  k : Fin s → Fin r → Fin m
  l : Fin s → Fin r → Fin m

/-- `mean(list_value_sample)` (144-158): the entry `(a, b, c)` is `loss(C1[i_a, j_b], C2[k_ac, l_bc])` -/
noncomputable def estimate {n m s r : ℕ} (L : ℝ → ℝ → ℝ) (C1 : Fin n → Fin n → ℝ) (C2 : Fin m → Fin m → ℝ) (d : Draws n m s r) : ℝ :=
  (∑ a, ∑ b, ∑ c, L (C1 (d.i a) (d.j b)) (C2 (d.k a c) (d.l b c))) / ((s : ℝ) * s * r)

/-- `GW_distance_estimation` with `std=False`: if the source is smaller than the target, the two are exchanged (93-97) *but the arguments of the loss are not exchanged back* (146-147) -/
noncomputable def gwEstimation {n m s r : ℕ} (L : ℝ → ℝ → ℝ) (C1 : Fin n → Fin n → ℝ) (C2 : Fin m → Fin m → ℝ) (d : Draws n m s r) (d' : Draws m n s r) : ℝ :=
  if n < m then estimate L C2 C1 d' else estimate L C1 C2 d

/-! ### `pointwise_gromov_wasserstein` -/

/-- `emd_1d(C1[i], C2[j], a=p, b=q)` (248, 261, 263), with its defaults `sqeuclidean`, `p=1`; `none` on an error -/
noncomputable def plan1d {n m : ℕ} (p : Fin n → ℝ) (q : Fin m → ℝ) (x : Fin n → ℝ) (y : Fin m → ℝ) : Option (Fin n → Fin m → ℝ) :=
  match emd1d .sqeuclidean 1 x y p q (Tuple.sort x) (Tuple.sort y) with
  | some (.ok r) => some r.1
  | _ => none

/-- `eliminate_zeros(T, threshold)` (266; ot/backend.py 1446-1454) -/
noncomputable def elimZeros {n m : ℕ} (thr : ℝ) (T : Fin n → Fin m → ℝ) : Fin n → Fin m → ℝ := fun i j => if 0 < thr ∧ |T i j| ≤ thr then 0 else T i j

section pointwise

variable {n m : ℕ} (C1 : Fin n → Fin n → ℝ) (C2 : Fin m → Fin m → ℝ) (p : Fin n → ℝ) (q : Fin m → ℝ) (α thr : ℝ)

/-- one Frank-Wolfe step with the drawn row and column (260-266) -/
noncomputable def pwStep (T : Fin n → Fin m → ℝ) (ij : Fin n × Fin m) : Option (Fin n → Fin m → ℝ) :=
  (plan1d p q (C1 ij.1) (C2 ij.2)).map fun G => if α = 1 then G else elimZeros thr fun i j => (1 - α) * T i j + α * G i j

/-- the plan after `k` iterations (246-248, 251-266); `idx 0` is the pair of the initialisation, `idx (k + 1)` that of iteration `k` -/
noncomputable def pwIterate (idx : ℕ → Fin n × Fin m) : ℕ → Option (Fin n → Fin m → ℝ)
  | 0 => plan1d p q (C1 (idx 0).1) (C2 (idx 0).2)
  | k + 1 => (pwIterate idx k).bind fun T => pwStep C1 C2 p q α thr T (idx (k + 1))

/-- the iterations at which the plan is evaluated (268) -/
def evaluated (maxIter k : ℕ) : Prop := k % 10 = 0 ∨ k + 1 = maxIter

/-- best estimate and plan after `k` iterations (250, 268-282); `none`: `best_T` is unbound. `est k T` is the estimate drawn in iteration `k` -/
noncomputable def pwBest (idx : ℕ → Fin n × Fin m) (est : ℕ → (Fin n → Fin m → ℝ) → ℝ) (maxIter : ℕ) : ℕ → Option (ℝ × (Fin n → Fin m → ℝ))
  | 0 => none
  | k + 1 =>
    match pwIterate C1 C2 p q α thr idx (k + 1) with
    | none => none
    | some T =>
      if evaluated maxIter k then
        match pwBest idx est maxIter k with
        | none => some (est k T, T)
        | some (e, B) => if est k T < e then some (est k T, T) else some (e, B)
      else pwBest idx est maxIter k

/-- `pointwise_gromov_wasserstein` (161-299): the returned plan, `none` on an error -/
noncomputable def pointwise (idx : ℕ → Fin n × Fin m) (est : ℕ → (Fin n → Fin m → ℝ) → ℝ) (maxIter : ℕ) : Option (Fin n → Fin m → ℝ) :=
  (pwBest C1 C2 p q α thr idx est maxIter maxIter).map Prod.snd

end pointwise

/-! ### `sampled_gromov_wasserstein` -/

/-- `nb_samples_grad_p`, `nb_samples_grad_q` for an integer `nb_samples_grad` (385-391) -/
def gradBudget (nb n : ℕ) : ℕ × ℕ := if n < nb then (n, nb / n) else (nb, 1)

/-- `Lik` (407-436) for drawn rows `i`, drawn columns `l` and the coin of the non-symmetric case (`true`: columns of `C1`, `C2`, 421-428; `false`: rows, 429-436) -/
noncomputable def lik {n m s r : ℕ} (L : ℝ → ℝ → ℝ) (C1 : Fin n → Fin n → ℝ) (C2 : Fin m → Fin m → ℝ) (i : Fin s → Fin n) (l : Fin s → Fin r → Fin m) (coin : Fin s → Bool) (x : Fin n) (y : Fin m) : ℝ :=
  ∑ a, if coin a then (∑ c, L (C1 x (i a)) (C2 y (l a c))) / r else (∑ c, L (C1 (i a) x) (C2 (l a c) y)) / r

section sampled

variable {n m : ℕ} [NeZero n] [NeZero m]

/-- `max_Lik` (438) -/
noncomputable def maxEntry (A : Fin n → Fin m → ℝ) : ℝ := univ.sup' univ_nonempty fun x : Fin n × Fin m => A x.1 x.2

/-- the cost handed to the inner solver (442-448), for entries of `T` between `exp(-200)` and `1` -/
noncomputable def innerCost (ε : ℝ) (A : Fin n → Fin m → ℝ) (T : Fin n → Fin m → ℝ) : Fin n → Fin m → ℝ := fun i j =>
  if 0 < ε then A i j / maxEntry A - ε * Real.log (T i j) else A i j / maxEntry A

/-- `mean((T - new_T) ** 2)` (458) -/
noncomputable def change (T U : Fin n → Fin m → ℝ) : ℝ := (∑ i, ∑ j, (T i j - U i j) ^ 2) / ((n : ℝ) * m)

/-- the loop (403-473) over the drawn `Lik`s; state: plan and `continue_loop`. `solve` is `sinkhorn(p, q, ·, ε)` or `emd(p, q, ·)` (450-456), `none` when a warning is raised (452-454) -/
noncomputable def sgLoop (ε : ℝ) (solve : (Fin n → Fin m → ℝ) → Option (Fin n → Fin m → ℝ)) : List (Fin n → Fin m → ℝ) → (Fin n → Fin m → ℝ) → ℕ → Fin n → Fin m → ℝ
  | [], T, _ => T
  | A :: As, T, c =>
    if maxEntry A = 0 then sgLoop ε solve As T c else
    match solve (innerCost ε A T) with
    | none => T
    | some U =>
      if change T U ≤ 10 / 10 ^ 20 then
        if c + 1 > 100 then U else sgLoop ε solve As U (c + 1)
      else sgLoop ε solve As U 0

/-- `sampled_gromov_wasserstein` (302-481): starts from the product plan (394) -/
noncomputable def sampled (ε : ℝ) (solve : (Fin n → Fin m → ℝ) → Option (Fin n → Fin m → ℝ)) (p : Fin n → ℝ) (q : Fin m → ℝ) (As : List (Fin n → Fin m → ℝ)) : Fin n → Fin m → ℝ :=
  sgLoop ε solve As (fun i j => p i * q j) 0

end sampled

end POT.Estim
