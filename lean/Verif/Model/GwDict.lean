import Mathlib.Data.Real.Basic
import Mathlib.Analysis.SpecialFunctions.Pow.Real
import Mathlib.Algebra.BigOperators.Field
import Mathlib.Data.Finset.Lattice.Fold

/-!
# Model: `ot/gromov/_dictionary.py` (linear unmixing, dictionary updates)

Real numbers instead of floating point.  `gromov_wasserstein` and `fused_gromov_wasserstein` are parameters.
In-place updates are values returned.
-/

set_option linter.unusedSectionVars false

namespace POT.GwDict

variable {I J D K : Type} [Fintype I] [Fintype J] [Fintype D] [Fintype K]

/-- `const_q = q[:, None] * q[None, :]` (ot/gromov/_dictionary.py:353, 982). -/
def constQ (q : J → ℝ) : J → J → ℝ := fun k l => q k * q l

/-- `const_TCT = np.transpose(C.dot(T)).dot(T)` (ot/gromov/_dictionary.py:480, 1147). -/
def constTCT (C : I → I → ℝ) (T : I → J → ℝ) : J → J → ℝ := fun k l => ∑ i, (∑ j, C i j * T j k) * T i l

/-- `np.sum(w[:, None, None] * Cdict, axis=0)` (ot/gromov/_dictionary.py:351, 978-979, 564). -/
def embed {A B : Type} (w : D → ℝ) (M : D → A → B → ℝ) : A → B → ℝ := fun a b => ∑ d, w d * M d a b

section direction
variable [Nonempty D]

/-- `min_ = np.min(grad_w); x = (grad_w == min_); x /= np.sum(x)` (ot/gromov/_dictionary.py:493-495, 1169-1171). -/
noncomputable def direction (grad : D → ℝ) : D → ℝ :=
  let mn := Finset.univ.inf' Finset.univ_nonempty grad
  let x : D → ℝ := fun d => if grad d = mn then 1 else 0
  fun d => x d / ∑ e, x e

end direction

/-- `gamma` from the coefficients of the parabola (ot/gromov/_dictionary.py:574-579, 1307-1312). -/
noncomputable def stepSize (a b : ℝ) : ℝ :=
  if a > 0 then min 1 (max 0 (-b / (2 * a)))
  else if a + b < 0 then 1
  else 0

/-! ## Gromov-Wasserstein -/

/-- `grad_w` (ot/gromov/_dictionary.py:485-490). -/
def gradGw (reg : ℝ) (q : J → ℝ) (TCT : J → J → ℝ) (Cd : D → J → J → ℝ) (E : J → J → ℝ) (w : D → ℝ) : D → ℝ :=
  fun d => 2 * (∑ k, ∑ l, Cd d k l * (E k l * constQ q k l - TCT k l)) - 2 * reg * w d

/-- `_linesearch_gromov_wasserstein_unmixing`, coefficients `a, b` (ot/gromov/_dictionary.py:564-572). -/
noncomputable def coefGw (reg : ℝ) (q : J → ℝ) (TCT : J → J → ℝ) (Cd : D → J → J → ℝ) (E : J → J → ℝ) (w x : D → ℝ) : ℝ × ℝ :=
  let Ex := embed x Cd
  let diff : J → J → ℝ := fun k l => Ex k l - E k l
  let trX := ∑ k, ∑ l, diff k l * Ex k l * constQ q k l
  let trW := ∑ k, ∑ l, diff k l * E k l * constQ q k l
  let a := trX - trW
  let b := 2 * (trW - ∑ k, ∑ l, diff k l * TCT k l)
  if reg ≠ 0 then (a - reg * ∑ d, (x d - w d) ^ 2, b - 2 * reg * ∑ d, w d * (x d - w d)) else (a, b)

/-- State of the inner loop: `w, Cembedded, current_loss`. -/
structure GwSt (J D : Type) where
  w : D → ℝ
  E : J → J → ℝ
  loss : ℝ

/-- One round of `_cg_gromov_wasserstein_unmixing` (ot/gromov/_dictionary.py:483-505). -/
noncomputable def gwStep [Nonempty D] (reg : ℝ) (q : J → ℝ) (TCT : J → J → ℝ) (Cd : D → J → J → ℝ) (s : GwSt J D) : GwSt J D :=
  let x := direction (gradGw reg q TCT Cd s.E s.w)
  let ab := coefGw reg q TCT Cd s.E s.w x
  let γ := stepSize ab.1 ab.2
  ⟨fun d => s.w d + γ * (x d - s.w d), fun k l => s.E k l + γ * (embed x Cd k l - s.E k l),
    s.loss + (ab.1 * γ ^ 2 + ab.2 * γ)⟩

/-- `convergence_criterion` (ot/gromov/_dictionary.py:396-401, 507-512; `tiny` is `10^-15`; 1042-1047, 1199-1204 with
`10^-12`). -/
noncomputable def criterion (tiny prev cur : ℝ) : ℝ :=
  if prev ≠ 0 then |prev - cur| / |prev| else |prev - cur| / tiny

/-- The inner loop (ot/gromov/_dictionary.py:477-515); the criterion starts at infinity. -/
noncomputable def gwLoop [Nonempty D] (reg tol : ℝ) (q : J → ℝ) (TCT : J → J → ℝ) (Cd : D → J → J → ℝ) : ℕ → GwSt J D → GwSt J D
  | 0, s => s
  | k + 1, s =>
    let s' := gwStep reg q TCT Cd s
    if criterion (1 / 10 ^ 15) s.loss s'.loss > tol then gwLoop reg tol q TCT Cd k s' else s'

/-- `_cg_gromov_wasserstein_unmixing` (ot/gromov/_dictionary.py:412-515). -/
noncomputable def cgGw [Nonempty D] (reg tol : ℝ) (maxIter : ℕ) (C : I → I → ℝ) (Cd : D → J → J → ℝ) (q : J → ℝ) (T : I → J → ℝ)
    (s : GwSt J D) : GwSt J D :=
  gwLoop reg tol q (constTCT C T) Cd maxIter s

/-- State of the outer loop: inner state and plan. -/
structure GwOut (I J D : Type) where
  st : GwSt J D
  T : I → J → ℝ

/-- What `gromov_wasserstein(C1=C, C2=Cembedded, p=p, q=q, G0=T, …)` returns: plan and `log["gw_dist"]`. -/
abbrev GwCall (I J : Type) := (J → J → ℝ) → (I → J → ℝ) → (I → J → ℝ) × ℝ

/-- One round of the outer loop (ot/gromov/_dictionary.py:360-394). -/
noncomputable def gwOuterStep [Nonempty D] (solve : GwCall I J) (reg tolInner : ℝ) (maxInner : ℕ) (C : I → I → ℝ)
    (Cd : D → J → J → ℝ) (q : J → ℝ) (s : GwOut I J D) : GwOut I J D :=
  let r := solve s.st.E s.T
  let loss := if reg ≠ 0 then r.2 - reg * ∑ d, s.st.w d ^ 2 else r.2
  ⟨cgGw reg tolInner maxInner C Cd q r.1 ⟨s.st.w, s.st.E, loss⟩, r.1⟩

/-- The outer loop (ot/gromov/_dictionary.py:359-402). -/
noncomputable def gwOuter [Nonempty D] (solve : GwCall I J) (reg tolOuter tolInner : ℝ) (maxInner : ℕ) (C : I → I → ℝ)
    (Cd : D → J → J → ℝ) (q : J → ℝ) : ℕ → GwOut I J D → GwOut I J D
  | 0, s => s
  | k + 1, s =>
    let s' := gwOuterStep solve reg tolInner maxInner C Cd q s
    if criterion (1 / 10 ^ 15) s.st.loss s'.st.loss > tolOuter then
      gwOuter solve reg tolOuter tolInner maxInner C Cd q k s'
    else s'

/-- Start of `gromov_wasserstein_linear_unmixing` (ot/gromov/_dictionary.py:347-357). -/
noncomputable def gwInit (p : I → ℝ) (q : J → ℝ) (Cd : D → J → J → ℝ) : GwOut I J D :=
  ⟨⟨fun _ => 1 / (Fintype.card D : ℝ), embed (fun _ => 1 / (Fintype.card D : ℝ)) Cd, 10 ^ 15⟩, fun i j => p i * q j⟩

/-- `gromov_wasserstein_linear_unmixing` (ot/gromov/_dictionary.py:263-409). -/
noncomputable def gwUnmixing [Nonempty D] (solve : GwCall I J) (reg tolOuter tolInner : ℝ) (maxOuter maxInner : ℕ) (C : I → I → ℝ)
    (Cd : D → J → J → ℝ) (p : I → ℝ) (q : J → ℝ) : GwOut I J D :=
  gwOuter solve reg tolOuter tolInner maxInner C Cd q maxOuter (gwInit p q Cd)

/-! ## Fused Gromov-Wasserstein -/

/-- `grad_w` (ot/gromov/_dictionary.py:1153-1166): `diag_q.dot(Yembedded)` and `T.T.dot(Y)`. -/
def gradFgw (α reg : ℝ) (q : J → ℝ) (TCT : J → J → ℝ) (T : I → J → ℝ) (Y : I → K → ℝ) (Cd : D → J → J → ℝ) (Yd : D → J → K → ℝ)
    (E : J → J → ℝ) (F : J → K → ℝ) (w : D → ℝ) : D → ℝ := fun d =>
  (α * (∑ k, ∑ l, Cd d k l * (E k l * constQ q k l - TCT k l)) +
    (1 - α) * (∑ j, ∑ c, Yd d j c * (q j * F j c - ∑ i, T i j * Y i c)) - reg * w d) * 2

/-- `_linesearch_fused_gromov_wasserstein_unmixing`, coefficients `a, b` (ot/gromov/_dictionary.py:1285-1306). -/
noncomputable def coefFgw (α reg : ℝ) (q : J → ℝ) (TCT : J → J → ℝ) (T : I → J → ℝ) (Y : I → K → ℝ) (Cd : D → J → J → ℝ)
    (Yd : D → J → K → ℝ) (E : J → J → ℝ) (F : J → K → ℝ) (w x : D → ℝ) : ℝ × ℝ :=
  let Ex := embed x Cd
  let diff : J → J → ℝ := fun k l => Ex k l - E k l
  let trX := ∑ k, ∑ l, diff k l * Ex k l * constQ q k l
  let trW := ∑ k, ∑ l, diff k l * E k l * constQ q k l
  let aGw := trX - trW
  let bGw := 2 * (trW - ∑ k, ∑ l, diff k l * TCT k l)
  let Fd : J → K → ℝ := fun j c => embed x Yd j c - F j c
  let aW := ∑ i, ∑ j, (∑ c, Fd j c ^ 2) * T i j
  let bW := 2 * ∑ i, ∑ j, T i j * ((∑ c, F j c * Fd j c) - ∑ c, Y i c * Fd j c)
  let a := α * aGw + (1 - α) * aW
  let b := α * bGw + (1 - α) * bW
  if reg ≠ 0 then (a - reg * ∑ d, (x d - w d) ^ 2, b - 2 * reg * ∑ d, w d * (x d - w d)) else (a, b)

/-- State of the inner loop: `w, Cembedded, Yembedded, current_loss`. -/
structure FgwSt (J K D : Type) where
  w : D → ℝ
  E : J → J → ℝ
  F : J → K → ℝ
  loss : ℝ

/-- One round of `_cg_fused_gromov_wasserstein_unmixing` (ot/gromov/_dictionary.py:1151-1197). -/
noncomputable def fgwStep [Nonempty D] (α reg : ℝ) (q : J → ℝ) (TCT : J → J → ℝ) (T : I → J → ℝ) (Y : I → K → ℝ)
    (Cd : D → J → J → ℝ) (Yd : D → J → K → ℝ) (s : FgwSt J K D) : FgwSt J K D :=
  let x := direction (gradFgw α reg q TCT T Y Cd Yd s.E s.F s.w)
  let ab := coefFgw α reg q TCT T Y Cd Yd s.E s.F s.w x
  let γ := stepSize ab.1 ab.2
  ⟨fun d => s.w d + γ * (x d - s.w d), fun k l => s.E k l + γ * (embed x Cd k l - s.E k l),
    fun j c => s.F j c + γ * (embed x Yd j c - s.F j c), s.loss + (ab.1 * γ ^ 2 + ab.2 * γ)⟩

/-- The inner loop (ot/gromov/_dictionary.py:1144-1207); `tiny` is the divisor used when the previous loss is zero. -/
noncomputable def fgwLoop [Nonempty D] (tiny α reg tol : ℝ) (q : J → ℝ) (TCT : J → J → ℝ) (T : I → J → ℝ) (Y : I → K → ℝ)
    (Cd : D → J → J → ℝ) (Yd : D → J → K → ℝ) : ℕ → FgwSt J K D → FgwSt J K D
  | 0, s => s
  | k + 1, s =>
    let s' := fgwStep α reg q TCT T Y Cd Yd s
    if criterion tiny s.loss s'.loss > tol then fgwLoop tiny α reg tol q TCT T Y Cd Yd k s' else s'

/-- `_cg_fused_gromov_wasserstein_unmixing` (ot/gromov/_dictionary.py:1059-1207). -/
noncomputable def cgFgw [Nonempty D] (α reg tol : ℝ) (maxIter : ℕ) (C : I → I → ℝ) (Y : I → K → ℝ) (Cd : D → J → J → ℝ)
    (Yd : D → J → K → ℝ) (q : J → ℝ) (T : I → J → ℝ) (s : FgwSt J K D) : FgwSt J K D :=
  fgwLoop (1 / 10 ^ 12) α reg tol q (constTCT C T) T Y Cd Yd maxIter s

/-- `M = Ys_constM + Yt_varM - 2 * Y.dot(Yembedded.T)` (ot/gromov/_dictionary.py:988-999). -/
def featM (Y : I → K → ℝ) (F : J → K → ℝ) : I → J → ℝ := fun i j =>
  (∑ c, Y i c ^ 2) + (∑ c, F j c ^ 2) - 2 * ∑ c, Y i c * F j c

/-- State of the outer loop. -/
structure FgwOut (I J K D : Type) where
  st : FgwSt J K D
  T : I → J → ℝ

/-- What `fused_gromov_wasserstein(M, C, Cembedded, p, q, alpha=alpha, G0=T, …)` returns: plan and
`log["fgw_dist"]`. -/
abbrev FgwCall (I J : Type) := (I → J → ℝ) → (J → J → ℝ) → (I → J → ℝ) → (I → J → ℝ) × ℝ

/-- One round of the outer loop (ot/gromov/_dictionary.py:993-1040). -/
noncomputable def fgwOuterStep [Nonempty D] (solve : FgwCall I J) (α reg tolInner : ℝ) (maxInner : ℕ) (C : I → I → ℝ) (Y : I → K → ℝ)
    (Cd : D → J → J → ℝ) (Yd : D → J → K → ℝ) (q : J → ℝ) (s : FgwOut I J K D) : FgwOut I J K D :=
  let r := solve (featM Y s.st.F) s.st.E s.T
  let loss := if reg ≠ 0 then r.2 - reg * ∑ d, s.st.w d ^ 2 else r.2
  ⟨cgFgw α reg tolInner maxInner C Y Cd Yd q r.1 ⟨s.st.w, s.st.E, s.st.F, loss⟩, r.1⟩

/-- The outer loop (ot/gromov/_dictionary.py:992-1048). -/
noncomputable def fgwOuter [Nonempty D] (solve : FgwCall I J) (α reg tolOuter tolInner : ℝ) (maxInner : ℕ) (C : I → I → ℝ)
    (Y : I → K → ℝ) (Cd : D → J → J → ℝ) (Yd : D → J → K → ℝ) (q : J → ℝ) : ℕ → FgwOut I J K D → FgwOut I J K D
  | 0, s => s
  | k + 1, s =>
    let s' := fgwOuterStep solve α reg tolInner maxInner C Y Cd Yd q s
    if criterion (1 / 10 ^ 12) s.st.loss s'.st.loss > tolOuter then
      fgwOuter solve α reg tolOuter tolInner maxInner C Y Cd Yd q k s'
    else s'

/-- Start of `fused_gromov_wasserstein_linear_unmixing` (ot/gromov/_dictionary.py:970-990). -/
noncomputable def fgwInit (p : I → ℝ) (q : J → ℝ) (Cd : D → J → J → ℝ) (Yd : D → J → K → ℝ) : FgwOut I J K D :=
  ⟨⟨fun _ => 1 / (Fintype.card D : ℝ), embed (fun _ => 1 / (Fintype.card D : ℝ)) Cd,
    embed (fun _ => 1 / (Fintype.card D : ℝ)) Yd, 10 ^ 15⟩, fun i j => p i * q j⟩

/-- `fused_gromov_wasserstein_linear_unmixing` (ot/gromov/_dictionary.py:869-1056). -/
noncomputable def fgwUnmixing [Nonempty D] (solve : FgwCall I J) (α reg tolOuter tolInner : ℝ) (maxOuter maxInner : ℕ)
    (C : I → I → ℝ) (Y : I → K → ℝ) (Cd : D → J → J → ℝ) (Yd : D → J → K → ℝ) (p : I → ℝ) (q : J → ℝ) : FgwOut I J K D :=
  fgwOuter solve α reg tolOuter tolInner maxInner C Y Cd Yd q maxOuter (fgwInit p q Cd Yd)

/-! ## Dictionary learning -/

/-- One structure of a batch with its unmixing: `Cs[C_idx], unmixings, Cs_embedded, Ts`. -/
structure Item (I J D : Type) where
  C : I → I → ℝ
  w : D → ℝ
  E : J → J → ℝ
  T : I → J → ℝ

/-- `grad_Cdict` (ot/gromov/_dictionary.py:202-211). -/
noncomputable def gradDict (q : J → ℝ) (batch : List (Item I J D)) : D → J → J → ℝ := fun d k l =>
  (batch.map fun b => b.w d * (b.E k l * constQ q k l - constTCT b.C b.T k l)).sum * (2 / batch.length)

/-- Adam moments (ot/gromov/_dictionary.py:241-247). -/
structure Adam (X : Type) where
  mean : X → ℝ
  var : X → ℝ
  count : ℕ

/-- `_initialize_adam_optimizer` (ot/gromov/_dictionary.py:241-247). -/
def adamInit (X : Type) : Adam X := ⟨0, 0, 1⟩

/-- The moments part of `_adam_stochastic_updates` (ot/gromov/_dictionary.py:250-257): `unbiased_m, unbiased_v` and the
new moments. -/
noncomputable def adamMoments {X : Type} (β1 β2 : ℝ) (g : X → ℝ) (m : Adam X) : (X → ℝ) × (X → ℝ) × Adam X :=
  let mean : X → ℝ := fun x => β1 * m.mean x + (1 - β1) * g x
  let var : X → ℝ := fun x => β2 * m.var x + (1 - β2) * g x ^ 2
  (fun x => mean x / (1 - β1 ^ m.count), fun x => var x / (1 - β2 ^ m.count), ⟨mean, var, m.count + 1⟩)

/-- `_adam_stochastic_updates` (ot/gromov/_dictionary.py:250-260). -/
noncomputable def adamUpdate {X : Type} (β1 β2 eps lr : ℝ) (v g : X → ℝ) (m : Adam X) : (X → ℝ) × Adam X :=
  let r := adamMoments β1 β2 g m
  (fun x => v x - lr * r.1 x / (Real.sqrt (r.2.1 x) + eps), r.2.2)

/-- The projections on the atoms (ot/gromov/_dictionary.py:148-155, 220-223). -/
noncomputable def project (symm nonneg : Bool) (Cd : D → J → J → ℝ) : D → J → J → ℝ :=
  let A : D → J → J → ℝ := if symm then fun d k l => (1 / 2) * (Cd d k l + Cd d l k) else Cd
  if nonneg then fun d k l => if A d k l < 0 then 0 else A d k l else A

/-- One batch without Adam (ot/gromov/_dictionary.py:172-223): `unmix` gives the items and the cumulated loss of the
batch for the current dictionary. -/
noncomputable def sgdBatch (symm nonneg : Bool) (lr : ℝ) (q : J → ℝ)
    (unmix : (D → J → J → ℝ) → List (Item I J D) × ℝ) (Cd : D → J → J → ℝ) : (D → J → J → ℝ) × ℝ :=
  let r := unmix Cd
  (project symm nonneg fun d k l => Cd d k l - lr * gradDict q r.1 d k l, r.2)

/-- One batch with Adam (ot/gromov/_dictionary.py:172-223); the atoms are read as one vector. -/
noncomputable def adamBatch (symm nonneg : Bool) (β1 β2 eps lr : ℝ) (q : J → ℝ)
    (unmix : (D → J → J → ℝ) → List (Item I J D) × ℝ) (s : (D → J → J → ℝ) × Adam (D × J × J)) :
    ((D → J → J → ℝ) × Adam (D × J × J)) × ℝ :=
  let r := unmix s.1
  let u := adamUpdate β1 β2 eps lr (fun x => s.1 x.1 x.2.1 x.2.2) (fun x => gradDict q r.1 x.1 x.2.1 x.2.2) s.2
  ((project symm nonneg fun d k l => u.1 (d, k, l), u.2), r.2)

/-- One epoch: the batches in turn, cumulating the loss (ot/gromov/_dictionary.py:168-223). -/
def epoch {Θ : Type} (batches : List (Θ → Θ × ℝ)) (θ : Θ) : Θ × ℝ :=
  batches.foldl (fun s b => ((b s.1).1, s.2 + (b s.1).2)) (θ, 0)

/-- The loop over epochs with the best state (ot/gromov/_dictionary.py:157-238); `best` is `none` while
`loss_best_state` is infinite.  Simplification: a state `Θ` stands for the dictionary and, with Adam, its moments. -/
noncomputable def epochs {Θ : Type} : List (List (Θ → Θ × ℝ)) → Θ → Θ → Option ℝ → Θ
  | [], _, bestθ, _ => bestθ
  | e :: es, θ, bestθ, best =>
    let r := epoch e θ
    match best with
    | none => epochs es r.1 r.1 (some r.2)
    | some l => if l > r.2 then epochs es r.1 r.1 (some r.2) else epochs es r.1 bestθ (some l)

/-- The dictionary returned after all epochs. -/
noncomputable def learn {Θ : Type} (es : List (List (Θ → Θ × ℝ))) (θ0 : Θ) : Θ := epochs es θ0 θ0 none

end POT.GwDict
