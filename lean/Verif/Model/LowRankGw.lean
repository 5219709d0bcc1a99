import Verif.Model.LowRank

/-!
# Model: low-rank Gromov-Wasserstein (ot/gromov/_lowrank.py)

Real arithmetic; the random start is given; the inner loop is `dykstra` of `Model/LowRank`.
-/

set_option linter.unusedSectionVars false

namespace POT.LowRankGw

open Finset POT.LowRank

variable {I J K C E : Type*} [Fintype I] [Fintype J] [Fintype K] [Fintype C] [Fintype E]

/-- `C1 = -4 * A1 @ (A2.T @ (Q * (1 / g)))` (ot/gromov/_lowrank.py 241-242, 307-308) -/
noncomputable def gwC1 (A1 A2 : I → C → ℝ) (Q : I → K → ℝ) (g : K → ℝ) : I → K → ℝ := fun i l => -4 * ∑ c, A1 i c * ∑ i', A2 i' c * (Q i' l * (1 / g l))

/-- `C2 = (R.T @ B1) @ B2.T` (ot/gromov/_lowrank.py 243-244, 309-310), transposed -/
def gwC2 (B1 B2 : J → E → ℝ) (R : J → K → ℝ) : J → K → ℝ := fun j l => ∑ c, (∑ j', R j' l * B1 j' c) * B2 j c

/-- the state of the loop: factors, the `g` of `diag_g` and the error (ot/gromov/_lowrank.py 232-294) -/
structure St (I J K : Type*) where
  Q : I → K → ℝ
  R : J → K → ℝ
  g : K → ℝ
  gd : K → ℝ
  err : ℝ

/-- `nx.kl_div(p, q)` without mass (ot/backend.py 1542-1546); the guard `1e-16` inside the logarithm is `eps` -/
noncomputable def klDiv {X : Type*} [Fintype X] (eps : ℝ) (p q : X → ℝ) : ℝ := ∑ x, p x * Real.log (p x / q x + eps)

/-- the error (ot/gromov/_lowrank.py 286-289) -/
noncomputable def lrErr (eps γ : ℝ) (Q Q' : I → K → ℝ) (R R' : J → K → ℝ) (g g' : K → ℝ) : ℝ :=
  (1 / γ) ^ 2 * (klDiv eps (fun x : I × K => Q x.1 x.2) (fun x => Q' x.1 x.2) + klDiv eps (fun x : I × K => Q' x.1 x.2) fun x => Q x.1 x.2) +
  (1 / γ) ^ 2 * (klDiv eps (fun x : J × K => R x.1 x.2) (fun x => R' x.1 x.2) + klDiv eps (fun x : J × K => R' x.1 x.2) fun x => R x.1 x.2) +
  (1 / γ) ^ 2 * (klDiv eps g g' + klDiv eps g' g)

/-- `max(norm_1, norm_2, norm_3)` (ot/gromov/_lowrank.py 262-265) -/
noncomputable def gammaDen [Nonempty I] [Nonempty J] [Nonempty K] (reg : ℝ) (GQ Q : I → K → ℝ) (GR R : J → K → ℝ) (ω g : K → ℝ) : ℝ :=
  max (max ((univ : Finset (I × K)).sup' univ_nonempty (fun x => |GQ x.1 x.2 + reg * Real.log (Q x.1 x.2)|) ^ 2)
    ((univ : Finset (J × K)).sup' univ_nonempty (fun x => |GR x.1 x.2 + reg * Real.log (R x.1 x.2)|) ^ 2))
    ((univ : Finset K).sup' univ_nonempty (fun k => |-ω k * (1 / g k) ^ 2|) ^ 2)

/-- `gamma` for `gamma_init="rescale"` (ot/gromov/_lowrank.py 265) -/
noncomputable def gammaRescale [Nonempty I] [Nonempty J] [Nonempty K] (reg : ℝ) (GQ Q : I → K → ℝ) (GR R : J → K → ℝ) (ω g : K → ℝ) : ℝ := 10 / gammaDen reg GQ Q GR R ω g

/-- one iteration (ot/gromov/_lowrank.py 235-294); `γ` is the step size as a function of the current gradients and factors, `tiny` the constant `1e-16` added to the factors -/
noncomputable def gwStep (A1 A2 : I → C → ℝ) (B1 B2 : J → E → ℝ) (a : I → ℝ) (b : J → ℝ) (reg α stopThrD : ℝ) (numItermaxD : ℕ) (eps tiny : ℝ)
    (γ : (I → K → ℝ) → (I → K → ℝ) → (J → K → ℝ) → (J → K → ℝ) → (K → ℝ) → (K → ℝ) → ℝ) (s : St I J K) : Option (St I J K) :=
  let C1 := gwC1 A1 A2 s.Q s.g
  let C2 := gwC2 B1 B2 s.R
  let GQ := LowRank.gradQ C1 C2 s.R s.g        -- CR_g (248-250)
  let GR := LowRank.gradR C1 C2 s.Q s.g        -- CQ_g (253-255)
  let ω := LowRank.omega C1 C2 s.Q s.R         -- 258
  let γ' := γ GQ s.Q GR s.R ω s.g
  (dykstra (kern1 γ' reg GQ s.Q) (kern1 γ' reg GR s.R) (kern3 γ' reg ω s.g) a b α stopThrD numItermaxD).map fun t =>
    { Q := fun i k => t.1 i k + tiny, R := fun j k => t.2.1 j k + tiny, g := fun k => t.2.2 k + tiny, gd := s.g
      err := lrErr eps γ' t.1 s.Q t.2.1 s.R t.2.2 s.g }

open Classical in
/-- the loop (ot/gromov/_lowrank.py 234-297): `n` iterations are left -/
noncomputable def gwLoop (A1 A2 : I → C → ℝ) (B1 B2 : J → E → ℝ) (a : I → ℝ) (b : J → ℝ) (reg α stopThr stopThrD : ℝ) (numItermaxD : ℕ) (eps tiny : ℝ)
    (γ : (I → K → ℝ) → (I → K → ℝ) → (J → K → ℝ) → (J → K → ℝ) → (K → ℝ) → (K → ℝ) → ℝ) : ℕ → St I J K → Option (St I J K)
  | 0, s => some s
  | n + 1, s => if s.err > stopThr then (gwStep A1 A2 B1 B2 a b reg α stopThrD numItermaxD eps tiny γ s).bind (gwLoop A1 A2 B1 B2 a b reg α stopThr stopThrD numItermaxD eps tiny γ n) else some s

/-- `_flat_product_operator` (ot/gromov/_lowrank.py 15-57) -/
def flatProd (X : I → C → ℝ) : I → C × C → ℝ := fun i x => X i x.1 * X i x.2

/-- `x_ @ a` with `x_ = A1_ @ (A2_.T @ a)` (ot/gromov/_lowrank.py 319, 321) -/
def constTerm (A1 A2 : I → C → ℝ) (a : I → ℝ) : ℝ := ∑ i, (∑ x, flatProd A1 i x * ∑ i', flatProd A2 i' x * a i') * a i

/-- `value_quad` (ot/gromov/_lowrank.py 307-325); `h` is the `g` of `diag_g` (line 245) -/
noncomputable def valueQuad (A1 A2 : I → C → ℝ) (B1 B2 : J → E → ℝ) (a : I → ℝ) (b : J → ℝ) (Q : I → K → ℝ) (R : J → K → ℝ) (g h : K → ℝ) : ℝ :=
  constTerm A1 A2 a + constTerm B1 B2 b + (∑ k, ∑ i, Q i k * ((∑ l, gwC1 A1 A2 Q g i l * ∑ j, gwC2 B1 B2 R j l * R j k) * (1 / h k))) / 2

/-- `value` (ot/gromov/_lowrank.py 327-333) -/
noncomputable def lrValue (eps reg : ℝ) (quad : ℝ) (Q : I → K → ℝ) (R : J → K → ℝ) (g : K → ℝ) : ℝ :=
  if reg ≠ 0 then quad + reg * (∑ i, ∑ k, Q i k * Real.log (Q i k + eps) + ∑ k, g k * Real.log (g k + eps) + ∑ j, ∑ k, R j k * Real.log (R j k + eps)) else quad

/-- `lowrank_gromov_wasserstein_samples` (ot/gromov/_lowrank.py 60-343) from the start `(Q, R, g)`: factors and `value_quad`; `none`: an exception (`diag_g` is unbound when no iteration has
been carried out, and the inner loop can fail). -/
noncomputable def lrGw (A1 A2 : I → C → ℝ) (B1 B2 : J → E → ℝ) (a : I → ℝ) (b : J → ℝ) (reg α stopThr stopThrD : ℝ) (numItermax numItermaxD : ℕ) (eps tiny : ℝ)
    (γ : (I → K → ℝ) → (I → K → ℝ) → (J → K → ℝ) → (J → K → ℝ) → (K → ℝ) → (K → ℝ) → ℝ) (Q : I → K → ℝ) (R : J → K → ℝ) (g : K → ℝ) :
    Option ((I → K → ℝ) × (J → K → ℝ) × (K → ℝ) × ℝ) :=
  open Classical in
  if numItermax = 0 ∨ ¬ (1 : ℝ) > stopThr then none else
  (gwLoop A1 A2 B1 B2 a b reg α stopThr stopThrD numItermaxD eps tiny γ numItermax ⟨Q, R, g, g, 1⟩).map fun s =>
    (s.Q, s.R, s.g, valueQuad A1 A2 B1 B2 a b s.Q s.R s.g s.gd)

end POT.LowRankGw
