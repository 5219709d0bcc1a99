import Verif.Lemmas.Gromov
import Verif.Props.Optim
import Mathlib.Tactic.FinCases
import Mathlib.Algebra.BigOperators.Fin
import Mathlib.Data.Fin.VecNotation
import Mathlib.Data.Rat.Defs
import Mathlib.Algebra.Order.Ring.Rat

/-! # C36, C38, C39, C40, C59: Gromov-Wasserstein losses, gradients, line searches -/

set_option linter.unusedSectionVars false

namespace POT.Props

open Finset Gromov Spec

section Field
variable {R : Type*} [Field R]
variable {I J : Type*} [Fintype I] [Fintype J]

/-! ## C38 -/

theorem square_loss (a b : R) : (square : Decomp R).loss a b = sqLoss a b := by
  simp only [square, Decomp.loss, sqLoss]; ring

theorem square_loss' : (square : Decomp R).loss = sqLoss := by
  funext a b; exact square_loss a b

theorem kl_loss' (ε : ℝ) : (kl ε).loss = klLoss ε := by
  funext a b; simp only [kl, Decomp.loss, klLoss]; ring

/-- C38, square loss: the loss computed from `init_matrix` and `tensor_product` is the GW energy, for plans with marginals
`p`, `q` (no symmetry, no sign assumed). -/
theorem C38_gwloss_square (C1 : I → I → R) (C2 : J → J → R) (p : I → R) (q : J → R) (T : I → J → R)
    (hp : ∀ i, ∑ j, T i j = p i) (hq : ∀ j, ∑ i, T i j = q j) :
    gwF square C1 C2 p q T = ∑ i, ∑ j, ∑ k, ∑ l, (C1 i k - C2 j l) ^ 2 * T i j * T k l := by
  rw [gwF_eq square C1 C2 hp hq, square_loss']; rfl

/-- C38, KL loss with the guard of the code. -/
theorem C38_gwloss_kl (ε : ℝ) (C1 : I → I → ℝ) (C2 : J → J → ℝ) (p : I → ℝ) (q : J → ℝ) (T : I → J → ℝ)
    (hp : ∀ i, ∑ j, T i j = p i) (hq : ∀ j, ∑ i, T i j = q j) :
    gwF (kl ε) C1 C2 p q T = gwEnergy (klLoss ε) C1 C2 T := by
  rw [gwF_eq (kl ε) C1 C2 hp hq, kl_loss']

/-- the KL loss without guard is `a log(a/b) - a + b` -/
theorem C38_klLoss_eq (a b : ℝ) (ha : 0 ≤ a) (hb : 0 < b) : klLoss 0 a b = a * Real.log (a / b) - a + b := by
  unfold klLoss
  rcases ha.eq_or_lt with h | h
  · simp [← h]
  · rw [add_zero, add_zero, Real.log_div h.ne' hb.ne']

/-- C38, semi-relaxed: only the first marginal is prescribed. -/
theorem C38_srloss_square (C1 : I → I → R) (C2 : J → J → R) (p : I → R) (T : I → J → R)
    (hp : ∀ i, ∑ j, T i j = p i) :
    srF square C1 C2 p T = ∑ i, ∑ j, ∑ k, ∑ l, (C1 i k - C2 j l) ^ 2 * T i j * T k l := by
  rw [srF_eq square C1 C2 hp, square_loss']; rfl

/-- C38, partial: any plan. -/
theorem C38_pgloss_square (C1 : I → I → R) (C2 : J → J → R) (T : I → J → R) :
    pgF square C1 C2 T = ∑ i, ∑ j, ∑ k, ∑ l, (C1 i k - C2 j l) ^ 2 * T i j * T k l := by
  rw [pgF_eq square C1 C2, square_loss']; rfl

/-- a concrete value: two points, non symmetric structures, diagonal plan -/
example : gwF (square : Decomp ℚ) ![![0, 1], ![2, 0]] ![![0, 3], ![5, 0]] ![1/2, 1/2] ![1/2, 1/2]
    ![![1/2, 0], ![0, 1/2]] = 13 / 4 := by
  rw [C38_gwloss_square _ _ _ _ _ (by intro i; fin_cases i <;> simp [Fin.sum_univ_two])
    (by intro i; fin_cases i <;> simp [Fin.sum_univ_two])]
  simp [Fin.sum_univ_two]; norm_num

/-- with wrong marginals the formula is not the energy -/
example : gwF (square : Decomp ℚ) (fun (_ _ : Fin 1) => 1) (fun (_ _ : Fin 1) => 0) (fun _ => 1) (fun _ => 1)
    (fun _ _ => 1 / 2) ≠ ∑ _i : Fin 1, ∑ _j : Fin 1, ∑ _k : Fin 1, ∑ _l : Fin 1, ((1:ℚ) - 0) ^ 2 * (1 / 2) * (1 / 2) := by
  simp [gwF, gwloss, tensorProduct, constC, dot3, mapM, square]

/-! ## C39 -/

/-- C39, gradient (balanced). Along any line through a coupling the GW energy is a quadratic polynomial whose
derivative at `0` is the inner product with the matrix returned by the code, for both the symmetric and the
asymmetric branch. -/
theorem C39_gradient [CharZero R] (symmetric : Bool) (D : Decomp R) (C1 : I → I → R) (C2 : J → J → R)
    (hsym : symmetric = true → (∀ i k, C1 i k = C1 k i) ∧ (∀ j l, C2 j l = C2 l j))
    (p : I → R) (q : J → R) (T : I → J → R) (hp : ∀ i, ∑ j, T i j = p i) (hq : ∀ j, ∑ i, T i j = q j)
    (Δ : I → J → R) (t : R) :
    gwEnergy D.loss C1 C2 (fun i j => T i j + t * Δ i j) =
      gwEnergy D.loss C1 C2 T + t * inner (gwDf symmetric D C1 C2 p q T) Δ + t ^ 2 * gwEnergy D.loss C1 C2 Δ := by
  rw [gwEnergy_line]; unfold inner; rw [inner_grad symmetric D C1 C2 hp hq hsym]

/-- C39, gradient (semi-relaxed). -/
theorem C39_gradient_semirelaxed [CharZero R] (symmetric : Bool) (D : Decomp R) (C1 : I → I → R) (C2 : J → J → R)
    (hsym : symmetric = true → (∀ i k, C1 i k = C1 k i) ∧ (∀ j l, C2 j l = C2 l j))
    (p : I → R) (T : I → J → R) (hp : ∀ i, ∑ j, T i j = p i) (Δ : I → J → R) (t : R) :
    gwEnergy D.loss C1 C2 (fun i j => T i j + t * Δ i j) =
      gwEnergy D.loss C1 C2 T + t * inner (srDf symmetric D C1 C2 p T) Δ + t ^ 2 * gwEnergy D.loss C1 C2 Δ := by
  rw [gwEnergy_line]; unfold inner; rw [inner_srDf symmetric D C1 C2 hp hsym]

/-- C39, gradient (partial). -/
theorem C39_gradient_partial [CharZero R] (symmetric : Bool) (D : Decomp R) (C1 : I → I → R) (C2 : J → J → R)
    (hsym : symmetric = true → (∀ i k, C1 i k = C1 k i) ∧ (∀ j l, C2 j l = C2 l j))
    (T : I → J → R) (Δ : I → J → R) (t : R) :
    gwEnergy D.loss C1 C2 (fun i j => T i j + t * Δ i j) =
      gwEnergy D.loss C1 C2 T + t * inner (pgDf symmetric D C1 C2 T) Δ + t ^ 2 * gwEnergy D.loss C1 C2 Δ := by
  rw [gwEnergy_line]; unfold inner; rw [inner_pgDf symmetric D C1 C2 T hsym]

end Field

section Ordered
variable {R : Type*} [Field R] [LinearOrder R] [IsStrictOrderedRing R]
variable {I J : Type*} [Fintype I] [Fintype J]

/-- The objective of the fused problems: `⟨M, G⟩ + reg * GW energy`. -/
def fgwObjective (L : R → R → R) (C1 : I → I → R) (C2 : J → J → R) (M : I → J → R) (reg : R) (G : I → J → R) : R :=
  inner M G + reg * gwEnergy L C1 C2 G

/-- C39, exact line search (balanced). Between two couplings `G`, `Gc` the step returned is in `[0,1]`, the
objective there is the value the line search reports, and no other step in `[0,1]` is better. -/
theorem C39_linesearch (symmetric : Bool) (D : Decomp R) (C1 : I → I → R) (C2 : J → J → R)
    (hsym : symmetric = true → (∀ i k, C1 i k = C1 k i) ∧ (∀ j l, C2 j l = C2 l j))
    (M : I → J → R) (reg : R) (p : I → R) (q : J → R) (G Gc : I → J → R) (hG : IsCoupling p q G) (hGc : IsCoupling p q Gc) :
    let Δ : I → J → R := fun i j => Gc i j - G i j
    let r := gromovLinesearch symmetric (mapM D.h1 C1) (mapM D.h2 C2) M reg G Δ (fgwObjective D.loss C1 C2 M reg G)
    0 ≤ r.alpha ∧ r.alpha ≤ 1 ∧ r.cost = fgwObjective D.loss C1 C2 M reg (fun i j => G i j + r.alpha * Δ i j) ∧
      ∀ t, 0 ≤ t → t ≤ 1 → r.cost ≤ fgwObjective D.loss C1 C2 M reg (fun i j => G i j + t * Δ i j) := by
  intro Δ r
  have hr : ∀ i, ∑ j, Δ i j = 0 := fun i => by simp only [Δ, sum_sub_distrib, hG.row, hGc.row, sub_self]
  have hc : ∀ j, ∑ i, Δ i j = 0 := fun i => by simp only [Δ, sum_sub_distrib, hG.col, hGc.col, sub_self]
  have hq := linesearch_quadratic symmetric D C1 C2 hsym M reg G Δ hr hc
  refine ⟨(Optim.quadStep_mem _ _).1, (Optim.quadStep_mem _ _).2, (hq _).symm, fun t h0 h1 => ?_⟩
  have h2 := Optim.quadStep_min (linesearchCoef symmetric (mapM D.h1 C1) (mapM D.h2 C2) M reg G Δ).1
    (linesearchCoef symmetric (mapM D.h1 C1) (mapM D.h2 C2) M reg G Δ).2 t h0 h1
  simp only [fgwObjective]
  rw [hq t]
  simp only [r, gromovLinesearch, fgwObjective]
  linarith

/-- C39, exact line search (semi-relaxed): both plans have row sums `p`. -/
theorem C39_linesearch_semirelaxed (D : Decomp R) (C1 : I → I → R) (C2 : J → J → R)
    (M : I → J → R) (reg : R) (p : I → R) (G Gc : I → J → R) (hG : ∀ i, ∑ j, G i j = p i) (hGc : ∀ i, ∑ j, Gc i j = p i) :
    let Δ : I → J → R := fun i j => Gc i j - G i j
    let r := srLinesearch (mapM D.h1 C1) (mapM D.h2 C2) (mapM D.f2 C2) M reg G Δ (fgwObjective D.loss C1 C2 M reg G)
    0 ≤ r.alpha ∧ r.alpha ≤ 1 ∧ r.cost = fgwObjective D.loss C1 C2 M reg (fun i j => G i j + r.alpha * Δ i j) ∧
      ∀ t, 0 ≤ t → t ≤ 1 → r.cost ≤ fgwObjective D.loss C1 C2 M reg (fun i j => G i j + t * Δ i j) := by
  intro Δ r
  have hr : ∀ i, ∑ j, Δ i j = 0 := fun i => by simp only [Δ, sum_sub_distrib, hG, hGc, sub_self]
  have hq := srLinesearch_quadratic D C1 C2 M reg G Δ hr
  refine ⟨(Optim.quadStep_mem _ _).1, (Optim.quadStep_mem _ _).2, (hq _).symm, fun t h0 h1 => ?_⟩
  have h2 := Optim.quadStep_min (srLinesearchCoef (mapM D.h1 C1) (mapM D.h2 C2) (mapM D.f2 C2) M reg G Δ).1
    (srLinesearchCoef (mapM D.h1 C1) (mapM D.h2 C2) (mapM D.f2 C2) M reg G Δ).2 t h0 h1
  simp only [fgwObjective]
  rw [hq t]
  simp only [r, srLinesearch, fgwObjective]
  linarith

/-- C39, exact line search (partial): any two plans; the gradient update returned is the gradient at the new plan. -/
theorem C39_linesearch_partial (symmetric : Bool) (D : Decomp R) (C1 : I → I → R) (C2 : J → J → R)
    (hsym : symmetric = true → (∀ i k, C1 i k = C1 k i) ∧ (∀ j l, C2 j l = C2 l j))
    (M : I → J → R) (reg : R) (G Gc : I → J → R) :
    let Δ : I → J → R := fun i j => Gc i j - G i j
    let r := pgLinesearch M reg Δ (pgDf symmetric D C1 C2 G) (pgDf symmetric D C1 C2 (fun i j => Δ i j + G i j))
      (fgwObjective D.loss C1 C2 M reg G)
    0 ≤ r.alpha ∧ r.alpha ≤ 1 ∧ r.cost = fgwObjective D.loss C1 C2 M reg (fun i j => G i j + r.alpha * Δ i j) ∧
      (∀ t, 0 ≤ t → t ≤ 1 → r.cost ≤ fgwObjective D.loss C1 C2 M reg (fun i j => G i j + t * Δ i j)) ∧
      r.df = some (pgDf symmetric D C1 C2 (fun i j => G i j + r.alpha * Δ i j)) := by
  intro Δ r
  have hq := pgLinesearch_quadratic symmetric D C1 C2 hsym M reg G Δ
  refine ⟨(Optim.quadStep_mem _ _).1, (Optim.quadStep_mem _ _).2, (hq _).symm, fun t h0 h1 => ?_, ?_⟩
  · have h2 := Optim.quadStep_min (pgLinesearchCoef M reg Δ (pgDf symmetric D C1 C2 G)
            (pgDf symmetric D C1 C2 (fun i j => Δ i j + G i j))).1
      (pgLinesearchCoef M reg Δ (pgDf symmetric D C1 C2 G)
            (pgDf symmetric D C1 C2 (fun i j => Δ i j + G i j))).2 t h0 h1
    simp only [fgwObjective]
    rw [hq t]
    simp only [r, pgLinesearch, fgwObjective]
    linarith
  · have hd := pgDf_candidate symmetric D C1 C2 G Δ
    simp only [r, pgLinesearch]
    congr 1
    funext i j
    rw [pgDf_line, ← hd]

/-! ## C36 -/

/-- C36 (balanced GW and FGW). Every iterate is a coupling, the recorded losses are the objective values of
the iterates and never increase; the direction finding only has to return couplings. -/
theorem C36_fgw (symmetric : Bool) (D : Decomp R) (C1 : I → I → R) (C2 : J → J → R)
    (hsym : symmetric = true → (∀ i k, C1 i k = C1 k i) ∧ (∀ j l, C2 j l = C2 l j))
    (p : I → R) (q : J → R) (M : I → J → R) (reg : R) (lp : (I → J → R) → (I → J → R))
    (hlp : ∀ Mi, IsCoupling p q (lp Mi)) (numItermax : ℕ) (stopThr stopThr2 : R) (G0 : I → J → R) (h0 : IsCoupling p q G0) :
    let P := fgwProblem symmetric D C1 C2 p q M reg lp numItermax stopThr stopThr2
    let obj := fgwObjective D.loss C1 C2 M reg
    ∀ k, IsCoupling p q (P.iter G0 k).G ∧
      (P.iter G0 k).losses = (List.range (k + 1)).reverse.map (fun i => obj (P.iter G0 i).G) ∧
      obj (P.iter G0 (k + 1)).G ≤ obj (P.iter G0 k).G := by
  intro P obj
  have hcost : ∀ G, IsCoupling p q G → P.cost G = obj G := by
    intro G hG
    show _ + reg * gwF D C1 C2 p q G = _
    rw [gwF_eq D C1 C2 hG.row hG.col]; rfl
  have hgood : P.Good (IsCoupling p q) := by
    intro s hG hc hdf
    set Mi : I → J → R := fun i j => P.M i j + P.reg1 * s.dfG.getD (P.df s.G) i j with hMi
    rw [hcost _ hG] at hc
    obtain ⟨h1, h2, h3, h4⟩ := C39_linesearch symmetric D C1 C2 hsym M reg p q s.G (lp Mi) hG (hlp Mi)
    rw [show fgwObjective D.loss C1 C2 M reg s.G = s.costG from hc.symm] at h1 h2 h3 h4
    have hG' : IsCoupling p q (P.step s).G := hG.line (hlp Mi) h1 h2
    refine ⟨hG', ?_, ?_, ?_⟩
    · rw [hcost _ hG']; exact h3
    · intro d hd; exact absurd hd (by simp [Optim.Problem.step, P, fgwProblem, gromovLinesearch])
    · have := h4 0 le_rfl zero_le_one
      have e : (fun i j => s.G i j + 0 * (lp Mi i j - s.G i j)) = s.G := by funext i j; ring
      rw [e] at this
      rw [hc]; exact this
  intro k
  have hl := hgood.losses h0 k
  have hm := hgood.mono h0 k
  rw [hcost _ (hgood.iter h0 k).1, hcost _ (hgood.iter h0 (k + 1)).1] at hm
  refine ⟨(hgood.iter h0 k).1, ?_, hm⟩
  rw [hl]
  exact List.map_congr_left fun i _ => hcost _ (hgood.iter h0 i).1

/-- C36 (semi-relaxed): iterates are non-negative with row sums `p`; losses true and non-increasing. -/
theorem C36_semirelaxed [Nonempty J] (symmetric : Bool) (D : Decomp R) (C1 : I → I → R) (C2 : J → J → R)
    (p : I → R) (hp : ∀ i, 0 ≤ p i) (M : I → J → R) (reg tol : R) (htol : 0 ≤ tol)
    (numItermax : ℕ) (stopThr stopThr2 : R) (G0 : I → J → R) (h0 : (∀ i j, 0 ≤ G0 i j) ∧ ∀ i, ∑ j, G0 i j = p i) :
    let P := srProblem symmetric D C1 C2 p M reg tol numItermax stopThr stopThr2
    let obj := fgwObjective D.loss C1 C2 M reg
    ∀ k, ((∀ i j, 0 ≤ (P.iter G0 k).G i j) ∧ ∀ i, ∑ j, (P.iter G0 k).G i j = p i) ∧
      (P.iter G0 k).losses = (List.range (k + 1)).reverse.map (fun i => obj (P.iter G0 i).G) ∧
      obj (P.iter G0 (k + 1)).G ≤ obj (P.iter G0 k).G := by
  intro P obj
  have hdir : ∀ Mi : I → J → R, (∀ i j, 0 ≤ Optim.semirelaxedLp tol p Mi i j) ∧
      (∀ i, ∑ j, Optim.semirelaxedLp tol p Mi i j = p i) := fun Mi =>
    ⟨(C37_semirelaxed_direction tol htol p hp Mi).1, (C37_semirelaxed_direction tol htol p hp Mi).2.1⟩
  have hcost : ∀ G : I → J → R, (∀ i, ∑ j, G i j = p i) → P.cost G = obj G := by
    intro G hG
    show _ + reg * srF D C1 C2 p G = _
    rw [srF_eq D C1 C2 hG]; rfl
  have hgood : P.Good (fun G => (∀ i j, 0 ≤ G i j) ∧ ∀ i, ∑ j, G i j = p i) := by
    intro s hG hc hdf
    set Mi : I → J → R := fun i j => P.M i j + P.reg1 * s.dfG.getD (P.df s.G) i j with hMi
    rw [hcost _ hG.2] at hc
    obtain ⟨h1, h2, h3, h4⟩ := C39_linesearch_semirelaxed D C1 C2 M reg p s.G (Optim.semirelaxedLp tol p Mi) hG.2 (hdir Mi).2
    rw [show fgwObjective D.loss C1 C2 M reg s.G = s.costG from hc.symm] at h1 h2 h3 h4
    have hnn : ∀ i j, 0 ≤ (P.step s).G i j := by
      intro i j
      show 0 ≤ s.G i j + _ * (Optim.semirelaxedLp tol p Mi i j - s.G i j)
      have e : ∀ t : R, s.G i j + t * (Optim.semirelaxedLp tol p Mi i j - s.G i j)
        = (1 - t) * s.G i j + t * Optim.semirelaxedLp tol p Mi i j := fun t => by ring
      rw [e]
      exact add_nonneg (mul_nonneg (sub_nonneg.2 h2) (hG.1 i j)) (mul_nonneg h1 ((hdir Mi).1 i j))
    have hrow : ∀ i, ∑ j, (P.step s).G i j = p i := by
      intro i
      show ∑ j, (s.G i j + _ * (Optim.semirelaxedLp tol p Mi i j - s.G i j)) = p i
      rw [sum_add_distrib, ← mul_sum, sum_sub_distrib, hG.2, (hdir Mi).2]; ring
    refine ⟨⟨hnn, hrow⟩, ?_, ?_, ?_⟩
    · rw [hcost _ hrow]; exact h3
    · intro d hd; exact absurd hd (by simp [Optim.Problem.step, P, srProblem, srLinesearch])
    · have := h4 0 le_rfl zero_le_one
      have e : (fun i j => s.G i j + 0 * (Optim.semirelaxedLp tol p Mi i j - s.G i j)) = s.G := by funext i j; ring
      rw [e] at this
      rw [hc]; exact this
  intro k
  have hl := hgood.losses h0 k
  have hm := hgood.mono h0 k
  rw [hcost _ (hgood.iter h0 k).1.2, hcost _ (hgood.iter h0 (k + 1)).1.2] at hm
  refine ⟨(hgood.iter h0 k).1, ?_, hm⟩
  rw [hl]
  exact List.map_congr_left fun i _ => hcost _ (hgood.iter h0 i).1.2

/-- C36 (partial GW): with any direction finding, losses are true and non-increasing; if the directions and the start are
partial plans of mass `m` (row sums at most `a`, column sums at most `b`), so is every iterate. -/
theorem C36_partial (symmetric : Bool) (D : Decomp R) (C1 : I → I → R) (C2 : J → J → R)
    (hsym : symmetric = true → (∀ i k, C1 i k = C1 k i) ∧ (∀ j l, C2 j l = C2 l j))
    (a : I → R) (b : J → R) (m : R) (M : I → J → R) (reg : R) (lp : (I → J → R) → (I → J → R))
    (hlp : ∀ Mi, IsPartial a b (lp Mi) ∧ mass (lp Mi) = m) (numItermax : ℕ) (stopThr stopThr2 : R) (G0 : I → J → R)
    (h0 : IsPartial a b G0 ∧ mass G0 = m) :
    let P := pgProblem symmetric D C1 C2 M reg lp numItermax stopThr stopThr2
    let obj := fgwObjective D.loss C1 C2 M reg
    ∀ k, (IsPartial a b (P.iter G0 k).G ∧ mass (P.iter G0 k).G = m) ∧
      (P.iter G0 k).losses = (List.range (k + 1)).reverse.map (fun i => obj (P.iter G0 i).G) ∧
      obj (P.iter G0 (k + 1)).G ≤ obj (P.iter G0 k).G := by
  intro P obj
  have hcost : ∀ G, P.cost G = obj G := by
    intro G
    show _ + reg * pgF D C1 C2 G = _
    rw [pgF_eq D C1 C2]; rfl
  have hgood : P.Good (fun G => IsPartial a b G ∧ mass G = m) := by
    intro s hG hc hdf
    have hdf' : s.dfG.getD (P.df s.G) = pgDf symmetric D C1 C2 s.G := by
      cases hd : s.dfG with
      | none => rfl
      | some d => exact hdf d hd
    set Mi : I → J → R := fun i j => P.M i j + P.reg1 * s.dfG.getD (P.df s.G) i j with hMi
    rw [hcost] at hc
    obtain ⟨h1, h2, h3, h4, h5⟩ := C39_linesearch_partial symmetric D C1 C2 hsym M reg s.G (lp Mi)
    rw [show fgwObjective D.loss C1 C2 M reg s.G = s.costG from hc.symm] at h1 h2 h3 h4 h5
    set Δ : I → J → R := fun i j => lp Mi i j - s.G i j with hΔ
    set r := pgLinesearch M reg Δ (pgDf symmetric D C1 C2 s.G) (pgDf symmetric D C1 C2 (fun i j => Δ i j + s.G i j)) s.costG
      with hr
    have hstep : P.step s = ⟨fun i j => s.G i j + r.alpha * Δ i j, r.cost, r.df, s.it + 1, r.cost :: s.losses⟩ := by
      rw [hr, ← hdf']; rfl
    rw [hstep]
    have hmix : ∀ i j, s.G i j + r.alpha * Δ i j = (1 - r.alpha) * s.G i j + r.alpha * lp Mi i j := by
      intro i j; simp only [hΔ]; ring
    refine ⟨⟨⟨?_, ?_, ?_⟩, ?_⟩, ?_, ?_, ?_⟩
    · intro i j
      show 0 ≤ s.G i j + r.alpha * Δ i j
      rw [hmix]
      exact add_nonneg (mul_nonneg (sub_nonneg.2 h2) (hG.1.nonneg i j)) (mul_nonneg h1 ((hlp Mi).1.nonneg i j))
    · intro i
      show ∑ j, (s.G i j + r.alpha * Δ i j) ≤ a i
      simp only [hmix, sum_add_distrib, ← mul_sum]
      have e1 := mul_le_mul_of_nonneg_left (hG.1.row i) (sub_nonneg.2 h2)
      have e2 := mul_le_mul_of_nonneg_left ((hlp Mi).1.row i) h1
      linarith
    · intro j
      show ∑ i, (s.G i j + r.alpha * Δ i j) ≤ b j
      simp only [hmix, sum_add_distrib, ← mul_sum]
      have e1 := mul_le_mul_of_nonneg_left (hG.1.col j) (sub_nonneg.2 h2)
      have e2 := mul_le_mul_of_nonneg_left ((hlp Mi).1.col j) h1
      linarith
    · show mass (fun i j => s.G i j + r.alpha * Δ i j) = m
      have e1 := hG.2
      have e2 := (hlp Mi).2
      unfold mass at e1 e2 ⊢
      simp only [hmix, sum_add_distrib, ← mul_sum, e1, e2]
      ring
    · rw [hcost]; exact h3
    · intro d hd
      have : r.df = some d := hd
      rw [h5] at this
      exact (Option.some.inj this).symm
    · have := h4 0 le_rfl zero_le_one
      have e : (fun i j => s.G i j + 0 * Δ i j) = s.G := by funext i j; ring
      rw [e] at this
      show r.cost ≤ s.costG
      rw [hc]; exact this
  intro k
  have hl := hgood.losses h0 k
  have hm := hgood.mono h0 k
  rw [hcost, hcost] at hm
  refine ⟨(hgood.iter h0 k).1, ?_, hm⟩
  rw [hl]
  exact List.map_congr_left fun i _ => hcost _

/-- C36. What the loop returns (balanced): a coupling whose objective is the last recorded loss and is not
larger than the objective of the start. -/
theorem C36_fgw_returned (symmetric : Bool) (D : Decomp R) (C1 : I → I → R) (C2 : J → J → R)
    (hsym : symmetric = true → (∀ i k, C1 i k = C1 k i) ∧ (∀ j l, C2 j l = C2 l j))
    (p : I → R) (q : J → R) (M : I → J → R) (reg : R) (lp : (I → J → R) → (I → J → R))
    (hlp : ∀ Mi, IsCoupling p q (lp Mi)) (numItermax : ℕ) (stopThr stopThr2 : R) (G0 : I → J → R) (h0 : IsCoupling p q G0) :
    let P := fgwProblem symmetric D C1 C2 p q M reg lp numItermax stopThr stopThr2
    let obj := fgwObjective D.loss C1 C2 M reg
    ∃ s, P.loop (max 1 numItermax) (P.init G0) = some s ∧ IsCoupling p q s.G ∧
      s.losses.head? = some (obj s.G) ∧ obj s.G ≤ obj G0 :=
  Optim.Problem.returned (C36_fgw symmetric D C1 C2 hsym p q M reg lp hlp numItermax stopThr stopThr2 G0 h0)

/-- C36. What the loop returns (semi-relaxed). -/
theorem C36_semirelaxed_returned [Nonempty J] (symmetric : Bool) (D : Decomp R) (C1 : I → I → R) (C2 : J → J → R)
    (p : I → R) (hp : ∀ i, 0 ≤ p i) (M : I → J → R) (reg tol : R) (htol : 0 ≤ tol)
    (numItermax : ℕ) (stopThr stopThr2 : R) (G0 : I → J → R) (h0 : (∀ i j, 0 ≤ G0 i j) ∧ ∀ i, ∑ j, G0 i j = p i) :
    let P := srProblem symmetric D C1 C2 p M reg tol numItermax stopThr stopThr2
    let obj := fgwObjective D.loss C1 C2 M reg
    ∃ s, P.loop (max 1 numItermax) (P.init G0) = some s ∧ ((∀ i j, 0 ≤ s.G i j) ∧ ∀ i, ∑ j, s.G i j = p i) ∧
      s.losses.head? = some (obj s.G) ∧ obj s.G ≤ obj G0 :=
  Optim.Problem.returned (Inv := fun G => (∀ i j, 0 ≤ G i j) ∧ ∀ i, ∑ j, G i j = p i)
    (C36_semirelaxed symmetric D C1 C2 p hp M reg tol htol numItermax stopThr stopThr2 G0 h0)

/-- C36. What the loop returns (partial). -/
theorem C36_partial_returned (symmetric : Bool) (D : Decomp R) (C1 : I → I → R) (C2 : J → J → R)
    (hsym : symmetric = true → (∀ i k, C1 i k = C1 k i) ∧ (∀ j l, C2 j l = C2 l j))
    (a : I → R) (b : J → R) (m : R) (M : I → J → R) (reg : R) (lp : (I → J → R) → (I → J → R))
    (hlp : ∀ Mi, IsPartial a b (lp Mi) ∧ mass (lp Mi) = m) (numItermax : ℕ) (stopThr stopThr2 : R) (G0 : I → J → R)
    (h0 : IsPartial a b G0 ∧ mass G0 = m) :
    let P := pgProblem symmetric D C1 C2 M reg lp numItermax stopThr stopThr2
    let obj := fgwObjective D.loss C1 C2 M reg
    ∃ s, P.loop (max 1 numItermax) (P.init G0) = some s ∧ (IsPartial a b s.G ∧ mass s.G = m) ∧
      s.losses.head? = some (obj s.G) ∧ obj s.G ≤ obj G0 :=
  Optim.Problem.returned (Inv := fun G => IsPartial a b G ∧ mass G = m)
    (C36_partial symmetric D C1 C2 hsym a b m M reg lp hlp numItermax stopThr stopThr2 G0 h0)

/-! ## C40 -/

/-- C40. Relabeling the nodes by a bijection `σ`: the plan with mass `p i` on `(i, σ i)` is a coupling of `p` and the
relabeled weights and its GW loss is zero. -/
theorem C40_isometry [DecidableEq J] (C1 : I → I → R) (σ : I ≃ J) (p : I → R) (hp : ∀ i, 0 ≤ p i) :
    let C2 : J → J → R := fun j l => C1 (σ.symm j) (σ.symm l)
    let q : J → R := fun j => p (σ.symm j)
    let T : I → J → R := fun i j => if σ i = j then p i else 0
    IsCoupling p q T ∧ gwF square C1 C2 p q T = 0 := by
  intro C2 q T
  have hT : IsCoupling p q T := by
    refine ⟨fun i j => ?_, fun i => ?_, fun j => ?_⟩
    · simp only [T]; split_ifs; exacts [hp i, le_rfl]
    · simp [T]
    · simp only [T]
      rw [sum_eq_single (σ.symm j)]
      · simp [q]
      · intro i _ hi
        rw [if_neg]; rintro rfl; exact hi (by simp)
      · simp
  refine ⟨hT, ?_⟩
  rw [C38_gwloss_square C1 C2 p q T hT.row hT.col]
  refine sum_eq_zero fun i _ => sum_eq_zero fun j _ => sum_eq_zero fun k _ => sum_eq_zero fun l _ => ?_
  simp only [T]
  split_ifs with h1 h2
  · subst h1; subst h2; simp [C2]
  all_goals simp

/-- C40. Zero is the minimum: the GW loss of every coupling is non-negative. -/
theorem C40_nonneg (C1 : I → I → R) (C2 : J → J → R) (p : I → R) (q : J → R) (T : I → J → R) (hT : IsCoupling p q T) :
    0 ≤ gwF square C1 C2 p q T := by
  rw [C38_gwloss_square C1 C2 p q T hT.row hT.col]
  refine sum_nonneg fun i _ => sum_nonneg fun j _ => sum_nonneg fun k _ => sum_nonneg fun l _ => ?_
  exact mul_nonneg (mul_nonneg (sq_nonneg _) (hT.nonneg i j)) (hT.nonneg k l)

/-- C40, converse direction: a coupling with GW loss zero matches the structures wherever it puts mass. -/
theorem C40_zero_matches (C1 : I → I → R) (C2 : J → J → R) (p : I → R) (q : J → R) (T : I → J → R) (hT : IsCoupling p q T)
    (h0 : gwF square C1 C2 p q T = 0) (i k : I) (j l : J) (h1 : 0 < T i j) (h2 : 0 < T k l) : C1 i k = C2 j l := by
  rw [C38_gwloss_square C1 C2 p q T hT.row hT.col] at h0
  have nn : ∀ i j k l, 0 ≤ (C1 i k - C2 j l) ^ 2 * T i j * T k l := fun i j k l =>
    mul_nonneg (mul_nonneg (sq_nonneg _) (hT.nonneg i j)) (hT.nonneg k l)
  have e1 := (sum_eq_zero_iff_of_nonneg (fun i _ => sum_nonneg fun j _ => sum_nonneg fun k _ => sum_nonneg fun l _ => nn i j k l)).1 h0 i (mem_univ i)
  have e2 := (sum_eq_zero_iff_of_nonneg (fun j _ => sum_nonneg fun k _ => sum_nonneg fun l _ => nn i j k l)).1 e1 j (mem_univ j)
  have e3 := (sum_eq_zero_iff_of_nonneg (fun k _ => sum_nonneg fun l _ => nn i j k l)).1 e2 k (mem_univ k)
  have e4 := (sum_eq_zero_iff_of_nonneg (fun l _ => nn i j k l)).1 e3 l (mem_univ l)
  have : (C1 i k - C2 j l) ^ 2 = 0 := by
    rcases mul_eq_zero.1 e4 with h | h
    · rcases mul_eq_zero.1 h with h | h
      · exact h
      · exact absurd h h1.ne'
    · exact absurd h h2.ne'
  exact sub_eq_zero.1 (pow_eq_zero_iff two_ne_zero |>.1 this)

/-! ## C59: gradients of `gromov_wasserstein2` with respect to the structures -/

/-- C59. For a fixed plan with marginals `p`, `q` the GW loss (square) as a function of the first structure is a
quadratic polynomial along every line, with derivative the matrix `gC1` set as gradient. -/
theorem C59_gradC1 (C1 : I → I → R) (C2 : J → J → R) (p : I → R) (q : J → R) (T : I → J → R) (hT : IsCoupling p q T)
    (E : I → I → R) (t : R) :
    gwEnergy sqLoss (fun i k => C1 i k + t * E i k) C2 T
      = gwEnergy sqLoss C1 C2 T + t * ∑ i, ∑ k, gradC1 C1 C2 p T i k * E i k
        + t ^ 2 * ∑ i, ∑ k, E i k ^ 2 * (p i * p k) := by
  have key : ∀ f : I → I → R, ∑ i, ∑ j, ∑ k, ∑ l, f i k * T i j * T k l = ∑ i, ∑ k, f i k * (p i * p k) := by
    intro f
    refine sum_congr rfl fun i _ => ?_
    rw [sum_comm]
    refine sum_congr rfl fun k _ => ?_
    simp only [← mul_sum, ← sum_mul, hT.row]
    ring
  have hcross : ∑ i, ∑ j, ∑ k, ∑ l, (2 * E i k * C2 j l) * T i j * T k l
      = ∑ i, ∑ k, (2 * ∑ j, T i j * ∑ l, C2 j l * T k l) * E i k := by
    refine sum_congr rfl fun i _ => ?_
    rw [sum_comm]
    refine sum_congr rfl fun k _ => ?_
    simp only [mul_sum, sum_mul]
    refine sum_congr rfl fun j _ => sum_congr rfl fun l _ => ?_
    ring
  have h1 := key (fun i k => 2 * C1 i k * E i k)
  have h2 := key (fun i k => E i k ^ 2)
  have expand : gwEnergy sqLoss (fun i k => C1 i k + t * E i k) C2 T
      = gwEnergy sqLoss C1 C2 T + t * (∑ i, ∑ j, ∑ k, ∑ l, (2 * C1 i k * E i k) * T i j * T k l
          - ∑ i, ∑ j, ∑ k, ∑ l, (2 * E i k * C2 j l) * T i j * T k l)
        + t ^ 2 * ∑ i, ∑ j, ∑ k, ∑ l, (E i k ^ 2) * T i j * T k l := by
    simp only [gwEnergy, mul_sub, mul_sum, ← sum_sub_distrib, ← sum_add_distrib]
    refine sum_congr rfl fun i _ => sum_congr rfl fun j _ => sum_congr rfl fun k _ => sum_congr rfl fun l _ => ?_
    unfold sqLoss; ring
  rw [expand, h1, h2, hcross]
  congr 2
  rw [← sum_sub_distrib]
  congr 1
  refine sum_congr rfl fun i _ => ?_
  rw [← sum_sub_distrib]
  refine sum_congr rfl fun k _ => ?_
  unfold gradC1
  ring

/-- C59, second structure. -/
theorem C59_gradC2 (C1 : I → I → R) (C2 : J → J → R) (p : I → R) (q : J → R) (T : I → J → R) (hT : IsCoupling p q T)
    (E : J → J → R) (t : R) :
    gwEnergy sqLoss C1 (fun j l => C2 j l + t * E j l) T
      = gwEnergy sqLoss C1 C2 T + t * ∑ j, ∑ l, gradC2 C1 C2 q T j l * E j l
        + t ^ 2 * ∑ j, ∑ l, E j l ^ 2 * (q j * q l) := by
  have flip : ∀ (A : I → I → R) (B : J → J → R), gwEnergy sqLoss A B T = gwEnergy sqLoss B A (fun j i => T i j) := by
    intro A B
    unfold gwEnergy
    rw [sum_comm]
    refine sum_congr rfl fun j _ => sum_congr rfl fun i _ => ?_
    rw [sum_comm]
    refine sum_congr rfl fun l _ => sum_congr rfl fun k _ => ?_
    unfold sqLoss; ring
  have hT' : IsCoupling q p (fun j i => T i j) := ⟨fun j i => hT.nonneg i j, hT.col, hT.row⟩
  rw [flip, flip C1 C2, C59_gradC1 C2 C1 q p _ hT' E t]
  rfl

end Ordered

/-! ### Non-vacuity -/

/-- A non-trivial instance of the hypotheses of `C36_fgw`: two points on each side, solver returning the diagonal plan. -/
example : IsCoupling (![1/2, 1/2] : Fin 2 → ℚ) ![1/2, 1/2] ![![1/2, 0], ![0, 1/2]] := by
  refine ⟨fun i j => ?_, fun i => ?_, fun j => ?_⟩
  · fin_cases i <;> fin_cases j <;> simp
  · fin_cases i <;> simp [Fin.sum_univ_two]
  · fin_cases j <;> simp [Fin.sum_univ_two]

example : IsCoupling (![1/2, 1/2] : Fin 2 → ℚ) ![1/2, 1/2] ![![1/4, 1/4], ![1/4, 1/4]] := by
  refine ⟨fun i j => ?_, fun i => ?_, fun j => ?_⟩
  · fin_cases i <;> fin_cases j <;> simp
  · fin_cases i <;> simp [Fin.sum_univ_two] <;> norm_num
  · fin_cases j <;> simp [Fin.sum_univ_two] <;> norm_num

end POT.Props
