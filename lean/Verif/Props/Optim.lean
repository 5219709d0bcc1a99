import Verif.Lemmas.Optim
import Verif.Spec.Gromov
import Mathlib.Tactic.NormNum
import Mathlib.Tactic.FinCases
import Mathlib.Algebra.BigOperators.Fin
import Mathlib.Data.Fin.VecNotation
import Mathlib.Data.Rat.Defs
import Mathlib.Algebra.Order.Ring.Rat

/-! # C34, C35, C36 (Armijo part), C37: `ot/optim.py` -/

set_option linter.unusedSectionVars false

namespace POT.Props

open Finset Optim Spec

variable {R : Type*} [Field R] [LinearOrder R] [IsStrictOrderedRing R]
variable {I J : Type*} [Fintype I] [Fintype J]

/-- C34. The step of the quadratic line search lies in `[0,1]` and minimises `a x² + b x` there. -/
theorem C34_linesearch_quad (a b : R) :
    (0 ≤ quadStep a b ∧ quadStep a b ≤ 1) ∧
      ∀ x, 0 ≤ x → x ≤ 1 → a * quadStep a b ^ 2 + b * quadStep a b ≤ a * x ^ 2 + b * x :=
  ⟨quadStep_mem a b, fun x h0 h1 => quadStep_min a b x h0 h1⟩

example : quadStep (1 : ℚ) (-1) = 1 / 2 := by
  unfold quadStep; norm_num
example : quadStep (-1 : ℚ) (1 / 2) = 1 := by
  unfold quadStep; norm_num

/-- C35. Conditional gradient with any line search whose steps are in `[0,1]` and any direction finding that
returns couplings: every iterate is a coupling. -/
theorem C35_cg_iterates_couplings (P : Problem R I J) (a : I → R) (b : J → R)
    (hlp : ∀ Mi, IsCoupling a b (P.lpSolver Mi))
    (hls : ∀ G dG Mi c d, 0 ≤ (P.lineSearch G dG Mi c d).alpha ∧ (P.lineSearch G dG Mi c d).alpha ≤ 1)
    (G0 : I → J → R) (h0 : IsCoupling a b G0) (k : ℕ) : IsCoupling a b (P.iter G0 k).G := by
  induction k with
  | zero => exact h0
  | succ k ih => exact ih.line (hlp _) (hls _ _ _ _ _).1 (hls _ _ _ _ _).2

/-- C35. The loop ends after at most `max 1 numItermax` iterations and returns a coupling. -/
theorem C35_cg_returns_coupling (P : Problem R I J) (a : I → R) (b : J → R)
    (hlp : ∀ Mi, IsCoupling a b (P.lpSolver Mi))
    (hls : ∀ G dG Mi c d, 0 ≤ (P.lineSearch G dG Mi c d).alpha ∧ (P.lineSearch G dG Mi c d).alpha ≤ 1)
    (G0 : I → J → R) (h0 : IsCoupling a b G0) :
    ∃ s, P.loop (max 1 P.numItermax) (P.init G0) = some s ∧ IsCoupling a b s.G ∧ s.it ≤ max 1 P.numItermax := by
  obtain ⟨j, h1, h2, h3⟩ := P.loop_init G0
  exact ⟨_, h3, C35_cg_iterates_couplings P a b hlp hls G0 h0 j, by rw [P.iter_it]; exact h2⟩

/-- C35. The default start `outer(a,b)` is a coupling when both masses are one. -/
theorem C35_default_start (a : I → R) (b : J → R) (ha : ∀ i, 0 ≤ a i) (hb : ∀ j, 0 ≤ b j)
    (hsa : ∑ i, a i = 1) (hsb : ∑ j, b j = 1) : IsCoupling a b (outer a b) where
  nonneg i j := mul_nonneg (ha i) (hb j)
  row i := by simp only [outer, ← mul_sum, hsb, mul_one]
  col j := by simp only [outer, ← sum_mul, hsa, one_mul]

/-- C35. For masses other than one the default start is *not* a coupling. -/
theorem C35_default_start_counterexample :
    ¬ IsCoupling (fun _ : Fin 1 => (2 : ℚ)) (fun _ : Fin 1 => (2 : ℚ)) (outer (fun _ => 2) (fun _ => 2)) := by
  intro h
  have := h.row 0
  simp [outer] at this

/-! ### The default line search of `cg` -/

/-- What SciPy's `scalar_search_armijo` promises: a step it accepts is at most one, comes with the value
of `phi` there, and satisfies the sufficient decrease condition. -/
def SearchOk (c1 : R) (search : (R → R) → R → R → Option (R × R)) : Prop :=
  ∀ phi phi0 der x y, search phi phi0 der = some (x, y) → y = phi x ∧ y ≤ phi0 + c1 * x * der ∧ x ≤ 1

/-- C36. `cg` with its default line search and an exact linear solver: the recorded losses are the objective values of the
iterates, they never increase, and all iterates are couplings. -/
theorem C36_cg_armijo (a : I → R) (b : J → R) (M : I → J → R) (f : (I → J → R) → R)
    (df : (I → J → R) → (I → J → R)) (reg c1 : R) (hc1 : 0 ≤ c1)
    (lp : (I → J → R) → (I → J → R)) (hlp : ∀ Mi, IsOptimal a b Mi (lp Mi))
    (search : (R → R) → R → R → Option (R × R)) (hs : SearchOk c1 search)
    (numItermax : ℕ) (stopThr stopThr2 : R) (G0 : I → J → R) (h0 : IsCoupling a b G0) :
    let P := cgProblem M f df reg lp search numItermax stopThr stopThr2
    let obj : (I → J → R) → R := fun G => inner M G + reg * f G
    ∀ k, IsCoupling a b (P.iter G0 k).G ∧
      (P.iter G0 k).losses = (List.range (k + 1)).reverse.map (fun i => obj (P.iter G0 i).G) ∧
      obj (P.iter G0 (k + 1)).G ≤ obj (P.iter G0 k).G := by
  intro P obj
  have hgood : P.Good (IsCoupling a b) := by
    intro s hG hcost hdf
    set dfG := s.dfG.getD (P.df s.G) with hd
    set Mi : I → J → R := fun i j => P.M i j + P.reg1 * dfG i j with hMi
    set Δ : I → J → R := fun i j => lp Mi i j - s.G i j with hΔ
    set phi : R → R := fun x => obj fun i j => s.G i j + clip 0 none x * Δ i j with hphi
    have hder : ∑ i, ∑ j, Δ i j * Mi i j ≤ 0 := by
      have h1 := (hlp Mi).2 s.G hG
      have h2 : ∑ i, ∑ j, Δ i j * Mi i j = cost Mi (lp Mi) - cost Mi s.G := by
        simp only [cost, ← sum_sub_distrib]
        refine sum_congr rfl fun i _ => sum_congr rfl fun j _ => ?_
        simp only [hΔ]; ring
      rw [h2]; linarith
    have hcost' : P.cost = obj := rfl
    rw [hcost'] at hcost
    have hstep : P.step s =
        ⟨fun i j => s.G i j + (armijo search 0 none obj s.G Δ Mi s.costG).alpha * Δ i j,
         (armijo search 0 none obj s.G Δ Mi s.costG).cost, (armijo search 0 none obj s.G Δ Mi s.costG).df,
         s.it + 1, (armijo search 0 none obj s.G Δ Mi s.costG).cost :: s.losses⟩ := rfl
    rw [hstep, hcost']
    cases hsr : search phi s.costG (∑ i, ∑ j, Δ i j * Mi i j) with
    | none =>
      have harm : armijo search 0 none obj s.G Δ Mi s.costG = { alpha := 0, cost := s.costG, df := none } := by
        simp only [armijo]; rw [← hphi, hsr]
      rw [harm]
      have e : (fun i j => s.G i j + 0 * Δ i j) = s.G := by funext i j; ring
      refine ⟨?_, ?_, ?_, le_rfl⟩
      · simpa only [e] using hG
      · simpa only [e] using hcost
      · intro d hd'; simp at hd'
    | some xy =>
      obtain ⟨x, y⟩ := xy
      have harm : armijo search 0 none obj s.G Δ Mi s.costG = { alpha := clip 0 none x, cost := y, df := none } := by
        simp only [armijo]; rw [← hphi, hsr]
      rw [harm]
      obtain ⟨h1, h2, h3⟩ := hs _ _ _ _ _ hsr
      have hx0 : 0 ≤ clip (0 : R) none x := le_max_left _ _
      have hx1 : clip (0 : R) none x ≤ 1 := max_le zero_le_one h3
      refine ⟨hG.line (hlp Mi).1 hx0 hx1, h1, ?_, ?_⟩
      · intro d hd'; simp at hd'
      · show y ≤ s.costG
        rcases le_total x 0 with hx | hx
        · have : clip (0 : R) none x = 0 := max_eq_left hx
          rw [h1, hphi]; dsimp only
          rw [this]
          have e : (fun i j => s.G i j + 0 * Δ i j) = s.G := by funext i j; ring
          rw [e, hcost]
        · have : c1 * x * ∑ i, ∑ j, Δ i j * Mi i j ≤ 0 :=
            mul_nonpos_of_nonneg_of_nonpos (mul_nonneg hc1 hx) hder
          linarith
  intro k
  exact ⟨(hgood.iter h0 k).1, hgood.losses h0 k, hgood.mono h0 k⟩

/-- The search contract can be met (a search that always gives up, and one that tests one step). -/
example : SearchOk (0 : ℚ) (fun phi phi0 _ => if phi 1 ≤ phi0 then some (1, phi 1) else none) := by
  intro phi phi0 der x y h
  dsimp only at h
  split_ifs at h with hc
  simp only [Option.some.injEq, Prod.mk.injEq] at h
  obtain ⟨rfl, rfl⟩ := h
  exact ⟨rfl, by linarith, le_rfl⟩

/-! ## C37 -/

/-- C37. The direction of the semi-relaxed solvers: non-negative, row sums `a`, and no non-negative plan with row
sums `a` is cheaper by more than the tie margin `tol` (1e-15 in the code) times the mass. -/
theorem C37_semirelaxed_direction [Nonempty J] (tol : R) (htol : 0 ≤ tol) (a : I → R) (ha : ∀ i, 0 ≤ a i)
    (Mi : I → J → R) :
    (∀ i j, 0 ≤ semirelaxedLp tol a Mi i j) ∧ (∀ i, ∑ j, semirelaxedLp tol a Mi i j = a i) ∧
    ∀ G : I → J → R, (∀ i j, 0 ≤ G i j) → (∀ i, ∑ j, G i j = a i) →
      cost Mi (semirelaxedLp tol a Mi) ≤ cost Mi G + tol * ∑ i, a i := by
  set mn : I → R := fun i => univ.inf' univ_nonempty fun j => Mi i j with hmn
  set mask : I → J → R := fun i j => if Mi i j ≤ mn i + tol then 1 else 0 with hmask
  have hval : ∀ i j, semirelaxedLp tol a Mi i j = mask i j * (a i / ∑ j, mask i j) := fun i j => rfl
  have hm0 : ∀ i j, 0 ≤ mask i j := by
    intro i j; simp only [hmask]; split_ifs; exacts [zero_le_one, le_rfl]
  have hpos : ∀ i, 0 < ∑ j, mask i j := by
    intro i
    obtain ⟨j, _, hj⟩ := exists_mem_eq_inf' (univ_nonempty (α := J)) fun j => Mi i j
    refine sum_pos' (fun j _ => hm0 i j) ⟨j, mem_univ j, ?_⟩
    have : Mi i j ≤ mn i + tol := by simp only [hmn]; rw [hj]; linarith
    simp only [hmask, if_pos this]; exact zero_lt_one
  have hrow : ∀ i, ∑ j, semirelaxedLp tol a Mi i j = a i := by
    intro i
    simp only [hval, ← sum_mul]
    rw [mul_div_assoc', mul_comm, mul_div_assoc, div_self (hpos i).ne', mul_one]
  have hnn : ∀ i j, 0 ≤ semirelaxedLp tol a Mi i j := fun i j =>
    mul_nonneg (hm0 i j) (div_nonneg (ha i) (hpos i).le)
  refine ⟨hnn, hrow, fun G hG hGr => ?_⟩
  have hup : cost Mi (semirelaxedLp tol a Mi) ≤ ∑ i, (mn i + tol) * a i := by
    unfold cost
    refine sum_le_sum fun i _ => ?_
    rw [← hrow i, mul_sum]
    refine sum_le_sum fun j _ => ?_
    by_cases hc : Mi i j ≤ mn i + tol
    · rw [mul_comm (mn i + tol)]
      exact mul_le_mul_of_nonneg_left hc (hnn i j)
    · have : semirelaxedLp tol a Mi i j = 0 := by rw [hval]; simp only [hmask, if_neg hc, zero_mul]
      rw [this]; simp
  have hlow : ∑ i, mn i * a i ≤ cost Mi G := by
    unfold cost
    refine sum_le_sum fun i _ => ?_
    rw [← hGr i, mul_sum]
    refine sum_le_sum fun j _ => ?_
    rw [mul_comm (mn i)]
    exact mul_le_mul_of_nonneg_left (inf'_le _ (mem_univ j)) (hG i j)
  have : ∑ i, (mn i + tol) * a i = ∑ i, mn i * a i + tol * ∑ i, a i := by
    rw [mul_sum, ← sum_add_distrib]; exact sum_congr rfl fun i _ => by ring
  linarith

/-- C37 in exact arithmetic (no margin): a minimiser. -/
theorem C37_semirelaxed_direction_exact [Nonempty J] (a : I → R) (ha : ∀ i, 0 ≤ a i) (Mi : I → J → R)
    (G : I → J → R) (hG : ∀ i j, 0 ≤ G i j) (hGr : ∀ i, ∑ j, G i j = a i) :
    cost Mi (semirelaxedLp 0 a Mi) ≤ cost Mi G := by
  have := (C37_semirelaxed_direction 0 le_rfl a ha Mi).2.2 G hG hGr
  simpa using this

/-- ties: the mass is split -/
example : semirelaxedLp (0 : ℚ) (fun _ : Fin 1 => 1) (fun _ (j : Fin 3) => ![1, 1, 2] j) 0 1 = 1 / 2 := by
  have h : univ.inf' univ_nonempty (fun j : Fin 3 => (![1, 1, 2] : Fin 3 → ℚ) j) = 1 := by
    apply le_antisymm
    · exact inf'_le (fun j : Fin 3 => (![1, 1, 2] : Fin 3 → ℚ) j) (mem_univ 0)
    · apply le_inf'; intro j _; fin_cases j <;> simp
  simp only [semirelaxedLp, h, Fin.sum_univ_three]
  norm_num [Matrix.cons_val_zero, Matrix.cons_val_one, Matrix.cons_val_two, Matrix.vecHead, Matrix.vecTail]

end POT.Props
