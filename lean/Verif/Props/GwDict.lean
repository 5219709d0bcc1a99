import Verif.Lemmas.GwDictLearn
import Mathlib.Tactic.NormNum
import Mathlib.Data.Fin.VecNotation
import Mathlib.Algebra.BigOperators.Fin

/-!
# C119: unmixing a graph on a dictionary, and learning the dictionary

`gwUnmixing`/`fgwUnmixing` alternate plans and weights; `cgGw`/`cgFgw` are the weight solvers.
-/

set_option linter.unusedSectionVars false

namespace POT.Props

open Finset POT.Spec POT.GwDict

variable {I J D K : Type} [Fintype I] [Fintype J] [Fintype D] [Fintype K] [Nonempty D]

/-- **One round of the weight solver.**  From weights `w` with the matching embeddings, the new weights are
`w + γ (x - w)` where `x` are the weights towards which the objective has the smallest slope and `γ` is the best step of
`[0, 1]` for the objective; the reported change of loss is the change of the objective, embeddings follow. -/
theorem C119_round (α reg : ℝ) (C : I → I → ℝ) (Y : I → K → ℝ) (Cd : D → J → J → ℝ) (Yd : D → J → K → ℝ) (q : J → ℝ) (T : I → J → ℝ)
    (hq : ∀ j, ∑ i, T i j = q j) (hs : IsSymm C ∨ ∀ d, IsSymm (Cd d)) (s : FgwSt J K D) (hw : IsWeights s.w)
    (hE : s.E = atomMix s.w Cd) (hF : s.F = atomMix s.w Yd) :
    let f := unmixEnergy α reg C Y Cd Yd T
    let s' := fgwStep α reg q (constTCT C T) T Y Cd Yd s
    ∃ x : D → ℝ, ∃ γ : ℝ, IsWeights x ∧ 0 ≤ γ ∧ γ ≤ 1 ∧ s'.w = (fun d => s.w d + γ * (x d - s.w d)) ∧
      (∀ t : ℝ, 0 ≤ t → t ≤ 1 → f s'.w ≤ f (fun d => s.w d + t * (x d - s.w d))) ∧
      (∀ z a b a' b', IsWeights z → ExpandsTo f s.w x a b → ExpandsTo f s.w z a' b' → b ≤ b') ∧
      s'.loss - s.loss = f s'.w - f s.w ∧ s'.E = atomMix s'.w Cd ∧ s'.F = atomMix s'.w Yd := by
  intro f s'
  have hx := direction_weights (gradFgw α reg q (constTCT C T) T Y Cd Yd s.E s.F s.w)
  have hc := coef_eq α reg q (constTCT C T) T hq Y Cd Yd s.w (direction (gradFgw α reg q (constTCT C T) T Y Cd Yd s.E s.F s.w))
  rw [← hE, ← hF] at hc
  have hm : ∀ z, IsWeights z → cB α reg q (constTCT C T) T Y Cd Yd s.w (direction (gradFgw α reg q (constTCT C T) T Y Cd Yd s.E s.F s.w))
      ≤ cB α reg q (constTCT C T) T Y Cd Yd s.w z := by
    intro z hz
    rw [slope_eq, slope_eq, ← hE, ← hF]
    exact direction_min _ _ _ hz
  have hs' : s' = fgwStep α reg q (constTCT C T) T Y Cd Yd s := rfl
  unfold fgwStep at hs'
  simp only at hs'
  generalize direction (gradFgw α reg q (constTCT C T) T Y Cd Yd s.E s.F s.w) = x at *
  rw [hc] at hs'
  have hexp := expand α reg C Y Cd Yd q T hq hs s.w x
  obtain ⟨h0, h1⟩ := step_mem (cA α reg q Cd Yd s.w x) (cB α reg q (constTCT C T) T Y Cd Yd s.w x)
  refine ⟨x, stepSize (cA α reg q Cd Yd s.w x) (cB α reg q (constTCT C T) T Y Cd Yd s.w x), hx, h0, h1, ?_, ?_, ?_, ?_, ?_, ?_⟩
  · rw [hs']
  · intro t t0 t1
    rw [hs']
    simp only [f]
    rw [hexp, hexp]
    have := step_min (cA α reg q Cd Yd s.w x) (cB α reg q (constTCT C T) T Y Cd Yd s.w x) t t0 t1
    linarith
  · intro z a b a' b' hz e1 e2
    rw [(expandsTo_unique e1 hexp).2, (expandsTo_unique e2 (expand α reg C Y Cd Yd q T hq hs s.w z)).2]
    exact hm z hz
  · rw [hs']
    simp only [f]
    rw [hexp]
    ring
  · rw [hs']; funext k l
    simp only [mixture_move, embed_eq, hE]
  · rw [hs']; funext j c
    simp only [mixture_move, embed_eq, hF]

/-- **The weight solver.**  Started at weights with the matching embeddings and loss, it returns weights, their
embeddings and their loss, and this loss is not above the starting one. -/
theorem C119_inner (α reg tol : ℝ) (n : ℕ) (C : I → I → ℝ) (Y : I → K → ℝ) (Cd : D → J → J → ℝ) (Yd : D → J → K → ℝ) (q : J → ℝ)
    (T : I → J → ℝ) (hq : ∀ j, ∑ i, T i j = q j) (hs : IsSymm C ∨ ∀ d, IsSymm (Cd d)) (w : D → ℝ) (hw : IsWeights w) :
    let f := unmixEnergy α reg C Y Cd Yd T
    let r := cgFgw α reg tol n C Y Cd Yd q T ⟨w, atomMix w Cd, atomMix w Yd, f w⟩
    IsWeights r.w ∧ r.E = atomMix r.w Cd ∧ r.F = atomMix r.w Yd ∧ r.loss = f r.w ∧ f r.w ≤ f w := by
  intro f r
  obtain ⟨h1, h2⟩ := loop_good (q := q) (1 / 10 ^ 12) tol hq hs n ⟨w, atomMix w Cd, atomMix w Yd, f w⟩ ⟨hw, rfl, rfl, rfl⟩
  exact ⟨h1.wt, h1.E, h1.F, h1.loss, h1.loss.symm.le.trans h2⟩

/-- **No progress means stationary.**  If the weight solver (at least one round allowed) returns the starting loss, the
starting weights are stationary: the objective has no negative slope towards any weights. -/
theorem C119_stationary (α reg tol : ℝ) (n : ℕ) (C : I → I → ℝ) (Y : I → K → ℝ) (Cd : D → J → J → ℝ) (Yd : D → J → K → ℝ) (q : J → ℝ)
    (T : I → J → ℝ) (hq : ∀ j, ∑ i, T i j = q j) (hs : IsSymm C ∨ ∀ d, IsSymm (Cd d)) (w : D → ℝ) (hw : IsWeights w)
    (he : (cgFgw α reg tol (n + 1) C Y Cd Yd q T ⟨w, atomMix w Cd, atomMix w Yd, unmixEnergy α reg C Y Cd Yd T w⟩).loss
      = unmixEnergy α reg C Y Cd Yd T w) :
    IsStationaryWeights (unmixEnergy α reg C Y Cd Yd T) w := by
  have hg : Good α reg C Y Cd Yd T ⟨w, atomMix w Cd, atomMix w Yd, unmixEnergy α reg C Y Cd Yd T w⟩ := ⟨hw, rfl, rfl, rfl⟩
  refine stuck_stationary (q := q) hq hs hg (le_antisymm (step_le hq hg) ?_)
  have h1 := step_good (q := q) hq hs hg
  refine he.symm.le.trans ?_
  unfold cgFgw
  rw [fgwLoop]
  split_ifs
  · exact (loop_good (q := q) _ tol hq hs n _ h1).2
  · exact le_refl _

/-- **Rate for the convex case** (`reg ≤ 0`, `α ∈ [0, 1]`).  After at least one round the objective of the returned weights
exceeds that of any weights by at most `max (4L/(n+2)) (max (2δ) (2√(Lδ)))`, `n` the number of rounds allowed,
`δ = tol · starting objective` and `L` a bound of the curvature of the objective on the weights. -/
theorem C119_rate (α reg tol : ℝ) (hα0 : 0 ≤ α) (hα1 : α ≤ 1) (hr : reg ≤ 0) (htol : 0 ≤ tol) (n : ℕ) (hn : 1 ≤ n) (C : I → I → ℝ)
    (Y : I → K → ℝ) (Cd : D → J → J → ℝ) (Yd : D → J → K → ℝ) (p : I → ℝ) (q : J → ℝ) (T : I → J → ℝ) (hT : IsCoupling p q T)
    (hs : IsSymm C ∨ ∀ d, IsSymm (Cd d)) (L : ℝ)
    (hL : ∀ w z a b, IsWeights w → IsWeights z → ExpandsTo (unmixEnergy α reg C Y Cd Yd T) w z a b → a ≤ L)
    (w z : D → ℝ) (hw : IsWeights w) (hz : IsWeights z) :
    let f := unmixEnergy α reg C Y Cd Yd T
    f (cgFgw α reg tol n C Y Cd Yd q T ⟨w, atomMix w Cd, atomMix w Yd, f w⟩).w
      ≤ f z + max (4 * L / (n + 2)) (max (2 * (tol * f w)) (2 * Real.sqrt (L * (tol * f w)))) := by
  intro f
  have hq0 : ∀ j, 0 ≤ q j := fun j => by rw [← hT.col j]; exact sum_nonneg fun i _ => hT.nonneg i j
  have hL' : ∀ w z : D → ℝ, IsWeights w → IsWeights z → cA α reg q Cd Yd w z ≤ L :=
    fun w z h1 h2 => hL w z _ _ h1 h2 (expand α reg C Y Cd Yd q T hT.col hs w z)
  have hL0 : 0 ≤ L := (cA_nonneg hα0 hα1 hr hq0 w z).trans (hL' w z hw hz)
  have hg : Good α reg C Y Cd Yd T ⟨w, atomMix w Cd, atomMix w Yd, f w⟩ := ⟨hw, rfl, rfl, rfl⟩
  have h := loop_rate (q := q) (1 / 10 ^ 12) tol htol hα0 hα1 hr hT.nonneg hq0 hT.col hs hL0 hL' (f w) z hz n 0 (by omega) _ hg le_rfl
    (fun h => absurd h (by omega))
  have h2 := (loop_good (q := q) (1 / 10 ^ 12) tol hT.col hs n _ hg).1.loss
  rw [h2] at h
  simp only [Nat.cast_zero, add_zero] at h
  have h3 : f (cgFgw α reg tol n C Y Cd Yd q T ⟨w, atomMix w Cd, atomMix w Yd, f w⟩).w - f z ≤ _ := h
  linarith

/-- **Such a bound exists**, whatever the plan: an explicit one from the sizes of the atoms. -/
theorem C119_curvature (α reg : ℝ) (hα0 : 0 ≤ α) (hα1 : α ≤ 1) (hr : reg ≤ 0) (C : I → I → ℝ) (Y : I → K → ℝ) (Cd : D → J → J → ℝ)
    (Yd : D → J → K → ℝ) (p : I → ℝ) (q : J → ℝ) (T : I → J → ℝ) (hT : IsCoupling p q T) (hs : IsSymm C ∨ ∀ d, IsSymm (Cd d))
    (w z : D → ℝ) (a b : ℝ) (hw : IsWeights w) (hz : IsWeights z) (h : ExpandsTo (unmixEnergy α reg C Y Cd Yd T) w z a b) :
    a ≤ α * ∑ j, ∑ l, (∑ d, |Cd d j l|) ^ 2 * (q j * q l) + (1 - α) * ∑ j, ∑ c, (∑ d, |Yd d j c|) ^ 2 * q j
      - reg * Fintype.card D := by
  have hq0 : ∀ j, 0 ≤ q j := fun j => by rw [← hT.col j]; exact sum_nonneg fun i _ => hT.nonneg i j
  rw [(expandsTo_unique h (expand α reg C Y Cd Yd q T hT.col hs w z)).1]
  exact cA_le hα0 hα1 hr hq0 hw hz

/-- **Fused unmixing.**  With at least one outer round: the weights are weights, the embeddings are their mixtures, the
plan is a coupling, the reported loss is the objective of what is returned, and it is not above the objective of uniform
weights with the independent plan. -/
theorem C119_fused_unmixing (α reg tolO tolI : ℝ) (n m : ℕ) (hn : 1 ≤ n) (C : I → I → ℝ) (Y : I → K → ℝ) (Cd : D → J → J → ℝ)
    (Yd : D → J → K → ℝ) (p : I → ℝ) (q : J → ℝ) (hp0 : ∀ i, 0 ≤ p i) (hp1 : ∑ i, p i = 1) (hq0 : ∀ j, 0 ≤ q j) (hq1 : ∑ j, q j = 1)
    (hs : IsSymm C ∨ ∀ d, IsSymm (Cd d)) (solve : (I → J → ℝ) → (J → J → ℝ) → (I → J → ℝ) → (I → J → ℝ) × ℝ)
    (hsol : IsFgwSolver α C p q solve) :
    let r := fgwUnmixing solve α reg tolO tolI n m C Y Cd Yd p q
    IsWeights r.st.w ∧ r.st.E = atomMix r.st.w Cd ∧ r.st.F = atomMix r.st.w Yd ∧ IsCoupling p q r.T ∧
      r.st.loss = unmixEnergy α reg C Y Cd Yd r.T r.st.w ∧
      r.st.loss ≤ unmixEnergy α reg C Y Cd Yd (fun i j => p i * q j) (fun _ => 1 / (Fintype.card D : ℝ)) := by
  intro r
  have hpq : IsCoupling p q fun i j => p i * q j := by
    refine ⟨fun i j => mul_nonneg (hp0 i) (hq0 j), fun i => ?_, fun j => ?_⟩
    · rw [← mul_sum, hq1, mul_one]
    · rw [← sum_mul, hp1, one_mul]
  obtain ⟨h1, h2, h3⟩ := outer_loop (reg := reg) (Y := Y) solve hsol hs tolO tolI m n (fgwInit p q Cd Yd)
    ⟨unif_weights, rfl, rfl, hpq⟩ hn
  exact ⟨h2.wt, h2.E, h2.F, h1, h2.loss, h3⟩

/-- **More outer rounds never hurt**: one more round from a returned state does not increase the objective. -/
theorem C119_fused_monotone (α reg tolI : ℝ) (m : ℕ) (C : I → I → ℝ) (Y : I → K → ℝ) (Cd : D → J → J → ℝ)
    (Yd : D → J → K → ℝ) (p : I → ℝ) (q : J → ℝ)
    (hs : IsSymm C ∨ ∀ d, IsSymm (Cd d)) (solve : (I → J → ℝ) → (J → J → ℝ) → (I → J → ℝ) → (I → J → ℝ) × ℝ)
    (hsol : IsFgwSolver α C p q solve) (w : D → ℝ) (hw : IsWeights w) (T : I → J → ℝ) (hT : IsCoupling p q T) (l : ℝ) :
    let r := fgwOuterStep solve α reg tolI m C Y Cd Yd q ⟨⟨w, atomMix w Cd, atomMix w Yd, l⟩, T⟩
    r.st.loss = unmixEnergy α reg C Y Cd Yd r.T r.st.w ∧ r.st.loss ≤ unmixEnergy α reg C Y Cd Yd T w := by
  intro r
  obtain ⟨-, h2, h3⟩ := outer_step (reg := reg) (Y := Y) solve hsol hs (1 / 10 ^ 12) tolI m
    ⟨⟨w, atomMix w Cd, atomMix w Yd, l⟩, T⟩ ⟨hw, rfl, rfl, hT⟩
  exact ⟨h2.loss, h3⟩

/-- **Unmixing without features**: the same for `gromov_wasserstein_linear_unmixing`. -/
theorem C119_unmixing (reg tolO tolI : ℝ) (n m : ℕ) (hn : 1 ≤ n) (C : I → I → ℝ) (Cd : D → J → J → ℝ)
    (p : I → ℝ) (q : J → ℝ) (hp0 : ∀ i, 0 ≤ p i) (hp1 : ∑ i, p i = 1) (hq0 : ∀ j, 0 ≤ q j) (hq1 : ∑ j, q j = 1)
    (hs : IsSymm C ∨ ∀ d, IsSymm (Cd d)) (solve : (J → J → ℝ) → (I → J → ℝ) → (I → J → ℝ) × ℝ)
    (hsol : IsGwSolver C p q solve) :
    let r := gwUnmixing solve reg tolO tolI n m C Cd p q
    IsWeights r.st.w ∧ r.st.E = atomMix r.st.w Cd ∧ IsCoupling p q r.T ∧
      r.st.loss = unmixGwEnergy reg C Cd r.T r.st.w ∧
      r.st.loss ≤ unmixGwEnergy reg C Cd (fun i j => p i * q j) (fun _ => 1 / (Fintype.card D : ℝ)) := by
  intro r
  have hpq : IsCoupling p q fun i j => p i * q j := by
    refine ⟨fun i j => mul_nonneg (hp0 i) (hq0 j), fun i => ?_, fun j => ?_⟩
    · rw [← mul_sum, hq1, mul_one]
    · rw [← sum_mul, hp1, one_mul]
  obtain ⟨h1, h2, h3⟩ := outer_loop_gw (reg := reg) solve hsol hs tolO tolI m n (gwInit p q Cd) unif_weights rfl hpq hn
  exact ⟨h2.wt, h2.E, h1, h2.loss, h3⟩

/-- **Weight solver without features**: consistency, no increase, stationarity when nothing is gained, and the rate for
`reg ≤ 0`. -/
theorem C119_gw_inner (reg tol : ℝ) (n : ℕ) (hn : 1 ≤ n) (C : I → I → ℝ) (Cd : D → J → J → ℝ) (p : I → ℝ) (q : J → ℝ)
    (T : I → J → ℝ) (hT : IsCoupling p q T) (hs : IsSymm C ∨ ∀ d, IsSymm (Cd d)) (w : D → ℝ) (hw : IsWeights w) :
    let f := unmixGwEnergy reg C Cd T
    let r := cgGw reg tol n C Cd q T ⟨w, atomMix w Cd, f w⟩
    IsWeights r.w ∧ r.E = atomMix r.w Cd ∧ r.loss = f r.w ∧ f r.w ≤ f w ∧
      (f r.w = f w → IsStationaryWeights f w) ∧
      (∀ L, reg ≤ 0 → 0 ≤ tol → (∀ w z a b, IsWeights w → IsWeights z → ExpandsTo f w z a b → a ≤ L) → ∀ z, IsWeights z →
        f r.w ≤ f z + max (4 * L / (n + 2)) (max (2 * (tol * f w)) (2 * Real.sqrt (L * (tol * f w))))) := by
  intro f r
  have hY := unmix_lift (reg := reg) (C := C) (Cd := Cd) (fun (_ : I) (c : Empty) => c.elim) (fun _ _ (c : Empty) => c.elim) T
  have hg : Good 1 reg C (fun (_ : I) (c : Empty) => c.elim) Cd (fun _ _ (c : Empty) => c.elim) T (lift ⟨w, atomMix w Cd, f w⟩) := by
    rw [good_lift]; exact ⟨hw, rfl, rfl⟩
  have hl := lift_loop (reg := reg) (Cd := Cd) (q := q) tol T (fun (_ : I) (c : Empty) => c.elim) (fun _ _ (c : Empty) => c.elim)
    (constTCT C T) n ⟨w, atomMix w Cd, f w⟩
  obtain ⟨h1, h2⟩ := loop_good (q := q) (1 / 10 ^ 15) tol hT.col hs n _ hg
  rw [← hl] at h1 h2
  rw [good_lift] at h1
  have h2' : r.loss ≤ f w := h2
  refine ⟨h1.wt, h1.E, h1.loss, h1.loss.symm.le.trans h2', ?_, ?_⟩
  · intro he
    have hst := stuck_stationary (q := q) hT.col hs hg (le_antisymm (step_le hT.col hg) ?_)
    · rw [hY] at hst; exact hst
    · obtain ⟨k, rfl⟩ : ∃ k, n = k + 1 := ⟨n - 1, by omega⟩
      have hg' := step_good (q := q) hT.col hs hg
      have h5 : f w = r.loss := by rw [← he]; exact h1.loss.symm
      have h6 : r.loss = (lift (gwLoop reg tol q (constTCT C T) Cd (k + 1) ⟨w, atomMix w Cd, f w⟩)).loss := rfl
      refine h5.le.trans ?_
      rw [h6, hl, fgwLoop]
      split_ifs
      · exact (loop_good (q := q) _ tol hT.col hs k _ hg').2
      · exact le_refl _
  · intro L hr htol hL z hz
    have hq0 : ∀ j, 0 ≤ q j := fun j => by rw [← hT.col j]; exact sum_nonneg fun i _ => hT.nonneg i j
    have hL' : ∀ w z : D → ℝ, IsWeights w → IsWeights z → cA 1 reg q Cd (fun _ _ (c : Empty) => c.elim) w z ≤ L := by
      intro w z h1 h2
      have := expand 1 reg C (fun (_ : I) (c : Empty) => c.elim) Cd (fun _ _ (c : Empty) => c.elim) q T hT.col hs w z
      rw [hY] at this
      exact hL w z _ _ h1 h2 this
    have hL0 : 0 ≤ L := (cA_nonneg zero_le_one le_rfl hr hq0 w z).trans (hL' w z hw hz)
    have h := loop_rate (q := q) (1 / 10 ^ 15) tol htol zero_le_one le_rfl hr hT.nonneg hq0 hT.col hs hL0 hL' (f w) z hz n 0 (by omega)
      _ hg le_rfl (fun h => absurd h (by omega))
    rw [← hl, hY] at h
    simp only [Nat.cast_zero, add_zero] at h
    have h3 : r.loss - f z ≤ _ := h
    have h4 : r.loss = f r.w := h1.loss
    rw [h4] at h3
    linarith

/-! ## Asymmetric structures -/

/-- Example structure `[[0,1],[0,0]]`. -/
def asymC : Fin 2 → Fin 2 → ℝ := ![![0, 1], ![0, 0]]
/-- Dictionary: the structure and its transpose. -/
def asymD : Fin 2 → Fin 2 → Fin 2 → ℝ := ![![![0, 1], ![0, 0]], ![![0, 0], ![1, 0]]]
/-- Identity plan. -/
noncomputable def asymT : Fin 2 → Fin 2 → ℝ := ![![1 / 2, 0], ![0, 1 / 2]]

open Classical in
/-- A plan solver: keeps the better of the identity plan and the starting plan. -/
noncomputable def asymSolve : GwCall (Fin 2) (Fin 2) := fun E G =>
  if gwEnergy sqLoss asymC E asymT ≤ gwEnergy sqLoss asymC E G then (asymT, gwEnergy sqLoss asymC E asymT)
  else (G, gwEnergy sqLoss asymC E G)

theorem asymSolve_ok : IsGwSolver asymC (fun _ => 1 / 2) (fun _ => 1 / 2) asymSolve := by
  intro E G hG
  unfold asymSolve
  split_ifs with h
  · refine ⟨⟨?_, ?_, ?_⟩, rfl, h⟩
    · intro i j; fin_cases i <;> fin_cases j <;> norm_num [asymT]
    · intro i; fin_cases i <;> norm_num [asymT, Fin.sum_univ_two]
    · intro i; fin_cases i <;> norm_num [asymT, Fin.sum_univ_two]
  · exact ⟨hG, rfl, le_rfl⟩

theorem direction_two (g : Fin 2 → ℝ) (h : g 1 < g 0) : direction g = ![0, 1] := by
  have hm : univ.inf' univ_nonempty g = g 1 := by
    refine le_antisymm (inf'_le g (mem_univ (1 : Fin 2))) (le_inf' _ _ fun i _ => ?_)
    fin_cases i
    · exact h.le
    · exact le_refl _
  funext d
  unfold direction
  simp only [hm, Fin.sum_univ_two]
  fin_cases d
  · simp [h.ne']
  · simp [h.ne']

/-- **Refuted without symmetry**: for the structure `[[0,1],[0,0]]` and the dictionary made of it and of its transpose,
one round returns the transpose with weight one and a loss of zero; the true loss of what is returned is one half, the
starting point had one eighth, and the other atom has loss zero. -/
theorem C119_asymmetric_refuted :
    let r := gwUnmixing asymSolve 0 0 0 1 1 asymC asymD (fun _ => 1 / 2) (fun _ => 1 / 2)
    r.st.w = ![0, 1] ∧ r.T = asymT ∧ r.st.loss = 0 ∧ unmixGwEnergy 0 asymC asymD r.T r.st.w = 1 / 2 ∧
      unmixGwEnergy 0 asymC asymD r.T (fun _ => 1 / 2) = 1 / 8 ∧ unmixGwEnergy 0 asymC asymD r.T ![1, 0] = 0 := by
  intro r
  have hE : embed (fun _ : Fin 2 => (1 / 2 : ℝ)) asymD = ![![0, 1 / 2], ![1 / 2, 0]] := by
    funext k l
    fin_cases k <;> fin_cases l <;> norm_num [embed, asymD, Fin.sum_univ_two]
  have hE1 : embed (![0, 1] : Fin 2 → ℝ) asymD = ![![0, 0], ![1, 0]] := by
    funext k l
    fin_cases k <;> fin_cases l <;> norm_num [embed, asymD, Fin.sum_univ_two]
  have hT : constTCT asymC asymT = ![![0, 0], ![1 / 4, 0]] := by
    funext k l
    fin_cases k <;> fin_cases l <;> norm_num [constTCT, asymC, asymT, Fin.sum_univ_two]
  have hsol : asymSolve ![![0, 1 / 2], ![1 / 2, 0]] (fun _ _ => 1 / 2 * (1 / 2)) = (asymT, 1 / 8) := by
    have e1 : gwEnergy sqLoss asymC ![![0, 1 / 2], ![1 / 2, 0]] asymT = 1 / 8 := by
      norm_num [gwEnergy, sqLoss, asymC, asymT, Fin.sum_univ_two]
    have e2 : gwEnergy sqLoss asymC ![![0, 1 / 2], ![1 / 2, 0]] (fun _ _ => 1 / 2 * (1 / 2)) = 1 / 4 := by
      norm_num [gwEnergy, sqLoss, asymC, Fin.sum_univ_two]
    unfold asymSolve
    rw [e1, e2, if_pos (by norm_num)]
  have hdir : direction (gradGw 0 (fun _ => 1 / 2) ![![0, 0], ![1 / 4, 0]] asymD ![![0, 1 / 2], ![1 / 2, 0]] (fun _ => 1 / 2)) = ![0, 1] := by
    refine direction_two _ ?_
    norm_num [gradGw, asymD, constQ, Fin.sum_univ_two]
  have hco : coefGw 0 (fun _ => 1 / 2) ![![0, 0], ![1 / 4, 0]] asymD ![![0, 1 / 2], ![1 / 2, 0]] (fun _ => 1 / 2) ![0, 1]
      = (1 / 8, -1 / 4) := by
    unfold coefGw
    simp only [hE1]
    norm_num [constQ, Fin.sum_univ_two]
  have hst : stepSize (1 / 8) (-1 / 4) = 1 := by unfold stepSize; norm_num
  have hcard : ((Fintype.card (Fin 2) : ℕ) : ℝ) = 2 := by simp
  have hr : r = ⟨⟨![0, 1], ![![0, 0], ![1, 0]], 0⟩, asymT⟩ := by
    simp only [r]
    unfold gwUnmixing gwInit
    rw [hcard, hE, gwOuter]
    simp only [gwOuter, ite_self]
    unfold gwOuterStep
    simp only [hsol]
    unfold cgGw
    rw [gwLoop]
    simp only [gwLoop, ite_self, hT]
    unfold gwStep
    simp only [hdir, hco, hst, hE1]
    norm_num
    funext k l; fin_cases k <;> fin_cases l <;> norm_num
  rw [hr]
  refine ⟨rfl, rfl, rfl, ?_, ?_, ?_⟩ <;>
    norm_num [unmixGwEnergy, gwEnergy, sqLoss, atomMix, asymC, asymD, asymT, Fin.sum_univ_two]

/-! ## Dictionary learning -/

/-- **The gradient of the atoms.**  For symmetric structures, unmixed on the current dictionary with plans of target
marginal `q`, the mean reconstruction loss of the batch at `Cd + t X` is its value at `Cd` plus `t ⟨gradient, X⟩` plus a
non-negative multiple of `t²`. -/
theorem C119_gradient {n : ℕ} (hn : n ≠ 0) (C : Fin n → I → I → ℝ) (hC : ∀ b, IsSymm (C b)) (w : Fin n → D → ℝ)
    (T : Fin n → I → J → ℝ) (q : J → ℝ) (hq0 : ∀ j, 0 ≤ q j) (hq : ∀ b j, ∑ i, T b i j = q j) (Cd X : D → J → J → ℝ) :
    ∃ c, 0 ≤ c ∧ ∀ t : ℝ, meanReconstruction C w T (fun d k l => Cd d k l + t * X d k l) = meanReconstruction C w T Cd
      + t * (∑ d, ∑ k, ∑ l, gradDict q (List.ofFn fun b => ⟨C b, w b, atomMix (w b) Cd, T b⟩) d k l * X d k l) + c * t ^ 2 := by
  refine ⟨(∑ b, ∑ j, ∑ l, atomMix (w b) X j l ^ 2 * constQ q j l) / n, ?_, fun t => (mean_expand hn C hC w T q hq Cd X t).trans ?_⟩
  · exact div_nonneg (sum_nonneg fun b _ => sum_nonneg fun j _ => sum_nonneg fun l _ =>
      mul_nonneg (sq_nonneg _) (mul_nonneg (hq0 j) (hq0 l))) (Nat.cast_nonneg n)
  · unfold itemsOf; ring

/-- **A projected gradient step with learning rate at most one does not increase the batch loss** (weights and plans
fixed), for any of the projections, from a dictionary that satisfies them. -/
theorem C119_descent {n : ℕ} (hn : n ≠ 0) (C : Fin n → I → I → ℝ) (hC : ∀ b, IsSymm (C b)) (w : Fin n → D → ℝ)
    (hw : ∀ b, IsWeights (w b)) (T : Fin n → I → J → ℝ) (q : J → ℝ) (hq0 : ∀ j, 0 ≤ q j) (hq1 : ∑ j, q j = 1)
    (hq : ∀ b j, ∑ i, T b i j = q j) (symm nonneg : Bool) (lr : ℝ) (hlr : 0 < lr) (hlr1 : lr ≤ 1) (Cd : D → J → J → ℝ)
    (hs : symm = true → ∀ d, IsSymm (Cd d)) (hnn : nonneg = true → ∀ d k l, 0 ≤ Cd d k l) (loss : ℝ) :
    meanReconstruction C w T
        (sgdBatch symm nonneg lr q (fun A => (List.ofFn fun b => ⟨C b, w b, atomMix (w b) A, T b⟩, loss)) Cd).1
      ≤ meanReconstruction C w T Cd := by
  have h := descent hn C hC w hw T q hq0 hq1 hq symm nonneg lr hlr Cd ⟨hs, hnn⟩
  have e : (sgdBatch symm nonneg lr q (fun A => (List.ofFn fun b => ⟨C b, w b, atomMix (w b) A, T b⟩, loss)) Cd).1
      = project symm nonneg fun d k l => Cd d k l - lr * gradDict q (itemsOf C w T Cd) d k l := rfl
  rw [e]
  have h2 := mul_nonneg (sub_nonneg.2 hlr1) (sum_nonneg fun d (_ : d ∈ univ) => sum_nonneg fun k (_ : k ∈ univ) =>
    sum_nonneg fun l (_ : l ∈ univ) =>
      sq_nonneg ((project symm nonneg fun d k l => Cd d k l - lr * gradDict q (itemsOf C w T Cd) d k l) d k l - Cd d k l))
  have h3 := h
  simp only at h3
  exact le_of_mul_le_mul_left (by linarith) hlr

/-- **The projections hold for the returned dictionary**, whatever the batches do, with plain gradient steps. -/
theorem C119_projection (symm nonneg : Bool) (lr : ℝ) (q : J → ℝ) (Cd0 : D → J → J → ℝ)
    (es : List (List ((D → J → J → ℝ) → List (Item I J D) × ℝ))) :
    let R := learn (es.map fun e => e.map fun u => sgdBatch symm nonneg lr q u) (project symm nonneg Cd0)
    (symm = true → ∀ d, IsSymm (R d)) ∧ (nonneg = true → ∀ d k l, 0 ≤ R d k l) := by
  refine epochs_inv (Feasible symm nonneg) _ ?_ _ _ _ (project_feasible symm nonneg Cd0) (project_feasible symm nonneg Cd0)
  intro e he b hb θ _
  obtain ⟨e', -, rfl⟩ := List.mem_map.1 he
  obtain ⟨u, -, rfl⟩ := List.mem_map.1 hb
  exact project_feasible symm nonneg _

/-- The same with Adam. -/
theorem C119_projection_adam (symm nonneg : Bool) (β1 β2 eps lr : ℝ) (q : J → ℝ) (Cd0 : D → J → J → ℝ)
    (es : List (List ((D → J → J → ℝ) → List (Item I J D) × ℝ))) :
    let R := (learn (es.map fun e => e.map fun u => adamBatch symm nonneg β1 β2 eps lr q u)
      (project symm nonneg Cd0, adamInit (D × J × J))).1
    (symm = true → ∀ d, IsSymm (R d)) ∧ (nonneg = true → ∀ d k l, 0 ≤ R d k l) := by
  refine epochs_inv (fun θ : (D → J → J → ℝ) × Adam (D × J × J) => Feasible symm nonneg θ.1) _ ?_ _ _ _
    (project_feasible symm nonneg Cd0) (project_feasible symm nonneg Cd0)
  intro e he b hb θ _
  obtain ⟨e', -, rfl⟩ := List.mem_map.1 he
  obtain ⟨u, -, rfl⟩ := List.mem_map.1 hb
  exact project_feasible symm nonneg _

/-- **Adam's corrected moments are averages** of the gradients (of their squares) seen so far: they stay between any
bounds these gradients have; for a constant gradient they are that gradient and its square. -/
theorem C119_adam {X : Type} (β1 β2 : ℝ) (h1 : 0 ≤ β1) (h1' : β1 < 1) (h2 : 0 ≤ β2) (h2' : β2 < 1) (gs : List (X → ℝ)) (g : X → ℝ) (x : X)
    (lo hi lo2 hi2 : ℝ) (hg : ∀ h ∈ g :: gs, lo ≤ h x ∧ h x ≤ hi ∧ lo2 ≤ h x ^ 2 ∧ h x ^ 2 ≤ hi2) :
    let r := adamMoments β1 β2 g (gs.foldl (fun m g => (adamMoments β1 β2 g m).2.2) (adamInit X))
    lo ≤ r.1 x ∧ r.1 x ≤ hi ∧ lo2 ≤ r.2.1 x ∧ r.2.1 x ≤ hi2 := by
  intro r
  obtain ⟨c, i1, i2, i3, i4⟩ := adam_inv β1 β2 h1 h1' h2 h2' x lo hi lo2 hi2 gs (fun h hh => hg h (List.mem_cons_of_mem _ hh))
    (adamInit X) (by unfold adamInit; simp) (by unfold adamInit; simp)
  obtain ⟨a1, a2, a3, a4⟩ := hg g List.mem_cons_self
  simp only [r]
  clear r
  generalize gs.foldl (fun m g => (adamMoments β1 β2 g m).2.2) (adamInit X) = m at *
  have e1 : β1 ^ m.count = β1 * β1 ^ (m.count - 1) := by
    conv_lhs => rw [← Nat.sub_add_cancel c]
    rw [pow_succ]; ring
  have e2 : β2 ^ m.count = β2 * β2 ^ (m.count - 1) := by
    conv_lhs => rw [← Nat.sub_add_cancel c]
    rw [pow_succ]; ring
  have p1 : 0 < 1 - β1 ^ m.count := sub_pos.2 (pow_lt_one₀ h1 h1' (by omega))
  have p2 : 0 < 1 - β2 ^ m.count := sub_pos.2 (pow_lt_one₀ h2 h2' (by omega))
  simp only [adamMoments]
  rw [le_div_iff₀ p1, div_le_iff₀ p1, le_div_iff₀ p2, div_le_iff₀ p2, e1, e2]
  refine ⟨?_, ?_, ?_, ?_⟩
  · nlinarith [mul_le_mul_of_nonneg_left i1 h1, mul_le_mul_of_nonneg_left a1 (sub_nonneg.2 h1'.le)]
  · nlinarith [mul_le_mul_of_nonneg_left i2 h1, mul_le_mul_of_nonneg_left a2 (sub_nonneg.2 h1'.le)]
  · nlinarith [mul_le_mul_of_nonneg_left i3 h2, mul_le_mul_of_nonneg_left a3 (sub_nonneg.2 h2'.le)]
  · nlinarith [mul_le_mul_of_nonneg_left i4 h2, mul_le_mul_of_nonneg_left a4 (sub_nonneg.2 h2'.le)]

/-- **Which dictionary is returned** (missing: that its own loss is the best): the state at the end of an epoch whose
cumulated loss, measured before the updates, is the smallest. -/
theorem C119_best_partial {Θ : Type} (es : List (List (Θ → Θ × ℝ))) (hes : es ≠ []) (θ0 : Θ) :
    ∃ pre e post, es = pre ++ e :: post ∧ learn es θ0 = (epoch e (pre.foldl (fun θ e => (epoch e θ).1) θ0)).1 ∧
      ∀ pre' e' post', es = pre' ++ e' :: post' →
        (epoch e (pre.foldl (fun θ e => (epoch e θ).1) θ0)).2 ≤ (epoch e' (pre'.foldl (fun θ e => (epoch e θ).1) θ0)).2 := by
  cases es with
  | nil => exact absurd rfl hes
  | cons e es =>
    unfold learn
    rw [epochs]
    rcases epochs_best es (epoch e θ0).1 (epoch e θ0).1 (epoch e θ0).2 with ⟨h1, h2⟩ | ⟨pre, e1, post, h1, h2, h3, h4⟩
    · refine ⟨[], e, es, rfl, h1, fun pre' e' post' h => ?_⟩
      cases pre' with
      | nil => simp only [List.nil_append, List.cons.injEq] at h; rw [h.1]
      | cons a pre' =>
        simp only [List.cons_append, List.cons.injEq] at h
        obtain ⟨rfl, h⟩ := h
        exact h2 pre' e' post' h
    · refine ⟨e :: pre, e1, post, by rw [h1]; rfl, h2, fun pre' e' post' h => ?_⟩
      cases pre' with
      | nil => simp only [List.nil_append, List.cons.injEq] at h; rw [← h.1]; exact h3
      | cons a pre' =>
        simp only [List.cons_append, List.cons.injEq] at h
        obtain ⟨rfl, h⟩ := h
        exact h4 pre' e' post' h

/-- **Best dictionary refuted.**  One structure with the single entry `5`, one atom started at `6`, learning rate `2`, one
epoch of one batch: the loss seen in the epoch is `1` (for the atom `6`), the dictionary returned as the one leading to
the best loss is the atom `2`, of loss `9`. -/
theorem C119_best_refuted :
    let unmix : (Unit → Unit → Unit → ℝ) → List (Item Unit Unit Unit) × ℝ := fun A =>
      ([⟨fun _ _ => 5, fun _ => 1, A (), fun _ _ => 1⟩], gwEnergy sqLoss (fun _ _ : Unit => (5 : ℝ)) (A ()) (fun _ _ => 1))
    let Cd0 : Unit → Unit → Unit → ℝ := project true true fun _ _ _ => 6
    let R := learn [[sgdBatch true true 2 (fun _ => 1) unmix]] Cd0
    (unmix Cd0).2 = 1 ∧ R = (fun _ _ _ => 2) ∧ (unmix R).2 = 9 := by
  intro unmix Cd0 R
  have h0 : Cd0 = fun _ _ _ => 6 := by
    simp only [Cd0, project, if_true]
    funext _ _ _; norm_num
  have hR : R = fun _ _ _ => 2 := by
    have : R = (sgdBatch true true 2 (fun _ => 1) unmix Cd0).1 := by
      simp only [R, learn, epochs, epoch, List.foldl_cons, List.foldl_nil]
    rw [this, h0]
    simp only [sgdBatch, project, gradDict, unmix, constTCT, constQ, if_true]
    funext _ _ _; norm_num
  refine ⟨?_, hR, ?_⟩
  · rw [h0]; norm_num [unmix, gwEnergy, sqLoss]
  · rw [hR]; norm_num [unmix, gwEnergy, sqLoss]

/-! ## Non-vacuity -/

/-- A symmetric two-node structure, two symmetric atoms and a plan meet the hypotheses of the solver theorems; the best
weights recover the structure exactly, and uniform weights do not. -/
example : IsSymm (![![0, 1], ![1, 0]] : Fin 2 → Fin 2 → ℝ) ∧ IsCoupling (fun _ => 1 / 2) (fun _ => 1 / 2) asymT ∧
    IsWeights (fun _ : Fin 2 => (1 / 2 : ℝ)) ∧
    unmixGwEnergy 0 ![![0, 1], ![1, 0]] (![![![0, 1], ![1, 0]], ![![0, 3], ![3, 0]]] : Fin 2 → Fin 2 → Fin 2 → ℝ) asymT ![1, 0] = 0 ∧
    unmixGwEnergy 0 ![![0, 1], ![1, 0]] (![![![0, 1], ![1, 0]], ![![0, 3], ![3, 0]]] : Fin 2 → Fin 2 → Fin 2 → ℝ) asymT
      (fun _ => 1 / 2) = 1 / 2 := by
  refine ⟨?_, ⟨?_, ?_, ?_⟩, ⟨?_, ?_⟩, ?_, ?_⟩
  · intro i j; fin_cases i <;> fin_cases j <;> norm_num
  · intro i j; fin_cases i <;> fin_cases j <;> norm_num [asymT]
  · intro i; fin_cases i <;> norm_num [asymT, Fin.sum_univ_two]
  · intro i; fin_cases i <;> norm_num [asymT, Fin.sum_univ_two]
  · intro d; norm_num
  · norm_num
  · norm_num [unmixGwEnergy, gwEnergy, sqLoss, atomMix, asymT, Fin.sum_univ_two]
  · norm_num [unmixGwEnergy, gwEnergy, sqLoss, atomMix, asymT, Fin.sum_univ_two]

/-- The solver contract is met for every structure by a solver that keeps its starting plan. -/
example (C : I → I → ℝ) (p : I → ℝ) (q : J → ℝ) : IsGwSolver C p q fun E G => (G, gwEnergy sqLoss C E G) :=
  fun _ _ h => ⟨h, rfl, le_rfl⟩

end POT.Props
