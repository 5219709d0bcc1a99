import Verif.Lemmas.PartialGw

/-!
# Exact partial (fused) Gromov-Wasserstein: the plan, its mass and the logged value (C132)
-/

set_option linter.unusedSectionVars false

namespace POT.Props

open Finset Gromov Partial Spec PartialGw

variable {R : Type*} [Field R] [LinearOrder R] [IsStrictOrderedRing R] {n1 n2 d : ℕ} [NeZero n1] [NeZero n2]
  {emd : (Fin (n1 + d) → R) → (Fin (n2 + d) → R) → (Fin (n1 + d) → Fin (n2 + d) → R) → (Fin (n1 + d) → Fin (n2 + d) → R)}

/-- the mass a call asks for is admissible -/
def MassOk (p : Fin n1 → R) (q : Fin n2 → R) (m : Option R) (μ : R) : Prop :=
  (m = none ∧ μ = min (∑ i, p i) (∑ j, q j)) ∨ (m = some μ ∧ 0 ≤ μ ∧ μ ≤ ∑ i, p i ∧ μ ≤ ∑ j, q j)

private theorem checkMass_ok {p : Fin n1 → R} {q : Fin n2 → R} {m : Option R} {μ : R} (h : MassOk p q m μ) : checkMass p q m = some μ := by
  rcases h with ⟨rfl, rfl⟩ | ⟨rfl, h0, h1, h2⟩
  · rfl
  · unfold checkMass
    dsimp only
    rw [if_neg (not_lt.2 h0), if_neg (not_lt.2 (le_min h1 h2))]

private theorem MassOk.bounds {p : Fin n1 → R} {q : Fin n2 → R} (hp : ∀ i, 0 ≤ p i) (hq : ∀ j, 0 ≤ q j) {m : Option R} {μ : R} (h : MassOk p q m μ) :
    0 ≤ μ ∧ μ ≤ ∑ i, p i ∧ μ ≤ ∑ j, q j := by
  rcases h with ⟨-, rfl⟩ | ⟨-, h0, h1, h2⟩
  · exact ⟨le_min (sum_nonneg fun i _ => hp i) (sum_nonneg fun j _ => hq j), min_le_left _ _, min_le_right _ _⟩
  · exact ⟨h0, h1, h2⟩

/-- **C132**, rejected requests: a mass below zero or above a total weight raises `ValueError`; a start whose marginals exceed the weights raises `AssertionError`. -/
theorem C132_rejects (symmetric : Bool) (D : Decomp R) (M : Fin n1 → Fin n2 → R) (alpha : R) (C1 : Fin n1 → Fin n1 → R) (C2 : Fin n2 → Fin n2 → R)
    (p : Fin n1 → R) (q : Fin n2 → R) (numItermax : ℕ) (tol : R) :
    (∀ μ G0, μ < 0 ∨ ∑ i, p i < μ ∨ ∑ j, q j < μ → partialGw emd symmetric D C1 C2 p q (some μ) G0 numItermax tol = .valueError ∧
      partialFgw emd symmetric D M alpha C1 C2 p q (some μ) G0 numItermax tol = .valueError) ∧
    (∀ m μ G0, MassOk p q m μ → (∃ i, p i < ∑ j, G0 i j) ∨ (∃ j, q j < ∑ i, G0 i j) →
      partialGw emd symmetric D C1 C2 p q m (some G0) numItermax tol = .assertion ∧
      partialFgw emd symmetric D M alpha C1 C2 p q m (some G0) numItermax tol = .assertion) := by
  refine ⟨fun μ G0 h => ?_, fun m μ G0 hm h => ?_⟩
  · have hc : checkMass p q (some μ) = none := by
      unfold checkMass
      dsimp only
      by_cases h0 : μ < 0
      · rw [if_pos h0]
      · rw [if_neg h0, if_pos]
        rcases h with h | h | h
        · exact absurd h h0
        · exact lt_of_le_of_lt (min_le_left _ _) h
        · exact lt_of_le_of_lt (min_le_right _ _) h
    unfold partialGw partialFgw partialCall
    rw [hc]
    exact ⟨rfl, rfl⟩
  · have hn : ¬((∀ i, ∑ j, G0 i j ≤ p i) ∧ ∀ j, ∑ i, G0 i j ≤ q j) := by
      rintro ⟨h1, h2⟩
      rcases h with ⟨i, hi⟩ | ⟨j, hj⟩
      · exact absurd (h1 i) (not_le.2 hi)
      · exact absurd (h2 j) (not_le.2 hj)
    unfold partialGw partialFgw partialCall
    rw [checkMass_ok hm]
    dsimp only
    rw [if_neg hn, if_neg hn]
    exact ⟨rfl, rfl⟩

/-- the start of a call -/
private theorem call_eq (symmetric : Bool) (D : Decomp R) (M : Fin n1 → Fin n2 → R) (reg : R) (C1 : Fin n1 → Fin n1 → R) (C2 : Fin n2 → Fin n2 → R)
    (p : Fin n1 → R) (q : Fin n2 → R) (m : Option R) (μ : R) (hm : MassOk p q m μ) (G0 : Option (Fin n1 → Fin n2 → R)) (h0 : ∀ G, G0 = some G → IsPartial p q G)
    (numItermax : ℕ) (tol : R) (s : Optim.State R (Fin n1) (Fin n2))
    (hs : let P := pgProblem symmetric D C1 C2 M reg (lpSolver emd (extend p d ((∑ j, q j - μ) / (d : R))) (extend q d ((∑ i, p i - μ) / (d : R))) M) numItermax tol 0
      P.loop (max 1 numItermax) (P.init (G0.getD (defaultStart p q μ))) = some s) (v : R) (hv : s.losses.head? = some v) :
    partialCall emd symmetric D M reg C1 C2 p q m G0 numItermax tol = .done s.G v := by
  have hv' : s.losses.headD 0 = v := by
    cases hl : s.losses with
    | nil => rw [hl] at hv; cases hv
    | cons x l => rw [hl] at hv; exact Option.some.inj hv
  unfold partialCall
  rw [checkMass_ok hm]
  cases G0 with
  | none =>
    dsimp only at hs ⊢
    simp only [Option.getD_none] at hs
    rw [hs]
    dsimp only
    rw [hv']
  | some G =>
    dsimp only at hs ⊢
    simp only [Option.getD_some] at hs
    rw [if_pos ⟨(h0 G rfl).row, (h0 G rfl).col⟩, hs]
    dsimp only
    rw [hv']

/-- **C132**, any costs: with non-negative weights, an admissible mass `μ` and a start that is a partial plan (the default one is), the solvers return a partial plan (row sums at most `p`,
column sums at most `q`) whose mass is at least `μ` or the mass of the start, whichever is smaller; the logged value is the objective of the returned plan and
is not above the objective of the start.  `M` and `reg` are `0, 1` for the Gromov-Wasserstein and `(1 - alpha) M, alpha` for the fused problem. -/
private theorem call_partial (hemd : Exact emd) (hd : 0 < d) (symmetric : Bool) (D : Decomp R) (M : Fin n1 → Fin n2 → R) (reg : R) (C1 : Fin n1 → Fin n1 → R)
    (C2 : Fin n2 → Fin n2 → R) (hsym : symmetric = true → (∀ i k, C1 i k = C1 k i) ∧ (∀ j l, C2 j l = C2 l j)) (p : Fin n1 → R) (q : Fin n2 → R)
    (hp : ∀ i, 0 ≤ p i) (hq : ∀ j, 0 ≤ q j) (hsp : 0 < ∑ i, p i) (hsq : 0 < ∑ j, q j) (m : Option R) (μ : R) (hm : MassOk p q m μ)
    (G0 : Option (Fin n1 → Fin n2 → R)) (h0 : ∀ G, G0 = some G → IsPartial p q G) (numItermax : ℕ) (tol : R) :
    let start := G0.getD fun i j => p i * q j * μ / ((∑ i, p i) * ∑ j, q j)
    let obj := fgwObjective D.loss C1 C2 M reg
    ∃ G, partialCall emd symmetric D M reg C1 C2 p q m G0 numItermax tol = .done G (obj G) ∧ IsPartial p q G ∧ min μ (mass start) ≤ mass G ∧ obj G ≤ obj start := by
  intro start obj
  obtain ⟨b0, b1, b2⟩ := hm.bounds hp hq
  have hst : IsPartial p q start := by
    cases hG : G0 with
    | none => simp only [start, hG, Option.getD_none]; exact (start_partial hp hq hsp hsq b0 b1 b2).1
    | some G => simp only [start, hG, Option.getD_some]; exact h0 G hG
  obtain ⟨s, h1, ⟨h2, h3⟩, h4, h5⟩ := pg_returned symmetric D C1 C2 hsym M reg
    (lpSolver emd (extend p d ((∑ j, q j - μ) / (d : R))) (extend q d ((∑ i, p i - μ) / (d : R))) M) numItermax tol 0
    (fun G => IsPartial p q G ∧ min μ (mass start) ≤ mass G)
    (fun G H t hG hH ht0 ht1 => ⟨isPartial_line hG.1 hH.1 ht0 ht1, by
      rw [mass_line]
      have e1 := mul_le_mul_of_nonneg_left hG.2 (sub_nonneg.2 ht1)
      have e2 := mul_le_mul_of_nonneg_left hH.2 ht0
      linarith⟩)
    (fun G _ => by
      obtain ⟨e1, e2⟩ := lp_partial hemd hd hp hq b1 b2 M fun i j => M i j + reg * pgDf symmetric D C1 C2 G i j
      exact ⟨e1, le_trans (min_le_left _ _) e2⟩)
    start ⟨hst, min_le_right _ _⟩
  exact ⟨s.G, call_eq symmetric D M reg C1 C2 p q m μ hm G0 h0 numItermax tol s h1 _ h4, h2, h3, h5⟩

/-- with positive linearised costs every direction has mass `μ` -/
private theorem call_mass (hemd : Exact emd) (hd : 0 < d) (symmetric : Bool) (D : Decomp R) (M : Fin n1 → Fin n2 → R) (reg : R) (C1 : Fin n1 → Fin n1 → R)
    (C2 : Fin n2 → Fin n2 → R) (hsym : symmetric = true → (∀ i k, C1 i k = C1 k i) ∧ (∀ j l, C2 j l = C2 l j)) (p : Fin n1 → R) (q : Fin n2 → R)
    (hp : ∀ i, 0 ≤ p i) (hq : ∀ j, 0 ≤ q j) (hsp : 0 < ∑ i, p i) (hsq : 0 < ∑ j, q j) (m : Option R) (μ : R) (hm : MassOk p q m μ)
    (G0 : Option (Fin n1 → Fin n2 → R)) (h0 : ∀ G, G0 = some G → IsPartial p q G ∧ mass G = μ) (numItermax : ℕ) (tol : R)
    (hpos : ∀ G, IsPartial p q G → mass G = μ → ∀ i j, 0 < M i j + reg * pgDf symmetric D C1 C2 G i j + maxEntry M * 100) :
    let start := G0.getD fun i j => p i * q j * μ / ((∑ i, p i) * ∑ j, q j)
    let obj := fgwObjective D.loss C1 C2 M reg
    ∃ G, partialCall emd symmetric D M reg C1 C2 p q m G0 numItermax tol = .done G (obj G) ∧ IsPartial p q G ∧ mass G = μ ∧ obj G ≤ obj start := by
  intro start obj
  obtain ⟨b0, b1, b2⟩ := hm.bounds hp hq
  have hst : IsPartial p q start ∧ mass start = μ := by
    cases hG : G0 with
    | none => simp only [start, hG, Option.getD_none]; exact start_partial hp hq hsp hsq b0 b1 b2
    | some G => simp only [start, hG, Option.getD_some]; exact h0 G hG
  obtain ⟨s, h1, ⟨h2, h3⟩, h4, h5⟩ := pg_returned symmetric D C1 C2 hsym M reg
    (lpSolver emd (extend p d ((∑ j, q j - μ) / (d : R))) (extend q d ((∑ i, p i - μ) / (d : R))) M) numItermax tol 0
    (fun G => IsPartial p q G ∧ mass G = μ)
    (fun G H t hG hH ht0 ht1 => ⟨isPartial_line hG.1 hH.1 ht0 ht1, by rw [mass_line, hG.2, hH.2]; ring⟩)
    (fun G hG => ⟨(lp_partial hemd hd hp hq b1 b2 M _).1, (lp_exact hemd hd hp hq b0 b1 b2 M _ (hpos G hG.1 hG.2)).1⟩)
    start hst
  exact ⟨s.G, call_eq symmetric D M reg C1 C2 p q m μ hm G0 (fun G hG => (h0 G hG).1) numItermax tol s h1 _ h4, h2, h3, h5⟩

/-- **C132**, `partial_gromov_wasserstein` for any structures, any loss, any number of dummies and of iterations: the plan is a partial plan, its mass is at least the requested mass (or
the mass of the start, if smaller), the value is its Gromov-Wasserstein energy and is not above that of the start.  (That the mass is not exactly `μ` in general is `C132_mass_refuted`.) -/
theorem C132_gw (hemd : Exact emd) (hd : 0 < d) (symmetric : Bool) (D : Decomp R) (C1 : Fin n1 → Fin n1 → R)
    (C2 : Fin n2 → Fin n2 → R) (hsym : symmetric = true → (∀ i k, C1 i k = C1 k i) ∧ (∀ j l, C2 j l = C2 l j)) (p : Fin n1 → R) (q : Fin n2 → R)
    (hp : ∀ i, 0 ≤ p i) (hq : ∀ j, 0 ≤ q j) (hsp : 0 < ∑ i, p i) (hsq : 0 < ∑ j, q j) (m : Option R) (μ : R) (hm : MassOk p q m μ)
    (G0 : Option (Fin n1 → Fin n2 → R)) (h0 : ∀ G, G0 = some G → IsPartial p q G) (numItermax : ℕ) (tol : R) :
    let start := G0.getD fun i j => p i * q j * μ / ((∑ i, p i) * ∑ j, q j)
    ∃ G, partialGw emd symmetric D C1 C2 p q m G0 numItermax tol = .done G (gwEnergy D.loss C1 C2 G) ∧ IsPartial p q G ∧ min μ (mass start) ≤ mass G ∧
      gwEnergy D.loss C1 C2 G ≤ gwEnergy D.loss C1 C2 start := by
  have h := call_partial hemd hd symmetric D (fun _ _ => 0) 1 C1 C2 hsym p q hp hq hsp hsq m μ hm G0 h0 numItermax tol
  have e : ∀ G, fgwObjective D.loss C1 C2 (fun _ _ => 0) 1 G = gwEnergy D.loss C1 C2 G := by
    intro G
    simp [fgwObjective, inner]
  simp only [e] at h
  exact h

/-- **C132**, `partial_fused_gromov_wasserstein`: the same for any features cost and any `alpha`. -/
theorem C132_fgw (hemd : Exact emd) (hd : 0 < d) (symmetric : Bool) (D : Decomp R) (M : Fin n1 → Fin n2 → R) (alpha : R) (C1 : Fin n1 → Fin n1 → R)
    (C2 : Fin n2 → Fin n2 → R) (hsym : symmetric = true → (∀ i k, C1 i k = C1 k i) ∧ (∀ j l, C2 j l = C2 l j)) (p : Fin n1 → R) (q : Fin n2 → R)
    (hp : ∀ i, 0 ≤ p i) (hq : ∀ j, 0 ≤ q j) (hsp : 0 < ∑ i, p i) (hsq : 0 < ∑ j, q j) (m : Option R) (μ : R) (hm : MassOk p q m μ)
    (G0 : Option (Fin n1 → Fin n2 → R)) (h0 : ∀ G, G0 = some G → IsPartial p q G) (numItermax : ℕ) (tol : R) :
    let start := G0.getD fun i j => p i * q j * μ / ((∑ i, p i) * ∑ j, q j)
    let obj := fun G => (1 - alpha) * inner M G + alpha * gwEnergy D.loss C1 C2 G
    ∃ G, partialFgw emd symmetric D M alpha C1 C2 p q m G0 numItermax tol = .done G (obj G) ∧ IsPartial p q G ∧ min μ (mass start) ≤ mass G ∧ obj G ≤ obj start := by
  have h := call_partial hemd hd symmetric D (fun i j => (1 - alpha) * M i j) alpha C1 C2 hsym p q hp hq hsp hsq m μ hm G0 h0 numItermax tol
  have e : ∀ G, fgwObjective D.loss C1 C2 (fun i j => (1 - alpha) * M i j) alpha G = (1 - alpha) * inner M G + alpha * gwEnergy D.loss C1 C2 G := by
    intro G
    unfold fgwObjective inner
    simp only [mul_sum, mul_assoc]
  simp only [e] at h
  exact h

/-- **C132**, mass of the fused plan: with non-negative features costs that are not all zero, a loss that is not negative on the structures, `0 ≤ alpha < 1` and a start of mass `μ`
(the default one), the returned plan moves exactly the mass `μ`. -/
theorem C132_fgw_mass (hemd : Exact emd) (hd : 0 < d) (symmetric : Bool) (D : Decomp R) (M : Fin n1 → Fin n2 → R) (hM : ∀ i j, 0 ≤ M i j) (hM' : ∃ i j, 0 < M i j)
    (alpha : R) (ha0 : 0 ≤ alpha) (ha1 : alpha < 1) (C1 : Fin n1 → Fin n1 → R) (C2 : Fin n2 → Fin n2 → R) (hL : ∀ i k j l, 0 ≤ D.loss (C1 i k) (C2 j l))
    (hsym : symmetric = true → (∀ i k, C1 i k = C1 k i) ∧ (∀ j l, C2 j l = C2 l j)) (p : Fin n1 → R) (q : Fin n2 → R)
    (hp : ∀ i, 0 ≤ p i) (hq : ∀ j, 0 ≤ q j) (hsp : 0 < ∑ i, p i) (hsq : 0 < ∑ j, q j) (m : Option R) (μ : R) (hm : MassOk p q m μ)
    (G0 : Option (Fin n1 → Fin n2 → R)) (h0 : ∀ G, G0 = some G → IsPartial p q G ∧ mass G = μ) (numItermax : ℕ) (tol : R) :
    ∃ G v, partialFgw emd symmetric D M alpha C1 C2 p q m G0 numItermax tol = .done G v ∧ IsPartial p q G ∧ mass G = μ := by
  obtain ⟨G, h1, h2, h3, -⟩ := call_mass hemd hd symmetric D (fun i j => (1 - alpha) * M i j) alpha C1 C2 hsym p q hp hq hsp hsq m μ hm G0 h0 numItermax tol
    (fun G hG _ i j => by
      have e1 := pgDf_nonneg symmetric D C1 C2 hsym hL hG.nonneg i j
      have e2 := mul_nonneg ha0 e1
      have e3 := mul_nonneg (sub_pos.2 ha1).le (hM i j)
      obtain ⟨k, l, hkl⟩ := hM'
      have e4 := le_maxEntry (fun i j => (1 - alpha) * M i j) k l
      have e5 := mul_pos (sub_pos.2 ha1) hkl
      linarith)
  exact ⟨G, _, h1, h2, h3⟩

/-- **C132**, mass of the Gromov-Wasserstein plan: if the loss is positive on all pairs of entries of the structures, the mass is positive and the start has mass `μ`
(the default one), the returned plan moves exactly the mass `μ`. -/
theorem C132_gw_mass (hemd : Exact emd) (hd : 0 < d) (symmetric : Bool) (D : Decomp R) (C1 : Fin n1 → Fin n1 → R) (C2 : Fin n2 → Fin n2 → R)
    (hL : ∀ i k j l, 0 < D.loss (C1 i k) (C2 j l))
    (hsym : symmetric = true → (∀ i k, C1 i k = C1 k i) ∧ (∀ j l, C2 j l = C2 l j)) (p : Fin n1 → R) (q : Fin n2 → R)
    (hp : ∀ i, 0 ≤ p i) (hq : ∀ j, 0 ≤ q j) (hsp : 0 < ∑ i, p i) (hsq : 0 < ∑ j, q j) (m : Option R) (μ : R) (hm : MassOk p q m μ) (hμ : 0 < μ)
    (G0 : Option (Fin n1 → Fin n2 → R)) (h0 : ∀ G, G0 = some G → IsPartial p q G ∧ mass G = μ) (numItermax : ℕ) (tol : R) :
    ∃ G v, partialGw emd symmetric D C1 C2 p q m G0 numItermax tol = .done G v ∧ IsPartial p q G ∧ mass G = μ := by
  obtain ⟨G, h1, h2, h3, -⟩ := call_mass hemd hd symmetric D (fun _ _ => 0) 1 C1 C2 hsym p q hp hq hsp hsq m μ hm G0 h0 numItermax tol
    (fun G hG hG' i j => by
      have e1 := pgDf_pos symmetric D C1 C2 hsym hL hG.nonneg (by rw [hG']; exact hμ) i j
      have e4 := le_maxEntry (fun (_ : Fin n1) (_ : Fin n2) => (0 : R)) i j
      linarith)
  exact ⟨G, _, h1, h2, h3⟩

/-- **C132**, the direction of each iteration: when the linearised cost `Mi` plus the cost between dummies is positive, it has the requested mass and minimises the linearised cost over the partial plans of that
mass. -/
theorem C132_direction (hemd : Exact emd) (hd : 0 < d) (p : Fin n1 → R) (q : Fin n2 → R) (hp : ∀ i, 0 ≤ p i) (hq : ∀ j, 0 ≤ q j) (μ : R) (hm0 : 0 ≤ μ)
    (hmp : μ ≤ ∑ i, p i) (hmq : μ ≤ ∑ j, q j) (M Mi : Fin n1 → Fin n2 → R) (hpos : ∀ i j, 0 < Mi i j + maxEntry M * 100) :
    let G := lpSolver emd (extend p d ((∑ j, q j - μ) / (d : R))) (extend q d ((∑ i, p i - μ) / (d : R))) M Mi
    IsPartial p q G ∧ mass G = μ ∧ ∀ H, IsPartial p q H → mass H = μ → cost Mi G ≤ cost Mi H := by
  obtain ⟨h1, h2⟩ := lp_exact hemd hd hp hq hm0 hmp hmq M Mi hpos
  exact ⟨(lp_partial hemd hd hp hq hmp hmq M Mi).1, h1, h2⟩

/-! ## Counterexamples -/

private theorem loop_one {n1 n2 : ℕ} (P : Optim.Problem ℚ (Fin n1) (Fin n2)) (h : P.numItermax = 1) (G0 : Fin n1 → Fin n2 → ℚ) :
    P.loop (max 1 1) (P.init G0) = some (P.step (P.init G0)) := by
  have : P.stop (P.init G0) (P.step (P.init G0)) = true := by
    unfold Optim.Problem.stop
    rw [h]
    simp [Optim.Problem.step, Optim.Problem.init]
  show (if P.stop (P.init G0) (P.step (P.init G0)) then _ else _) = _
  rw [if_pos this]

/-- extended source weights, extended target weights, extended cost and an optimal plan of the counterexample -/
private def tA : Fin (2 + 1) → ℚ := extend ![1 / 2, 1 / 2] 1 (3 / 4)
private def tB : Fin (1 + 1) → ℚ := extend ![1] 1 (3 / 4)
private def tC : Fin (2 + 1) → Fin (1 + 1) → ℚ := extendM ![![0], ![1 / 4]] 1 0
private def tG : Fin (2 + 1) → Fin (1 + 1) → ℚ := fun i j => ![![1 / 2, 0], ![0, 1 / 2], ![1 / 2, 1 / 4]] i j

open Classical in
/-- an exact solver that breaks a tie in favour of the plan `tG` -/
private noncomputable def tieEmd (a : Fin (2 + 1) → ℚ) (b : Fin (1 + 1) → ℚ) (C : Fin (2 + 1) → Fin (1 + 1) → ℚ) : Fin (2 + 1) → Fin (1 + 1) → ℚ :=
  if a = tA ∧ b = tB ∧ C = tC then tG else exactEmd a b C

private theorem tieEmd_exact : Exact tieEmd := by
  intro a b C h
  unfold tieEmd
  by_cases hc : a = tA ∧ b = tB ∧ C = tC
  · rw [if_pos hc]
    obtain ⟨rfl, rfl, rfl⟩ := hc
    refine ⟨⟨by decide +kernel, by decide +kernel, by decide +kernel⟩, fun G' hG' => ?_⟩
    have h0 : cost tC tG = 0 := by decide +kernel
    have h1 : ∀ i j, 0 ≤ tC i j := by decide +kernel
    rw [h0]
    exact cost_nonneg h1 hG'.nonneg
  · rw [if_neg hc]
    exact exactEmd_optimal a b C h

/-- **The requested mass is not always respected.** Two nodes without an edge between them, one of them with a loop, against a single node without a loop: mass `1/4` is requested.  The first node matches the target at no cost, and
because the cost between dummy points is `100 * max(0) = 0`, moving `1/2` is as cheap as moving `1/4`: an exact solver may return it, the line search takes the full step and the returned
plan has mass `1/2`. -/
theorem C132_mass_refuted : ∃ emd : (Fin (2 + 1) → ℚ) → (Fin (1 + 1) → ℚ) → (Fin (2 + 1) → Fin (1 + 1) → ℚ) → (Fin (2 + 1) → Fin (1 + 1) → ℚ), Exact emd ∧
    ∃ G v, partialGw emd true square ![![0, 0], ![0, 1]] ![![0]] ![1 / 2, 1 / 2] ![1] (some (1 / 4)) none 1 0 = .done G v ∧ mass G = 1 / 2 := by
  refine ⟨tieEmd, tieEmd_exact, ?_⟩
  obtain ⟨P, hP⟩ : ∃ P, P = pgProblem true square (![![0, 0], ![0, 1]] : Fin 2 → Fin 2 → ℚ) (![![0]] : Fin 1 → Fin 1 → ℚ) (fun _ _ => 0) 1
    (lpSolver tieEmd (extend ![1 / 2, 1 / 2] 1 ((∑ j, (![1] : Fin 1 → ℚ) j - 1 / 4) / ((1 : ℕ) : ℚ))) (extend ![1] 1 ((∑ i, (![1 / 2, 1 / 2] : Fin 2 → ℚ) i - 1 / 4) / ((1 : ℕ) : ℚ)))
      (fun _ _ => 0)) 1 0 0 := ⟨_, rfl⟩
  obtain ⟨Q, hQ⟩ : ∃ Q, Q = pgProblem true square (![![0, 0], ![0, 1]] : Fin 2 → Fin 2 → ℚ) (![![0]] : Fin 1 → Fin 1 → ℚ) (fun _ _ => 0) 1 (fun _ => core (d := 1) tG) 1 0 0 := ⟨_, rfl⟩
  have hstep : P.step (P.init (defaultStart ![1 / 2, 1 / 2] ![1] (1 / 4))) = Q.step (Q.init (defaultStart ![1 / 2, 1 / 2] ![1] (1 / 4))) := by
    have hlp : lpSolver tieEmd (extend ![1 / 2, 1 / 2] 1 ((∑ j, (![1] : Fin 1 → ℚ) j - 1 / 4) / ((1 : ℕ) : ℚ))) (extend ![1] 1 ((∑ i, (![1 / 2, 1 / 2] : Fin 2 → ℚ) i - 1 / 4) / ((1 : ℕ) : ℚ)))
        (fun _ _ => 0) (fun i j => 0 + 1 * pgDf true square (![![0, 0], ![0, 1]] : Fin 2 → Fin 2 → ℚ) (![![0]] : Fin 1 → Fin 1 → ℚ) (defaultStart ![1 / 2, 1 / 2] ![1] (1 / 4)) i j) = core (d := 1) tG := by
      unfold lpSolver tieEmd
      rw [if_pos]
      refine ⟨by decide +kernel, by decide +kernel, by decide +kernel⟩
    rw [hP, hQ]
    unfold Optim.Problem.step
    simp only [Optim.Problem.init, pgProblem, Option.getD_none, hlp, Optim.Problem.cost]
  have hm : mass (Q.step (Q.init (defaultStart ![1 / 2, 1 / 2] ![1] (1 / 4)))).G = 1 / 2 := by
    rw [hQ]
    decide +kernel
  refine ⟨(P.step (P.init (defaultStart ![1 / 2, 1 / 2] ![1] (1 / 4)))).G, (P.step (P.init (defaultStart ![1 / 2, 1 / 2] ![1] (1 / 4)))).losses.headD 0, ?_, by rw [hstep]; exact hm⟩
  have hmass : checkMass (![1 / 2, 1 / 2] : Fin 2 → ℚ) (![1] : Fin 1 → ℚ) (some (1 / 4)) = some (1 / 4) := by decide +kernel
  unfold partialGw partialCall
  rw [hmass]
  dsimp only
  rw [← hP, loop_one P (by rw [hP]; rfl)]

/-- **A start of the wrong mass is accepted and kept.** The marginals of the start are checked, its mass is not: from the zero plan, with all of the mass requested,
the solver returns the zero plan, whatever the linear solver does. -/
theorem C132_start_mass_refuted (emd : (Fin (1 + 1) → ℚ) → (Fin (1 + 1) → ℚ) → (Fin (1 + 1) → Fin (1 + 1) → ℚ) → (Fin (1 + 1) → Fin (1 + 1) → ℚ)) :
    ∃ G v, partialGw emd true square ![![1]] ![![0]] ![1] ![1] (some 1) (some fun _ _ => 0) 1 0 = .done G v ∧ mass G = 0 := by
  obtain ⟨lp, hlp⟩ : ∃ lp, lp = lpSolver emd (extend ![1] 1 ((∑ j, (![1] : Fin 1 → ℚ) j - 1) / ((1 : ℕ) : ℚ)))
    (extend ![1] 1 ((∑ i, (![1] : Fin 1 → ℚ) i - 1) / ((1 : ℕ) : ℚ))) (fun _ _ => 0) := ⟨_, rfl⟩
  obtain ⟨P, hP⟩ : ∃ P, P = pgProblem true square (![![1]] : Fin 1 → Fin 1 → ℚ) (![![0]] : Fin 1 → Fin 1 → ℚ) (fun _ _ => 0) 1 lp 1 0 0 := ⟨_, rfl⟩
  refine ⟨(P.step (P.init fun _ _ => 0)).G, (P.step (P.init fun _ _ => 0)).losses.headD 0, ?_, ?_⟩
  · have hmass : checkMass (![1] : Fin 1 → ℚ) (![1] : Fin 1 → ℚ) (some 1) = some 1 := by decide +kernel
    unfold partialGw partialCall
    rw [hmass]
    dsimp only
    rw [if_pos (by decide +kernel), ← hlp, ← hP, loop_one P (by rw [hP]; rfl)]
  · have hdf0 : pgDf true square (![![1]] : Fin 1 → Fin 1 → ℚ) (![![0]] : Fin 1 → Fin 1 → ℚ) (fun _ _ => 0) = fun _ _ => 0 := by
      funext i j
      rw [pgDf_apply true square _ _ (fun _ => by decide +kernel)]
      simp
    have hdf : ∀ T, pgDf true square (![![1]] : Fin 1 → Fin 1 → ℚ) (![![0]] : Fin 1 → Fin 1 → ℚ) T = fun _ _ => 2 * T 0 0 := by
      intro T
      funext i j
      rw [pgDf_apply true square _ _ (fun _ => by decide +kernel)]
      simp only [Fin.sum_univ_one, Subsingleton.elim i 0, Subsingleton.elim j 0]
      norm_num [Decomp.loss, square]
    have hstep : ∀ x : ℚ, Optim.quadStep (1 * (1 / 2 * ((2 * (x - 0 + 0) - 0) * (x - 0)))) 0 = 0 := by
      intro x
      unfold Optim.quadStep
      have hx := mul_self_nonneg x
      have e : 1 * (1 / 2 * ((2 * (x - 0 + 0) - 0) * (x - 0))) = x * x := by ring
      rw [e]
      by_cases h : 0 < x * x
      · rw [if_pos h]; simp
      · rw [if_neg h, if_neg]
        linarith
    rw [hP]
    unfold mass Optim.Problem.step
    simp only [Optim.Problem.init, pgProblem, Option.getD_none, pgLinesearch, pgLinesearchCoef, hdf0, hdf, Fin.sum_univ_one, zero_mul, mul_zero, add_zero, zero_add]
    simp only [add_zero] at hstep
    rw [hstep, zero_mul]

/-! ## Non-vacuity -/

/-- a concrete exact solver -/
private theorem exact_exists {n1 n2 d : ℕ} : Exact (R := ℚ) (n1 := n1) (n2 := n2) (d := d) exactEmd := fun a b C h => exactEmd_optimal a b C h

/-- the hypotheses of the mass theorems hold for graphs with an edge and features -/
example : ∃ G v, partialFgw (R := ℚ) (d := 1) exactEmd true square ![![0, 1], ![2, 0]] (1 / 2) ![![0, 1], ![1, 0]] ![![0, 2], ![2, 0]] ![1 / 2, 1 / 2] ![1 / 2, 1 / 2] (some (1 / 4)) none 10 0 = .done G v ∧
    IsPartial ![1 / 2, 1 / 2] ![1 / 2, 1 / 2] G ∧ mass G = 1 / 4 :=
  C132_fgw_mass exact_exists one_pos true square ![![0, 1], ![2, 0]] (by decide +kernel) ⟨0, 1, by decide +kernel⟩ (1 / 2) (by norm_num) (by norm_num) ![![0, 1], ![1, 0]] ![![0, 2], ![2, 0]]
    (fun i k j l => by rw [square_loss]; exact sq_nonneg _) (fun _ => by decide +kernel) ![1 / 2, 1 / 2] ![1 / 2, 1 / 2] (by decide +kernel) (by decide +kernel) (by decide +kernel)
    (by decide +kernel) (some (1 / 4)) (1 / 4) (Or.inr ⟨rfl, by decide +kernel, by decide +kernel, by decide +kernel⟩) none (by rintro G h; cases h) 10 0

example : ∃ G v, partialGw (R := ℚ) (d := 2) exactEmd true square ![![0, 1], ![1, 0]] ![![3, 2], ![2, 3]] ![1 / 2, 1 / 2] ![1 / 3, 2 / 3] none none 10 0 = .done G v ∧
    IsPartial ![1 / 2, 1 / 2] ![1 / 3, 2 / 3] G ∧ mass G = 1 :=
  C132_gw_mass exact_exists two_pos true square ![![0, 1], ![1, 0]] ![![3, 2], ![2, 3]]
    (fun i k j l => by revert i k j l; decide +kernel) (fun _ => by decide +kernel) ![1 / 2, 1 / 2] ![1 / 3, 2 / 3] (by decide +kernel) (by decide +kernel) (by decide +kernel)
    (by decide +kernel) none 1 (Or.inl ⟨rfl, by decide +kernel⟩) one_pos none (by rintro G h; cases h) 10 0

end POT.Props
