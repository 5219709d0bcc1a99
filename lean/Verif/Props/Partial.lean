import Verif.Model.Partial
import Verif.Props.EmdPy
import Mathlib.Algebra.BigOperators.Field

/-!
# Partial transport by linear programming (C44, C45)
-/

set_option linter.unusedSectionVars false

namespace POT.Props

open Finset Spec Simplex EmdPy Partial

variable {R : Type*} [Field R] [LinearOrder R] [IsStrictOrderedRing R]

/-! ## The extended problem -/

section Ext

variable {n1 n2 d : ℕ}

theorem extend_sum (w : Fin n1 → R) (x : R) : ∑ i, extend w d x i = ∑ i, w i + d * x := by
  rw [Fin.sum_univ_add]
  simp [extend]

theorem extend_sum' (w : Fin n1 → R) (x : R) (hd : 0 < d) : ∑ i, extend w d (x / (d : R)) i = ∑ i, w i + x := by
  have : (d : R) ≠ 0 := Nat.cast_ne_zero.2 hd.ne'
  rw [extend_sum, mul_div_cancel₀ _ this]

theorem extend_nonneg {w : Fin n1 → R} {x : R} (hw : ∀ i, 0 ≤ w i) (hx : 0 ≤ x) (i : Fin (n1 + d)) : 0 ≤ extend w d x i := by
  refine Fin.addCases (fun i => ?_) (fun i => ?_) i
  · simp [extend, hw]
  · simp [extend, hx]

/-- mass between dummies -/
def dumMass (G : Fin (n1 + d) → Fin (n2 + d) → R) : R := ∑ k : Fin d, ∑ l : Fin d, G (Fin.natAdd n1 k) (Fin.natAdd n2 l)

theorem cost_extendM (M : Fin n1 → Fin n2 → R) (c : R) (G : Fin (n1 + d) → Fin (n2 + d) → R) :
    cost (extendM M d c) G = cost M (core G) + c * dumMass G := by
  unfold cost core dumMass
  rw [Fin.sum_univ_add, Finset.mul_sum]
  congr 1
  · refine sum_congr rfl fun i _ => ?_
    rw [Fin.sum_univ_add]
    simp [extendM]
  · refine sum_congr rfl fun i _ => ?_
    rw [Fin.sum_univ_add, Finset.mul_sum]
    simp [extendM, mul_comm]

theorem core_partial {a : Fin n1 → R} {b : Fin n2 → R} {x y : R} {G : Fin (n1 + d) → Fin (n2 + d) → R}
    (hG : IsCoupling (extend a d x) (extend b d y) G) : IsPartial a b (core G) := by
  refine ⟨fun i j => hG.nonneg _ _, fun i => ?_, fun j => ?_⟩
  · have h := hG.row (Fin.castAdd d i)
    rw [Fin.sum_univ_add] at h
    simp only [extend, Fin.addCases_left] at h
    have h2 : 0 ≤ ∑ l : Fin d, G (Fin.castAdd d i) (Fin.natAdd n2 l) := sum_nonneg fun l _ => hG.nonneg _ _
    unfold core
    linarith
  · have h := hG.col (Fin.castAdd d j)
    rw [Fin.sum_univ_add] at h
    simp only [extend, Fin.addCases_left] at h
    have h2 : 0 ≤ ∑ l : Fin d, G (Fin.natAdd n1 l) (Fin.castAdd d j) := sum_nonneg fun l _ => hG.nonneg _ _
    unfold core
    linarith

/-- the mass of the core is what the dummies leave over, plus the mass between dummies -/
theorem core_mass {a : Fin n1 → R} {b : Fin n2 → R} {x y : R} {G : Fin (n1 + d) → Fin (n2 + d) → R}
    (hG : IsCoupling (extend a d x) (extend b d y) G) : mass (core G) = ∑ i, a i - d * y + dumMass G := by
  have h1 : ∑ i : Fin n1, ∑ j, G (Fin.castAdd d i) j = ∑ i, a i := sum_congr rfl fun i _ => by
    rw [hG.row]; simp [extend]
  have h2 : ∑ l : Fin d, ∑ i, G i (Fin.natAdd n2 l) = d * y := by
    rw [sum_congr rfl fun l _ => hG.col (Fin.natAdd n2 l)]
    simp [extend]
  have h3 : ∑ i : Fin n1, ∑ j, G (Fin.castAdd d i) j = mass (core G) + ∑ l : Fin d, ∑ i : Fin n1, G (Fin.castAdd d i) (Fin.natAdd n2 l) := by
    rw [sum_congr rfl fun i _ => Fin.sum_univ_add _, sum_add_distrib, sum_comm (s := univ) (t := univ) (f := fun l i => G (Fin.castAdd d i) (Fin.natAdd n2 l))]
    rfl
  have h4 : ∑ l : Fin d, ∑ i, G i (Fin.natAdd n2 l) = ∑ l : Fin d, ∑ i : Fin n1, G (Fin.castAdd d i) (Fin.natAdd n2 l) + dumMass G := by
    rw [sum_congr rfl fun l _ => Fin.sum_univ_add _, sum_add_distrib]
    congr 1
    exact sum_comm
  linarith

/-- complete a partial plan: what is left over goes evenly to the dummies -/
def complete (d : ℕ) (a : Fin n1 → R) (b : Fin n2 → R) (H : Fin n1 → Fin n2 → R) (z : R) : Fin (n1 + d) → Fin (n2 + d) → R :=
  Fin.addCases (fun i => Fin.addCases (H i) fun _ => (a i - ∑ j, H i j) / d)
    fun _ => Fin.addCases (fun j => (b j - ∑ i, H i j) / d) fun _ => z

theorem core_complete (a : Fin n1 → R) (b : Fin n2 → R) (H : Fin n1 → Fin n2 → R) (z : R) : core (complete d a b H z) = H := by
  funext i j
  simp [core, complete]

theorem dumMass_complete (a : Fin n1 → R) (b : Fin n2 → R) (H : Fin n1 → Fin n2 → R) (z : R) : dumMass (complete d a b H z) = d * (d * z) := by
  simp [dumMass, complete]

theorem complete_coupling {a : Fin n1 → R} {b : Fin n2 → R} {H : Fin n1 → Fin n2 → R} {x y z : R} (hd : 0 < d) (hH : IsPartial a b H) (hz : 0 ≤ z)
    (hx : d * x = ∑ j, b j - mass H + d * (d * z)) (hy : d * y = ∑ i, a i - mass H + d * (d * z)) :
    IsCoupling (extend a d x) (extend b d y) (complete d a b H z) := by
  have hd' : (0 : R) < d := Nat.cast_pos.2 hd
  refine ⟨fun i j => ?_, fun i => ?_, fun j => ?_⟩
  · refine Fin.addCases (fun i => ?_) (fun i => ?_) i <;> refine Fin.addCases (fun j => ?_) (fun j => ?_) j
    · simpa [complete] using hH.nonneg i j
    · simpa [complete] using div_nonneg (sub_nonneg.2 (hH.row i)) hd'.le
    · simpa [complete] using div_nonneg (sub_nonneg.2 (hH.col j)) hd'.le
    · simpa [complete] using hz
  · refine Fin.addCases (fun i => ?_) (fun i => ?_) i
    · rw [Fin.sum_univ_add]
      simp only [complete, extend, Fin.addCases_left, Fin.addCases_right, sum_const, card_univ, Fintype.card_fin, nsmul_eq_mul]
      rw [mul_div_cancel₀ _ hd'.ne']
      ring
    · rw [Fin.sum_univ_add]
      simp only [complete, extend, Fin.addCases_left, Fin.addCases_right, sum_const, card_univ, Fintype.card_fin, nsmul_eq_mul]
      rw [← sum_div, sum_sub_distrib, sum_comm (f := fun j i => H i j)]
      have : x = (∑ j, b j - mass H) / d + d * z := by
        field_simp
        linarith
      rw [this]
      rfl
  · refine Fin.addCases (fun j => ?_) (fun j => ?_) j
    · rw [Fin.sum_univ_add]
      simp only [complete, extend, Fin.addCases_left, Fin.addCases_right, sum_const, card_univ, Fintype.card_fin, nsmul_eq_mul]
      rw [mul_div_cancel₀ _ hd'.ne']
      ring
    · rw [Fin.sum_univ_add]
      simp only [complete, extend, Fin.addCases_left, Fin.addCases_right, sum_const, card_univ, Fintype.card_fin, nsmul_eq_mul]
      rw [← sum_div, sum_sub_distrib]
      have : y = (∑ i, a i - mass H) / d + d * z := by
        field_simp
        linarith
      rw [this]
      rfl

end Ext

/-- What is assumed of the keyword arguments: the solver constants are non-negative, the tolerance of the marginal check is positive and the model's bound on
turns is large enough for a problem of this size. -/
structure OptsOk (o : EmdOpts R) (n1 n2 : ℕ) : Prop where
  eps : 0 ≤ o.eps
  feps : 0 ≤ o.feps
  tol : 0 < o.tol
  turns : 2 ^ (n1 * n2 + (n1 + n2)) < o.turns

theorem emd_run {n1 n2 : ℕ} [NeZero n1] [NeZero n2] {o : EmdOpts R} (ho : OptsOk o n1 n2) {a : Fin n1 → R} {b : Fin n2 → R} {M : Fin n1 → Fin n2 → R} {C : R}
    (hC : CostRange o.eps C a b M) (ha : ∀ i, 0 ≤ a i) (hb : ∀ j, 0 ≤ b j) (hpos : 0 < ∑ i, a i) (hsum : ∑ i, a i = ∑ j, b j) :
    ∃ r, o.run a b M = .done r ∧
      (r.status = .optimal ∧ Certified (o.eps * (2 * (C + 1) * (n1 + n2))) a b M r ∨ r.status = .maxIter ∧ 0 < o.maxIter) := by
  have hpb : 0 < ∑ j, b j := hsum ▸ hpos
  have hr := rescale_self hpb.ne' hsum
  obtain ⟨h1, h2⟩ := solveDense_spec o.centerDual (junk := o.junk) ho.eps ho.feps hC ha hb hpos hsum o.bs o.maxIter o.turns o.arcs
  obtain ⟨r, hr'⟩ := Option.isSome_iff_exists.1 (h2 ho.turns)
  refine ⟨r, ?_, ?_⟩
  · unfold EmdOpts.run emd
    rw [if_neg, hr, hr']
    rintro ⟨-, h⟩
    apply h
    rw [hsum, sub_self, abs_zero]
    exact ho.tol
  · obtain ⟨q1, q2, -⟩ := h1 r hr'
    rcases q2 with q2 | ⟨q2, q4⟩
    · exact Or.inl ⟨q2, (q1 q2).1⟩
    · exact Or.inr ⟨q2, q4⟩

theorem le_maxEntry {n1 n2 : ℕ} [NeZero n1] [NeZero n2] (M : Fin n1 → Fin n2 → R) (i : Fin n1) (j : Fin n2) : M i j ≤ maxEntry M :=
  le_trans (le_sup' (fun j => M i j) (mem_univ j)) (le_sup' (fun i => univ.sup' univ_nonempty fun j => M i j) (mem_univ i))

theorem maxEntry_mem {n1 n2 : ℕ} [NeZero n1] [NeZero n2] (M : Fin n1 → Fin n2 → R) : ∃ i j, maxEntry M = M i j := by
  obtain ⟨i, -, hi⟩ := exists_mem_eq_sup' (univ_nonempty (α := Fin n1)) fun i => univ.sup' univ_nonempty fun j => M i j
  obtain ⟨j, -, hj⟩ := exists_mem_eq_sup' (univ_nonempty (α := Fin n2)) fun j => M i j
  exact ⟨i, j, hi.trans hj⟩

theorem cost_smul {n1 n2 : ℕ} (M G : Fin n1 → Fin n2 → R) (t : R) : cost M (fun i j => t * G i j) = t * cost M G := by
  unfold cost
  simp only [mul_sum, mul_assoc]

theorem cost_nonneg {n1 n2 : ℕ} {M G : Fin n1 → Fin n2 → R} (hM : ∀ i j, 0 ≤ M i j) (hG : ∀ i j, 0 ≤ G i j) : 0 ≤ cost M G :=
  sum_nonneg fun i _ => sum_nonneg fun j _ => mul_nonneg (hG i j) (hM i j)

theorem sumProd_eq {n1 n2 : ℕ} (M G : Fin n1 → Fin n2 → R) : sumProd G M = cost M G := rfl

theorem sumProd_eq' {n1 n2 : ℕ} (M G : Fin n1 → Fin n2 → R) : sumProd M G = cost M G := by
  unfold sumProd cost
  simp only [mul_comm]

variable {n1 n2 : ℕ} [NeZero n1] [NeZero n2]

/-- **C44.** For non-negative costs that are not all zero, non-negative weights and any `0 ≤ m ≤ min(|a|, |b|)`, any number of dummy points: `partial_wasserstein`
returns a plan with row sums at most `a` and column sums at most `b`, whose mass is `m` up to the solver tolerance divided by `2 max M` and whose cost (the logged one) is at
most that of any partial plan of mass `m`, up to the solver tolerance; or it raises because the iteration limit was reached. -/
theorem C44_partial_wasserstein (o : EmdOpts R) (d : ℕ) (hd : 0 < d) (ho : OptsOk o (n1 + d) (n2 + d)) (heps : 8 * o.eps ≤ 1) (a : Fin n1 → R) (b : Fin n2 → R)
    (M : Fin n1 → Fin n2 → R) (m : R) (ha : ∀ i, 0 ≤ a i) (hb : ∀ j, 0 ≤ b j) (hM : ∀ i j, 0 ≤ M i j) (hmax : ∃ i j, 0 < M i j)
    (hm0 : 0 ≤ m) (hma : m ≤ ∑ i, a i) (hmb : m ≤ ∑ j, b j) (hpos : 0 < ∑ i, a i + ∑ j, b j - m) :
    let ε := o.eps * (2 * (2 * maxEntry M + 1) * (n1 + n2 + 2 * d)) * (∑ i, a i + ∑ j, b j - m)
    (∃ G c, partialWasserstein o d a b M m = .done G c ∧ IsPartial a b G ∧ m ≤ mass G ∧ (mass G - m) * (2 * maxEntry M) ≤ ε ∧ c = cost M G ∧
      ∀ H, IsPartial a b H → mass H = m → cost M G ≤ cost M H + ε) ∨
    (partialWasserstein o d a b M m = .valueError ∧ 0 < o.maxIter) := by
  intro ε
  have i1 : NeZero (n1 + d) := ⟨by have := NeZero.pos n1; omega⟩
  have i2 : NeZero (n2 + d) := ⟨by have := NeZero.pos n2; omega⟩
  have hd' : (0 : R) < d := Nat.cast_pos.2 hd
  have hmx : 0 < maxEntry M := by
    obtain ⟨i, j, h⟩ := hmax
    exact lt_of_lt_of_le h (le_maxEntry M i j)
  obtain ⟨x, hx⟩ : ∃ x, x = (∑ j, b j - m) / (d : R) := ⟨_, rfl⟩
  obtain ⟨y, hy⟩ : ∃ y, y = (∑ i, a i - m) / (d : R) := ⟨_, rfl⟩
  have hx0 : 0 ≤ x := by rw [hx]; exact div_nonneg (by linarith) hd'.le
  have hy0 : 0 ≤ y := by rw [hy]; exact div_nonneg (by linarith) hd'.le
  have hdx : d * x = ∑ j, b j - m := by rw [hx, mul_div_cancel₀ _ hd'.ne']
  have hdy : d * y = ∑ i, a i - m := by rw [hy, mul_div_cancel₀ _ hd'.ne']
  have hrange : CostRange o.eps (2 * maxEntry M) (extend a d x) (extend b d y) (extendM M d (maxEntry M * 2)) := by
    have h : ∀ i j, 0 ≤ extendM M d (maxEntry M * 2) i j ∧ extendM M d (maxEntry M * 2) i j ≤ 2 * maxEntry M := by
      intro i j
      refine Fin.addCases (fun i => ?_) (fun i => ?_) i <;> refine Fin.addCases (fun j => ?_) (fun j => ?_) j
      · simp only [extendM, Fin.addCases_left]
        exact ⟨hM i j, by have := le_maxEntry M i j; linarith⟩
      · simp only [extendM, Fin.addCases_left, Fin.addCases_right]
        exact ⟨le_rfl, by linarith⟩
      · simp only [extendM, Fin.addCases_left, Fin.addCases_right]
        exact ⟨le_rfl, by linarith⟩
      · simp only [extendM, Fin.addCases_right]
        exact ⟨by linarith, by linarith⟩
    exact ⟨fun i j => by rw [abs_of_nonneg (h i j).1]; exact (h i j).2, by linarith, Or.inl ⟨fun i j => (h i j).1, heps⟩⟩
  have hsa : ∑ i, extend a d x i = ∑ i, a i + ∑ j, b j - m := by rw [extend_sum, hdx]; ring
  have hsb : ∑ i, extend b d y i = ∑ i, a i + ∑ j, b j - m := by rw [extend_sum, hdy]; ring
  obtain ⟨r, hr, hst⟩ := emd_run ho hrange (extend_nonneg ha hx0) (extend_nonneg hb hy0) (by rw [hsa]; exact hpos) (by rw [hsa, hsb])
  have hun : partialWasserstein o d a b M m = if r.status = .optimal then .done (core r.G) (sumProd M (core r.G)) else .valueError := by
    unfold partialWasserstein
    rw [if_neg (not_lt.2 hm0), if_neg (not_lt.2 (le_min hma hmb))]
    dsimp only
    rw [← hx, ← hy, hr]
  rcases hst with ⟨h1, hc⟩ | ⟨h1, h2⟩
  · left
    rw [if_pos h1] at hun
    obtain ⟨⟨hG, hopt⟩, -, -, -⟩ := hc
    have hε : o.eps * (2 * (2 * maxEntry M + 1) * (((n1 + d : ℕ) : R) + ((n2 + d : ℕ) : R))) * ∑ i, extend a d x i = ε := by
      rw [hsa]
      simp only [ε]
      push_cast
      ring
    rw [hε] at hopt
    have hδ : 0 ≤ dumMass r.G := sum_nonneg fun k _ => sum_nonneg fun l _ => hG.nonneg _ _
    have hmass : mass (core r.G) = m + dumMass r.G := by rw [core_mass hG, hdy]; ring
    have hpart := core_partial hG
    have hcore0 : 0 ≤ cost M (core r.G) := cost_nonneg hM hpart.nonneg
    have key : ∀ H, IsPartial a b H → mass H = m → cost M (core r.G) + maxEntry M * 2 * dumMass r.G ≤ cost M H + ε := by
      intro H hH hHm
      have hcpl := complete_coupling (x := x) (y := y) (z := 0) hd hH le_rfl (by rw [hdx, hHm]; ring) (by rw [hdy, hHm]; ring)
      have := hopt _ hcpl
      rw [cost_extendM, cost_extendM, core_complete, dumMass_complete] at this
      simpa using this
    refine ⟨_, _, hun, hpart, by linarith, ?_, sumProd_eq' _ _, fun H hH hHm => ?_⟩
    · rw [hmass, add_sub_cancel_left]
      by_cases hz : m + dumMass r.G = 0
      · have : dumMass r.G = 0 := by linarith
        rw [this, zero_mul, ← hε, hsa]
        have := ho.eps
        positivity
      · have hz' : 0 < m + dumMass r.G := lt_of_le_of_ne (by linarith) (Ne.symm hz)
        have ht1 : m / (m + dumMass r.G) ≤ 1 := by rw [div_le_one hz']; linarith
        have ht0 : 0 ≤ m / (m + dumMass r.G) := div_nonneg hm0 hz'.le
        have := key (fun i j => m / (m + dumMass r.G) * core r.G i j) ⟨fun i j => mul_nonneg ht0 (hpart.nonneg i j), fun i => by
            rw [← mul_sum]
            exact le_trans (mul_le_of_le_one_left (sum_nonneg fun j _ => hpart.nonneg i j) ht1) (hpart.row i), fun j => by
            rw [← mul_sum]
            exact le_trans (mul_le_of_le_one_left (sum_nonneg fun i _ => hpart.nonneg i j) ht1) (hpart.col j)⟩ (by
            have : mass (fun i j => m / (m + dumMass r.G) * core r.G i j) = m / (m + dumMass r.G) * mass (core r.G) := by
              unfold mass
              simp only [mul_sum]
            rw [this, hmass, div_mul_cancel₀ _ hz])
        rw [cost_smul] at this
        have h3 := mul_le_of_le_one_left hcore0 ht1
        linarith
    · have := key H hH hHm
      have h4 : 0 ≤ maxEntry M * 2 * dumMass r.G := by positivity
      linarith
  · right
    rw [if_neg (by rw [h1]; decide)] at hun
    exact ⟨hun, h2⟩

/-- **C44**, exact arithmetic and no iteration limit: the plan has mass exactly `m` and is optimal. -/
theorem C44_exact (o : EmdOpts R) (d : ℕ) (hd : 0 < d) (ho : OptsOk o (n1 + d) (n2 + d)) (heps : o.eps = 0) (hmaxIter : o.maxIter = 0) (a : Fin n1 → R)
    (b : Fin n2 → R) (M : Fin n1 → Fin n2 → R) (m : R) (ha : ∀ i, 0 ≤ a i) (hb : ∀ j, 0 ≤ b j) (hM : ∀ i j, 0 ≤ M i j) (hmax : ∃ i j, 0 < M i j)
    (hm0 : 0 ≤ m) (hma : m ≤ ∑ i, a i) (hmb : m ≤ ∑ j, b j) (hpos : 0 < ∑ i, a i + ∑ j, b j - m) :
    ∃ G, partialWasserstein o d a b M m = .done G (cost M G) ∧ IsPartial a b G ∧ mass G = m ∧
      ∀ H, IsPartial a b H → mass H = m → cost M G ≤ cost M H := by
  have hmx : 0 < maxEntry M := by
    obtain ⟨i, j, h⟩ := hmax
    exact lt_of_lt_of_le h (le_maxEntry M i j)
  rcases C44_partial_wasserstein o d hd ho (by rw [heps, mul_zero]; exact zero_le_one) a b M m ha hb hM hmax hm0 hma hmb hpos with
    ⟨G, c, h1, h2, h3, h4, h5, h6⟩ | ⟨-, h⟩
  · simp only [heps, zero_mul, add_zero] at h4 h6
    refine ⟨G, by rw [h1, h5], h2, ?_, h6⟩
    by_contra hne
    have : 0 < mass G - m := sub_pos.2 (lt_of_le_of_ne h3 (Ne.symm hne))
    have : 0 < (mass G - m) * (2 * maxEntry M) := by positivity
    linarith
  · omega

/-- **C44**, rejected requests: a negative `m` or one larger than a total mass raises. -/
theorem C44_rejects (o : EmdOpts R) (d : ℕ) (a : Fin n1 → R) (b : Fin n2 → R) (M : Fin n1 → Fin n2 → R) (m : R)
    (h : m < 0 ∨ ∑ i, a i < m ∨ ∑ j, b j < m) : partialWasserstein o d a b M m = .valueError := by
  unfold partialWasserstein
  by_cases h0 : m < 0
  · rw [if_pos h0]
  · rw [if_neg h0, if_pos]
    rcases h with h | h | h
    · exact absurd h h0
    · exact lt_of_le_of_lt (min_le_left _ _) h
    · exact lt_of_le_of_lt (min_le_right _ _) h

/-- **C44 fails for negative costs.** One point each, `M = -1`, half of the mass requested: whatever the solver options, the plan that is returned moves all of the mass, because
the cost `2 max M` between dummy points is negative as well. -/
theorem C44_negative_costs_refuted (o : EmdOpts ℚ) (ho : OptsOk o 2 2) (heps : 2000 * o.eps ≤ 1) (hm : o.maxIter = 0) :
    ∃ G c, partialWasserstein o 1 (fun _ : Fin 1 => (1 : ℚ)) (fun _ : Fin 1 => 1) (fun _ _ => -1) (1 / 2) = .done G c ∧ 9 / 10 ≤ mass G := by
  have i1 : NeZero (1 + 1) := ⟨by omega⟩
  have he := ho.eps
  have hmax : maxEntry (fun _ _ : Fin 1 => (-1 : ℚ)) = -1 := by
    obtain ⟨i, j, h⟩ := maxEntry_mem (fun _ _ : Fin 1 => (-1 : ℚ))
    exact h
  obtain ⟨w, hw⟩ : ∃ w, w = extend (fun _ : Fin 1 => (1 : ℚ)) 1 (1 / 2) := ⟨_, rfl⟩
  obtain ⟨D, hD⟩ : ∃ D, D = extendM (fun _ _ : Fin 1 => (-1 : ℚ)) 1 (-2) := ⟨_, rfl⟩
  have hw0 : w 0 = 1 := by rw [hw]; rfl
  have hw1 : w 1 = 1 / 2 := by rw [hw]; rfl
  have hws : ∑ i, w i = 3 / 2 := by rw [Fin.sum_univ_two, hw0, hw1]; norm_num
  have hwn : ∀ i, 0 ≤ w i := by
    rw [hw]
    exact extend_nonneg (fun _ => zero_le_one) (by norm_num)
  have d00 : D 0 0 = -1 := by rw [hD]; rfl
  have d01 : D 0 1 = 0 := by rw [hD]; rfl
  have d10 : D 1 0 = 0 := by rw [hD]; rfl
  have d11 : D 1 1 = -2 := by rw [hD]; rfl
  have hrange : CostRange o.eps 2 w w D := by
    refine ⟨fun i j => ?_, by norm_num, Or.inr ⟨⟨0, 1, by rw [hw0]; norm_num, by rw [hw1]; norm_num, by rw [d01]⟩, by linarith⟩⟩
    match i, j with
    | 0, 0 => rw [d00]; norm_num
    | 0, 1 => rw [d01]; norm_num
    | 1, 0 => rw [d10]; norm_num
    | 1, 1 => rw [d11]; norm_num
  obtain ⟨r, hr, hst⟩ := emd_run (n1 := 1 + 1) (n2 := 1 + 1) ho hrange hwn hwn (by rw [hws]; norm_num) rfl
  have hun : partialWasserstein o 1 (fun _ : Fin 1 => (1 : ℚ)) (fun _ : Fin 1 => 1) (fun _ _ => -1) (1 / 2)
      = if r.status = .optimal then .done (core r.G) (sumProd (fun _ _ => -1) (core r.G)) else .valueError := by
    unfold partialWasserstein
    rw [if_neg (by norm_num), if_neg (by simp; norm_num)]
    dsimp only
    rw [hmax, show (∑ _i : Fin 1, (1 : ℚ) - 1 / 2) / ((1 : ℕ) : ℚ) = 1 / 2 by simp; norm_num, show (-1 : ℚ) * 2 = -2 by norm_num, ← hw, ← hD, hr]
  rcases hst with ⟨h1, ⟨⟨hG, hopt⟩, -, -, -⟩⟩ | ⟨-, h2⟩
  · rw [if_pos h1] at hun
    refine ⟨_, _, hun, ?_⟩
    have hdiag : IsCoupling w w (fun i j : Fin (1 + 1) => if i = j then w i else 0) :=
      ⟨fun i j => by split_ifs; exacts [hwn i, le_rfl], fun i => by simp, fun j => by simp⟩
    have h3 := hopt _ hdiag
    have e1 : cost D r.G = -r.G 0 0 - 2 * r.G 1 1 := by
      unfold cost
      rw [Fin.sum_univ_two, Fin.sum_univ_two, Fin.sum_univ_two, d00, d01, d10, d11]
      ring
    have e2 : cost D (fun i j : Fin (1 + 1) => if i = j then w i else 0) = -2 := by
      unfold cost
      rw [Fin.sum_univ_two, Fin.sum_univ_two, Fin.sum_univ_two, d00, d01, d10, d11]
      simp [hw0, hw1]
      norm_num
    have e3 : mass (core r.G) = r.G 0 0 := by simp [mass, core]
    have r0 := hG.row 1
    have q := hG.nonneg 1 0
    rw [Fin.sum_univ_two, hw1] at r0
    rw [e1, e2, hws] at h3
    push_cast at h3
    rw [e3]
    linarith
  · omega

/-! ## The Lagrangian form -/

theorem scatter_row {n : ℕ} {l : List (Fin n)} (hl : l.Nodup) (f : Fin l.length → R) : ∑ i, scatter l f i = ∑ r, f r := by
  classical
  have h1 : ∑ i, scatter l f i = ∑ i ∈ l.toFinset, scatter l f i :=
    (sum_subset (subset_univ _) fun i _ hi => scatter_notMem _ _ _ (by simpa using hi)).symm
  rw [h1]
  symm
  refine sum_bij (fun r _ => l.get r) (fun r _ => by simp) (fun r _ s _ h => (List.nodup_iff_injective_get.1 hl) h) (fun i hi => ?_) fun r _ => ?_
  · obtain ⟨r, hr⟩ := List.mem_iff_get.1 (by simpa using hi)
    exact ⟨r, mem_univ _, hr⟩
  · exact (scatter_get l hl f r).symm

theorem sum_get_le {n : ℕ} {l : List (Fin n)} (hl : l.Nodup) {w : Fin n → R} (hw : ∀ i, 0 ≤ w i) : ∑ r, w (l.get r) ≤ ∑ i, w i := by
  rw [← scatter_row hl fun r => w (l.get r)]
  refine sum_le_sum fun i _ => ?_
  by_cases hi : i ∈ l
  · obtain ⟨r, rfl⟩ := List.mem_iff_get.1 hi
    rw [scatter_get l hl]
  · rw [scatter_notMem _ _ _ hi]
    exact hw i

section Scatter

variable {rows : List (Fin n1)} {cols : List (Fin n2)} (hr : rows.Nodup) (hc : cols.Nodup)

include hr hc

theorem scatterL_get (G : Fin rows.length → Fin cols.length → R) (r : Fin rows.length) (c : Fin cols.length) :
    scatterM rows cols G (rows.get r) (cols.get c) = G r c := by
  unfold scatterM
  rw [scatter_get _ hr, scatter_get _ hc]

theorem scatterL_sum (G : Fin rows.length → Fin cols.length → R) (F : Fin n1 → Fin n2 → R → R) (h0 : ∀ i j, F i j 0 = 0) :
    ∑ i, ∑ j, F i j (scatterM rows cols G i j) = ∑ r, ∑ c, F (rows.get r) (cols.get c) (G r c) := by
  have h1 : ∀ i, ∑ j, F i j (scatterM rows cols G i j) = scatter rows (fun r => ∑ c, F (rows.get r) (cols.get c) (G r c)) i := by
    intro i
    by_cases hi : i ∈ rows
    · obtain ⟨r, rfl⟩ := List.mem_iff_get.1 hi
      rw [scatter_get _ hr, ← scatter_row hc]
      refine sum_congr rfl fun j _ => ?_
      by_cases hj : j ∈ cols
      · obtain ⟨c, rfl⟩ := List.mem_iff_get.1 hj
        rw [scatterL_get hr hc, scatter_get _ hc]
      · rw [scatter_notMem _ _ _ hj]
        unfold scatterM
        rw [scatter_get _ hr, scatter_notMem _ _ _ hj, h0]
    · rw [scatter_notMem _ _ _ hi]
      refine sum_eq_zero fun j _ => ?_
      unfold scatterM
      rw [scatter_notMem _ _ _ hi, h0]
  rw [sum_congr rfl fun i _ => h1 i, scatter_row hr]

theorem scatterL_row (G : Fin rows.length → Fin cols.length → R) (i : Fin n1) :
    ∑ j, scatterM rows cols G i j = scatter rows (fun r => ∑ c, G r c) i := by
  by_cases hi : i ∈ rows
  · obtain ⟨r, rfl⟩ := List.mem_iff_get.1 hi
    rw [scatter_get _ hr, ← scatter_row hc]
    unfold scatterM
    exact sum_congr rfl fun j _ => by rw [scatter_get _ hr]
  · rw [scatter_notMem _ _ _ hi]
    unfold scatterM
    refine sum_eq_zero fun j _ => ?_
    rw [scatter_notMem _ _ _ hi]

theorem scatterL_col (G : Fin rows.length → Fin cols.length → R) (j : Fin n2) :
    ∑ i, scatterM rows cols G i j = scatter cols (fun c => ∑ r, G r c) j := by
  unfold scatterM
  rw [scatter_row hr]
  by_cases hj : j ∈ cols
  · obtain ⟨c, rfl⟩ := List.mem_iff_get.1 hj
    simp only [scatter_get _ hc]
  · simp only [scatter_notMem _ _ _ hj, sum_const_zero]

theorem scatterL_partial {a : Fin n1 → R} {b : Fin n2 → R} (ha : ∀ i, 0 ≤ a i) (hb : ∀ j, 0 ≤ b j) {G : Fin rows.length → Fin cols.length → R}
    (hG : IsPartial (fun r => a (rows.get r)) (fun c => b (cols.get c)) G) : IsPartial a b (scatterM rows cols G) := by
  refine ⟨fun i j => ?_, fun i => ?_, fun j => ?_⟩
  · by_cases hi : i ∈ rows
    · by_cases hj : j ∈ cols
      · obtain ⟨r, rfl⟩ := List.mem_iff_get.1 hi
        obtain ⟨c, rfl⟩ := List.mem_iff_get.1 hj
        rw [scatterL_get hr hc]
        exact hG.nonneg r c
      · obtain ⟨r, rfl⟩ := List.mem_iff_get.1 hi
        unfold scatterM
        rw [scatter_get _ hr, scatter_notMem _ _ _ hj]
    · unfold scatterM
      rw [scatter_notMem _ _ _ hi]
  · rw [scatterL_row hr hc]
    by_cases hi : i ∈ rows
    · obtain ⟨r, rfl⟩ := List.mem_iff_get.1 hi
      rw [scatter_get _ hr]
      exact hG.row r
    · rw [scatter_notMem _ _ _ hi]
      exact ha i
  · rw [scatterL_col hr hc]
    by_cases hj : j ∈ cols
    · obtain ⟨c, rfl⟩ := List.mem_iff_get.1 hj
      rw [scatter_get _ hc]
      exact hG.col c
    · rw [scatter_notMem _ _ _ hj]
      exact hb j

end Scatter

/-- a plan loses nothing by dropping its entries of positive cost and keeping the rest on the selected rows and columns -/
theorem restrict_neg {Ms : Fin n1 → Fin n2 → R} {e : R} (he : 0 < e) {a : Fin n1 → R} {b : Fin n2 → R} {H : Fin n1 → Fin n2 → R} (hH : IsPartial a b H) :
    ∃ H' : Fin (idxX Ms e).length → Fin (idxY Ms e).length → R,
      IsPartial (fun r => a ((idxX Ms e).get r)) (fun c => b ((idxY Ms e).get c)) H' ∧
      cost (fun r c => Ms ((idxX Ms e).get r) ((idxY Ms e).get c)) H' ≤ cost Ms H := by
  classical
  have hr : (idxX Ms e).Nodup := (List.nodup_finRange _).filter _
  have hc : (idxY Ms e).Nodup := (List.nodup_finRange _).filter _
  obtain ⟨H', hH'⟩ : ∃ H' : Fin (idxX Ms e).length → Fin (idxY Ms e).length → R,
      H' = fun r c => if Ms ((idxX Ms e).get r) ((idxY Ms e).get c) < 0 then H ((idxX Ms e).get r) ((idxY Ms e).get c) else 0 := ⟨_, rfl⟩
  have hle : ∀ r c, H' r c ≤ H ((idxX Ms e).get r) ((idxY Ms e).get c) := by
    intro r c
    rw [hH']
    dsimp only
    split_ifs
    · exact le_rfl
    · exact hH.nonneg _ _
  refine ⟨H', ⟨fun r c => ?_, fun r => ?_, fun c => ?_⟩, ?_⟩
  · rw [hH']
    dsimp only
    split_ifs
    · exact hH.nonneg _ _
    · exact le_rfl
  · refine le_trans (sum_le_sum fun c _ => hle r c) (le_trans ?_ (hH.row _))
    exact sum_get_le hc fun j => hH.nonneg _ j
  · refine le_trans (sum_le_sum fun r _ => hle r c) (le_trans ?_ (hH.col _))
    exact sum_get_le hr fun i => hH.nonneg i _
  · have e1 : cost (fun r c => Ms ((idxX Ms e).get r) ((idxY Ms e).get c)) H' = cost Ms (scatterM (idxX Ms e) (idxY Ms e) H') :=
      (scatterL_sum hr hc H' (fun i j x => x * Ms i j) fun i j => zero_mul _).symm
    rw [e1]
    refine sum_le_sum fun i _ => sum_le_sum fun j _ => ?_
    by_cases hneg : Ms i j < 0
    · have hi : i ∈ idxX Ms e := List.mem_filter.2 ⟨List.mem_finRange i, by simpa using ⟨j, hneg.trans he⟩⟩
      have hj : j ∈ idxY Ms e := List.mem_filter.2 ⟨List.mem_finRange j, by simpa using ⟨i, hneg.trans he⟩⟩
      obtain ⟨r, hr'⟩ := List.mem_iff_get.1 hi
      obtain ⟨c, hc'⟩ := List.mem_iff_get.1 hj
      rw [← hr', ← hc', scatterL_get hr hc, hH']
      dsimp only
      rw [hr', hc', if_pos hneg]
    · have h0 : scatterM (idxX Ms e) (idxY Ms e) H' i j = 0 := by
        by_cases hi : i ∈ idxX Ms e
        · by_cases hj : j ∈ idxY Ms e
          · obtain ⟨r, hr'⟩ := List.mem_iff_get.1 hi
            obtain ⟨c, hc'⟩ := List.mem_iff_get.1 hj
            rw [← hr', ← hc', scatterL_get hr hc, hH']
            dsimp only
            rw [hr', hc', if_neg hneg]
          · obtain ⟨r, hr'⟩ := List.mem_iff_get.1 hi
            unfold scatterM
            rw [← hr', scatter_get _ hr, scatter_notMem _ _ _ hj]
        · unfold scatterM
          rw [scatter_notMem _ _ _ hi]
      rw [h0, zero_mul]
      exact mul_nonneg (hH.nonneg i j) (not_lt.1 hneg)

/-- **C45.** For non-negative costs and weights of mass at most `1`, any penalty `reg_m` (by default `max M + 1`) and any number of dummy points:
`partial_wasserstein_lagrange` returns a plan with row sums at most `a` and column sums at most `b` minimising `∑ (M - reg_m) G` among all such plans up to the solver tolerance,
and logs its cost; or it raises because the iteration limit was reached. `C` bounds the shifted costs. -/
theorem C45_partial_lagrange (o : EmdOpts R) (d : ℕ) [NeZero d] (slack e : R) (he : 0 < e) (ho : ∀ k l, k ≤ n1 → l ≤ n2 → OptsOk o (k + d) (l + d)) (a : Fin n1 → R)
    (b : Fin n2 → R) (M : Fin n1 → Fin n2 → R) (regM : Option R) (ha : ∀ i, 0 ≤ a i) (hb : ∀ j, 0 ≤ b j) (hM : ∀ i j, 0 ≤ M i j) (hpa : 0 < ∑ i, a i)
    (hpb : 0 < ∑ j, b j) (ha1 : ∑ i, a i ≤ 1 + slack) (hb1 : ∑ j, b j ≤ 1 + slack) (C : R) (hC : ∀ i j, |M i j - regM.getD (maxEntry M + 1)| ≤ C)
    (heps : 2 * o.eps * (C + 1) < 1) :
    let ε := o.eps * (2 * (C + 1) * (n1 + n2 + 2 * d)) * (∑ i, a i + ∑ j, b j)
    let Ms : Fin n1 → Fin n2 → R := fun i j => M i j - regM.getD (maxEntry M + 1)
    (∃ G, partialLagrange o d slack e a b M regM = .done G (cost M G) ∧ IsPartial a b G ∧ ∀ H, IsPartial a b H → cost Ms G ≤ cost Ms H + ε) ∨
    (partialLagrange o d slack e a b M regM = .valueError ∧ 0 < o.maxIter) := by
  intro ε Ms
  have hC0 : 0 ≤ C := le_trans (abs_nonneg _) (hC 0 0)
  have hd : 0 < d := NeZero.pos d
  have hd' : (0 : R) < d := Nat.cast_pos.2 hd
  have hε0 : 0 ≤ ε := by
    have := (ho 0 0 (Nat.zero_le _) (Nat.zero_le _)).eps
    positivity
  have hfirst : ¬ (∑ i, a i > 1 + slack ∨ ∑ j, b j > 1 + slack) := by
    rintro (h | h)
    · exact absurd ha1 (not_le.2 h)
    · exact absurd hb1 (not_le.2 h)
  by_cases hz : regM.getD (maxEntry M + 1) < -maxEntry M
  · left
    refine ⟨fun _ _ => 0, ?_, ⟨fun _ _ => le_rfl, fun i => by simpa using ha i, fun j => by simpa using hb j⟩, fun H hH => ?_⟩
    · unfold partialLagrange
      rw [if_neg hfirst]
      dsimp only
      rw [if_pos hz]
      simp [cost]
    · have h0 : cost Ms (fun _ _ => 0) = 0 := by simp [cost]
      have h1 : 0 ≤ cost Ms H := cost_nonneg (fun i j => by
        have h3 := le_maxEntry M i j
        have h4 := hM i j
        simp only [Ms]
        linarith) hH.nonneg
      rw [h0]
      linarith
  · obtain ⟨rows, hrows⟩ : ∃ rows, rows = idxX Ms e := ⟨_, rfl⟩
    obtain ⟨cols, hcols⟩ : ∃ cols, cols = idxY Ms e := ⟨_, rfl⟩
    have hr : rows.Nodup := by rw [hrows]; exact (List.nodup_finRange _).filter _
    have hc : cols.Nodup := by rw [hcols]; exact (List.nodup_finRange _).filter _
    have hrl : rows.length ≤ n1 := by simpa using hr.length_le_card
    have hcl : cols.length ≤ n2 := by simpa using hc.length_le_card
    have i1 : NeZero (rows.length + d) := ⟨by omega⟩
    have i2 : NeZero (cols.length + d) := ⟨by omega⟩
    have hsub_a := sum_get_le hr ha
    have hsub_b := sum_get_le hc hb
    obtain ⟨x, hx⟩ : ∃ x, x = (∑ i, a i - ∑ r, a (rows.get r) + ∑ j, b j) / (d : R) := ⟨_, rfl⟩
    obtain ⟨y, hy⟩ : ∃ y, y = (∑ j, b j - ∑ c, b (cols.get c) + ∑ i, a i) / (d : R) := ⟨_, rfl⟩
    have hx0 : 0 < x := by rw [hx]; exact div_pos (by linarith) hd'
    have hy0 : 0 < y := by rw [hy]; exact div_pos (by linarith) hd'
    have hdx : d * x = ∑ i, a i - ∑ r, a (rows.get r) + ∑ j, b j := by rw [hx, mul_div_cancel₀ _ hd'.ne']
    have hdy : d * y = ∑ j, b j - ∑ c, b (cols.get c) + ∑ i, a i := by rw [hy, mul_div_cancel₀ _ hd'.ne']
    have hsa : ∑ i, extend (fun r => a (rows.get r)) d x i = ∑ i, a i + ∑ j, b j := by rw [extend_sum, hdx]; ring
    have hsb : ∑ i, extend (fun c => b (cols.get c)) d y i = ∑ i, a i + ∑ j, b j := by rw [extend_sum, hdy]; ring
    have hrange : CostRange o.eps C (extend (fun r => a (rows.get r)) d x) (extend (fun c => b (cols.get c)) d y)
        (extendM (fun r c => Ms (rows.get r) (cols.get c)) d 0) := by
      refine ⟨fun i j => ?_, hC0, Or.inr ⟨⟨Fin.natAdd _ (0 : Fin d), Fin.natAdd _ (0 : Fin d), ?_, ?_, ?_⟩, heps⟩⟩
      · refine Fin.addCases (fun i => ?_) (fun i => ?_) i <;> refine Fin.addCases (fun j => ?_) (fun j => ?_) j
        · simp only [extendM, Fin.addCases_left]
          exact hC _ _
        · simpa only [extendM, Fin.addCases_left, Fin.addCases_right, abs_zero] using hC0
        · simpa only [extendM, Fin.addCases_left, Fin.addCases_right, abs_zero] using hC0
        · simpa only [extendM, Fin.addCases_right, abs_zero] using hC0
      · simpa only [extend, Fin.addCases_right] using hx0
      · simpa only [extend, Fin.addCases_right] using hy0
      · simp only [extendM, Fin.addCases_right, le_refl]
    obtain ⟨r, hrun, hst⟩ := emd_run (ho _ _ hrl hcl) hrange (extend_nonneg (fun r => ha _) hx0.le) (extend_nonneg (fun c => hb _) hy0.le)
      (by rw [hsa]; linarith) (by rw [hsa, hsb])
    have hun : partialLagrange o d slack e a b M regM
        = if r.status = .optimal then .done (scatterM rows cols (core r.G)) (sumProd (scatterM rows cols (core r.G)) M) else .valueError := by
      unfold partialLagrange
      rw [if_neg hfirst]
      dsimp only
      rw [if_neg hz]
      subst hrows hcols
      rw [← hx, ← hy, hrun]
    rcases hst with ⟨h1, ⟨⟨hG, hopt⟩, -, -, -⟩⟩ | ⟨h1, h2⟩
    · left
      rw [if_pos h1] at hun
      have hcoreP := core_partial hG
      refine ⟨_, hun, scatterL_partial hr hc ha hb hcoreP, fun H hH => ?_⟩
      have e1 : cost Ms (scatterM rows cols (core r.G)) = cost (fun r c => Ms (rows.get r) (cols.get c)) (core r.G) :=
        scatterL_sum hr hc (core r.G) (fun i j x => x * Ms i j) fun i j => zero_mul _
      obtain ⟨H', hH', hle⟩ := restrict_neg (Ms := Ms) he hH
      subst hrows hcols
      obtain ⟨z, hzdef⟩ : ∃ z, z = (∑ i, a i - ∑ r, a ((idxX Ms e).get r) + ∑ j, b j - ∑ c, b ((idxY Ms e).get c) + mass H') / (d * d : R) := ⟨_, rfl⟩
      have hm0 : 0 ≤ mass H' := sum_nonneg fun i _ => sum_nonneg fun j _ => hH'.nonneg i j
      have hz0 : 0 ≤ z := by
        rw [hzdef]
        exact div_nonneg (by linarith) (by positivity)
      have hdz : d * (d * z) = ∑ i, a i - ∑ r, a ((idxX Ms e).get r) + ∑ j, b j - ∑ c, b ((idxY Ms e).get c) + mass H' := by
        rw [hzdef]
        field_simp
      have hcpl := complete_coupling (x := x) (y := y) hd hH' hz0 (by rw [hdx, hdz]; ring) (by rw [hdy, hdz]; ring)
      have h3 := hopt _ hcpl
      rw [cost_extendM, cost_extendM, core_complete, zero_mul, zero_mul, add_zero, add_zero, hsa] at h3
      rw [e1]
      refine le_trans h3 (add_le_add hle ?_)
      simp only [ε]
      refine mul_le_mul_of_nonneg_right ?_ (by linarith)
      refine mul_le_mul_of_nonneg_left ?_ (ho 0 0 (Nat.zero_le _) (Nat.zero_le _)).eps
      refine mul_le_mul_of_nonneg_left ?_ (by linarith)
      have q1 : ((idxX Ms e).length : R) ≤ n1 := Nat.cast_le.2 hrl
      have q2 : ((idxY Ms e).length : R) ≤ n2 := Nat.cast_le.2 hcl
      push_cast
      linarith
    · right
      rw [if_neg (by rw [h1]; decide)] at hun
      exact ⟨hun, h2⟩

/-- **C45 fails for negative costs**: with `M = -1` and `reg_m = 0` the early return `reg_m < -max(M)` gives the zero plan, although moving everything costs `-1`. -/
theorem C45_negative_costs_refuted (o : EmdOpts ℚ) :
    partialLagrange o 1 0 0 (fun _ : Fin 1 => (1 : ℚ)) (fun _ : Fin 1 => 1) (fun _ _ => -1) (some 0) = .done (fun _ _ => 0) 0 ∧
    IsPartial (fun _ : Fin 1 => (1 : ℚ)) (fun _ : Fin 1 => (1 : ℚ)) (fun _ _ => 1) ∧
    cost (fun _ _ : Fin 1 => (-1 : ℚ) - 0) (fun _ _ => 1) < cost (fun _ _ : Fin 1 => (-1 : ℚ) - 0) (fun _ _ => 0) := by
  have hmax : maxEntry (fun _ _ : Fin 1 => (-1 : ℚ)) = -1 := by
    obtain ⟨i, j, h⟩ := maxEntry_mem (fun _ _ : Fin 1 => (-1 : ℚ))
    exact h
  refine ⟨?_, ⟨fun _ _ => zero_le_one, fun _ => by simp, fun _ => by simp⟩, by simp [cost]⟩
  unfold partialLagrange
  rw [if_neg (by simp)]
  dsimp only
  rw [if_pos (by rw [hmax]; norm_num)]

/-- options used in the examples: exact arithmetic, no iteration limit -/
def exOpts (turns : ℕ) : EmdOpts ℚ := ⟨true, true, 1 / 1000000, 0, 0, 1 / 100000000, 10, 0, turns, fun _ => []⟩

theorem exOpts_ok {n1 n2 turns : ℕ} (h : 2 ^ (n1 * n2 + (n1 + n2)) < turns) : OptsOk (exOpts turns) n1 n2 :=
  ⟨le_rfl, by norm_num [exOpts], by norm_num [exOpts], h⟩

/-- C44 applied: two sources, one target, a third of the mass -/
example : ∃ G, partialWasserstein (exOpts 100000) 1 (![1 / 2, 1 / 2] : Fin 2 → ℚ) (![1] : Fin 1 → ℚ) (![![2], ![1]]) (1 / 3) = .done G (cost ![![2], ![1]] G) ∧
    mass G = 1 / 3 := by
  obtain ⟨G, h1, -, h3, -⟩ := C44_exact (exOpts 100000) 1 one_pos (exOpts_ok (by norm_num)) rfl rfl (![1 / 2, 1 / 2] : Fin 2 → ℚ) (![1] : Fin 1 → ℚ)
    (![![2], ![1]]) (1 / 3) (by intro i; fin_cases i <;> norm_num) (by intro j; fin_cases j; norm_num) (by intro i j; fin_cases i <;> fin_cases j <;> norm_num)
    ⟨0, 0, by norm_num⟩ (by norm_num) (by simp [Fin.sum_univ_two]; norm_num) (by simp; norm_num) (by simp [Fin.sum_univ_two]; norm_num)
  exact ⟨G, h1, h3⟩

/-- the same call computed: the cheap source is used -/
example : (match partialWasserstein (exOpts 50) 1 (![1 / 2, 1 / 2] : Fin 2 → ℚ) (![1] : Fin 1 → ℚ) (![![2], ![1]]) (1 / 3) with
    | .done G c => decide (G 0 0 = 0 ∧ G 1 0 = 1 / 3 ∧ c = 1 / 3)
    | _ => false) = true := by decide +kernel

/-- the Lagrangian form computed with penalty `3/2`: only the cheap source is used -/
example : (match partialLagrange (exOpts 50) 1 0 (1 / 1000) (![1 / 2, 1 / 2] : Fin 2 → ℚ) (![1] : Fin 1 → ℚ) (![![2], ![1]]) (some (3 / 2)) with
    | .done G c => decide (G 0 0 = 0 ∧ G 1 0 = 1 / 2 ∧ c = 1 / 2)
    | _ => false) = true := by decide +kernel

end POT.Props
