import Verif.Lemmas.EmdLazy
import Verif.Props.EmdPy

/-! # C120: `ot.lp.emd2_lazy`, exact transport between point clouds without a cost matrix -/

set_option linter.unusedSectionVars false

namespace POT.Props

open Spec Simplex LpDual EmdPy Finset

variable {n1 n2 d : ℕ}

/-- What a user gets from a call without warning, for weights `a`, `b` of equal mass and costs `D`. -/
structure LazyCertified {R : Type*} [Field R] [LinearOrder R] (τ : R) (a : Fin n1 → R) (b : Fin n2 → R) (D : Fin n1 → Fin n2 → R) (r : LazyOut n1 n2 R) : Prop where
  /-- the listed flows form a coupling that is optimal up to `τ` per unit of mass -/
  optimal : IsEpsOptimal (τ * ∑ i, a i) a b D (cooEntry r.flows)
  /-- it is sparse -/
  few : r.flows.length ≤ n1 + n2 - 1
  /-- the reported cost is the cost of the flows -/
  cost_eq : r.cost = cost D (cooEntry r.flows)
  /-- and the value of the potentials -/
  value_eq : r.cost = dualValue a b r.u r.v
  /-- the potentials satisfy the constraints up to `τ` between points of positive weight -/
  feasible : ∀ i j, 0 < a i → 0 < b j → r.u i + r.v j ≤ D i j + τ

/-- weights as passed: the default is uniform weights -/
def Passed {n : ℕ} (w0 : Option (Fin n → ℝ)) (w : Fin n → ℝ) : Prop := w0 = some w ∨ w0 = none ∧ ∀ i, w i = 1 / n

theorem Passed.getD {n : ℕ} {w0 : Option (Fin n → ℝ)} {w : Fin n → ℝ} (h : Passed w0 w) : (w0.getD fun _ => 1 / n) = w := by
  rcases h with rfl | ⟨rfl, h⟩
  · rfl
  · funext i; exact (h i).symm

theorem posIdx_ne {n : ℕ} {w : Fin n → ℝ} (hw : ∀ i, 0 ≤ w i) (hpos : 0 < ∑ i, w i) : 0 < (posIdx w).length := by
  by_contra hcon
  have h0 : (posIdx w) = [] := List.length_eq_zero_iff.1 (by omega)
  have : ∑ i, w i = 0 := Finset.sum_eq_zero fun i _ => by
    by_contra hne
    have : i ∈ posIdx w := (mem_posIdx w i).2 (lt_of_le_of_ne (hw i) (Ne.symm hne))
    rw [h0] at this; cases this
  linarith

/-- **C120**.  `ot.lp.emd2_lazy(X_a, X_b, a, b, metric, log=True, return_matrix=True)` on nonnegative weights with positive masses and points in the box from `lo` to `hi`.  Let `b'` be `b` scaled to the
mass of `a`, `D` the matrix of costs between the points and `τ = ε·2(C+1)(n1+n2)` where `ε` is the tolerance of the solver and `C` the cost between `lo` and `hi`.
* If the masses differ too much, the call raises, unless the check is switched off.
* A result without warning carries at most `n1 + n2 - 1` flows that form a coupling of `a` and `b'`, optimal up to `τ` per unit of mass; its cost is the cost of the flows and the value of the potentials;
  the potentials are feasible up to `τ` between points of positive weight, and centred if asked for.
* Otherwise the warning is that the iteration limit was reached, the flows are nonnegative and their marginals are at most `a` and `b'`.
* The gradients are the potentials, centred to sum zero.

Missing for the full property: the potentials at points of weight zero (`C120_zero_weight_refuted`), negative weights (`C120_negative_refuted`). -/
theorem C120_lazy_end_to_end_partial (centerDual checkMarginals : Bool) {tol : ℝ} {μ : PointMetric} {a0 : Option (Fin n1 → ℝ)} {b0 : Option (Fin n2 → ℝ)} {a : Fin n1 → ℝ} {b : Fin n2 → ℝ}
    (ha0 : Passed a0 a) (hb0 : Passed b0 b) {xa : Fin n1 → Fin d → ℝ} {xb : Fin n2 → Fin d → ℝ} {lo hi : Fin d → ℝ} (hxa : ∀ i k, lo k ≤ xa i k ∧ xa i k ≤ hi k)
    (hxb : ∀ j k, lo k ≤ xb j k ∧ xb j k ≤ hi k) {junk eps feps : ℝ} (heps : 0 ≤ eps) (heps8 : 8 * eps ≤ 1) (hfeps : 0 ≤ feps)
    (ha : ∀ i, 0 ≤ a i) (hb : ∀ j, 0 ≤ b j) (hpa : 0 < ∑ i, a i) (hpb : 0 < ∑ j, b j) (bs maxIter turns : ℕ) (arcs : ∀ N, List (Fin N))
    (hturns : 2 ^ (n1 * n2 + (n1 + n2)) < turns) :
    (checkMarginals = true ∧ tol ≤ |∑ i, a i - ∑ j, b j| ∧
      emd2Lazy Real.sqrt centerDual checkMarginals tol μ a0 b0 xa xb junk eps feps bs maxIter turns arcs = .assertion) ∨
    ∃ r, emd2Lazy Real.sqrt centerDual checkMarginals tol μ a0 b0 xa xb junk eps feps bs maxIter turns arcs = .done r ∧
      ((r.status = .optimal ∧
          LazyCertified (eps * (2 * (pointCost μ lo hi + 1) * (n1 + n2))) a (rescale a b) (fun i j => pointCost μ (xa i) (xb j)) r ∧
          (centerDual = true → ∑ i, a i * r.u i = ∑ j, rescale a b j * r.v j)) ∨
        r.status = .maxIter ∧ 0 < maxIter ∧ r.flows.length ≤ n1 + n2 - 1 ∧ IsPartial a (rescale a b) (cooEntry r.flows) ∧
          r.cost = cost (fun i j => pointCost μ (xa i) (xb j)) (cooEntry r.flows)) ∧
      (∑ i, r.gradA i = 0 ∧ ∀ i i', r.gradA i - r.gradA i' = r.u i - r.u i') ∧ (∑ j, r.gradB j = 0 ∧ ∀ j j', r.gradB j - r.gradB j' = r.v j - r.v j') := by
  unfold emd2Lazy
  rw [ha0.getD, hb0.getD]
  dsimp only
  by_cases hc : checkMarginals = true ∧ ¬ |∑ i, a i - ∑ j, b j| < tol
  · left
    exact ⟨hc.1, not_lt.1 hc.2, if_pos hc⟩
  right
  rw [if_neg hc]
  have hsum : ∑ i, a i = ∑ j, rescale a b j := rescale_sum hpb.ne'
  have hb' : ∀ j, 0 ≤ rescale a b j := rescale_nonneg ha hb
  generalize rescale a b = b' at *
  have hden : ∑ i, a i + ∑ j, b' j ≠ 0 := by rw [← hsum]; linarith
  have hn := posIdx_ne ha hpa
  have hm := posIdx_ne hb' (hsum ▸ hpa)
  haveI : NeZero ((posIdx a).length + (posIdx b').length) := ⟨by omega⟩
  have hn1 : (n1 : ℝ) ≠ 0 := by
    have := posIdx_length_le a
    exact_mod_cast (show n1 ≠ 0 by omega)
  have hn2 : (n2 : ℝ) ≠ 0 := by
    have := posIdx_length_le b'
    exact_mod_cast (show n2 ≠ 0 by omega)
  obtain ⟨h1, h2⟩ := lazy_spec Real.sqrt μ a b' xa xb hn hm junk eps feps heps hfeps bs maxIter turns arcs
  obtain ⟨o, ho⟩ := Option.isSome_iff_exists.1 (h2 hturns)
  have hpost := h1 o ho
  rw [ho]
  dsimp only
  obtain ⟨uv, huv⟩ : ∃ uv : (Fin n1 → ℝ) × (Fin n2 → ℝ), uv = if centerDual then centerOtDual o.alpha o.beta a b' else (o.alpha, o.beta) := ⟨_, rfl⟩
  rw [← huv]
  have e1 : (∀ i j, uv.1 i + uv.2 j = o.alpha i + o.beta j) ∧ dualValue a b' uv.1 uv.2 = dualValue a b' o.alpha o.beta ∧
      (centerDual = true → ∑ i, a i * uv.1 i = ∑ j, b' j * uv.2 j) := by
    rw [huv]
    split_ifs with hcd
    · exact ⟨fun i j => C16_center_sums _ _ _ _ i j, C16_center_value _ _ _ _ hsum, fun _ => C16_center_balanced _ _ _ _ hden⟩
    · exact ⟨fun i j => rfl, rfl, fun h => absurd h hcd⟩
  have hD : lazyD Real.sqrt μ xa xb = fun i j => pointCost μ (xa i) (xb j) := by
    funext i j; exact lazyCost_eq μ _ _
  obtain ⟨u1, u2, u3⟩ := lazyUpper_spec μ hn (fun i => xa ((posIdx a).get i)) fun j => xb ((posIdx b').get j)
  have hub : ∀ i j, suppCost a b' (lazyD Real.sqrt μ xa xb) i j ≤ lazyUb Real.sqrt μ a b' xa xb hn := by
    intro i j
    rw [hD]; exact u1 i j
  have hubC : lazyUb Real.sqrt μ a b' xa xb hn ≤ pointCost μ lo hi := u3 lo hi (fun i => hxa _) fun j => hxb _
  have hD0 : ∀ i j, 0 ≤ lazyD Real.sqrt μ xa xb i j := fun i j => by rw [hD]; exact pointCost_nonneg _ _ _
  refine ⟨_, rfl, ?_, ⟨?_, fun i i' => by dsimp only; ring⟩, ?_, fun i i' => by dsimp only; ring⟩
  · have hz : ∀ s, OptimalFrom (bipNet false (supp a) (supp b') (suppCost a b' (lazyD Real.sqrt μ xa xb)) (lazyArt Real.sqrt μ a b' xa xb hn)) eps junk s → ∀ u, s.flow (.inr u) ≤ 0 := by
      intro s hs u
      obtain ⟨τ, _, _, hτ, hart⟩ := lazy_dear a b' (lazyD Real.sqrt μ xa xb) heps heps8 false hn hm hD0 hub hubC hs
      have := art_le hs.good hτ (bip_complete _ _ _ _ (supp_pos a) (supp_pos b')) hart u
      rw [bip_supply_sum, supp_sum a ha, supp_sum b' hb', hsum, sub_self, abs_zero] at this
      exact this
    unfold LazyPost at hpost
    dsimp only
    cases hst : o.status with
    | infeasible =>
      rw [hst] at hpost
      dsimp only at hpost
      rw [supp_sum a ha, supp_sum b' hb', hsum, sub_self, abs_zero] at hpost
      rcases hpost with hp | ⟨s, hs, u, hu⟩
      · exact absurd hp (not_lt.2 hfeps)
      · have := hz s hs u
        linarith
    | unbounded => rw [hst] at hpost; exact hpost.elim
    | maxIter =>
      rw [hst] at hpost
      dsimp only at hpost
      obtain ⟨p1, _, p3, s, hw⟩ := hpost
      refine Or.inr ⟨rfl, p1, p3, hw.partial ha hb', ?_⟩
      have := hw.cost_eq
      rw [hD] at this
      exact this
    | optimal =>
      rw [hst] at hpost
      dsimp only at hpost
      obtain ⟨_, p3, s, hs, _, hw⟩ := hpost
      obtain ⟨τ, _, hτle, hτ, _⟩ := lazy_dear a b' (lazyD Real.sqrt μ xa xb) heps heps8 false hn hm hD0 hub hubC hs
      have hcoup : IsCoupling a b' (cooEntry o.flows) := by
        refine ⟨hw.nonneg, fun i => ?_, fun j => ?_⟩
        · have := hw.row_bound ha le_rfl (hz s hs) i
          simp only [SparseResult.dense] at this
          linarith [this.1, this.2]
        · have := hw.col_bound hb' le_rfl (hz s hs) j
          simp only [SparseResult.dense] at this
          linarith [this.1, this.2]
      have hce : o.cost = cost (lazyD Real.sqrt μ xa xb) (cooEntry o.flows) := hw.cost_eq
      have hva : dualValue a b' o.alpha o.beta = cost (lazyD Real.sqrt μ xa xb) (cooEntry o.flows) := hw.value hcoup
      rw [← hD]
      refine Or.inl ⟨rfl, ⟨⟨hcoup, fun G' hG' => ?_⟩, p3, hce, ?_, fun i j hi hj => ?_⟩, e1.2.2⟩
      · have q1 := (hw.opt hcoup hτ).2 G' hG'
        have q2 := mul_le_mul_of_nonneg_right hτle hpa.le
        simp only [SparseResult.dense] at q1
        dsimp only
        linarith
      · dsimp only
        rw [e1.2.1, hce, hva]
      · dsimp only
        rw [e1.1]
        have := hw.dual hτ i j hi hj
        simp only [SparseResult.dense] at this
        linarith
  · dsimp only
    rw [sum_sub_distrib, sum_const, card_univ, Fintype.card_fin, nsmul_eq_mul, mul_div_cancel₀ _ hn1, sub_self]
  · dsimp only
    rw [sum_sub_distrib, sum_const, card_univ, Fintype.card_fin, nsmul_eq_mul, mul_div_cancel₀ _ hn2, sub_self]

theorem exists_box [NeZero n1] [NeZero n2] (xa : Fin n1 → Fin d → ℝ) (xb : Fin n2 → Fin d → ℝ) :
    ∃ lo hi : Fin d → ℝ, (∀ i k, lo k ≤ xa i k ∧ xa i k ≤ hi k) ∧ ∀ j k, lo k ≤ xb j k ∧ xb j k ≤ hi k := by
  refine ⟨fun k => -(∑ i, |xa i k| + ∑ j, |xb j k|), fun k => ∑ i, |xa i k| + ∑ j, |xb j k|, fun i k => ?_, fun j k => ?_⟩
  · have h1 := single_le_sum (f := fun i => |xa i k|) (fun i _ => abs_nonneg _) (mem_univ i)
    have h2 : 0 ≤ ∑ j, |xb j k| := sum_nonneg fun j _ => abs_nonneg _
    dsimp only at h1 ⊢
    constructor <;> linarith [neg_abs_le (xa i k), le_abs_self (xa i k)]
  · have h1 := single_le_sum (f := fun j => |xb j k|) (fun i _ => abs_nonneg _) (mem_univ j)
    have h2 : 0 ≤ ∑ i, |xa i k| := sum_nonneg fun j _ => abs_nonneg _
    dsimp only at h1 ⊢
    constructor <;> linarith [neg_abs_le (xb j k), le_abs_self (xb j k)]

/-- **C120**, exact arithmetic (`ε = 0`), equal masses, no iteration limit.  The call returns an optimal plan with at most `n1 + n2 - 1` entries, and the same value as `emd2` on the matrix of costs
between the points, whatever the initial pivots and block sizes of the two calls. -/
theorem C120_lazy_exact [NeZero n1] [NeZero n2] (centerDual checkMarginals : Bool) {tol : ℝ} (htol : 0 < tol) {μ : PointMetric} {a : Fin n1 → ℝ} {b : Fin n2 → ℝ} {xa : Fin n1 → Fin d → ℝ}
    {xb : Fin n2 → Fin d → ℝ} {junk feps : ℝ} (hfeps : 0 ≤ feps) (ha : ∀ i, 0 ≤ a i) (hb : ∀ j, 0 ≤ b j) (hpa : 0 < ∑ i, a i) (hsum : ∑ i, a i = ∑ j, b j) (bs turns : ℕ)
    (arcs : ∀ N, List (Fin N)) (hturns : 2 ^ (n1 * n2 + (n1 + n2)) < turns) :
    ∃ r, emd2Lazy Real.sqrt centerDual checkMarginals tol μ (some a) (some b) xa xb junk 0 feps bs 0 turns arcs = .done r ∧ r.status = .optimal ∧
      IsOptimal a b (fun i j => pointCost μ (xa i) (xb j)) (cooEntry r.flows) ∧ r.flows.length ≤ n1 + n2 - 1 ∧
      r.cost = cost (fun i j => pointCost μ (xa i) (xb j)) (cooEntry r.flows) ∧ r.cost = dualValue a b r.u r.v ∧
      (∀ i j, 0 < a i → 0 < b j → r.u i + r.v j ≤ pointCost μ (xa i) (xb j)) ∧
      ∀ centerDual' junk' bs' arcs' e, emd centerDual' true tol a b (fun i j => pointCost μ (xa i) (xb j)) junk' 0 feps bs' 0 turns arcs' = .done e → r.cost = e.cost := by
  have hpb : 0 < ∑ j, b j := hsum ▸ hpa
  obtain ⟨lo, hi, hxa, hxb⟩ := exists_box xa xb
  rcases C120_lazy_end_to_end_partial centerDual checkMarginals (tol := tol) (μ := μ) (a0 := some a) (b0 := some b) (Or.inl rfl) (Or.inl rfl) hxa hxb (junk := junk) le_rfl
      (by rw [mul_zero]; exact zero_le_one) hfeps ha hb hpa hpb bs 0 turns arcs hturns with ⟨_, h2, _⟩ | ⟨r, hr, ⟨h1, hc, _⟩ | ⟨_, h2, _⟩, _⟩
  · rw [hsum, sub_self, abs_zero] at h2
    exact absurd h2 (not_le.2 htol)
  · rw [rescale_self hpb.ne' hsum] at hc
    obtain ⟨⟨c1, c2⟩, c3, c4, c5, c6⟩ := hc
    simp only [zero_mul, add_zero] at c2 c6
    refine ⟨r, hr, h1, ⟨c1, c2⟩, c3, c4, c5, c6, fun cd' junk' bs' arcs' e he => ?_⟩
    obtain ⟨e', he', _, ⟨o1, o2⟩, o3, _⟩ := C62_emd_exact cd' true htol (junk := junk') hfeps (fun i j => pointCost_nonneg μ (xa i) (xb j)) ha hb hpa hsum bs' turns arcs' hturns
    rw [he'] at he
    injection he with he
    rw [← he, c4, o3]
    exact le_antisymm (c2 _ o1) (o2 _ c1)
  · exact absurd h2 (lt_irrefl _)

/-- **C120**, gradients.  In exact arithmetic with all weights positive, the returned gradients are subgradients of the value in the weights: for all weights `a'`, `b'` of the same mass no coupling costs less
than the linear prediction.  Missing: weights equal to zero (`C120_zero_weight_refuted`). -/
theorem C120_gradient_partial [NeZero n1] [NeZero n2] (centerDual checkMarginals : Bool) {tol : ℝ} (htol : 0 < tol) {μ : PointMetric} {a : Fin n1 → ℝ} {b : Fin n2 → ℝ} {xa : Fin n1 → Fin d → ℝ}
    {xb : Fin n2 → Fin d → ℝ} {junk feps : ℝ} (hfeps : 0 ≤ feps) (ha : ∀ i, 0 < a i) (hb : ∀ j, 0 < b j) (hsum : ∑ i, a i = ∑ j, b j) (bs turns : ℕ)
    (arcs : ∀ N, List (Fin N)) (hturns : 2 ^ (n1 * n2 + (n1 + n2)) < turns) :
    ∃ r, emd2Lazy Real.sqrt centerDual checkMarginals tol μ (some a) (some b) xa xb junk 0 feps bs 0 turns arcs = .done r ∧
      ∀ a' b' G', ∑ i, a' i = ∑ i, a i → IsCoupling a' b' G' →
        r.cost + ∑ i, r.gradA i * (a' i - a i) + ∑ j, r.gradB j * (b' j - b j) ≤ cost (fun i j => pointCost μ (xa i) (xb j)) G' := by
  have hpa : 0 < ∑ i, a i := sum_pos (fun i _ => ha i) ⟨0, mem_univ _⟩
  have hpb : 0 < ∑ j, b j := hsum ▸ hpa
  obtain ⟨lo, hi, hxa, hxb⟩ := exists_box xa xb
  rcases C120_lazy_end_to_end_partial centerDual checkMarginals (tol := tol) (μ := μ) (a0 := some a) (b0 := some b) (Or.inl rfl) (Or.inl rfl) hxa hxb (junk := junk) le_rfl
      (by rw [mul_zero]; exact zero_le_one) hfeps (fun i => (ha i).le) (fun j => (hb j).le) hpa hpb bs 0 turns arcs hturns with ⟨_, h2, _⟩ | ⟨r, hr, ⟨h1, hc, _⟩ | ⟨_, h2, _⟩, ⟨_, g1⟩, _, g2⟩
  · rw [hsum, sub_self, abs_zero] at h2
    exact absurd h2 (not_le.2 htol)
  · rw [rescale_self hpb.ne' hsum] at hc
    refine ⟨r, hr, fun a' b' G' hm hG' => ?_⟩
    have hm' : ∑ j, b' j = ∑ j, b j := by
      rw [← hsum, ← hm, ← sum_congr rfl fun i _ => hG'.row i, ← sum_congr rfl fun j _ => hG'.col j, sum_comm]
    have hwd : dualValue a' b' r.u r.v ≤ cost (fun i j => pointCost μ (xa i) (xb j)) G' := by
      refine weak_duality hG' fun i j => ?_
      have := hc.feasible i j (ha i) (hb j)
      rwa [zero_mul, add_zero] at this
    have key : ∀ {n : ℕ} [NeZero n] (g u w w' : Fin n → ℝ), (∀ i i', g i - g i' = u i - u i') → ∑ i, w' i = ∑ i, w i → ∑ i, g i * (w' i - w i) = ∑ i, u i * (w' i - w i) := by
      intro n _ g u w w' hg hw
      have : ∀ i, g i = u i + (g 0 - u 0) := fun i => by linarith [hg i 0]
      rw [sum_congr rfl fun i _ => by rw [this i, add_mul], sum_add_distrib, ← mul_sum, sum_sub_distrib (f := w'), hw, sub_self, mul_zero, add_zero]
    rw [key r.gradA r.u a a' g1 hm, key r.gradB r.v b b' g2 hm', hc.value_eq]
    unfold dualValue at hwd ⊢
    simp only [mul_sub, sum_sub_distrib]
    linarith
  · exact absurd h2 (lt_irrefl _)

/-- one source point at `0`, target points at `10` and `0` with weights `1` and `0` -/
def zwX : Fin 1 → Fin 1 → ℚ := fun _ _ => 0
/-- see `zwX` -/
def zwY : Fin 2 → Fin 1 → ℚ := ![fun _ => 10, fun _ => 0]

/-- **C120** is false at points of weight zero: `emd2_lazy` does not repair their potentials, unlike `emd2`.  One source point at `0`, target points at `10` and `0` of weights `1` and `0`, squared Euclidean
cost, exact arithmetic.  The potentials of the two points at `0` add up to more than their cost `0`, and the gradient predicts a cost of at least `100` when all mass is moved to the second target point, where
the cost is `0`. -/
theorem C120_zero_weight_refuted : ∃ r, emd2Lazy id true true (1/1000000 : ℚ) .sqeuclidean (some fun _ => 1) (some ![1, 0]) zwX zwY 0 0 (1/100000000) 10 0 50 (fun _ => []) = .done r ∧
    r.status = .optimal ∧ r.cost = 100 ∧ ¬ r.u 0 + r.v 1 ≤ (zwX 0 0 - zwY 1 0) ^ 2 ∧
    100 ≤ r.cost + ∑ j, r.gradB j * ((![0, 1] : Fin 2 → ℚ) j - (![1, 0] : Fin 2 → ℚ) j) ∧
    IsCoupling (fun _ : Fin 1 => (1 : ℚ)) (![0, 1] : Fin 2 → ℚ) (fun _ => ![0, 1]) ∧ cost (fun i j => (zwX i 0 - zwY j 0) ^ 2) (fun _ : Fin 1 => (![0, 1] : Fin 2 → ℚ)) = 0 := by
  have h : (match emd2Lazy id true true (1/1000000 : ℚ) .sqeuclidean (some fun _ => 1) (some ![1, 0]) zwX zwY 0 0 (1/100000000) 10 0 50 (fun _ => []) with
    | .done r => decide (r.status = .optimal ∧ r.cost = 100 ∧ ¬ r.u 0 + r.v 1 ≤ (zwX 0 0 - zwY 1 0) ^ 2 ∧
        100 ≤ r.cost + ∑ j, r.gradB j * ((![0, 1] : Fin 2 → ℚ) j - (![1, 0] : Fin 2 → ℚ) j))
    | _ => false) = true := by decide +kernel
  cases he : emd2Lazy id true true (1/1000000 : ℚ) .sqeuclidean (some fun _ => 1) (some ![1, 0]) zwX zwY 0 0 (1/100000000) 10 0 50 (fun _ => []) with
  | assertion => rw [he] at h; cases h
  | gaveUp => rw [he] at h; cases h
  | done r =>
    rw [he] at h
    have h' := of_decide_eq_true h
    refine ⟨r, rfl, h'.1, h'.2.1, h'.2.2.1, h'.2.2.2, ⟨?_, ?_, ?_⟩, ?_⟩
    · decide +kernel
    · decide +kernel
    · decide +kernel
    · simp [cost, zwX, zwY]

/-- **C120**: negative weights.  `emd2_lazy` drops points of negative weight and reports an optimal result for the others; `emd` reports that the problem is infeasible. -/
theorem C120_negative_refuted : (∃ r, emd2Lazy id true true (1/1000000 : ℚ) .sqeuclidean (some (![2, -1] : Fin 2 → ℚ)) (some (![2, -1] : Fin 2 → ℚ)) (fun i (_ : Fin 1) => (i : ℚ)) (fun i _ => (i : ℚ))
      0 0 (1/100000000) 10 0 50 (fun _ => []) = .done r ∧ r.status = .optimal ∧ ¬ IsCoupling (![2, -1] : Fin 2 → ℚ) ![2, -1] (cooEntry r.flows)) ∧
    ∃ r, emd true true (1/1000000 : ℚ) (![2, -1] : Fin 2 → ℚ) (![2, -1] : Fin 2 → ℚ) (fun i j => ((i : ℚ) - (j : ℚ)) ^ 2) 0 0 (1/100000000) 10 0 50 (fun _ => []) = .done r ∧ r.status = .infeasible := by
  have h1 : (match emd2Lazy id true true (1/1000000 : ℚ) .sqeuclidean (some (![2, -1] : Fin 2 → ℚ)) (some (![2, -1] : Fin 2 → ℚ)) (fun i (_ : Fin 1) => (i : ℚ)) (fun i _ => (i : ℚ))
      0 0 (1/100000000) 10 0 50 (fun _ => []) with
    | .done r => decide (r.status = .optimal)
    | _ => false) = true := by decide +kernel
  have h2 : (match emd true true (1/1000000 : ℚ) (![2, -1] : Fin 2 → ℚ) (![2, -1] : Fin 2 → ℚ) (fun i j => ((i : ℚ) - (j : ℚ)) ^ 2) 0 0 (1/100000000) 10 0 50 (fun _ => []) with
    | .done r => decide (r.status = .infeasible)
    | _ => false) = true := by decide +kernel
  constructor
  · cases he : emd2Lazy id true true (1/1000000 : ℚ) .sqeuclidean (some (![2, -1] : Fin 2 → ℚ)) (some (![2, -1] : Fin 2 → ℚ)) (fun i (_ : Fin 1) => (i : ℚ)) (fun i _ => (i : ℚ))
      0 0 (1/100000000) 10 0 50 (fun _ => []) with
    | assertion => rw [he] at h1; cases h1
    | gaveUp => rw [he] at h1; cases h1
    | done r =>
      rw [he] at h1
      refine ⟨r, rfl, of_decide_eq_true h1, fun hc => ?_⟩
      have h3 := hc.row 1
      have h4 : 0 ≤ ∑ j, cooEntry r.flows 1 j := sum_nonneg fun j _ => hc.nonneg 1 j
      rw [h3] at h4
      norm_num at h4
  · cases he : emd true true (1/1000000 : ℚ) (![2, -1] : Fin 2 → ℚ) (![2, -1] : Fin 2 → ℚ) (fun i j => ((i : ℚ) - (j : ℚ)) ^ 2) 0 0 (1/100000000) 10 0 50 (fun _ => []) with
    | assertion => rw [he] at h2; cases h2
    | gaveUp => rw [he] at h2; cases h2
    | done r =>
      rw [he] at h2
      exact ⟨r, rfl, of_decide_eq_true h2⟩

/-- the hypotheses are met: two points on a line against three, one of weight zero -/
example : (match emd2Lazy id true true (1/1000000 : ℚ) .cityblock (some (![1/2, 1/2] : Fin 2 → ℚ)) (some (![1/4, 0, 3/4] : Fin 3 → ℚ)) (fun i (_ : Fin 1) => (i : ℚ)) (fun i _ => (i : ℚ))
      0 0 (1/100000000) 10 0 50 (fun _ => []) with
    | .done r => decide (r.status = .optimal ∧ r.cost = 1 ∧ r.flows.length = 3 ∧ cooEntry r.flows 0 0 = 1/4 ∧ cooEntry r.flows 0 2 = 1/4 ∧ cooEntry r.flows 1 2 = 1/2)
    | _ => false) = true := by decide +kernel

example : (0 : ℝ) < ∑ i, (![1/2, 1/2] : Fin 2 → ℝ) i ∧ ∑ i, (![1/2, 1/2] : Fin 2 → ℝ) i = ∑ j, (![1/4, 0, 3/4] : Fin 3 → ℝ) j := by
  constructor
  · norm_num [Fin.sum_univ_two]
  · simp [Fin.sum_univ_three]
    norm_num

end POT.Props
