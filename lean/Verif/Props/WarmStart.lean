import Verif.Lemmas.WarmWrap
import Verif.Props.Simplex

/-! # C129: the warm start of `ot.emd` (`potentials_init`)

`emdWrapWarm` is the model of `EMD_wrap` (ot/lp/EMD_wrapper.cpp) called with `alpha_init` and `beta_init`.  The initial potentials only choose the order in which the arcs are
tried for the first spanning tree; the argument `cand` stands for this order and is arbitrary, so the theorems hold for every pair of initial potentials, good or bad. -/

set_option linter.unusedSectionVars false

namespace POT.Props

open Spec Simplex Finset

variable {R : Type*} [Field R] [LinearOrder R] [IsStrictOrderedRing R] {n1 n2 : ℕ}

/-- **C129** (partial).  Given any initial potentials, for equal masses and costs between `0` and `C`:
* with an iteration limit the call returns;
* the status is never INFEASIBLE or UNBOUNDED, and MAX_ITER_REACHED only with an iteration limit;
* with status OPTIMAL the plan is a coupling of `a` and `b` that is optimal up to `ε · 2(C+1)(n1+n2)` per unit of mass, the returned potentials are feasible for the dual
  problem up to the same quantity on the points of positive weight and tight where mass is sent, the cost is that of the plan and equals the dual objective exactly.
In full the property asks that the call returns also without an iteration limit: the start tree is not strongly feasible and the proof against cycling of C09 does not apply.
Negative costs are not covered. -/
theorem C129_warm_start_partial (a : Fin n1 → R) (b : Fin n2 → R) (D : Fin n1 → Fin n2 → R) {junk eps feps C : R} (heps : 0 ≤ eps) (h8 : 8 * eps ≤ 1)
    (hfeps : 0 ≤ feps) (ha : ∀ i, 0 ≤ a i) (hb : ∀ j, 0 ≤ b j) (hsum : ∑ i, a i = ∑ j, b j) (hpos : 0 < ∑ i, a i) (hD : ∀ i j, 0 ≤ D i j ∧ D i j ≤ C)
    (bs maxIter turns : ℕ) (cand : ∀ N, List (Fin N)) :
    (0 < maxIter → maxIter ≤ turns → ∃ res, emdWrapWarm a b D junk eps feps bs maxIter turns cand = some res) ∧
    ∀ res, emdWrapWarm a b D junk eps feps bs maxIter turns cand = some res →
      (res.status = .optimal ∨ res.status = .maxIter ∧ 0 < maxIter) ∧
      (res.status = .optimal →
        IsEpsOptimal (eps * (2 * (C + 1) * (n1 + n2)) * ∑ i, a i) a b D res.G ∧
        (∀ i j, 0 < a i → 0 < b j → res.alpha i + res.beta j ≤ D i j + eps * (2 * (C + 1) * (n1 + n2))) ∧
        (∀ i j, res.G i j ≠ 0 → res.alpha i + res.beta j = D i j) ∧
        res.cost = cost D res.G ∧ res.cost = dualValue a b res.alpha res.beta) := by
  obtain ⟨hres, hret⟩ := warm_wrap_spec a b D (junk := junk) heps h8 hfeps ha hb hsum hpos hD bs maxIter turns cand
  refine ⟨fun h0 h1 => Option.isSome_iff_exists.1 (hret h0 h1), fun res h => ?_⟩
  rcases hres res h with ⟨h1, h2⟩ | ⟨h1, _, mixing, art, τ, s, hs, hz, hτ0, hτle, hτ⟩
  · exact ⟨Or.inr ⟨h1, h2⟩, fun h => by rw [h1] at h; cases h⟩
  · have hz' : ∀ u, s.flow (.inr u) ≤ 0 := fun u => (hz u).le
    have hcoup : IsCoupling a b res.G := by
      refine ⟨hs.nonneg, fun i => ?_, fun j => ?_⟩
      · have := hs.row_bound ha le_rfl hz' i
        linarith [this.1, this.2]
      · have := hs.col_bound hb le_rfl hz' j
        linarith [this.1, this.2]
    refine ⟨Or.inl h1, fun _ => ⟨⟨hcoup, fun G' hG' => ?_⟩, fun i j hi hj => ?_, hs.slack, hs.cost_eq, ?_⟩⟩
    · have h1 := (hs.opt hcoup hτ).2 G' hG'
      have h2 := mul_le_mul_of_nonneg_right hτle hpos.le
      linarith
    · have := hs.dual hτ i j hi hj
      linarith
    · rw [hs.cost_eq, hs.value hcoup]

/-- **C129**, exact arithmetic.  With tolerance `0` a plan returned with status OPTIMAL is an optimal coupling and its cost does not depend on the initial potentials, nor on
whether any are given. -/
theorem C129_value_independent (a : Fin n1 → R) (b : Fin n2 → R) (D : Fin n1 → Fin n2 → R) {junk feps C : R} (hfeps : 0 ≤ feps) (ha : ∀ i, 0 ≤ a i) (hb : ∀ j, 0 ≤ b j)
    (hsum : ∑ i, a i = ∑ j, b j) (hpos : 0 < ∑ i, a i) (hD : ∀ i j, 0 ≤ D i j ∧ D i j ≤ C) {bs bs' bs'' mi mi' mi'' t t' t'' : ℕ}
    {cand cand' arcs : ∀ N, List (Fin N)} {res res' cold : WrapResult n1 n2 R}
    (h : emdWrapWarm a b D junk 0 feps bs mi t cand = some res) (hst : res.status = .optimal)
    (h' : emdWrapWarm a b D junk 0 feps bs' mi' t' cand' = some res') (hst' : res'.status = .optimal)
    (hc : emdWrap a b D junk 0 feps bs'' mi'' t'' arcs = some cold) (hcst : cold.status = .optimal) :
    IsOptimal a b D res.G ∧ res.cost = res'.cost ∧ res.cost = cold.cost := by
  have key : ∀ {G : Fin n1 → Fin n2 → R}, IsEpsOptimal ((0 : R) * (2 * (C + 1) * (n1 + n2)) * ∑ i, a i) a b D G → IsOptimal a b D G := by
    intro G hG
    refine ⟨hG.1, fun G' hG' => ?_⟩
    have := hG.2 G' hG'
    simpa using this
  have w := ((C129_warm_start_partial a b D (junk := junk) le_rfl (by norm_num) hfeps ha hb hsum hpos hD bs mi t cand).2 res h).2 hst
  have w' := ((C129_warm_start_partial a b D (junk := junk) le_rfl (by norm_num) hfeps ha hb hsum hpos hD bs' mi' t' cand').2 res' h').2 hst'
  have hC : CostRange (0 : R) C a b D := by
    have hn1 : ∃ i : Fin n1, True := by
      by_contra hcon
      push Not at hcon
      rw [Finset.sum_eq_zero fun i _ => (hcon i).elim] at hpos
      exact lt_irrefl _ hpos
    have hn2 : ∃ j : Fin n2, True := by
      by_contra hcon
      push Not at hcon
      rw [hsum, Finset.sum_eq_zero fun i _ => (hcon i).elim] at hpos
      exact lt_irrefl _ hpos
    obtain ⟨i, _⟩ := hn1
    obtain ⟨j, _⟩ := hn2
    exact ⟨fun i j => by rw [abs_of_nonneg (hD i j).1]; exact (hD i j).2, (hD i j).1.trans (hD i j).2, Or.inl ⟨fun i j => (hD i j).1, by norm_num⟩⟩
  have c := C06_optimal_and_certified (le_refl (0 : R)) hfeps hC hsum hc hcst
  have o := key w.1
  have o' := key w'.1
  have oc := key c.1
  refine ⟨o, ?_, ?_⟩
  · rw [w.2.2.2.1, w'.2.2.2.1]
    exact le_antisymm (o.2 _ o'.1) (o'.2 _ o.1)
  · rw [w.2.2.2.1, c.2.2.2.1]
    exact le_antisymm (o.2 _ oc.1) (oc.2 _ o.1)

/-! ### Concrete problems -/

/-- two sources, two targets -/
def wsA : Fin 2 → ℚ := ![1, 3]
def wsB : Fin 2 → ℚ := ![2, 2]
def wsD : Fin 2 → Fin 2 → ℚ := ![![0, 1], ![4, 1]]

/-- the arcs numbered in `l` are tried first -/
def wsCand (l : List ℕ) : ∀ N, List (Fin N) := fun N => (List.finRange N).filter fun i => i.val ∈ l

/-- the hypotheses of the theorems hold -/
example : (∀ i, 0 ≤ wsA i) ∧ (∀ j, 0 ≤ wsB j) ∧ ∑ i, wsA i = ∑ j, wsB j ∧ 0 < ∑ i, wsA i ∧ ∀ i j, 0 ≤ wsD i j ∧ wsD i j ≤ 4 := by decide +kernel

/-- no iteration limit, from a tree from which a node has to be cut off, and from one from which none has to be -/
example : (emdWrapWarm wsA wsB wsD 0 0 0 1 0 10 (wsCand [2, 3])).map (fun r => (decide (r.status = .optimal), r.cost, r.G 1 0)) = some (true, 6, 1) := by decide +kernel
example : (emdWrapWarm wsA wsB wsD 0 0 0 1 0 10 (wsCand [0, 1, 3])).map (fun r => (decide (r.status = .optimal), r.cost, r.G 1 0)) = some (true, 6, 1) := by decide +kernel
example : 0 < (pushUp (bipNet false wsA wsB wsD 20) (bfs (bipNet false wsA wsB wsD 20) (treeArcs (bipNet false wsA wsB wsD 20) (wsCand [2, 3] _)))).ejected := by decide +kernel

/-- zero weights on both sides -/
example : (emdWrapWarm (![1, 0, 3] : Fin 3 → ℚ) ![2, 2, 0] ![![0, 1, 7], ![5, 5, 5], ![4, 1, 0]] 0 0 0 1 0 10 (wsCand [2, 3])).map
    (fun r => (decide (r.status = .optimal), r.cost, r.G 2 0)) = some (true, 6, 1) := by decide +kernel

/-- **C129**, refuted for MAX_ITER_REACHED.  A run from the default start that hits the iteration limit never sends more than `a i` from `i` nor more than `b j` to `j`
(C05_plan_bounded); a warm started run does.  Here source `0` of weight `1` sends `2`, and target `1` of weight `2` receives `3`, at a cost below that of every coupling. -/
theorem C129_max_iter_overfull_refuted :
    ∃ res, emdWrapWarm wsA wsB wsD 0 0 0 1 1 10 (wsCand [2, 3]) = some res ∧ res.status = .maxIter ∧
      wsA 0 < ∑ j, res.G 0 j ∧ wsB 1 < ∑ i, res.G i 1 ∧ ¬ IsPartial wsA wsB res.G ∧ ∀ G, IsCoupling wsA wsB G → res.cost < cost wsD G := by
  have hb : (emdWrapWarm wsA wsB wsD 0 0 0 1 1 10 (wsCand [2, 3])).map (fun r => (decide (r.status = .maxIter), r.cost, r.G 0 0, r.G 0 1, r.G 1 0, r.G 1 1)) =
      some (true, 3, 2, 0, 0, 3) := by decide +kernel
  rw [Option.map_eq_some_iff] at hb
  obtain ⟨res, h, he⟩ := hb
  simp only [Prod.mk.injEq, decide_eq_true_eq] at he
  obtain ⟨h1, h2, g00, g01, g10, g11⟩ := he
  refine ⟨res, h, h1, ?_, ?_, fun hp => ?_, fun G hG => ?_⟩
  · rw [Fin.sum_univ_two, g00, g01]; simp [wsA]
  · rw [Fin.sum_univ_two, g01, g11]; simp [wsB]; norm_num
  · have := hp.row 0
    rw [Fin.sum_univ_two, g00, g01] at this
    simp [wsA] at this
  · obtain ⟨hn, hr, hc⟩ := hG
    have r0 := hr 0
    have r1 := hr 1
    have c0 := hc 0
    have n00 := hn 0 0
    have n01 := hn 0 1
    have n10 := hn 1 0
    simp only [Fin.sum_univ_two, wsA, wsB, Matrix.cons_val_zero, Matrix.cons_val_one] at r0 r1 c0
    rw [h2]
    simp only [cost, Fin.sum_univ_two, wsD, Matrix.cons_val_zero, Matrix.cons_val_one]
    linarith

end POT.Props
