import Verif.Lemmas.EmdSparse
import Verif.Props.EmdPy

/-! # C63: `ot.emd` on a sparse cost matrix

Only the listed edges may carry mass.  The solver finds an optimal edge plan when one exists and reports infeasibility only when none exists. -/

set_option linter.unusedSectionVars false

namespace POT.Simplex

open Spec Finset

variable {R : Type*} [Field R] [LinearOrder R] [IsStrictOrderedRing R] {n1 n2 K : ℕ}

/-- the result was extracted from the solver state `s` -/
structure SparseFrom (a : Fin n1 → R) (b : Fin n2 → R) (src : Fin K → Fin n1) (tgt : Fin K → Fin n2) (c : Fin K → R) (minFlow : R)
    [NeZero ((posIdx a).length + (posIdx b).length)]
    (s : State (Node ((posIdx a).length + (posIdx b).length)) (Arc ((posIdx a).length + (posIdx b).length) (keptEdges a b src tgt).length) R)
    (res : SparseResult n1 n2 R) : Prop where
  good : Good (sparseProblem a b src tgt c) s
  entries : ∀ i j, cooEntry res.flows i j
    = ∑ k, if src k = i ∧ tgt k = j ∧ minFlow < edgeFlow a b src tgt s k then edgeFlow a b src tgt s k else 0
  costEq : res.cost = edgeCost c (edgeFlow a b src tgt s)
  alphaEq : ∀ i, res.alpha ((posIdx a).get i) = alphaOf _ _ (shiftPotentials s.pi) i
  betaEq : ∀ j, res.beta ((posIdx b).get j) = betaOf _ _ (shiftPotentials s.pi) j

def SparsePost (a : Fin n1 → R) (b : Fin n2 → R) (src : Fin K → Fin n1) (tgt : Fin K → Fin n2) (c : Fin K → R) (junk eps feps minFlow : R) (maxIter : ℕ)
    (res : SparseResult n1 n2 R) : Prop :=
  ((∃ i, a i < 0) ∨ (∃ j, b j < 0)) ∧ res.status = .infeasible ∨
  ((∀ i, 0 ≤ a i) ∧ ∀ j, 0 ≤ b j) ∧ (
    (posIdx a).length + (posIdx b).length = 0 ∧ res.status = .infeasible ∨
    ∃ (_ : NeZero ((posIdx a).length + (posIdx b).length)),
      match res.status with
      | .infeasible => feps < |∑ i, a i - ∑ j, b j| ∨
          ∃ s, OptimalFrom (sparseProblem a b src tgt c) eps junk s ∧ ∃ u, feps < s.flow (.inr u)
      | .optimal => |∑ i, a i - ∑ j, b j| ≤ feps ∧
          ∃ s, OptimalFrom (sparseProblem a b src tgt c) eps junk s ∧ (∀ u, s.flow (.inr u) ≤ feps) ∧ SparseFrom a b src tgt c minFlow s res
      | .maxIter => 0 < maxIter ∧ |∑ i, a i - ∑ j, b j| ≤ feps ∧ ∃ s, SparseFrom a b src tgt c minFlow s res
      | .unbounded => False)

theorem sp_supply_sum (a : Fin n1 → R) (b : Fin n2 → R) (src : Fin K → Fin n1) (tgt : Fin K → Fin n2) (c : Fin K → R)
    [NeZero ((posIdx a).length + (posIdx b).length)] (ha : ∀ i, 0 ≤ a i) (hb : ∀ j, 0 ≤ b j) :
    ∑ u, (sparseProblem a b src tgt c).supply u = ∑ i, a i - ∑ j, b j := by
  rw [← Equiv.sum_comp (nodeAt _ _), Fintype.sum_sum_type]
  simp only [sp_supply_inl, sp_supply_inr, Finset.sum_neg_distrib]
  have h1 := supp_sum a ha
  have h2 := supp_sum b hb
  unfold supp at h1 h2
  rw [h1, h2]; ring

theorem sparse_spec (a : Fin n1 → R) (b : Fin n2 → R) (src : Fin K → Fin n1) (tgt : Fin K → Fin n2) (c : Fin K → R) (junk eps feps minFlow : R) (heps : 0 ≤ eps)
    (hfeps : 0 ≤ feps) (hmin : 0 ≤ minFlow) (bs maxIter turns : ℕ) (arcs : ∀ N, List (Fin N)) :
    (∀ res, emdSparse a b src tgt c junk eps feps minFlow bs maxIter turns arcs = some res → SparsePost a b src tgt c junk eps feps minFlow maxIter res) ∧
    (2 ^ (K + (n1 + n2)) < turns → (emdSparse a b src tgt c junk eps feps minFlow bs maxIter turns arcs).isSome) := by
  unfold emdSparse emdWrapSparse
  by_cases hneg : (∃ i, a i < 0) ∨ ∃ j, b j < 0
  · rw [if_pos hneg]
    exact ⟨fun res h => by cases h; exact Or.inl ⟨hneg, rfl⟩, fun _ => rfl⟩
  rw [if_neg hneg]
  push Not at hneg
  dsimp only
  by_cases h0 : (posIdx a).length + (posIdx b).length = 0
  · rw [dif_pos h0]
    exact ⟨fun res h => by cases h; exact Or.inr ⟨hneg, Or.inl ⟨h0, rfl⟩⟩, fun _ => rfl⟩
  rw [dif_neg h0]
  have hne : NeZero ((posIdx a).length + (posIdx b).length) := ⟨h0⟩
  obtain ⟨hspec, hsome⟩ := run_spec (sparseProblem a b src tgt c) junk eps feps heps hfeps bs maxIter turns (arcs _)
  have hsum := sp_supply_sum a b src tgt c hneg.1 hneg.2
  constructor
  · intro res hres
    cases hrun : run (sparseProblem a b src tgt c) junk eps feps bs maxIter turns (arcs _) with
    | none => rw [hrun] at hres; cases hres
    | some sol =>
      rw [hrun] at hres
      dsimp only at hres
      have hpost := hspec sol hrun
      refine Or.inr ⟨hneg, Or.inr ⟨hne, ?_⟩⟩
      obtain ⟨e, he, e1, _, e2⟩ := extractSparse_spec true (posIdx a) (posIdx b) (keptEdges a b src tgt).length
        (fun k => toGraph a (src ((keptEdges a b src tgt).get k)) (kept_src k).1) (fun k => toGraph b (tgt ((keptEdges a b src tgt).get k)) (kept_src k).2)
        (fun k => c ((keptEdges a b src tgt).get k)) (fun k => sol.flow (.inl k)) minFlow K
        (le_trans (List.length_filter_le _ _) (by rw [List.length_finRange]; exact kept_length a b src tgt))
      rw [he] at hres
      dsimp only at hres
      have hext : ∀ s : State _ _ R, Good (sparseProblem a b src tgt c) s → (∀ i, sol.flow (.inl i) = s.flow (.inl i)) → sol.pi = shiftPotentials s.pi →
          SparseFrom a b src tgt c minFlow s ⟨sol.status, e.2, scatter (posIdx a) fun i => -sol.pi (some (nodeId (Fin.castAdd _ i))),
            scatter (posIdx b) fun j => sol.pi (some (nodeId (Fin.natAdd _ j))), e.1⟩ := by
        intro s hg hfl hpi
        refine ⟨hg, fun i j => ?_, ?_, fun i => ?_, fun j => ?_⟩
        · refine (e2 i j).trans ?_
          rw [sum_list_get _ (kept_nodup a b src tgt)]
          · refine sum_congr rfl fun k _ => ?_
            simp only [edgeFlow_get, hfl, toGraph_get]
          · intro k hk
            rw [edgeFlow_notMem hk]
            simp
        · refine e1.trans ?_
          unfold edgeCost
          rw [sum_list_get _ (kept_nodup a b src tgt)]
          · refine sum_congr rfl fun k _ => ?_
            simp only [edgeFlow_get, hfl]
          · intro k hk
            rw [edgeFlow_notMem hk, zero_mul]
        · refine (scatter_get _ (posIdx_nodup a) _ i).trans ?_
          rw [hpi]; rfl
        · refine (scatter_get _ (posIdx_nodup b) _ j).trans ?_
          rw [hpi]; rfl
      unfold RunPost at hpost
      cases hst : sol.status with
      | infeasible =>
        rw [hst] at hpost hres
        rw [if_neg (by decide)] at hres
        cases hres
        dsimp only at hpost ⊢
        rw [hsum] at hpost
        exact hpost
      | unbounded =>
        rw [hst] at hpost
        exact absurd (sp_bipartite a b src tgt c) hpost
      | optimal =>
        rw [hst] at hpost hres
        rw [if_pos (Or.inl rfl)] at hres
        cases hres
        dsimp only at hpost ⊢
        rw [hsum] at hpost
        obtain ⟨h1, s, h2, h3, h4, h5⟩ := hpost
        have := hext s h2.good h4 h5
        rw [hst] at this
        exact ⟨h1, s, h2, h3, this⟩
      | maxIter =>
        rw [hst] at hpost hres
        rw [if_pos (Or.inr rfl)] at hres
        cases hres
        dsimp only at hpost ⊢
        rw [hsum] at hpost
        obtain ⟨h0, h1, s, h2, h4, h5⟩ := hpost
        have := hext s h2 h4 h5
        rw [hst] at this
        exact ⟨h0, h1, s, this⟩
  · intro ht
    have hle : (keptEdges a b src tgt).length + ((posIdx a).length + (posIdx b).length) ≤ K + (n1 + n2) :=
      Nat.add_le_add (kept_length a b src tgt) (Nat.add_le_add (posIdx_length_le a) (posIdx_length_le b))
    have hs := hsome (lt_of_le_of_lt (Nat.pow_le_pow_right (by decide) hle) ht)
    obtain ⟨sol, hsol⟩ := Option.isSome_iff_exists.1 hs
    rw [hsol]
    dsimp only
    split_ifs
    · split <;> rfl
    · rfl

section conseq
variable {a : Fin n1 → R} {b : Fin n2 → R} {src : Fin K → Fin n1} {tgt : Fin K → Fin n2} {c : Fin K → R} {minFlow : R}
  [NeZero ((posIdx a).length + (posIdx b).length)]
  {s : State (Node ((posIdx a).length + (posIdx b).length)) (Arc ((posIdx a).length + (posIdx b).length) (keptEdges a b src tgt).length) R}
  {res : SparseResult n1 n2 R}

theorem SparseFrom.sum (h : SparseFrom a b src tgt c minFlow s res) (k) : ∃ y, res.alpha (src ((keptEdges a b src tgt).get k)) + res.beta (tgt ((keptEdges a b src tgt).get k)) = y
    ∧ y = alphaOf _ _ s.pi (toGraph a (src ((keptEdges a b src tgt).get k)) (kept_src k).1)
      + betaOf _ _ s.pi (toGraph b (tgt ((keptEdges a b src tgt).get k)) (kept_src k).2) := by
  refine ⟨_, rfl, ?_⟩
  obtain ⟨d, h1, h2⟩ := shift_spec (n := (posIdx a).length) (m := (posIdx b).length) s.pi
  have e1 := h.alphaEq (toGraph a (src ((keptEdges a b src tgt).get k)) (kept_src k).1)
  have e2 := h.betaEq (toGraph b (tgt ((keptEdges a b src tgt).get k)) (kept_src k).2)
  rw [toGraph_get, h1] at e1
  rw [toGraph_get, h2] at e2
  rw [e1, e2]; ring

theorem SparseFrom.dual (h : SparseFrom a b src tgt c minFlow s res) {τ : R} (ho : TolOpt (sparseProblem a b src tgt c) τ s) (k : Fin K) (h1 : 0 < a (src k))
    (h2 : 0 < b (tgt k)) : res.alpha (src k) + res.beta (tgt k) ≤ c k + τ := by
  obtain ⟨e, rfl⟩ := List.mem_iff_get.1 (mem_kept.2 ⟨h1, h2⟩)
  obtain ⟨y, hy1, hy2⟩ := h.sum e
  rw [hy1, hy2]; exact sp_dual ho e

theorem SparseFrom.slack (h : SparseFrom a b src tgt c minFlow s res) (k : Fin K) (hne : edgeFlow a b src tgt s k ≠ 0) : res.alpha (src k) + res.beta (tgt k) = c k := by
  have hk : k ∈ keptEdges a b src tgt := by
    by_contra hk; exact hne (edgeFlow_notMem hk)
  obtain ⟨e, rfl⟩ := List.mem_iff_get.1 hk
  obtain ⟨y, hy1, hy2⟩ := h.sum e
  rw [edgeFlow_get] at hne
  rw [hy1, hy2]; exact sp_slack h.good e hne

end conseq

end POT.Simplex

namespace POT.Props

open Spec Simplex LpDual EmdPy Finset

variable {R : Type*} [Field R] [LinearOrder R] [IsStrictOrderedRing R] {n1 n2 K : ℕ}

theorem edge_dual_sum {src : Fin K → Fin n1} {tgt : Fin K → Fin n2} {a : Fin n1 → R} {b : Fin n2 → R} {F : Fin K → R} (hF : IsEdgePlan src tgt a b F)
    (u : Fin n1 → R) (v : Fin n2 → R) : dualValue a b u v = ∑ k, (u (src k) + v (tgt k)) * F k := by
  unfold dualValue
  have h1 : ∑ i, u i * a i = ∑ k, u (src k) * F k := by
    rw [sum_congr rfl fun i _ => by rw [← hF.row i, mul_sum]]
    rw [sum_comm]
    refine sum_congr rfl fun k _ => ?_
    rw [sum_eq_single (src k)]
    · rw [if_pos rfl]
    · intro i _ hi; rw [if_neg (Ne.symm hi), mul_zero]
    · intro h; exact absurd (mem_univ _) h
  have h2 : ∑ j, v j * b j = ∑ k, v (tgt k) * F k := by
    rw [sum_congr rfl fun j _ => by rw [← hF.col j, mul_sum]]
    rw [sum_comm]
    refine sum_congr rfl fun k _ => ?_
    rw [sum_eq_single (tgt k)]
    · rw [if_pos rfl]
    · intro j _ hj; rw [if_neg (Ne.symm hj), mul_zero]
    · intro h; exact absurd (mem_univ _) h
  rw [h1, h2, ← sum_add_distrib]
  exact sum_congr rfl fun k _ => by ring

theorem edge_mass {src : Fin K → Fin n1} {tgt : Fin K → Fin n2} {a : Fin n1 → R} {b : Fin n2 → R} {F : Fin K → R} (hF : IsEdgePlan src tgt a b F) :
    ∑ i, a i = ∑ k, F k := by
  rw [sum_congr rfl fun i _ => (hF.row i).symm, sum_comm]
  refine sum_congr rfl fun k _ => ?_
  rw [sum_ite_eq, if_pos (mem_univ _)]

theorem edge_mass' {src : Fin K → Fin n1} {tgt : Fin K → Fin n2} {a : Fin n1 → R} {b : Fin n2 → R} {F : Fin K → R} (hF : IsEdgePlan src tgt a b F) :
    ∑ j, b j = ∑ k, F k := by
  rw [sum_congr rfl fun j _ => (hF.col j).symm, sum_comm]
  refine sum_congr rfl fun k _ => ?_
  rw [sum_ite_eq, if_pos (mem_univ _)]

/-- What a user gets from a successful call: the returned sparse matrix lists an edge plan `F` (flows up to `minFlow` are not listed) that is optimal up to `τ` per unit of mass among all edge plans;
potentials are feasible on the edges up to `τ`; the cost is the cost of `F` and the value of the potentials. -/
structure SparseCertified (τ minFlow : R) (src : Fin K → Fin n1) (tgt : Fin K → Fin n2) (a : Fin n1 → R) (b : Fin n2 → R) (c : Fin K → R) (F : Fin K → R)
    (r : SparseResult n1 n2 R) : Prop where
  plan : IsEdgePlan src tgt a b F
  optimal : ∀ F', IsEdgePlan src tgt a b F' → edgeCost c F ≤ edgeCost c F' + τ * ∑ i, a i
  entries : ∀ i j, cooEntry r.flows i j = ∑ k, if src k = i ∧ tgt k = j ∧ minFlow < F k then F k else 0
  cost_eq : r.cost = edgeCost c F
  feasible : ∀ k, 0 < a (src k) → 0 < b (tgt k) → r.alpha (src k) + r.beta (tgt k) ≤ c k + τ
  value_eq : r.cost = dualValue a b r.alpha r.beta

/-- the result of the compiled solver -/
theorem sparse_result {a : Fin n1 → R} {b : Fin n2 → R} {src : Fin K → Fin n1} {tgt : Fin K → Fin n2} {c : Fin K → R} {junk eps feps minFlow C : R}
    (heps : 0 ≤ eps) (hfeps : 0 ≤ feps) (hmin : 0 ≤ minFlow) (hC0 : 0 ≤ C) (hc : ∀ k, 0 ≤ c k ∧ c k ≤ C) (hsmall : eps * (2 * (C + 1) * (n1 + n2)) < 1)
    {bs maxIter turns : ℕ} {arcs : ∀ N, List (Fin N)} {r : SparseResult n1 n2 R}
    (hr : emdSparse a b src tgt c junk eps feps minFlow bs maxIter turns arcs = some r) :
    -- a plan that misses the marginals by at most `feps` comes with the status OPTIMAL
    (r.status = .optimal → ∃ F : Fin K → R, (∀ k, 0 ≤ F k) ∧
      (∀ i, (∑ k, if src k = i then F k else 0) ≤ a i ∧ a i - feps ≤ ∑ k, if src k = i then F k else 0) ∧
      (∀ j, (∑ k, if tgt k = j then F k else 0) ≤ b j ∧ b j - feps ≤ ∑ k, if tgt k = j then F k else 0) ∧
      (∀ i j, cooEntry r.flows i j = ∑ k, if src k = i ∧ tgt k = j ∧ minFlow < F k then F k else 0) ∧ r.cost = edgeCost c F ∧
      ((∃ F, IsEdgePlan src tgt a b F) → SparseCertified (eps * (2 * (C + 1) * (n1 + n2))) minFlow src tgt a b c F r)) ∧
    -- a feasible problem is solved
    ((∃ F, IsEdgePlan src tgt a b F) → 0 < ∑ i, a i → r.status = .optimal ∨ r.status = .maxIter ∧ 0 < maxIter) ∧ r.status ≠ .unbounded := by
  have hpost := (sparse_spec a b src tgt c junk eps feps minFlow heps hfeps hmin bs maxIter turns arcs).1 r hr
  have hdegen : (∃ F, IsEdgePlan src tgt a b F) → 0 < ∑ i, a i → ∃ i, 0 < a i := by
    intro _ hpos
    by_contra hno
    push Not at hno
    exact absurd hpos (not_lt.2 (sum_nonpos fun i _ => hno i))
  rcases hpost with ⟨hneg, hst⟩ | ⟨⟨ha, hb⟩, hrest⟩
  · rw [hst]
    refine ⟨(fun h => by cases h), ?_, by decide⟩
    rintro ⟨F, hF⟩ _
    exfalso
    rcases hneg with ⟨i, hi⟩ | ⟨j, hj⟩
    · rw [← hF.row i] at hi
      exact absurd hi (not_lt.2 (sum_nonneg fun k _ => by split_ifs; exacts [hF.nonneg k, le_refl _]))
    · rw [← hF.col j] at hj
      exact absurd hj (not_lt.2 (sum_nonneg fun k _ => by split_ifs; exacts [hF.nonneg k, le_refl _]))
  rcases hrest with ⟨h0, hst⟩ | ⟨hne, hrest⟩
  · rw [hst]
    refine ⟨(fun h => by cases h), fun hF hpos => ?_, by decide⟩
    obtain ⟨i, hi⟩ := hdegen hF hpos
    have : i ∈ posIdx a := (mem_posIdx a i).2 hi
    rw [List.length_eq_zero_iff.1 (Nat.add_eq_zero_iff.1 h0).1] at this
    cases this
  cases hst : r.status with
  | infeasible =>
    rw [hst] at hrest
    dsimp only at hrest
    refine ⟨(fun h => by cases h), ?_, by decide⟩
    rintro ⟨F, hF⟩ _
    exfalso
    rcases hrest with h | ⟨s, ho, u, hu⟩
    · rw [edge_mass hF, edge_mass' hF, sub_self, abs_zero] at h
      exact absurd h (not_lt.2 hfeps)
    · rw [(sp_dear heps hC0 hc hsmall ho).2 ⟨F, hF⟩ u] at hu
      exact absurd hu (not_lt.2 hfeps)
  | unbounded => rw [hst] at hrest; exact hrest.elim
  | maxIter =>
    rw [hst] at hrest
    exact ⟨(fun h => by cases h), fun _ _ => Or.inr ⟨rfl, hrest.1⟩, by decide⟩
  | optimal =>
    rw [hst] at hrest
    dsimp only at hrest
    obtain ⟨_, s, ho, hart, hfrom⟩ := hrest
    refine ⟨fun _ => ?_, fun _ _ => Or.inl rfl, by decide⟩
    have hg := hfrom.good
    refine ⟨edgeFlow a b src tgt s, edgeFlow_nonneg hg, edgeFlow_row_bound hg ha hfeps hart, edgeFlow_col_bound hg hb hfeps hart, hfrom.entries, hfrom.costEq, fun hex => ?_⟩
    obtain ⟨htol, hz⟩ := sp_dear heps hC0 hc hsmall ho
    have hplan : IsEdgePlan src tgt a b (edgeFlow a b src tgt s) := by
      refine ⟨edgeFlow_nonneg hg, fun i => ?_, fun j => ?_⟩
      · obtain ⟨h1, h2⟩ := edgeFlow_row_bound hg ha (le_refl 0) (fun u => (hz hex u).le) i
        linarith
      · obtain ⟨h1, h2⟩ := edgeFlow_col_bound hg hb (le_refl 0) (fun u => (hz hex u).le) j
        linarith
    have hval : r.cost = dualValue a b r.alpha r.beta := by
      rw [hfrom.costEq, edge_dual_sum hplan]
      unfold edgeCost
      refine sum_congr rfl fun k _ => ?_
      by_cases hk : edgeFlow a b src tgt s k = 0
      · rw [hk]; ring
      · rw [hfrom.slack k hk]; ring
    refine ⟨hplan, fun F' hF' => ?_, hfrom.entries, hfrom.costEq, hfrom.dual htol, hval⟩
    rw [← hfrom.costEq, hval, edge_dual_sum hF', edge_mass hF', mul_sum]
    unfold edgeCost
    rw [← sum_add_distrib]
    refine sum_le_sum fun k _ => ?_
    have hF0 := hF'.nonneg k
    by_cases hk : k ∈ keptEdges a b src tgt
    · have h1 := hfrom.dual htol k (mem_kept.1 hk).1 (mem_kept.1 hk).2
      nlinarith
    · rw [edge_zero hF' hk]; simp

/-- **C63**.  `ot.emd(a, b, M, log=True)` for a sparse matrix `M` given by its entries `c k` at `(src k, tgt k)` (repeated positions allowed), nonnegative costs at
most `C`, nonnegative weights with positive masses.  Let `b'` be `b` scaled to the mass of `a` and `τ = ε·2(C+1)(n1+n2) < 1`.
* If the masses differ too much the call raises, unless the check is switched off.
* If mass can be moved from `a` to `b'` along the edges at all, the call returns an optimal plan (up to `τ` per unit of mass) with its cost and dual potentials, or warns that the
  iteration limit was reached.
* If it cannot, the only result without warning is a plan whose marginals miss `a` or `b'` by at most `feps` at every point. -/
theorem C63_sparse_end_to_end (centerDual checkMarginals : Bool) {tol : R} {a : Fin n1 → R} {b : Fin n2 → R} {src : Fin K → Fin n1} {tgt : Fin K → Fin n2} {c : Fin K → R}
    {junk eps feps minFlow C : R} (heps : 0 ≤ eps) (hfeps : 0 ≤ feps) (hmin : 0 ≤ minFlow) (hC0 : 0 ≤ C) (hc : ∀ k, 0 ≤ c k ∧ c k ≤ C)
    (hsmall : eps * (2 * (C + 1) * (n1 + n2)) < 1) (hpa : 0 < ∑ i, a i) (hpb : 0 < ∑ j, b j)
    (bs maxIter turns : ℕ) (arcs : ∀ N, List (Fin N)) (hturns : 2 ^ (K + (n1 + n2)) < turns) :
    (checkMarginals = true ∧ tol ≤ |∑ i, a i - ∑ j, b j| ∧
      emdCoo centerDual checkMarginals tol a b src tgt c junk eps feps minFlow bs maxIter turns arcs = .assertion) ∨
    ∃ r, emdCoo centerDual checkMarginals tol a b src tgt c junk eps feps minFlow bs maxIter turns arcs = .done r ∧
      ((∃ F, IsEdgePlan src tgt a (rescale a b) F) →
        r.status = .optimal ∧ (∃ F, SparseCertified (eps * (2 * (C + 1) * (n1 + n2))) minFlow src tgt a (rescale a b) c F r) ∧
          (centerDual = true → ∑ i, a i * r.alpha i = ∑ j, rescale a b j * r.beta j) ∨
        r.status = .maxIter ∧ 0 < maxIter) ∧
      (r.status = .optimal → ∃ F : Fin K → R, (∀ k, 0 ≤ F k) ∧
        (∀ i, (∑ k, if src k = i then F k else 0) ≤ a i ∧ a i - feps ≤ ∑ k, if src k = i then F k else 0) ∧
        (∀ j, (∑ k, if tgt k = j then F k else 0) ≤ rescale a b j ∧ rescale a b j - feps ≤ ∑ k, if tgt k = j then F k else 0) ∧
        (∀ i j, cooEntry r.flows i j = ∑ k, if src k = i ∧ tgt k = j ∧ minFlow < F k then F k else 0) ∧ r.cost = edgeCost c F) := by
  by_cases hck : checkMarginals = true ∧ ¬ |∑ i, a i - ∑ j, b j| < tol
  · left
    refine ⟨hck.1, not_lt.1 hck.2, ?_⟩
    unfold emdCoo
    rw [if_pos hck]
  right
  have hsum : ∑ i, a i = ∑ j, rescale a b j := rescale_sum hpb.ne'
  have hden : ∑ i, a i + ∑ j, rescale a b j ≠ 0 := by rw [← hsum]; linarith
  obtain ⟨o, ho⟩ := Option.isSome_iff_exists.1
    ((sparse_spec a (rescale a b) src tgt c junk eps feps minFlow heps hfeps hmin bs maxIter turns arcs).2 hturns)
  obtain ⟨h1, h2, h3⟩ := sparse_result heps hfeps hmin hC0 hc hsmall ho
  obtain ⟨uv, huv⟩ : ∃ uv : (Fin n1 → R) × (Fin n2 → R), uv = if centerDual then centerOtDual o.alpha o.beta a (rescale a b) else (o.alpha, o.beta) := ⟨_, rfl⟩
  obtain ⟨uv', huv'⟩ : ∃ uv' : (Fin n1 → R) × (Fin n2 → R), uv' = if (∃ i, a i = 0) ∨ ∃ j, rescale a b j = 0 then centerOtDual uv.1 uv.2 a (rescale a b) else uv := ⟨_, rfl⟩
  have hres : emdCoo centerDual checkMarginals tol a b src tgt c junk eps feps minFlow bs maxIter turns arcs = .done { o with alpha := uv'.1, beta := uv'.2 } := by
    unfold emdCoo
    rw [if_neg hck]
    dsimp only
    rw [ho]
    dsimp only
    rw [← huv, ← huv']
  have e1 : (∀ i j, uv.1 i + uv.2 j = o.alpha i + o.beta j) ∧ dualValue a (rescale a b) uv.1 uv.2 = dualValue a (rescale a b) o.alpha o.beta ∧
      (centerDual = true → ∑ i, a i * uv.1 i = ∑ j, rescale a b j * uv.2 j) := by
    rw [huv]
    split_ifs with hcd
    · exact ⟨fun i j => C16_center_sums _ _ _ _ i j, C16_center_value _ _ _ _ hsum, fun _ => C16_center_balanced _ _ _ _ hden⟩
    · exact ⟨fun i j => rfl, rfl, fun h => absurd h hcd⟩
  have e2 : (∀ i j, uv'.1 i + uv'.2 j = o.alpha i + o.beta j) ∧ dualValue a (rescale a b) uv'.1 uv'.2 = dualValue a (rescale a b) o.alpha o.beta ∧
      (centerDual = true → ∑ i, a i * uv'.1 i = ∑ j, rescale a b j * uv'.2 j) := by
    rw [huv']
    split_ifs with hz
    · exact ⟨fun i j => by rw [C16_center_sums, e1.1], by rw [C16_center_value _ _ _ _ hsum, e1.2.1], fun _ => C16_center_balanced _ _ _ _ hden⟩
    · exact e1
  refine ⟨_, hres, fun hex => ?_, fun hst => ?_⟩
  · rcases h2 hex hpa with hst | hst
    · left
      refine ⟨hst, ?_, e2.2.2⟩
      obtain ⟨F, _, _, _, _, _, hF⟩ := h1 hst
      obtain ⟨q1, q2, q3, q4, q5, q6⟩ := hF hex
      refine ⟨F, q1, q2, q3, q4, fun k k1 k2 => ?_, ?_⟩
      · have := q5 k k1 k2
        rw [← e2.1] at this
        exact this
      · exact q6.trans e2.2.1.symm
    · exact Or.inr hst
  · obtain ⟨F, f1, f2, f3, f4, f5, _⟩ := h1 hst
    exact ⟨F, f1, f2, f3, f4, f5⟩

/-- **C63**: a warning that the problem is infeasible is never wrong (nonnegative costs, positive mass). -/
theorem C63_infeasible_is_infeasible (centerDual checkMarginals : Bool) {tol : R} {a : Fin n1 → R} {b : Fin n2 → R} {src : Fin K → Fin n1} {tgt : Fin K → Fin n2} {c : Fin K → R}
    {junk eps feps minFlow C : R} (heps : 0 ≤ eps) (hfeps : 0 ≤ feps) (hmin : 0 ≤ minFlow) (hC0 : 0 ≤ C) (hc : ∀ k, 0 ≤ c k ∧ c k ≤ C)
    (hsmall : eps * (2 * (C + 1) * (n1 + n2)) < 1) (hpa : 0 < ∑ i, a i)
    {bs maxIter turns : ℕ} {arcs : ∀ N, List (Fin N)} {r : SparseResult n1 n2 R}
    (hr : emdCoo centerDual checkMarginals tol a b src tgt c junk eps feps minFlow bs maxIter turns arcs = .done r) (hst : r.status = .infeasible) :
    ¬ ∃ F, IsEdgePlan src tgt a (rescale a b) F := by
  intro hex
  unfold emdCoo at hr
  by_cases hck : checkMarginals = true ∧ ¬ |∑ i, a i - ∑ j, b j| < tol
  · rw [if_pos hck] at hr; cases hr
  rw [if_neg hck] at hr
  dsimp only at hr
  cases ho : emdSparse a (rescale a b) src tgt c junk eps feps minFlow bs maxIter turns arcs with
  | none => rw [ho] at hr; cases hr
  | some o =>
    rw [ho] at hr
    dsimp only at hr
    injection hr with hr
    have : o.status = .infeasible := by rw [← hr] at hst; exact hst
    rcases (sparse_result heps hfeps hmin hC0 hc hsmall ho).2.1 hex hpa with h | h
    · rw [this] at h; cases h
    · rw [this] at h; cases h.1

/-- the hypotheses are met: a chain of three edges, two sources and two targets; the only edge plan is returned -/
example : IsEdgePlan (![0, 0, 1] : Fin 3 → Fin 2) (![0, 1, 1] : Fin 3 → Fin 2) (![3/4, 1/4] : Fin 2 → ℚ) (![1/2, 1/2] : Fin 2 → ℚ) ![1/2, 1/4, 1/4] := by
  refine ⟨?_, ?_, ?_⟩ <;> decide +kernel

example : (match emdCoo true true (1/1000000) (![3/4, 1/4] : Fin 2 → ℚ) (![1/2, 1/2] : Fin 2 → ℚ) (![0, 0, 1] : Fin 3 → Fin 2) (![0, 1, 1] : Fin 3 → Fin 2) ![2, 5, 1]
    0 0 (1/100000000) 0 10 0 50 (fun _ => []) with
    | .done r => decide (r.status = .optimal ∧ r.cost = 1 + 5/4 + 1/4 ∧ cooEntry r.flows 0 1 = 1/4 ∧ cooEntry r.flows 1 0 = 0)
    | _ => false) = true := by decide +kernel

/-- and an infeasible problem (the second source has no edge to the first target, the first source no edge to the second) -/
example : (match emdCoo true true (1/1000000) (![3/4, 1/4] : Fin 2 → ℚ) (![1/2, 1/2] : Fin 2 → ℚ) (![0, 1] : Fin 2 → Fin 2) (![0, 1] : Fin 2 → Fin 2) ![2, 1]
    0 0 (1/100000000) 0 10 0 50 (fun _ => []) with
    | .done r => decide (r.status = .infeasible)
    | _ => false) = true := by decide +kernel

end POT.Props
