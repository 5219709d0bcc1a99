import Verif.Lemmas.EmdWrap2

/-! # C05–C10: the network simplex solver behind `ot.emd`

`emdWrap` is the model of `EMD_wrap` (ot/lp/EMD_wrapper.cpp).  Its parameters: weights `a`, `b`, cost matrix `D`, the number read through an
unassigned `in_arc` (`junk`), the tolerances `EPSILON` (`eps`) and `_EPSILON` (`feps`), the block size `bs`, the iteration limit
`maxIter` (`0`: none), a bound `turns` on the number of turns of the main loop after which the model gives up with `none`, and the list of arcs
on which the initial pivots are tried.  All theorems hold for every choice of these. -/

set_option linter.unusedSectionVars false

namespace POT.Props

open Spec Simplex Finset

variable {R : Type*} [Field R] [LinearOrder R] [IsStrictOrderedRing R] {n1 n2 n m : ℕ}

/-! ### Pivot sequences -/

/-- One pivot: some real arc with negative violation enters. -/
def Step [NeZero n] (P : Problem n m R) (s s' : State (Node n) (Arc n m) R) : Prop :=
  ∃ e : Fin m, violation (initNet P) s (.inl e) < 0 ∧ pivot (initNet P) (2 * (n + 1) + 2) s (.inl e) = some (.next s')

/-- States reachable from the initial basis by pivots on arbitrary violating arcs. -/
def Reachable [NeZero n] (P : Problem n m R) (s : State (Node n) (Arc n m) R) : Prop := Relation.ReflTransGen (Step P) (initState P) s

theorem reachable_good [NeZero n] {P : Problem n m R} {s : State (Node n) (Arc n m) R} (h : Reachable P s) : Good P s := by
  induction h with
  | refl => exact init_good P
  | tail _ hst ih =>
    obtain ⟨e, he, hp⟩ := hst
    rcases pivot_good P ih he with ⟨h1, _⟩ | ⟨s', h1, h2, _⟩
    · rw [h1] at hp; cases hp
    · rw [h1] at hp; cases hp; exact h2

/-- **C05**, pivots.  After any sequence of pivots every flow is nonnegative and at each node outflow minus inflow over the real arcs and the
node's artificial arc equals the node's supply. -/
theorem C05_pivots_conserve [NeZero n] (P : Problem n m R) (s : State (Node n) (Arc n m) R) (h : Reachable P s) :
    (∀ e, 0 ≤ s.flow e) ∧
    ∀ u, netFlow P.src P.tgt (fun i => s.flow (.inl i)) u + (if 0 ≤ P.supply u then s.flow (.inr u) else -s.flow (.inr u)) = P.supply u := by
  have hg := reachable_good h
  refine ⟨art_nonneg hg, fun u => ?_⟩
  rw [good_net hg u]; ring

/-- **C08**.  In every reachable state the arrays `parent`, `thread`, `rev_thread`, `succ_num`, `last_succ` describe one spanning tree of all `n + 1`
nodes rooted at the artificial node (`none`), the arcs in state TREE are exactly the arcs `pred v` of the nodes `v` other than the root, and
`pred v` joins `v` with its parent in the direction told by `forward v`. -/
theorem C08_tree_arrays [NeZero n] (P : Problem n m R) (s : State (Node n) (Arc n m) R) (h : Reachable P s) :
    (∃ L : List (Node n), L.length = n + 1 ∧ TreeRep none s.parent s.thread s.revThread s.succNum s.lastSucc L) ∧
    (∀ a, s.state a = .tree ↔ ∃ u, s.pred (some u) = a) ∧
    (∀ u, ∃ q, s.parent (some u) = some q ∧
      (s.forward (some u) = true → (initNet P).src (s.pred (some u)) = some u ∧ (initNet P).tgt (s.pred (some u)) = q) ∧
      (s.forward (some u) = false → (initNet P).src (s.pred (some u)) = q ∧ (initNet P).tgt (s.pred (some u)) = some u)) := by
  obtain ⟨L, hL, hI⟩ := reachable_good h
  have hpar : ∀ u, ∃ q, s.parent (some u) = some q := by
    intro u
    rcases POT.Tree.anc_iff.1 (hI.tree.root_anc (some u)) with h1 | ⟨q, h1, _⟩
    · cases h1
    · exact ⟨q, h1⟩
  refine ⟨⟨L, hL, hI.tree⟩, fun a => ⟨fun ha => ?_, ?_⟩, fun u => ?_⟩
  · obtain ⟨v, q, hv, he⟩ := hI.treeArc a ha
    cases v with
    | none => rw [hI.tree.root_none] at hv; cases hv
    | some u => exact ⟨u, he⟩
  · rintro ⟨u, rfl⟩
    obtain ⟨q, hq⟩ := hpar u
    exact hI.treeState _ _ hq
  · obtain ⟨q, hq⟩ := hpar u
    have harc := hI.arc _ _ hq
    refine ⟨q, hq, fun hf => ?_, fun hf => ?_⟩
    · rw [if_pos hf] at harc; exact harc
    · rw [if_neg (by rw [hf]; decide)] at harc; exact harc

/-- **C08**, the loops.  In every reachable state a pivot on any violating arc runs to its end (none of the walks along parents, along the thread or
along the stem exceeds the bound that the model puts on its loops); it fails only by finding an unbounded direction, which cannot happen when arcs lead
from nodes with nonnegative supply to nodes with negative supply. -/
theorem C08_pivot_terminates [NeZero n] (P : Problem n m R) (s : State (Node n) (Arc n m) R) (h : Reachable P s) (e : Fin m)
    (he : violation (initNet P) s (.inl e) < 0) :
    (pivot (initNet P) (2 * (n + 1) + 2) s (.inl e) = some .unbounded ∧ ¬ ∀ i, 0 ≤ P.supply (P.src i) ∧ P.supply (P.tgt i) < 0) ∨
    ∃ s', pivot (initNet P) (2 * (n + 1) + 2) s (.inl e) = some (.next s') := by
  rcases pivot_good P (reachable_good h) he with h1 | ⟨s', h1, _, _⟩
  · exact Or.inl h1
  · exact Or.inr ⟨s', h1⟩

/-- **C09**.  Any sequence of pivots from the initial basis, whatever violating arcs are chosen to enter, has at most `2 ^ (number of arcs)` states:
there is no cycling. -/
theorem C09_no_cycling [NeZero n] (P : Problem n m R) (l : List (State (Node n) (Arc n m) R)) (hl : List.IsChain (Step P) (initState P :: l)) :
    (initState P :: l).length ≤ 2 ^ (m + n) := by
  have hbet : ∀ (s : State (Node n) (Arc n m) R) (l : List (State (Node n) (Arc n m) R)), Good P s → List.IsChain (Step P) (s :: l) →
      (s :: l).Pairwise (Better (initNet P)) ∧ ∀ s' ∈ s :: l, Good P s' := by
    intro s l
    induction l generalizing s with
    | nil => intro hs _; simpa using hs
    | cons t l ih =>
      intro hs hch
      rw [List.isChain_cons_cons] at hch
      obtain ⟨⟨e, he, hp⟩, hch'⟩ := hch
      rcases pivot_good P hs he with ⟨h1, _⟩ | ⟨s', h1, h2, h3⟩
      · rw [h1] at hp; cases hp
      · rw [h1] at hp
        cases hp
        obtain ⟨h4, h5⟩ := ih t h2 hch'
        refine ⟨?_, ?_⟩
        · rw [List.pairwise_cons]
          refine ⟨fun x hx => ?_, h4⟩
          rcases List.mem_cons.1 hx with rfl | hx
          · exact h3
          · exact h3.trans ((List.pairwise_cons.1 h4).1 x hx)
        · intro x hx
          rcases List.mem_cons.1 hx with rfl | hx
          · exact hs
          · exact h5 x hx
  obtain ⟨h1, h2⟩ := hbet _ l (init_good P) hl
  have := better_chain_length (root := none) (supply := extSupply P) _ h1 fun s hs => by
    obtain ⟨L, _, hL⟩ := h2 s hs
    exact ⟨L, hL⟩
  simpa using this

/-- **C09**, the solver.  `EMD_wrap` ends within `2 ^ (n1 n2 + n1 + n2)` turns of its main loop, for all inputs, block sizes and initial pivots. -/
theorem C09_emd_terminates (a : Fin n1 → R) (b : Fin n2 → R) (D : Fin n1 → Fin n2 → R) (junk eps feps : R) (heps : 0 ≤ eps) (hfeps : 0 ≤ feps)
    (bs maxIter turns : ℕ) (hturns : 2 ^ (n1 * n2 + (n1 + n2)) < turns) (arcs : ∀ N, List (Fin N)) :
    ∃ res, emdWrap a b D junk eps feps bs maxIter turns arcs = some res :=
  Option.isSome_iff_exists.1 ((wrap_spec a b D junk eps feps heps hfeps bs maxIter turns arcs).2 hturns)

/-! ### Block search -/

/-- **C10**.  The search says "no entering arc" only if every arc passes the test `c ≥ -ε·scale`, for all block sizes, starting positions and numbers of
arcs; here the scale is that of an arc with least violation. -/
theorem C10_none_missed (viol : Fin m → R) (scale : Option (Fin m) → R) (eps : R) (bs : ℕ) (r : Rule m)
    (h : findEnteringArc viol scale eps bs r = none) :
    (∀ e, 0 ≤ viol e) ∨ ∃ e, (∀ e', viol e ≤ viol e') ∧ ∀ e', -eps * scale (some e) ≤ viol e' := by
  obtain ⟨ia, h1, h2⟩ := findEnteringArc_none viol scale eps bs r h
  by_cases hneg : ∃ e, viol e < 0
  · obtain ⟨e, rfl, h3⟩ := h2 hneg
    exact Or.inr ⟨e, h3, h1⟩
  · push Not at hneg
    exact Or.inl hneg

/-- **C10**, found arcs.  An arc that is returned violates the test. -/
theorem C10_found_violates (viol : Fin m → R) (scale : Option (Fin m) → R) (eps : R) (heps : 0 ≤ eps) (hscale : ∀ ia, 0 ≤ scale ia)
    (bs : ℕ) (r r' : Rule m) (h : findEnteringArc viol scale eps bs r = some r') :
    ∃ e, r'.inArc = some e ∧ viol e < 0 ∧ viol e < -eps * scale (some e) :=
  findEnteringArc_some viol scale eps heps hscale bs r r' h

/-- both outcomes occur, with blocks smaller than the number of arcs -/
example : (findEnteringArc (![1, 0, -1, -3, 2] : Fin 5 → ℚ) (fun _ => 1) 0 2 ⟨4, none⟩).map (fun r => r.inArc) = some (some 2) := by decide +kernel
example : (findEnteringArc (![1, 0, 1, 3, 2] : Fin 5 → ℚ) (fun _ => 1) 0 2 ⟨3, none⟩).isNone = true := by decide +kernel

/-! ### The plan -/

/-- what a result with status OPTIMAL or MAX_ITER_REACHED comes from -/
theorem wrap_result {a : Fin n1 → R} {b : Fin n2 → R} {D : Fin n1 → Fin n2 → R} {junk eps feps : R} (heps : 0 ≤ eps) (hfeps : 0 ≤ feps)
    {bs maxIter turns : ℕ} {arcs : ∀ N, List (Fin N)} {res : WrapResult n1 n2 R}
    (h : emdWrap a b D junk eps feps bs maxIter turns arcs = some res) (hst : res.status = .optimal ∨ res.status = .maxIter) :
    (∀ i, 0 ≤ a i) ∧ (∀ j, 0 ≤ b j) ∧ |∑ i, a i - ∑ j, b j| ≤ feps ∧
    ∃ (_ : NeZero ((posIdx a).length + (posIdx b).length)) (mixing : Bool) (s : _), WrapFrom a b D mixing s res ∧
      (res.status = .optimal → OptimalFrom (bipProblem mixing (supp a) (supp b) (suppCost a b D)) eps junk s ∧ ∀ u, s.flow (.inr u) ≤ feps) ∧
      (res.status = .maxIter → 0 < maxIter) := by
  rcases (wrap_spec a b D junk eps feps heps hfeps bs maxIter turns arcs).1 res h with ⟨_, h1⟩ | ⟨⟨ha, hb⟩, ⟨_, h1⟩ | ⟨hne, mixing, hp⟩⟩
  · rw [h1] at hst; rcases hst with h | h <;> cases h
  · rw [h1] at hst; rcases hst with h | h <;> cases h
  · refine ⟨ha, hb, ?_⟩
    rcases hst with hst | hst
    · rw [hst] at hp
      obtain ⟨h1, s, h2, h3, h4⟩ := hp
      exact ⟨h1, hne, mixing, s, h4, fun _ => ⟨h2, h3⟩, fun h => by rw [hst] at h; cases h⟩
    · rw [hst] at hp
      obtain ⟨h0, h1, s, h4⟩ := hp
      exact ⟨h1, hne, mixing, s, h4, (fun h => by rw [hst] at h; cases h), fun _ => h0⟩

/-- **C05**, MAX_ITER_REACHED.  A plan returned with status OPTIMAL or MAX_ITER_REACHED is nonnegative, transports at most `a i` out of each `i` and at
most `b j` into each `j`, and the returned cost is its cost. -/
theorem C05_plan_bounded {a : Fin n1 → R} {b : Fin n2 → R} {D : Fin n1 → Fin n2 → R} {junk eps feps : R} (heps : 0 ≤ eps) (hfeps : 0 ≤ feps)
    {bs maxIter turns : ℕ} {arcs : ∀ N, List (Fin N)} {res : WrapResult n1 n2 R}
    (h : emdWrap a b D junk eps feps bs maxIter turns arcs = some res) (hst : res.status = .optimal ∨ res.status = .maxIter) :
    IsPartial a b res.G ∧ res.cost = cost D res.G := by
  obtain ⟨ha, hb, _, _, mixing, s, hs, _⟩ := wrap_result heps hfeps h hst
  exact ⟨hs.partial ha hb, hs.cost_eq⟩

/-- **C05**, tolerance.  With status OPTIMAL the marginals of the plan are those asked for up to `feps`, whatever the cost matrix. -/
theorem C05_marginals_within {a : Fin n1 → R} {b : Fin n2 → R} {D : Fin n1 → Fin n2 → R} {junk eps feps : R} (heps : 0 ≤ eps) (hfeps : 0 ≤ feps)
    {bs maxIter turns : ℕ} {arcs : ∀ N, List (Fin N)} {res : WrapResult n1 n2 R}
    (h : emdWrap a b D junk eps feps bs maxIter turns arcs = some res) (hst : res.status = .optimal) :
    (∀ i, |∑ j, res.G i j - a i| ≤ feps) ∧ ∀ j, |∑ i, res.G i j - b j| ≤ feps := by
  obtain ⟨ha, hb, _, _, mixing, s, hs, ho, _⟩ := wrap_result heps hfeps h (Or.inl hst)
  obtain ⟨_, h3⟩ := ho hst
  refine ⟨fun i => ?_, fun j => ?_⟩
  · have := hs.row_bound ha hfeps h3 i
    rw [abs_le]; constructor <;> linarith
  · have := hs.col_bound hb hfeps h3 j
    rw [abs_le]; constructor <;> linarith

theorem supports_pos {a : Fin n1 → R} {b : Fin n2 → R} (ha : ∀ i, 0 ≤ a i) (hb : ∀ j, 0 ≤ b j) (hsum : ∑ i, a i = ∑ j, b j)
    (hne : (posIdx a).length + (posIdx b).length ≠ 0) : 0 < (posIdx a).length ∧ 0 < (posIdx b).length := by
  have key : ∀ {k : ℕ} (w : Fin k → R), (∀ i, 0 ≤ w i) → (0 < (posIdx w).length ↔ 0 < ∑ i, w i) := by
    intro k w hw
    constructor
    · intro h
      have h1 := posIdx_pos w ⟨0, h⟩
      exact lt_of_lt_of_le h1 (Finset.single_le_sum (fun i _ => hw i) (Finset.mem_univ _))
    · intro h
      by_contra hcon
      have h0 : (posIdx w) = [] := List.length_eq_zero_iff.1 (by omega)
      have : ∑ i, w i = 0 := Finset.sum_eq_zero fun i _ => by
        by_contra hne
        have : i ∈ posIdx w := (mem_posIdx w i).2 (lt_of_le_of_ne (hw i) (Ne.symm hne))
        rw [h0] at this; cases this
      linarith
  have k1 := key a ha
  have k2 := key b hb
  rw [hsum] at k1
  by_cases h : 0 < ∑ j, b j
  · exact ⟨k1.2 h, k2.2 h⟩
  · have h1 := mt k1.1 h
    have h2 := mt k2.1 h
    omega

/-- **C05**.  For equal masses (and costs in the range where the artificial cost of the code is large enough) a plan returned with status OPTIMAL is
exactly a coupling of `a` and `b`: nonnegative, row sums `a`, column sums `b`. -/
theorem C05_optimal_is_coupling {a : Fin n1 → R} {b : Fin n2 → R} {D : Fin n1 → Fin n2 → R} {junk eps feps C : R} (heps : 0 ≤ eps) (hfeps : 0 ≤ feps)
    (hC : CostRange eps C a b D) (hsum : ∑ i, a i = ∑ j, b j)
    {bs maxIter turns : ℕ} {arcs : ∀ N, List (Fin N)} {res : WrapResult n1 n2 R}
    (h : emdWrap a b D junk eps feps bs maxIter turns arcs = some res) (hst : res.status = .optimal) : IsCoupling a b res.G := by
  obtain ⟨ha, hb, _, hne, mixing, s, hs, ho, _⟩ := wrap_result heps hfeps h (Or.inl hst)
  obtain ⟨ho, _⟩ := ho hst
  obtain ⟨hn, hm⟩ := supports_pos ha hb hsum hne.out
  obtain ⟨τ, _, _, hτ, hart⟩ := dear a b D heps hC mixing hn hm ho
  have hz : ∀ u, s.flow (.inr u) ≤ 0 := by
    intro u
    have := art_le ho.good hτ (bip_complete _ _ _ _ (supp_pos a) (supp_pos b)) hart u
    rw [bip_supply_sum, supp_sum a ha, supp_sum b hb, hsum, sub_self, abs_zero] at this
    exact this
  refine ⟨hs.nonneg, fun i => ?_, fun j => ?_⟩
  · have := hs.row_bound ha le_rfl hz i
    linarith [this.1, this.2]
  · have := hs.col_bound hb le_rfl hz j
    linarith [this.1, this.2]

/-- **C06**.  OPTIMAL means optimal: for equal masses the returned plan is a coupling whose cost exceeds that of no coupling by more than
`ε · 2(C+1)(n1+n2)` per unit of mass, where `ε` is the tolerance of the pivot rule; the returned potentials are feasible for the dual problem up to the same
quantity on the points of positive weight; and the returned cost is the cost of the plan and equals the dual objective exactly. -/
theorem C06_optimal_and_certified {a : Fin n1 → R} {b : Fin n2 → R} {D : Fin n1 → Fin n2 → R} {junk eps feps C : R} (heps : 0 ≤ eps) (hfeps : 0 ≤ feps)
    (hC : CostRange eps C a b D) (hsum : ∑ i, a i = ∑ j, b j)
    {bs maxIter turns : ℕ} {arcs : ∀ N, List (Fin N)} {res : WrapResult n1 n2 R}
    (h : emdWrap a b D junk eps feps bs maxIter turns arcs = some res) (hst : res.status = .optimal) :
    IsEpsOptimal (eps * (2 * (C + 1) * (n1 + n2)) * ∑ i, a i) a b D res.G ∧
    (∀ i j, 0 < a i → 0 < b j → res.alpha i + res.beta j ≤ D i j + eps * (2 * (C + 1) * (n1 + n2))) ∧
    (∀ i j, res.G i j ≠ 0 → res.alpha i + res.beta j = D i j) ∧
    res.cost = cost D res.G ∧ res.cost = dualValue a b res.alpha res.beta := by
  have hcoup := C05_optimal_is_coupling heps hfeps hC hsum h hst
  obtain ⟨ha, hb, _, hne, mixing, s, hs, ho, _⟩ := wrap_result heps hfeps h (Or.inl hst)
  obtain ⟨ho, _⟩ := ho hst
  obtain ⟨hn, hm⟩ := supports_pos ha hb hsum hne.out
  obtain ⟨τ, hτ0, hτle, hτ, hart⟩ := dear a b D heps hC mixing hn hm ho
  refine ⟨⟨hcoup, fun G' hG' => ?_⟩, fun i j hi hj => ?_, hs.slack, hs.cost_eq, ?_⟩
  · have h1 := (hs.opt hcoup hτ).2 G' hG'
    have h2 := mul_le_mul_of_nonneg_right hτle (Finset.sum_nonneg fun i _ => ha i : 0 ≤ ∑ i, a i)
    linarith
  · have := hs.dual hτ i j hi hj
    linarith
  · rw [hs.cost_eq, hs.value hcoup]

/-- **C06**, exact test.  With `ε = 0` the plan is optimal and, when all weights are positive, the potentials are an optimal solution of the dual problem. -/
theorem C06_optimal_exact {a : Fin n1 → R} {b : Fin n2 → R} {D : Fin n1 → Fin n2 → R} {junk feps C : R} (hfeps : 0 ≤ feps)
    (hC : CostRange 0 C a b D) (hsum : ∑ i, a i = ∑ j, b j)
    {bs maxIter turns : ℕ} {arcs : ∀ N, List (Fin N)} {res : WrapResult n1 n2 R}
    (h : emdWrap a b D junk 0 feps bs maxIter turns arcs = some res) (hst : res.status = .optimal) :
    IsOptimal a b D res.G ∧
    ((∀ i, 0 < a i) → (∀ j, 0 < b j) → DualFeasible D res.alpha res.beta ∧
      ∀ u v, DualFeasible D u v → dualValue a b u v ≤ dualValue a b res.alpha res.beta) := by
  obtain ⟨⟨h1, h2⟩, h3, _, h5, h6⟩ := C06_optimal_and_certified le_rfl hfeps hC hsum h hst
  simp only [zero_mul, add_zero] at h2 h3
  refine ⟨⟨h1, h2⟩, fun ha hb => ⟨fun i j => h3 i j (ha i) (hb j), fun u v huv => ?_⟩⟩
  rw [← h6, h5]
  exact weak_duality h1 huv

/-- **C07**.  A balanced problem (masses equal up to `feps`, some mass) is never reported INFEASIBLE, nor UNBOUNDED, when the costs are in the range where
the artificial cost of the code is large enough.  Missing for the full property: all cost matrices; `C07_negative_cost_refuted` shows that it
fails without such a condition. -/
theorem C07_never_infeasible_partial {a : Fin n1 → R} {b : Fin n2 → R} {D : Fin n1 → Fin n2 → R} {junk eps feps C : R} (heps : 0 ≤ eps) (hfeps : 0 ≤ feps)
    (hC : CostRange eps C a b D) (ha : ∀ i, 0 ≤ a i) (hb : ∀ j, 0 ≤ b j) (hpa : 0 < ∑ i, a i) (hpb : 0 < ∑ j, b j)
    (hsum : |∑ i, a i - ∑ j, b j| ≤ feps)
    {bs maxIter turns : ℕ} {arcs : ∀ N, List (Fin N)} {res : WrapResult n1 n2 R}
    (h : emdWrap a b D junk eps feps bs maxIter turns arcs = some res) :
    res.status = .optimal ∨ res.status = .maxIter ∧ 0 < maxIter := by
  have hpos : ∀ {k : ℕ} (w : Fin k → R), (∀ i, 0 ≤ w i) → 0 < ∑ i, w i → 0 < (posIdx w).length := by
    intro k w hw hpos
    by_contra hcon
    have h0 : (posIdx w) = [] := List.length_eq_zero_iff.1 (by omega)
    have : ∑ i, w i = 0 := Finset.sum_eq_zero fun i _ => by
      by_contra hne
      have : i ∈ posIdx w := (mem_posIdx w i).2 (lt_of_le_of_ne (hw i) (Ne.symm hne))
      rw [h0] at this; cases this
    linarith
  have hn := hpos a ha hpa
  have hm := hpos b hb hpb
  rcases (wrap_spec a b D junk eps feps heps hfeps bs maxIter turns arcs).1 res h with ⟨hneg, _⟩ | ⟨_, ⟨h0, _⟩ | ⟨hne, mixing, hp⟩⟩
  · rcases hneg with ⟨i, hi⟩ | ⟨j, hj⟩
    · exact absurd (ha i) (not_le.2 hi)
    · exact absurd (hb j) (not_le.2 hj)
  · omega
  · cases hst : res.status with
    | optimal => exact Or.inl rfl
    | maxIter => rw [hst] at hp; exact Or.inr ⟨rfl, hp.1⟩
    | unbounded => rw [hst] at hp; exact hp.elim
    | infeasible =>
      rw [hst] at hp
      rcases hp with hp | ⟨s, ho, u, hu⟩
      · exact absurd hsum (not_le.2 hp)
      · obtain ⟨τ, _, _, hτ, hart⟩ := dear a b D heps hC mixing hn hm ho
        have := art_le ho.good hτ (bip_complete _ _ _ _ (supp_pos a) (supp_pos b)) hart u
        rw [bip_supply_sum, supp_sum a ha, supp_sum b hb] at this
        linarith

/-- **C07** + **C09** for the usual call: nonnegative weights of equal positive mass, nonnegative costs, no iteration limit.  The solver stops and reports
OPTIMAL. -/
theorem C07_solves {a : Fin n1 → R} {b : Fin n2 → R} {D : Fin n1 → Fin n2 → R} (junk : R) {eps feps : R} (heps : 0 ≤ eps) (heps8 : 8 * eps ≤ 1) (hfeps : 0 ≤ feps)
    (hD : ∀ i j, 0 ≤ D i j) (ha : ∀ i, 0 ≤ a i) (hb : ∀ j, 0 ≤ b j) (hpos : 0 < ∑ i, a i) (hsum : ∑ i, a i = ∑ j, b j)
    (bs turns : ℕ) (hturns : 2 ^ (n1 * n2 + (n1 + n2)) < turns) (arcs : ∀ N, List (Fin N)) :
    ∃ res, emdWrap a b D junk eps feps bs 0 turns arcs = some res ∧ res.status = .optimal := by
  obtain ⟨res, hres⟩ := C09_emd_terminates a b D junk eps feps heps hfeps bs 0 turns hturns arcs
  refine ⟨res, hres, ?_⟩
  have hC : CostRange eps (∑ i, ∑ j, D i j) a b D := by
    refine ⟨fun i j => ?_, Finset.sum_nonneg fun i _ => Finset.sum_nonneg fun j _ => hD i j, Or.inl ⟨hD, heps8⟩⟩
    rw [abs_of_nonneg (hD i j)]
    exact le_trans (Finset.single_le_sum (f := fun j => D i j) (fun j _ => hD i j) (Finset.mem_univ j))
      (Finset.single_le_sum (f := fun i => ∑ j, D i j) (fun i _ => Finset.sum_nonneg fun j _ => hD i j) (Finset.mem_univ i))
  rcases C07_never_infeasible_partial heps hfeps hC ha hb hpos (hsum ▸ hpos) (by rw [hsum, sub_self, abs_zero]; exact hfeps) hres with h | h
  · exact h
  · exact absurd h.2 (lt_irrefl _)

/-- a problem with a zero weight (mixed arc order), no initial pivots: the hypotheses of the theorems above are met and the solver finds the plan -/
def exA : Fin 3 → ℚ := ![1/2, 0, 1/2]
/-- weights of the example -/
def exB : Fin 3 → ℚ := ![1/4, 1/4, 1/2]
/-- costs of the example -/
def exD : Fin 3 → Fin 3 → ℚ := ![![0, 1, 4], ![1, 0, 1], ![4, 1, 0]]

example : (emdWrap exA exB exD 0 0 (1/100000000) 10 0 50 fun _ => []).map (fun r => (r.status, r.cost)) = some (.optimal, 1/4) := by decide +kernel
example : (emdWrap exA exB exD 0 0 (1/100000000) 10 0 50 fun _ => []).map (fun r => (r.G 0 0, r.G 0 1, r.G 2 2)) = some (1/4, 1/4, 1/2) := by
  decide +kernel
/-- all weights positive (no mixing) -/
example : (emdWrap (![1, 2] : Fin 2 → ℚ) (![2, 1] : Fin 2 → ℚ) (![![0, 1], ![1, 0]]) 0 0 0 10 0 50 fun _ => []).map
    (fun r => (r.status, r.cost, r.G 1 0)) = some (.optimal, 1, 1) := by decide +kernel
/-- the iteration limit: the plan is only partial -/
example : (emdWrap (![1, 2] : Fin 2 → ℚ) (![2, 1] : Fin 2 → ℚ) (![![0, 1], ![1, 0]]) 0 0 0 10 2 50 fun _ => []).map
    (fun r => (r.status, r.G 0 0, r.G 1 0, r.G 1 1)) = some (.maxIter, 0, 0, 1) := by decide +kernel

/-- **C07** fails for negative costs: one unit of mass at one point each, cost `-2`.  The artificial cost is `(−2 + 1)·2 = −2`, the only real arc does not
improve on the two artificial ones, and the balanced problem is reported INFEASIBLE. -/
theorem C07_negative_cost_refuted :
    (emdWrap (fun _ : Fin 1 => (1 : ℚ)) (fun _ : Fin 1 => 1) (fun _ _ => -2) 0 0 (1/100000000) 10 0 50 fun _ => []).map (fun r => r.status) = some .infeasible := by
  decide +kernel

end POT.Props
