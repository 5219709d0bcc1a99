import Verif.Lemmas.EmdWrap

/-! # Results of `EMD_wrap` -/

set_option linter.unusedSectionVars false

namespace POT.Simplex

open Spec Finset

variable {R : Type*} [Field R] [LinearOrder R] [IsStrictOrderedRing R] {n1 n2 : ℕ}

/-- positive weights -/
def supp (w : Fin n1 → R) : Fin (posIdx w).length → R := fun i => w ((posIdx w).get i)
/-- costs between positive weights -/
def suppCost (a : Fin n1 → R) (b : Fin n2 → R) (D : Fin n1 → Fin n2 → R) : Fin (posIdx a).length → Fin (posIdx b).length → R :=
  fun i j => D ((posIdx a).get i) ((posIdx b).get j)

theorem supp_pos (w : Fin n1 → R) (i) : 0 < supp w i := posIdx_pos w i

theorem supp_sum (w : Fin n1 → R) (hw : ∀ i, 0 ≤ w i) : ∑ i, supp w i = ∑ i, w i := by
  unfold supp
  rw [sum_posIdx w w]
  intro x hx
  exact le_antisymm (not_lt.1 hx) (hw x)

/-- The returned arrays were extracted from the solver state `s`. -/
structure WrapFromA (art : R) (a : Fin n1 → R) (b : Fin n2 → R) (D : Fin n1 → Fin n2 → R) [NeZero ((posIdx a).length + (posIdx b).length)] (mixing : Bool)
    (s : State (Node ((posIdx a).length + (posIdx b).length)) (Arc ((posIdx a).length + (posIdx b).length) ((posIdx a).length * (posIdx b).length)) R)
    (res : WrapResult n1 n2 R) : Prop where
  good : SoftGood (bipNet mixing (supp a) (supp b) (suppCost a b D) art) s
  plan : ∀ i j, res.G ((posIdx a).get i) ((posIdx b).get j) = planOf mixing _ _ s.flow i j
  planZero : ∀ x y, ¬ 0 < a x ∨ ¬ 0 < b y → res.G x y = 0
  costEq : res.cost = ∑ i, ∑ j, planOf mixing _ _ s.flow i j * suppCost a b D i j
  alphaEq : ∀ i, res.alpha ((posIdx a).get i) = alphaOf _ _ (shiftPotentials s.pi) i
  betaEq : ∀ j, res.beta ((posIdx b).get j) = betaOf _ _ (shiftPotentials s.pi) j
  alphaZero : ∀ x, ¬ 0 < a x → res.alpha x = 0
  betaZero : ∀ y, ¬ 0 < b y → res.beta y = 0

/-- The same with the cost of the artificial arcs computed from the costs. -/
abbrev WrapFrom (a : Fin n1 → R) (b : Fin n2 → R) (D : Fin n1 → Fin n2 → R) [NeZero ((posIdx a).length + (posIdx b).length)] (mixing : Bool)
    (s : State (Node ((posIdx a).length + (posIdx b).length)) (Arc ((posIdx a).length + (posIdx b).length) ((posIdx a).length * (posIdx b).length)) R)
    (res : WrapResult n1 n2 R) : Prop :=
  WrapFromA (artCost ((posIdx a).length + (posIdx b).length) (costArray mixing fun k => suppCost a b D k.divNat k.modNat)) a b D mixing s res

/-- What the statuses mean. -/
def WrapPost (a : Fin n1 → R) (b : Fin n2 → R) (D : Fin n1 → Fin n2 → R) (junk eps feps : R) (maxIter : ℕ) (res : WrapResult n1 n2 R) : Prop :=
  ((∃ i, a i < 0) ∨ (∃ j, b j < 0)) ∧ res.status = .infeasible ∨
  ((∀ i, 0 ≤ a i) ∧ ∀ j, 0 ≤ b j) ∧ (
    (posIdx a).length + (posIdx b).length = 0 ∧ res.status = .infeasible ∨
    ∃ (_ : NeZero ((posIdx a).length + (posIdx b).length)) (mixing : Bool),
      match res.status with
      | .infeasible => feps < |∑ i, a i - ∑ j, b j| ∨
          ∃ s, OptimalFrom (bipProblem mixing (supp a) (supp b) (suppCost a b D)) eps junk s ∧ ∃ u, feps < s.flow (.inr u)
      | .optimal => |∑ i, a i - ∑ j, b j| ≤ feps ∧
          ∃ s, OptimalFrom (bipProblem mixing (supp a) (supp b) (suppCost a b D)) eps junk s ∧ (∀ u, s.flow (.inr u) ≤ feps) ∧ WrapFrom a b D mixing s res
      | .maxIter => 0 < maxIter ∧ |∑ i, a i - ∑ j, b j| ≤ feps ∧ ∃ s, WrapFrom a b D mixing s res
      | .unbounded => False)

theorem wrap_spec (a : Fin n1 → R) (b : Fin n2 → R) (D : Fin n1 → Fin n2 → R) (junk eps feps : R) (heps : 0 ≤ eps) (hfeps : 0 ≤ feps)
    (bs maxIter turns : ℕ) (arcs : ∀ N, List (Fin N)) :
    (∀ res, emdWrap a b D junk eps feps bs maxIter turns arcs = some res → WrapPost a b D junk eps feps maxIter res) ∧
    (2 ^ (n1 * n2 + (n1 + n2)) < turns → (emdWrap a b D junk eps feps bs maxIter turns arcs).isSome) := by
  unfold emdWrap
  by_cases hneg : (∃ i, a i < 0) ∨ ∃ j, b j < 0
  · rw [if_pos hneg]
    exact ⟨fun res h => by cases h; exact Or.inl ⟨hneg, rfl⟩, fun _ => rfl⟩
  rw [if_neg hneg]
  push Not at hneg
  dsimp only
  by_cases h0 : (posIdx a).length + (posIdx b).length = 0
  · rw [dif_pos h0]
    exact ⟨fun res h => by cases h; exact Or.inr ⟨hneg, Or.inl ⟨h0, rfl⟩⟩, fun _ => rfl⟩
  rw [dif_neg h0]
  have hne : NeZero ((posIdx a).length + (posIdx b).length) := ⟨h0⟩
  generalize hfull : (decide ((posIdx a).length = n1 ∧ (posIdx b).length = n2)) = full
  set P := bipProblem (!full) (supp a) (supp b) (suppCost a b D) with hP
  have hPeq : (bipProblem (!full) (fun i => a ((posIdx a).get i)) (fun j => b ((posIdx b).get j))
      fun i j => D ((posIdx a).get i) ((posIdx b).get j)) = P := rfl
  rw [hPeq]
  obtain ⟨hspec, hsome⟩ := run_spec P junk eps feps heps hfeps bs maxIter turns (arcs _)
  have hsum : ∑ u, P.supply u = ∑ i, a i - ∑ j, b j := by
    rw [hP, bip_supply_sum, supp_sum a hneg.1, supp_sum b hneg.2]
  have hbip : Bipartite P := bip_bipartite _ _ _ _ (supp_pos a) (supp_pos b)
  constructor
  · intro res hres
    cases hrun : run P junk eps feps bs maxIter turns (arcs _) with
    | none => rw [hrun] at hres; cases hres
    | some sol =>
      rw [hrun] at hres
      dsimp only at hres
      have hpost := hspec sol hrun
      refine Or.inr ⟨hneg, Or.inr ⟨hne, !full, ?_⟩⟩
      -- what extraction gives
      have hext : ∀ s : State _ _ R, Good P s → (∀ i, sol.flow (.inl i) = s.flow (.inl i)) → sol.pi = shiftPotentials s.pi →
          WrapFrom a b D (!full) s ⟨sol.status, (extractPlan full (!full) D (posIdx a) (posIdx b) fun k => sol.flow (.inl k)).2,
            scatter (posIdx a) fun i => -sol.pi (some (nodeId (Fin.castAdd _ i))),
            scatter (posIdx b) fun j => sol.pi (some (nodeId (Fin.natAdd _ j))),
            (extractPlan full (!full) D (posIdx a) (posIdx b) fun k => sol.flow (.inl k)).1⟩ := by
        intro s hg hfl hpi
        obtain ⟨e1, e2, e3⟩ := extractPlan_spec full (!full) D (posIdx a) (posIdx b) (posIdx_nodup a) (posIdx_nodup b) fun k => sol.flow (.inl k)
        refine ⟨hg.soft, fun i j => ?_, fun x y hxy => ?_, ?_, fun i => ?_, fun j => ?_, fun x hx => ?_, fun y hy => ?_⟩
        · refine (e1 i j).trans ?_
          rw [hfl]; rfl
        · exact e2 x y (by rw [mem_posIdx, mem_posIdx]; exact hxy)
        · refine e3.trans ?_
          simp only [hfl]
          rfl
        · refine (scatter_get _ (posIdx_nodup a) _ i).trans ?_
          rw [hpi]; rfl
        · refine (scatter_get _ (posIdx_nodup b) _ j).trans ?_
          rw [hpi]; rfl
        · exact scatter_notMem _ _ _ (by rw [mem_posIdx]; exact hx)
        · exact scatter_notMem _ _ _ (by rw [mem_posIdx]; exact hy)
      unfold RunPost at hpost
      cases hst : sol.status with
      | infeasible =>
        rw [hst] at hpost hres
        rw [if_neg (by decide)] at hres
        cases hres
        dsimp only at hpost ⊢
        rw [hsum] at hpost
        exact hpost
      | unbounded =>
        rw [hst] at hpost
        exact absurd hbip hpost
      | optimal =>
        rw [hst] at hpost hres
        rw [if_pos (Or.inl rfl)] at hres
        cases hres
        dsimp only at hpost ⊢
        rw [hsum] at hpost
        obtain ⟨h1, s, h2, h3, h4, h5⟩ := hpost
        have := hext s h2.good h4 h5
        rw [hst] at this
        exact ⟨h1, s, h2, h3, this⟩
      | maxIter =>
        rw [hst] at hpost hres
        rw [if_pos (Or.inr rfl)] at hres
        cases hres
        dsimp only at hpost ⊢
        rw [hsum] at hpost
        obtain ⟨h0, h1, s, h2, h4, h5⟩ := hpost
        have := hext s h2 h4 h5
        rw [hst] at this
        exact ⟨h0, h1, s, this⟩
  · intro ht
    have hla : (posIdx a).length ≤ n1 := by
      have := List.length_filter_le (fun i => decide (0 < a i)) (List.finRange n1)
      rwa [List.length_finRange] at this
    have hlb : (posIdx b).length ≤ n2 := by
      have := List.length_filter_le (fun i => decide (0 < b i)) (List.finRange n2)
      rwa [List.length_finRange] at this
    have hlt : 2 ^ ((posIdx a).length * (posIdx b).length + ((posIdx a).length + (posIdx b).length)) < turns := by
      refine lt_of_le_of_lt (Nat.pow_le_pow_right (by decide) ?_) ht
      have := Nat.mul_le_mul hla hlb
      omega
    have := hsome hlt
    obtain ⟨sol, hsol⟩ := Option.isSome_iff_exists.1 this
    rw [hsol]
    dsimp only
    split_ifs <;> rfl

/-! ### Consequences -/

section conseq
variable {a : Fin n1 → R} {b : Fin n2 → R} {D : Fin n1 → Fin n2 → R} [NeZero ((posIdx a).length + (posIdx b).length)] {mixing : Bool} {art : R}
  {s : State (Node ((posIdx a).length + (posIdx b).length)) (Arc ((posIdx a).length + (posIdx b).length) ((posIdx a).length * (posIdx b).length)) R}
  {res : WrapResult n1 n2 R}

theorem WrapFromA.nonneg (h : WrapFromA art a b D mixing s res) (x y) : 0 ≤ res.G x y := by
  by_cases hx : 0 < a x
  · by_cases hy : 0 < b y
    · obtain ⟨i, rfl⟩ := List.get_of_mem ((mem_posIdx a x).2 hx)
      obtain ⟨j, rfl⟩ := List.get_of_mem ((mem_posIdx b y).2 hy)
      rw [h.plan]; exact plan_nonneg _ _ _ _ h.good i j
    · rw [h.planZero x y (Or.inr hy)]
  · rw [h.planZero x y (Or.inl hx)]

theorem WrapFromA.row (h : WrapFromA art a b D mixing s res) (i) :
    ∑ y, res.G ((posIdx a).get i) y = a ((posIdx a).get i) - s.flow (.inr (nodeAt _ _ (.inl i))) := by
  rw [sum_posIdx b _ fun y hy => h.planZero _ y (Or.inr hy)]
  simp only [h.plan]
  exact plan_row _ _ _ _ (supp_pos a) (supp_pos b) h.good i

theorem WrapFromA.col (h : WrapFromA art a b D mixing s res) (j) :
    ∑ x, res.G x ((posIdx b).get j) = b ((posIdx b).get j) - s.flow (.inr (nodeAt _ _ (.inr j))) := by
  rw [sum_posIdx a _ fun x hx => h.planZero x _ (Or.inl hx)]
  simp only [h.plan]
  exact plan_col _ _ _ _ (supp_pos a) (supp_pos b) h.good j

theorem WrapFromA.row_zero (h : WrapFromA art a b D mixing s res) (ha : ∀ i, 0 ≤ a i) (x) (hx : ¬ 0 < a x) : ∑ y, res.G x y = a x := by
  rw [Finset.sum_eq_zero fun y _ => h.planZero x y (Or.inl hx)]
  exact le_antisymm (ha x) (not_lt.1 hx)

theorem WrapFromA.col_zero (h : WrapFromA art a b D mixing s res) (hb : ∀ i, 0 ≤ b i) (y) (hy : ¬ 0 < b y) : ∑ x, res.G x y = b y := by
  rw [Finset.sum_eq_zero fun x _ => h.planZero x y (Or.inr hy)]
  exact le_antisymm (hb y) (not_lt.1 hy)

/-- a bound on the artificial flows bounds the marginal errors -/
theorem WrapFromA.row_bound (h : WrapFromA art a b D mixing s res) (ha : ∀ i, 0 ≤ a i) {δ : R} (hδ0 : 0 ≤ δ) (hδ : ∀ u, s.flow (.inr u) ≤ δ) (x) :
    ∑ y, res.G x y ≤ a x ∧ a x - δ ≤ ∑ y, res.G x y := by
  by_cases hx : 0 < a x
  · obtain ⟨i, rfl⟩ := List.get_of_mem ((mem_posIdx a x).2 hx)
    rw [h.row]
    have h1 := h.good.nonneg (.inr (nodeAt _ _ (.inl i)))
    have h2 := hδ (nodeAt _ _ (.inl i))
    constructor <;> linarith
  · rw [h.row_zero ha x hx]; constructor <;> linarith

theorem WrapFromA.col_bound (h : WrapFromA art a b D mixing s res) (hb : ∀ i, 0 ≤ b i) {δ : R} (hδ0 : 0 ≤ δ) (hδ : ∀ u, s.flow (.inr u) ≤ δ) (y) :
    ∑ x, res.G x y ≤ b y ∧ b y - δ ≤ ∑ x, res.G x y := by
  by_cases hy : 0 < b y
  · obtain ⟨j, rfl⟩ := List.get_of_mem ((mem_posIdx b y).2 hy)
    rw [h.col]
    have h1 := h.good.nonneg (.inr (nodeAt _ _ (.inr j)))
    have h2 := hδ (nodeAt _ _ (.inr j))
    constructor <;> linarith
  · rw [h.col_zero hb y hy]; constructor <;> linarith

theorem WrapFromA.partial (h : WrapFromA art a b D mixing s res) (ha : ∀ i, 0 ≤ a i) (hb : ∀ i, 0 ≤ b i) : IsPartial a b res.G := by
  refine ⟨h.nonneg, fun x => ?_, fun y => ?_⟩
  · by_cases hx : 0 < a x
    · obtain ⟨i, rfl⟩ := List.get_of_mem ((mem_posIdx a x).2 hx)
      rw [h.row]
      have h1 := h.good.nonneg (.inr (nodeAt _ _ (.inl i)))
      linarith
    · rw [h.row_zero ha x hx]
  · by_cases hy : 0 < b y
    · obtain ⟨j, rfl⟩ := List.get_of_mem ((mem_posIdx b y).2 hy)
      rw [h.col]
      have h1 := h.good.nonneg (.inr (nodeAt _ _ (.inr j)))
      linarith
    · rw [h.col_zero hb y hy]

theorem WrapFromA.cost_eq (h : WrapFromA art a b D mixing s res) : res.cost = cost D res.G := by
  unfold cost
  rw [h.costEq, sum_posIdx a _ fun x hx => Finset.sum_eq_zero fun y _ => by rw [h.planZero x y (Or.inl hx), zero_mul]]
  refine Finset.sum_congr rfl fun i _ => ?_
  rw [sum_posIdx b _ fun y hy => by rw [h.planZero _ y (Or.inr hy), zero_mul]]
  refine Finset.sum_congr rfl fun j _ => ?_
  rw [h.plan]; rfl

theorem WrapFromA.dual (h : WrapFromA art a b D mixing s res) {τ : R} (ho : TolOpt (bipNet mixing (supp a) (supp b) (suppCost a b D) art) τ s)
    (x y) (hx : 0 < a x) (hy : 0 < b y) : res.alpha x + res.beta y ≤ D x y + τ := by
  obtain ⟨i, rfl⟩ := List.get_of_mem ((mem_posIdx a x).2 hx)
  obtain ⟨j, rfl⟩ := List.get_of_mem ((mem_posIdx b y).2 hy)
  obtain ⟨c, h1, h2⟩ := shift_spec (n := (posIdx a).length) (m := (posIdx b).length) s.pi
  rw [h.alphaEq, h.betaEq, h1, h2]
  have := plan_dual _ _ _ _ ho i j
  unfold suppCost at this
  linarith

theorem WrapFromA.slack (h : WrapFromA art a b D mixing s res) (x y) (hne : res.G x y ≠ 0) : res.alpha x + res.beta y = D x y := by
  by_cases hxy : ¬ 0 < a x ∨ ¬ 0 < b y
  · exact absurd (h.planZero x y hxy) hne
  · push Not at hxy
    obtain ⟨i, rfl⟩ := List.get_of_mem ((mem_posIdx a x).2 hxy.1)
    obtain ⟨j, rfl⟩ := List.get_of_mem ((mem_posIdx b y).2 hxy.2)
    obtain ⟨c, h1, h2⟩ := shift_spec (n := (posIdx a).length) (m := (posIdx b).length) s.pi
    rw [h.plan] at hne
    rw [h.alphaEq, h.betaEq, h1, h2]
    have := plan_slack _ _ _ _ h.good i j hne
    unfold suppCost at this
    linarith

/-- complementary slackness gives equality of the two values -/
theorem WrapFromA.value (h : WrapFromA art a b D mixing s res) (hc : IsCoupling a b res.G) : dualValue a b res.alpha res.beta = cost D res.G := by
  unfold dualValue cost
  have h1 : ∑ i, res.alpha i * a i = ∑ i, ∑ j, res.alpha i * res.G i j :=
    Finset.sum_congr rfl fun i _ => by rw [← hc.row i, Finset.mul_sum]
  have h2 : ∑ j, res.beta j * b j = ∑ i, ∑ j, res.beta j * res.G i j := by
    rw [Finset.sum_comm]
    exact Finset.sum_congr rfl fun j _ => by rw [← hc.col j, Finset.mul_sum]
  rw [h1, h2, ← Finset.sum_add_distrib]
  refine Finset.sum_congr rfl fun i _ => ?_
  rw [← Finset.sum_add_distrib]
  refine Finset.sum_congr rfl fun j _ => ?_
  by_cases hg : res.G i j = 0
  · rw [hg]; ring
  · rw [← h.slack i j hg]; ring

/-- weak duality with tolerance -/
theorem WrapFromA.opt (h : WrapFromA art a b D mixing s res) (hc : IsCoupling a b res.G) {τ : R}
    (ho : TolOpt (bipNet mixing (supp a) (supp b) (suppCost a b D) art) τ s) : IsEpsOptimal (τ * ∑ i, a i) a b D res.G := by
  refine ⟨hc, fun G' hG' => ?_⟩
  rw [← h.value hc]
  unfold dualValue cost
  have h1 : ∑ i, res.alpha i * a i = ∑ i, ∑ j, res.alpha i * G' i j :=
    Finset.sum_congr rfl fun i _ => by rw [← hG'.row i, Finset.mul_sum]
  have h2 : ∑ j, res.beta j * b j = ∑ i, ∑ j, res.beta j * G' i j := by
    rw [Finset.sum_comm]
    exact Finset.sum_congr rfl fun j _ => by rw [← hG'.col j, Finset.mul_sum]
  have h3 : τ * ∑ i, a i = ∑ i, ∑ j, τ * G' i j := by
    rw [Finset.mul_sum]
    exact Finset.sum_congr rfl fun i _ => by rw [← hG'.row i, Finset.mul_sum]
  rw [h1, h2, h3, ← Finset.sum_add_distrib, ← Finset.sum_add_distrib]
  refine Finset.sum_le_sum fun i _ => ?_
  rw [← Finset.sum_add_distrib, ← Finset.sum_add_distrib]
  refine Finset.sum_le_sum fun j _ => ?_
  have hg := hG'.nonneg i j
  by_cases hi : 0 < a i
  · by_cases hj : 0 < b j
    · have := h.dual ho i j hi hj
      nlinarith
    · have hz : G' i j = 0 := by
        refine le_antisymm ?_ hg
        have := Finset.single_le_sum (f := fun i => G' i j) (fun i _ => hG'.nonneg i j) (Finset.mem_univ i)
        rw [hG'.col j] at this
        exact le_trans this (not_lt.1 hj)
      rw [hz]; simp
  · have hz : G' i j = 0 := by
      refine le_antisymm ?_ hg
      have := Finset.single_le_sum (f := fun j => G' i j) (fun j _ => hG'.nonneg i j) (Finset.mem_univ j)
      rw [hG'.row i] at this
      exact le_trans this (not_lt.1 hi)
    rw [hz]; simp

end conseq

/-! ### The artificial cost is large enough -/

/-- the greatest cost between points with positive weight is what the artificial cost is computed from -/
theorem bip_art {n m : ℕ} [NeZero (n + m)] (mixing : Bool) (wa : Fin n → R) (wb : Fin m → R) (D : Fin n → Fin m → R) (hn : 0 < n) (hm : 0 < m) :
    ∃ mx : R, (∀ i j, D i j ≤ mx) ∧ (∃ i j, mx = D i j) ∧ (bipProblem mixing wa wb D).art = (mx + 1) * (n + m : ℕ) := by
  refine ⟨maxRealArcCost (bipProblem mixing wa wb D).cost, fun i j => ?_, ?_, rfl⟩
  · rw [← bip_cost mixing wa wb D (i, j)]
    exact (maxRealArcCost_spec _).1 _
  · obtain ⟨e, he⟩ := (maxRealArcCost_spec (bipProblem mixing wa wb D).cost).2 (Nat.mul_pos hn hm)
    obtain ⟨x, rfl⟩ := (arcAt mixing n m).surjective e
    exact ⟨x.1, x.2, by rw [he, bip_cost]⟩

/-- Cost ranges for which the artificial cost of the code is large enough: all costs are at most `C` in absolute value and either no cost is
negative, or some cost between points of positive weight is not negative and the tolerance is small against `C`. -/
def CostRange (eps C : R) (a : Fin n1 → R) (b : Fin n2 → R) (D : Fin n1 → Fin n2 → R) : Prop :=
  (∀ i j, |D i j| ≤ C) ∧ 0 ≤ C ∧
  ((∀ i j, 0 ≤ D i j) ∧ 8 * eps ≤ 1 ∨ (∃ i j, 0 < a i ∧ 0 < b j ∧ 0 ≤ D i j) ∧ 2 * eps * (C + 1) < 1)

theorem posIdx_length_le (w : Fin n1 → R) : (posIdx w).length ≤ n1 := by
  have := List.length_filter_le (fun i => decide (0 < w i)) (List.finRange n1)
  rwa [List.length_finRange] at this

theorem dear (a : Fin n1 → R) (b : Fin n2 → R) (D : Fin n1 → Fin n2 → R) {eps C junk : R} (heps : 0 ≤ eps) (hC : CostRange eps C a b D)
    [NeZero ((posIdx a).length + (posIdx b).length)] (mixing : Bool) (hn : 0 < (posIdx a).length) (hm : 0 < (posIdx b).length)
    {s : State (Node ((posIdx a).length + (posIdx b).length)) (Arc ((posIdx a).length + (posIdx b).length) ((posIdx a).length * (posIdx b).length)) R}
    (ho : OptimalFrom (bipProblem mixing (supp a) (supp b) (suppCost a b D)) eps junk s) :
    ∃ τ, 0 ≤ τ ∧ τ ≤ eps * (2 * (C + 1) * (n1 + n2)) ∧ TolOpt (bipProblem mixing (supp a) (supp b) (suppCost a b D)) τ s ∧
      ∀ e, (bipProblem mixing (supp a) (supp b) (suppCost a b D)).cost e + τ < (bipProblem mixing (supp a) (supp b) (suppCost a b D)).art := by
  obtain ⟨hCb, hC0, hCc⟩ := hC
  obtain ⟨mx, hmx, ⟨i0, j0, hmx0⟩, hart⟩ := bip_art mixing (supp a) (supp b) (suppCost a b D) hn hm
  have hmxC : mx ≤ C := by rw [hmx0]; exact le_trans (le_abs_self _) (hCb _ _)
  have hmx_nonneg : 0 ≤ mx := by
    rcases hCc with ⟨h, _⟩ | ⟨⟨i, j, hi, hj, hij⟩, _⟩
    · rw [hmx0]; exact h _ _
    · obtain ⟨i, rfl⟩ := List.get_of_mem ((mem_posIdx a i).2 hi)
      obtain ⟨j, rfl⟩ := List.get_of_mem ((mem_posIdx b j).2 hj)
      exact le_trans hij (hmx i j)
  set P := bipProblem mixing (supp a) (supp b) (suppCost a b D) with hP
  obtain ⟨N, hN⟩ : ∃ N : R, (((posIdx a).length + (posIdx b).length : ℕ) : R) = N := ⟨_, rfl⟩
  have hNR : (2 : R) ≤ N := by
    have : 2 ≤ (posIdx a).length + (posIdx b).length := by omega
    rw [← hN]
    exact_mod_cast this
  have hNle : N ≤ n1 + n2 := by
    have h1 := posIdx_length_le a
    have h2 := posIdx_length_le b
    have : (posIdx a).length + (posIdx b).length ≤ n1 + n2 := by omega
    rw [← hN]
    exact_mod_cast this
  rw [hN] at hart
  have hart0 : 0 ≤ P.art := by rw [hart]; positivity
  have hcost_le : ∀ e, P.cost e ≤ mx := by
    intro e
    obtain ⟨x, rfl⟩ := (arcAt mixing _ _).surjective e
    rw [hP, bip_cost]; exact hmx _ _
  have hcost_abs : ∀ e, |P.cost e| ≤ C := by
    intro e
    obtain ⟨x, rfl⟩ := (arcAt mixing _ _).surjective e
    rw [hP, bip_cost]; exact hCb _ _
  rcases hCc with ⟨hnn, h8⟩ | ⟨_, h2⟩
  · -- costs are not negative
    have habs : ∀ e, |P.cost e| ≤ mx := by
      intro e
      have h1 := hcost_le e
      obtain ⟨x, rfl⟩ := (arcAt mixing _ _).surjective e
      rw [hP, bip_cost] at h1 ⊢
      have h0 : 0 ≤ suppCost a b D x.1 x.2 := hnn _ _
      rw [abs_of_nonneg h0]
      exact h1
    have hb := ho.bound heps hmx_nonneg habs
    rw [abs_of_nonneg hart0, hN] at hb
    have hscale : max mx (P.art + N * mx) ≤ 2 * P.art := by
      rw [hart]
      refine max_le ?_ ?_ <;> nlinarith
    refine ⟨eps * (2 * P.art), by positivity, ?_, ?_, ?_⟩
    · refine mul_le_mul_of_nonneg_left ?_ heps
      rw [hart]
      have : (mx + 1) * N ≤ (C + 1) * (n1 + n2) := mul_le_mul (by linarith) hNle (by linarith) (by linarith)
      linarith
    · intro e
      have h1 := hb e
      have h3 := mul_le_mul_of_nonneg_left hscale heps
      linarith
    · intro e
      have h1 := hcost_le e
      have h3 : eps * (2 * P.art) * 8 ≤ 2 * P.art := by nlinarith
      have h4 : 2 * mx + 2 ≤ P.art := by rw [hart]; nlinarith
      linarith
  · have hb := ho.bound heps hC0 hcost_abs
    rw [abs_of_nonneg hart0, hN] at hb
    have hscale : max C (P.art + N * C) ≤ 2 * (C + 1) * N := by
      rw [hart]
      refine max_le ?_ ?_ <;> nlinarith
    refine ⟨eps * (2 * (C + 1) * N), by positivity, ?_, ?_, ?_⟩
    · refine mul_le_mul_of_nonneg_left ?_ heps
      exact mul_le_mul_of_nonneg_left hNle (by linarith)
    · intro e
      have h1 := hb e
      have h3 := mul_le_mul_of_nonneg_left hscale heps
      linarith
    · intro e
      have h1 := hcost_le e
      have h3 : eps * (2 * (C + 1) * N) < N := by nlinarith
      rw [hart]
      nlinarith

end POT.Simplex
