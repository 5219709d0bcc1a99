import Verif.Model.EmdLazy
import Verif.Lemmas.EmdSparse
import Mathlib.Tactic.Positivity

/-! # Facts about `EMD_wrap_lazy` -/

set_option linter.unusedSectionVars false

namespace POT.Simplex

open Spec Finset

/-! ### The upper bound on the costs -/

section bound
variable {R : Type*} [Field R] [LinearOrder R] [IsStrictOrderedRing R]

theorem foldl_add {d : ℕ} (f : Fin d → R) : (List.finRange d).foldl (fun c k => c + f k) 0 = ∑ k, f k := by
  rw [← List.foldl_map, ← List.sum_eq_foldl, ← List.ofFn_eq_map, List.sum_ofFn]

theorem minMax_list {ι : Type*} (f : ι → R) (l : List ι) (mm : R × R) :
    let r := l.foldl (fun (mm : R × R) i => (if f i < mm.1 then f i else mm.1, if mm.2 < f i then f i else mm.2)) mm
    r.1 ≤ mm.1 ∧ mm.2 ≤ r.2 ∧ (∀ i ∈ l, r.1 ≤ f i ∧ f i ≤ r.2) ∧
      ∀ lo hi, lo ≤ mm.1 → mm.2 ≤ hi → (∀ i ∈ l, lo ≤ f i ∧ f i ≤ hi) → lo ≤ r.1 ∧ r.2 ≤ hi := by
  induction l generalizing mm with
  | nil => exact ⟨le_rfl, le_rfl, fun i hi => absurd hi (by simp), fun lo hi h1 h2 _ => ⟨h1, h2⟩⟩
  | cons i l ih =>
    obtain ⟨h1, h2, h3, h4⟩ := ih (if f i < mm.1 then f i else mm.1, if mm.2 < f i then f i else mm.2)
    dsimp only at h1 h2 h3 h4 ⊢
    rw [List.foldl_cons]
    have e1 : (if f i < mm.1 then f i else mm.1) ≤ mm.1 ∧ (if f i < mm.1 then f i else mm.1) ≤ f i := by
      split_ifs with h
      · exact ⟨h.le, le_rfl⟩
      · exact ⟨le_rfl, not_lt.1 h⟩
    have e2 : mm.2 ≤ (if mm.2 < f i then f i else mm.2) ∧ f i ≤ (if mm.2 < f i then f i else mm.2) := by
      split_ifs with h
      · exact ⟨h.le, le_rfl⟩
      · exact ⟨le_rfl, not_lt.1 h⟩
    refine ⟨h1.trans e1.1, e2.1.trans h2, fun k hk => ?_, fun lo hi hl hh hall => ?_⟩
    · rcases List.mem_cons.1 hk with rfl | hk
      · exact ⟨h1.trans e1.2, e2.2.trans h2⟩
      · exact h3 k hk
    · have hi' := hall i (by simp)
      refine h4 lo hi ?_ ?_ fun k hk => hall k (by simp [hk])
      · split_ifs
        · exact hi'.1
        · exact hl
      · split_ifs
        · exact hi'.2
        · exact hh

variable {n m d : ℕ} (hn : 0 < n) (xa : Fin n → Fin d → R) (xb : Fin m → Fin d → R)

theorem coordRange_spec (k : Fin d) : (∀ i j, |xa i k - xb j k| ≤ coordRange hn xa xb k) ∧ 0 ≤ coordRange hn xa xb k ∧
    ∀ lo hi, (∀ i, lo ≤ xa i k ∧ xa i k ≤ hi) → (∀ j, lo ≤ xb j k ∧ xb j k ≤ hi) → coordRange hn xa xb k ≤ hi - lo := by
  obtain ⟨p1, p2, p3, p4⟩ := minMax_list (fun i => xa i k) (List.finRange n) (xa ⟨0, hn⟩ k, xa ⟨0, hn⟩ k)
  obtain ⟨q1, q2, q3, q4⟩ := minMax_list (fun j => xb j k) (List.finRange m) (minMax (fun i => xa i k) (xa ⟨0, hn⟩ k, xa ⟨0, hn⟩ k))
  unfold coordRange
  dsimp only
  unfold minMax at *
  dsimp only at *
  generalize (List.finRange n).foldl _ _ = A at *
  generalize (List.finRange m).foldl _ _ = B at *
  refine ⟨fun i j => ?_, ?_, fun lo hi ha hb => ?_⟩
  · have h1 := p3 i (List.mem_finRange i)
    have h2 := q3 j (List.mem_finRange j)
    rw [abs_le]
    constructor <;> linarith [h1.1, h1.2, h2.1, h2.2]
  · linarith
  · have h1 := p4 lo hi (ha _).1 (ha _).2 fun i _ => ha i
    have h2 := q4 lo hi h1.1 h1.2 fun j _ => hb j
    linarith [h2.1, h2.2]

end bound

theorem lazyCost_eq (μ : PointMetric) {d : ℕ} (x y : Fin d → ℝ) : lazyCost Real.sqrt μ x y = pointCost μ x y := by
  cases μ <;> simp only [lazyCost, pointCost, foldl_add, pow_two]

theorem pointCost_nonneg (μ : PointMetric) {d : ℕ} (x y : Fin d → ℝ) : 0 ≤ pointCost μ x y := by
  cases μ
  · exact sum_nonneg fun k _ => sq_nonneg _
  · exact Real.sqrt_nonneg _
  · exact sum_nonneg fun k _ => abs_nonneg _

theorem lazyUpper_spec (μ : PointMetric) {n m d : ℕ} (hn : 0 < n) (xa : Fin n → Fin d → ℝ) (xb : Fin m → Fin d → ℝ) :
    (∀ i j, pointCost μ (xa i) (xb j) ≤ lazyUpper Real.sqrt μ hn xa xb) ∧ 0 ≤ lazyUpper Real.sqrt μ hn xa xb ∧
    ∀ lo hi : Fin d → ℝ, (∀ i k, lo k ≤ xa i k ∧ xa i k ≤ hi k) → (∀ j k, lo k ≤ xb j k ∧ xb j k ≤ hi k) → lazyUpper Real.sqrt μ hn xa xb ≤ pointCost μ lo hi := by
  have h := coordRange_spec hn xa xb
  have a1 : ∀ i j, ∑ k, (xa i k - xb j k) ^ 2 ≤ ∑ k, coordRange hn xa xb k * coordRange hn xa xb k := fun i j => sum_le_sum fun k _ => by
    rw [← pow_two, ← sq_abs]
    exact pow_le_pow_left₀ (abs_nonneg _) ((h k).1 i j) 2
  have a2 : ∀ lo hi : Fin d → ℝ, (∀ i k, lo k ≤ xa i k ∧ xa i k ≤ hi k) → (∀ j k, lo k ≤ xb j k ∧ xb j k ≤ hi k) →
      ∑ k, coordRange hn xa xb k * coordRange hn xa xb k ≤ ∑ k, (lo k - hi k) ^ 2 := fun lo hi ha hb => sum_le_sum fun k _ => by
    have h1 := (h k).2.2 (lo k) (hi k) (fun i => ha i k) fun j => hb j k
    have h2 := (h k).2.1
    nlinarith
  cases μ
  · simp only [lazyUpper, pointCost, foldl_add]
    exact ⟨a1, sum_nonneg fun k _ => mul_self_nonneg _, a2⟩
  · simp only [lazyUpper, pointCost, foldl_add]
    exact ⟨fun i j => Real.sqrt_le_sqrt (a1 i j), Real.sqrt_nonneg _, fun lo hi ha hb => Real.sqrt_le_sqrt (a2 lo hi ha hb)⟩
  · simp only [lazyUpper, pointCost, foldl_add]
    refine ⟨fun i j => sum_le_sum fun k _ => (h k).1 i j, sum_nonneg fun k _ => (h k).2.1, fun lo hi ha hb => sum_le_sum fun k _ => ?_⟩
    have h1 := (h k).2.2 (lo k) (hi k) (fun i => ha i k) fun j => hb j k
    have h2 := (h k).2.1
    rw [abs_sub_comm, abs_of_nonneg (by linarith)]
    exact h1

/-! ### The network -/

section net
variable {R : Type*} [Field R] [LinearOrder R] [IsStrictOrderedRing R] {n m : ℕ} [NeZero (n + m)]

theorem arcPerm_rev {N : ℕ} (e : Fin N) : arcPerm false N (Fin.rev e) = e := by
  ext
  rw [arcPerm_val]
  simp only [arcId, Bool.false_eq_true, if_false, Fin.val_rev]
  have := e.isLt
  omega

theorem lazyProblem_eq (wa : Fin n → R) (wb : Fin m → R) (c : Fin n → Fin m → R) (ub : R) :
    lazyProblem wa wb c ub = bipNet false wa wb c ((ub + 1) * ((n + m : ℕ) : R)) := by
  unfold lazyProblem bipNet
  congr 1
  · funext e
    have h := endpoints_arcId false (fun k : Fin (n * m) => Fin.castAdd m k.divNat) (Fin.rev e)
    rw [← arcPerm_val, arcPerm_rev] at h
    exact h.symm
  · funext e
    have h := endpoints_arcId false (fun k : Fin (n * m) => Fin.natAdd n k.modNat) (Fin.rev e)
    rw [← arcPerm_val, arcPerm_rev] at h
    exact h.symm
  · funext e
    simp [nodeId, costArray]

/-- at most one arc less than there are nodes carries flow -/
theorem flow_count {P : Problem n m R} [NeZero n] {s : State (Node n) (Arc n m) R} (h : Good P s) : (univ.filter fun e : Fin m => s.flow (.inl e) ≠ 0).card ≤ n - 1 := by
  obtain ⟨L, _, hI⟩ := h
  have hpar : ∀ u, ∃ q, s.parent (some u) = some q := by
    intro u
    rcases POT.Tree.anc_iff.1 (hI.tree.root_anc (some u)) with h1 | ⟨q, h1, _⟩
    · cases h1
    · exact ⟨q, h1⟩
  -- a child of the root hangs on an artificial arc
  obtain ⟨u0, hu0⟩ : ∃ u0, s.parent (some u0) = some none := by
    obtain ⟨u0, _, hmin⟩ := exists_min_image univ (fun u : Fin n => POT.Tree.rank L s.parent (some u)) ⟨0, mem_univ _⟩
    obtain ⟨q, hq⟩ := hpar u0
    cases q with
    | none => exact ⟨u0, hq⟩
    | some w => exact absurd (POT.Tree.rank_lt hI.tree hq) (not_lt.2 (hmin w (mem_univ _)))
  have hart : ∀ e : Fin m, s.pred (some u0) ≠ .inl e := by
    intro e he
    have := hI.arc _ _ hu0
    rw [he] at this
    split_ifs at this
    · exact absurd this.2 (by simp [initNet])
    · exact absurd this.1 (by simp [initNet])
  have hsub : (univ.filter fun e : Fin m => s.flow (.inl e) ≠ 0).image (fun e => (Sum.inl e : Arc n m)) ⊆ (univ.erase u0).image fun u => s.pred (some u) := by
    intro a ha
    obtain ⟨e, he, rfl⟩ := mem_image.1 ha
    have hne := (mem_filter.1 he).2
    have ht : s.state (.inl e) = .tree := by
      by_contra hne'
      exact hne (hI.nontree _ hne').2
    obtain ⟨v, q, hv, hp⟩ := hI.treeArc _ ht
    cases v with
    | none => rw [hI.tree.root_none] at hv; cases hv
    | some u =>
      refine mem_image.2 ⟨u, mem_erase.2 ⟨fun hu => ?_, mem_univ _⟩, hp⟩
      rw [hu] at hp
      exact hart e hp
  have h1 := card_le_card hsub
  rw [card_image_of_injective _ Sum.inl_injective] at h1
  refine h1.trans (card_image_le.trans ?_)
  rw [card_erase_of_mem (mem_univ _), card_univ, Fintype.card_fin]

end net

/-! ### Results -/

section result
variable {R : Type*} [Field R] [LinearOrder R] [IsStrictOrderedRing R] {n1 n2 : ℕ}

/-- the artificial cost computed from an upper bound of the costs is large enough -/
theorem lazy_dear (a : Fin n1 → R) (b : Fin n2 → R) (D : Fin n1 → Fin n2 → R) {eps C ub junk : R} (heps : 0 ≤ eps) (h8 : 8 * eps ≤ 1)
    [NeZero ((posIdx a).length + (posIdx b).length)] (mixing : Bool) (hn : 0 < (posIdx a).length) (hm : 0 < (posIdx b).length)
    (hD0 : ∀ i j, 0 ≤ D i j) (hub : ∀ i j, suppCost a b D i j ≤ ub) (hubC : ub ≤ C)
    {s : State (Node ((posIdx a).length + (posIdx b).length)) (Arc ((posIdx a).length + (posIdx b).length) ((posIdx a).length * (posIdx b).length)) R}
    (ho : OptimalFrom (bipNet mixing (supp a) (supp b) (suppCost a b D) ((ub + 1) * (((posIdx a).length + (posIdx b).length : ℕ) : R))) eps junk s) :
    ∃ τ, 0 ≤ τ ∧ τ ≤ eps * (2 * (C + 1) * (n1 + n2)) ∧
      TolOpt (bipNet mixing (supp a) (supp b) (suppCost a b D) ((ub + 1) * (((posIdx a).length + (posIdx b).length : ℕ) : R))) τ s ∧
      ∀ e, (bipNet mixing (supp a) (supp b) (suppCost a b D) ((ub + 1) * (((posIdx a).length + (posIdx b).length : ℕ) : R))).cost e + τ
        < (ub + 1) * (((posIdx a).length + (posIdx b).length : ℕ) : R) := by
  have hub0 : 0 ≤ ub := le_trans (hD0 _ _) (hub ⟨0, hn⟩ ⟨0, hm⟩)
  obtain ⟨N, hN⟩ : ∃ N : R, (((posIdx a).length + (posIdx b).length : ℕ) : R) = N := ⟨_, rfl⟩
  have hNR : (2 : R) ≤ N := by
    have : 2 ≤ (posIdx a).length + (posIdx b).length := by omega
    rw [← hN]
    exact_mod_cast this
  have hNle : N ≤ n1 + n2 := by
    have h1 := posIdx_length_le a
    have h2 := posIdx_length_le b
    have : (posIdx a).length + (posIdx b).length ≤ n1 + n2 := by omega
    rw [← hN]
    exact_mod_cast this
  obtain ⟨P, hP⟩ : ∃ P, P = bipNet mixing (supp a) (supp b) (suppCost a b D) ((ub + 1) * (((posIdx a).length + (posIdx b).length : ℕ) : R)) := ⟨_, rfl⟩
  have hart : P.art = (ub + 1) * N := by rw [hP, ← hN]; rfl
  have hcost : ∀ e, 0 ≤ P.cost e ∧ P.cost e ≤ ub := by
    intro e
    obtain ⟨x, rfl⟩ := (arcAt mixing _ _).surjective e
    rw [hP, bip_cost]; exact ⟨hD0 _ _, hub _ _⟩
  rw [← hP] at ho ⊢
  rw [hN, ← hart]
  have hart0 : 0 ≤ P.art := by rw [hart]; positivity
  have hb := ho.bound heps hub0 fun e => by rw [abs_of_nonneg (hcost e).1]; exact (hcost e).2
  rw [abs_of_nonneg hart0, hN] at hb
  have hscale : max ub (P.art + N * ub) ≤ 2 * P.art := by
    rw [hart]
    refine max_le ?_ ?_ <;> nlinarith
  refine ⟨eps * (2 * P.art), by positivity, ?_, ?_, ?_⟩
  · refine mul_le_mul_of_nonneg_left ?_ heps
    rw [hart]
    have : (ub + 1) * N ≤ (C + 1) * (n1 + n2) := mul_le_mul (by linarith) hNle (by linarith) (by linarith)
    linarith
  · intro e
    have h1 := hb e
    have h3 := mul_le_mul_of_nonneg_left hscale heps
    linarith
  · intro e
    have h1 := (hcost e).2
    have h3 : eps * (2 * P.art) * 8 ≤ 2 * P.art := by nlinarith
    have h4 : 2 * ub + 2 ≤ P.art := by rw [hart]; nlinarith
    linarith

/-- the arrays of a sparse result, with the listed flows as a matrix -/
def SparseResult.dense (r : SparseResult n1 n2 R) : WrapResult n1 n2 R := ⟨r.status, cooEntry r.flows, r.alpha, r.beta, r.cost⟩

variable {d : ℕ} (sqrt : R → R) (μ : PointMetric) (a : Fin n1 → R) (b : Fin n2 → R) (xa : Fin n1 → Fin d → R) (xb : Fin n2 → Fin d → R)

/-- costs between the points -/
def lazyD : Fin n1 → Fin n2 → R := fun x y => lazyCost sqrt μ (xa x) (xb y)

/-- the upper bound computed from the points of positive weight -/
def lazyUb (hn : 0 < (posIdx a).length) : R := lazyUpper sqrt μ hn (fun i => xa ((posIdx a).get i)) fun j => xb ((posIdx b).get j)

/-- the cost of the artificial arcs -/
def lazyArt (hn : 0 < (posIdx a).length) : R := (lazyUb sqrt μ a b xa xb hn + 1) * (((posIdx a).length + (posIdx b).length : ℕ) : R)

/-- What the statuses mean. -/
def LazyPost (hn : 0 < (posIdx a).length) [NeZero ((posIdx a).length + (posIdx b).length)] (junk eps feps : R) (maxIter : ℕ) (res : SparseResult n1 n2 R) : Prop :=
  match res.status with
  | .infeasible => feps < |∑ i, supp a i - ∑ j, supp b j| ∨
      ∃ s, OptimalFrom (bipNet false (supp a) (supp b) (suppCost a b (lazyD sqrt μ xa xb)) (lazyArt sqrt μ a b xa xb hn)) eps junk s ∧ ∃ u, feps < s.flow (.inr u)
  | .optimal => |∑ i, supp a i - ∑ j, supp b j| ≤ feps ∧ res.flows.length ≤ n1 + n2 - 1 ∧
      ∃ s, OptimalFrom (bipNet false (supp a) (supp b) (suppCost a b (lazyD sqrt μ xa xb)) (lazyArt sqrt μ a b xa xb hn)) eps junk s ∧ (∀ u, s.flow (.inr u) ≤ feps) ∧
        WrapFromA (lazyArt sqrt μ a b xa xb hn) a b (lazyD sqrt μ xa xb) false s res.dense
  | .maxIter => 0 < maxIter ∧ |∑ i, supp a i - ∑ j, supp b j| ≤ feps ∧ res.flows.length ≤ n1 + n2 - 1 ∧
      ∃ s, WrapFromA (lazyArt sqrt μ a b xa xb hn) a b (lazyD sqrt μ xa xb) false s res.dense
  | .unbounded => False

theorem lazy_spec (hn : 0 < (posIdx a).length) (hm : 0 < (posIdx b).length) [hne : NeZero ((posIdx a).length + (posIdx b).length)] (junk eps feps : R) (heps : 0 ≤ eps) (hfeps : 0 ≤ feps)
    (bs maxIter turns : ℕ) (arcs : ∀ N, List (Fin N)) :
    (∀ res, emdWrapLazy sqrt μ a b xa xb junk eps feps bs maxIter turns (n1 + n2) arcs = some res → LazyPost sqrt μ a b xa xb hn junk eps feps maxIter res) ∧
    (2 ^ (n1 * n2 + (n1 + n2)) < turns → (emdWrapLazy sqrt μ a b xa xb junk eps feps bs maxIter turns (n1 + n2) arcs).isSome) := by
  unfold emdWrapLazy
  dsimp only
  rw [dif_pos ⟨hn, hm⟩]
  obtain ⟨P, hP⟩ : ∃ P, P = bipNet false (supp a) (supp b) (suppCost a b (lazyD sqrt μ xa xb)) (lazyArt sqrt μ a b xa xb hn) := ⟨_, rfl⟩
  have hPeq : lazyProblem (fun i => a ((posIdx a).get i)) (fun j => b ((posIdx b).get j)) (fun i j => lazyCost sqrt μ (xa ((posIdx a).get i)) (xb ((posIdx b).get j)))
      (lazyUpper sqrt μ hn (fun i => xa ((posIdx a).get i)) fun j => xb ((posIdx b).get j)) = P := by rw [lazyProblem_eq, hP]; rfl
  rw [hPeq]
  obtain ⟨hspec, hsome⟩ := run_spec P junk eps feps heps hfeps bs maxIter turns (arcs _)
  have hsum : ∑ u, P.supply u = ∑ i, supp a i - ∑ j, supp b j := by rw [hP, bip_supply_sum]
  have hbip : Bipartite P := by rw [hP]; exact bip_bipartite _ _ _ _ (supp_pos a) (supp_pos b)
  have hla := posIdx_length_le a
  have hlb := posIdx_length_le b
  constructor
  · intro res hres
    cases hrun : run P junk eps feps bs maxIter turns (arcs _) with
    | none => rw [hrun] at hres; cases hres
    | some sol =>
      rw [hrun] at hres
      dsimp only at hres
      have hpost := hspec sol hrun
      have hext : ∀ s : State _ _ R, Good P s → (∀ i, sol.flow (.inl i) = s.flow (.inl i)) → sol.pi = shiftPotentials s.pi → ∃ e : R × List (Fin n1 × Fin n2 × R),
          extractSparse false (posIdx a) (posIdx b) ((posIdx a).length * (posIdx b).length) (fun k => k.divNat) (fun k => k.modNat)
            (fun k => lazyCost sqrt μ (xa ((posIdx a).get k.divNat)) (xb ((posIdx b).get k.modNat))) (fun k => sol.flow (.inl k)) 0 (n1 + n2) = some e ∧ e.2.length ≤ n1 + n2 - 1 ∧
          WrapFromA (lazyArt sqrt μ a b xa xb hn) a b (lazyD sqrt μ xa xb) false s (SparseResult.dense ⟨sol.status, e.2,
            scatter (posIdx a) fun i => -sol.pi (some (nodeId (Fin.castAdd _ i))), scatter (posIdx b) fun j => sol.pi (some (nodeId (Fin.natAdd _ j))), e.1⟩) := by
        intro s hg hfl hpi
        have hcnt : ((List.finRange ((posIdx a).length * (posIdx b).length)).filter fun k => 0 < sol.flow (.inl (arcPerm false _ k))).length ≤ n1 + n2 - 1 := by
          have h1 := flow_count hg
          have h2 : ((List.finRange ((posIdx a).length * (posIdx b).length)).filter fun k => 0 < sol.flow (.inl (arcPerm false _ k))).length
              = (univ.filter fun k : Fin ((posIdx a).length * (posIdx b).length) => 0 < sol.flow (.inl (arcPerm false _ k))).card := by
            rw [← List.toFinset_card_of_nodup ((List.nodup_finRange _).filter _)]
            congr 1
            ext k; simp
          rw [h2]
          have h3 : (univ.filter fun k : Fin ((posIdx a).length * (posIdx b).length) => 0 < sol.flow (.inl (arcPerm false _ k))).card
              ≤ (univ.filter fun e => s.flow (.inl e) ≠ 0).card := by
            refine card_le_card_of_injOn (fun k => arcPerm false _ k) (fun k hk => ?_) ((arcPerm false _).injective.injOn)
            have := (mem_filter.1 hk).2
            rw [hfl] at this
            exact mem_filter.2 ⟨mem_univ _, this.ne'⟩
          omega
        obtain ⟨e, he, e1, e2, e3⟩ := extractSparse_spec false (posIdx a) (posIdx b) ((posIdx a).length * (posIdx b).length) (fun k => k.divNat) (fun k => k.modNat)
          (fun k => lazyCost sqrt μ (xa ((posIdx a).get k.divNat)) (xb ((posIdx b).get k.modNat))) (fun k => sol.flow (.inl k)) 0 (n1 + n2) (hcnt.trans (Nat.sub_le _ _))
        have hnn : ∀ k, 0 ≤ sol.flow (.inl k) := fun k => by rw [hfl]; exact art_nonneg hg _
        have hent : ∀ x y, cooEntry e.2 x y = ∑ i, ∑ j, if (posIdx a).get i = x ∧ (posIdx b).get j = y then planOf false _ _ s.flow i j else 0 := by
          intro x y
          rw [e3, ← Equiv.sum_comp finProdFinEquiv, Fintype.sum_prod_type]
          refine sum_congr rfl fun i _ => sum_congr rfl fun j _ => ?_
          rw [finProd_divNat, finProd_modNat]
          have hpl : sol.flow (.inl (arcPerm false _ (finProdFinEquiv (i, j)))) = planOf false _ _ s.flow i j := by rw [hfl]; rfl
          rw [hpl]
          have hp0 : 0 ≤ planOf false _ _ s.flow i j := by rw [← hpl]; exact hnn _
          by_cases h1 : (posIdx a).get i = x ∧ (posIdx b).get j = y
          · rw [if_pos h1]
            by_cases h2 : 0 < planOf false _ _ s.flow i j
            · rw [if_pos ⟨h1.1, h1.2, h2⟩]
            · rw [if_neg fun h => h2 h.2.2]; exact le_antisymm hp0 (not_lt.1 h2)
          · rw [if_neg h1, if_neg fun h => h1 ⟨h.1, h.2.1⟩]
        have ija := List.nodup_iff_injective_get.1 (posIdx_nodup a)
        have ijb := List.nodup_iff_injective_get.1 (posIdx_nodup b)
        refine ⟨e, he, e2 ▸ hcnt, hP ▸ hg.soft, fun i j => ?_, fun x y hxy => ?_, ?_, fun i => ?_, fun j => ?_, fun x hx => ?_, fun y hy => ?_⟩
        · refine (hent _ _).trans ?_
          rw [sum_eq_single i, sum_eq_single j, if_pos ⟨rfl, rfl⟩]
          · intro j' _ hj'; rw [if_neg fun h => hj' (ijb h.2)]
          · intro h; exact absurd (mem_univ _) h
          · intro i' _ hi'
            exact sum_eq_zero fun j' _ => if_neg fun h => hi' (ija h.1)
          · intro h; exact absurd (mem_univ _) h
        · refine (hent x y).trans ?_
          refine sum_eq_zero fun i _ => sum_eq_zero fun j _ => if_neg ?_
          rintro ⟨rfl, rfl⟩
          rcases hxy with h | h
          · exact h (posIdx_pos a i)
          · exact h (posIdx_pos b j)
        · refine e1.trans ?_
          rw [← Equiv.sum_comp finProdFinEquiv, Fintype.sum_prod_type]
          refine sum_congr rfl fun i _ => sum_congr rfl fun j _ => ?_
          rw [finProd_divNat, finProd_modNat, hfl]; rfl
        · refine (scatter_get _ (posIdx_nodup a) _ i).trans ?_
          rw [hpi]; rfl
        · refine (scatter_get _ (posIdx_nodup b) _ j).trans ?_
          rw [hpi]; rfl
        · exact scatter_notMem _ _ _ (by rw [mem_posIdx]; exact hx)
        · exact scatter_notMem _ _ _ (by rw [mem_posIdx]; exact hy)
      unfold RunPost at hpost
      unfold LazyPost
      cases hst : sol.status with
      | infeasible =>
        rw [hst] at hpost hres
        rw [if_neg (by decide)] at hres
        cases hres
        dsimp only at hpost ⊢
        rw [hsum] at hpost
        rw [← hP]
        exact hpost
      | unbounded =>
        rw [hst] at hpost
        exact absurd hbip hpost
      | optimal =>
        rw [hst] at hpost hres
        rw [if_pos (Or.inl rfl)] at hres
        dsimp only at hpost
        rw [hsum] at hpost
        obtain ⟨h1, s, h2, h3, h4, h5⟩ := hpost
        obtain ⟨e, he, hl, hw⟩ := hext s h2.good h4 h5
        rw [he] at hres
        cases hres
        dsimp only
        rw [hst] at hw
        rw [← hP]
        exact ⟨h1, hl, s, h2, h3, hw⟩
      | maxIter =>
        rw [hst] at hpost hres
        rw [if_pos (Or.inr rfl)] at hres
        dsimp only at hpost
        rw [hsum] at hpost
        obtain ⟨h0, h1, s, h2, h4, h5⟩ := hpost
        obtain ⟨e, he, hl, hw⟩ := hext s h2 h4 h5
        rw [he] at hres
        cases hres
        dsimp only
        rw [hst] at hw
        exact ⟨h0, h1, hl, s, hw⟩
  · intro ht
    have hlt : 2 ^ ((posIdx a).length * (posIdx b).length + ((posIdx a).length + (posIdx b).length)) < turns := by
      refine lt_of_le_of_lt (Nat.pow_le_pow_right (by decide) ?_) ht
      have := Nat.mul_le_mul hla hlb
      omega
    obtain ⟨sol, hsol⟩ := Option.isSome_iff_exists.1 (hsome hlt)
    rw [hsol]
    dsimp only
    split_ifs
    · split <;> rfl
    · rfl

end result

end POT.Simplex
