import Verif.Props.Simplex
import Verif.Props.LpDual
import Verif.Model.EmdPy

/-! # C62: `ot.emd` end to end

The whole call on a dense matrix: check and rescale the weights, drop zero weights, run the network simplex, embed the plan, centre and repair the
potentials. -/

set_option linter.unusedSectionVars false

namespace POT.Props

open Spec Simplex LpDual EmdPy Finset

variable {R : Type*} [Field R] [LinearOrder R] [IsStrictOrderedRing R] {n1 n2 : ℕ}

theorem nzIdx_eq {n : ℕ} {w : Fin n → R} (hw : ∀ i, 0 ≤ w i) : nzIdx w = posIdx w := by
  unfold nzIdx posIdx
  refine List.filter_congr fun i _ => ?_
  rw [decide_eq_decide]
  exact ⟨fun h => lt_of_le_of_ne (hw i) (Ne.symm h), fun h => h.ne'⟩

theorem repair_tol [NeZero n1] [NeZero n2] (α : Fin n1 → R) (β : Fin n2 → R) (a : Fin n1 → R) (b : Fin n2 → R) (M : Fin n1 → Fin n2 → R) {τ : R} (hτ : 0 ≤ τ)
    (h : ∀ i j, a i ≠ 0 → b j ≠ 0 → α i + β j ≤ M i j + τ) (i : Fin n1) (j : Fin n2) :
    (estimateDualNullWeights α β a b M).1 i + (estimateDualNullWeights α β a b M).2 j ≤ M i j + τ := by
  unfold estimateDualNullWeights
  simp only
  rw [C16_center_sums]
  have h1 : α i + β j - M i j ≤ univ.sup' univ_nonempty fun j => α i + β j - M i j := le_sup' (fun j => α i + β j - M i j) (mem_univ j)
  have h2 : α i + β j - M i j ≤ univ.sup' univ_nonempty fun i => α i + β j - M i j := le_sup' (fun i => α i + β j - M i j) (mem_univ i)
  have m1 := le_max_left (univ.sup' univ_nonempty fun j => α i + β j - M i j) 0
  have m2 := le_max_left (univ.sup' univ_nonempty fun i => α i + β j - M i j) 0
  have p1 := le_max_right (univ.sup' univ_nonempty fun j => α i + β j - M i j) 0
  have p2 := le_max_right (univ.sup' univ_nonempty fun i => α i + β j - M i j) 0
  split_ifs with ha hb hb
  · have := h i j ha hb; linarith
  · linarith
  · linarith
  · linarith

/-- the sum over all indices reduces to the kept ones -/
theorem sum_kept {n : ℕ} {w : Fin n → R} (hw : ∀ i, 0 ≤ w i) (F : Fin n → R) (h : ∀ x, w x = 0 → F x = 0) :
    ∑ x, F x = ∑ i : Fin (posIdx w).length, F ((posIdx w).get i) :=
  sum_posIdx w F fun x hx => h x (le_antisymm (not_lt.1 hx) (hw x))

theorem exists_get {n : ℕ} {w : Fin n → R} (hw : ∀ i, 0 ≤ w i) (i : Fin n) (hi : w i ≠ 0) : ∃ r, (posIdx w).get r = i := by
  have : i ∈ posIdx w := (mem_posIdx w i).2 (lt_of_le_of_ne (hw i) (Ne.symm hi))
  exact List.mem_iff_get.1 this

theorem notMem_of_zero {n : ℕ} {w : Fin n → R} {i : Fin n} (hi : w i = 0) : i ∉ posIdx w := by
  rw [mem_posIdx, hi]; exact lt_irrefl _

section embed
variable {a : Fin n1 → R} {b : Fin n2 → R} (ha : ∀ i, 0 ≤ a i) (hb : ∀ j, 0 ≤ b j) {M : Fin n1 → Fin n2 → R}

theorem scatterM_get (G : Fin (posIdx a).length → Fin (posIdx b).length → R) (r : Fin (posIdx a).length) (c : Fin (posIdx b).length) :
    scatterM (posIdx a) (posIdx b) G ((posIdx a).get r) ((posIdx b).get c) = G r c := by
  unfold scatterM
  rw [scatter_get _ (posIdx_nodup a), scatter_get _ (posIdx_nodup b)]

theorem scatterM_zero (G : Fin (posIdx a).length → Fin (posIdx b).length → R) (i : Fin n1) (j : Fin n2) (h : a i = 0 ∨ b j = 0) :
    scatterM (posIdx a) (posIdx b) G i j = 0 := by
  unfold scatterM
  rcases h with h | h
  · exact scatter_notMem _ _ _ (notMem_of_zero h)
  · by_cases hi : i ∈ posIdx a
    · obtain ⟨r, rfl⟩ := List.mem_iff_get.1 hi
      rw [scatter_get _ (posIdx_nodup a), scatter_notMem _ _ _ (notMem_of_zero h)]
    · exact scatter_notMem _ _ _ hi

include ha hb

theorem scatterM_row (G : Fin (posIdx a).length → Fin (posIdx b).length → R) (r : Fin (posIdx a).length) :
    ∑ j, scatterM (posIdx a) (posIdx b) G ((posIdx a).get r) j = ∑ c, G r c := by
  rw [sum_kept hb _ fun j hj => scatterM_zero G _ j (Or.inr hj)]
  simp only [scatterM_get]

theorem scatterM_coupling {G : Fin (posIdx a).length → Fin (posIdx b).length → R}
    (hG : IsCoupling (fun r => a ((posIdx a).get r)) (fun c => b ((posIdx b).get c)) G) : IsCoupling a b (scatterM (posIdx a) (posIdx b) G) := by
  refine ⟨fun i j => ?_, fun i => ?_, fun j => ?_⟩
  · by_cases hi : a i = 0
    · rw [scatterM_zero G i j (Or.inl hi)]
    · by_cases hj : b j = 0
      · rw [scatterM_zero G i j (Or.inr hj)]
      · obtain ⟨r, rfl⟩ := exists_get ha i hi
        obtain ⟨c, rfl⟩ := exists_get hb j hj
        rw [scatterM_get]; exact hG.nonneg r c
  · by_cases hi : a i = 0
    · rw [hi]; exact sum_eq_zero fun j _ => scatterM_zero G i j (Or.inl hi)
    · obtain ⟨r, rfl⟩ := exists_get ha i hi
      rw [scatterM_row ha hb, hG.row]
  · by_cases hj : b j = 0
    · rw [hj]; exact sum_eq_zero fun i _ => scatterM_zero G i j (Or.inr hj)
    · obtain ⟨c, rfl⟩ := exists_get hb j hj
      rw [sum_kept ha _ fun i hi => scatterM_zero G i _ (Or.inl hi)]
      simp only [scatterM_get]
      exact hG.col c

theorem scatterM_cost (G : Fin (posIdx a).length → Fin (posIdx b).length → R) :
    cost M (scatterM (posIdx a) (posIdx b) G) = cost (fun r c => M ((posIdx a).get r) ((posIdx b).get c)) G := by
  unfold cost
  rw [sum_kept ha _ fun i hi => sum_eq_zero fun j _ => by rw [scatterM_zero G i j (Or.inl hi), zero_mul]]
  refine sum_congr rfl fun r _ => ?_
  rw [sum_kept hb _ fun j hj => by rw [scatterM_zero G _ j (Or.inr hj), zero_mul]]
  simp only [scatterM_get]

theorem restrict_coupling {G : Fin n1 → Fin n2 → R} (hG : IsCoupling a b G) :
    IsCoupling (fun r => a ((posIdx a).get r)) (fun c => b ((posIdx b).get c)) (fun r c => G ((posIdx a).get r) ((posIdx b).get c)) := by
  have hz : ∀ i j, a i = 0 ∨ b j = 0 → G i j = 0 := fun i j h => coupling_zero hG h
  refine ⟨fun r c => hG.nonneg _ _, fun r => ?_, fun c => ?_⟩
  · have := sum_kept hb (fun j => G ((posIdx a).get r) j) fun j hj => hz _ j (Or.inr hj)
    rw [← this, hG.row]
  · have := sum_kept ha (fun i => G i ((posIdx b).get c)) fun i hi => hz i _ (Or.inl hi)
    rw [← this, hG.col]

theorem restrict_cost {G : Fin n1 → Fin n2 → R} (hG : IsCoupling a b G) :
    cost (fun r c => M ((posIdx a).get r) ((posIdx b).get c)) (fun r c => G ((posIdx a).get r) ((posIdx b).get c)) = cost M G := by
  have hz : ∀ i j, a i = 0 ∨ b j = 0 → G i j = 0 := fun i j h => coupling_zero hG h
  unfold cost
  rw [sum_kept ha (fun i => ∑ j, G i j * M i j) fun i hi => sum_eq_zero fun j _ => by rw [hz i j (Or.inl hi), zero_mul]]
  refine sum_congr rfl fun r _ => ?_
  rw [sum_kept hb (fun j => G ((posIdx a).get r) j * M ((posIdx a).get r) j) fun j hj => by rw [hz _ j (Or.inr hj), zero_mul]]

theorem scatter_dual (u : Fin (posIdx a).length → R) (v : Fin (posIdx b).length → R) :
    dualValue a b (scatter (posIdx a) u) (scatter (posIdx b) v) = dualValue (fun r => a ((posIdx a).get r)) (fun c => b ((posIdx b).get c)) u v := by
  unfold dualValue
  congr 1
  · rw [sum_kept ha _ fun i hi => by rw [hi, mul_zero]]
    simp only [scatter_get _ (posIdx_nodup a)]
  · rw [sum_kept hb _ fun j hj => by rw [hj, mul_zero]]
    simp only [scatter_get _ (posIdx_nodup b)]

end embed

/-- What a user gets from a successful call on weights `a`, `b` of equal mass. -/
structure Certified (τ : R) (a : Fin n1 → R) (b : Fin n2 → R) (M : Fin n1 → Fin n2 → R) (r : EmdOut n1 n2 R) : Prop where
  /-- the plan is a coupling, and optimal up to `τ` per unit of mass -/
  optimal : IsEpsOptimal (τ * ∑ i, a i) a b M r.G
  /-- the potentials satisfy all constraints up to `τ`, also at points of weight zero -/
  feasible : ∀ i j, r.u i + r.v j ≤ M i j + τ
  /-- the reported cost is the cost of the plan -/
  cost_eq : r.cost = cost M r.G
  /-- it equals the value of the potentials -/
  value_eq : r.cost = dualValue a b r.u r.v

/-- before centring and repairing -/
structure Raw (τ : R) (a : Fin n1 → R) (b : Fin n2 → R) (M : Fin n1 → Fin n2 → R) (r : EmdOut n1 n2 R) : Prop where
  optimal : IsEpsOptimal (τ * ∑ i, a i) a b M r.G
  feasible : ∀ i j, a i ≠ 0 → b j ≠ 0 → r.u i + r.v j ≤ M i j + τ
  cost_eq : r.cost = cost M r.G
  value_eq : r.cost = dualValue a b r.u r.v

theorem costRange_sub {a : Fin n1 → R} {b : Fin n2 → R} {M : Fin n1 → Fin n2 → R} {eps C : R} (ha : ∀ i, 0 ≤ a i) (hb : ∀ j, 0 ≤ b j)
    (hC : CostRange eps C a b M) :
    CostRange eps C (fun r => a ((posIdx a).get r)) (fun c => b ((posIdx b).get c)) (fun r c => M ((posIdx a).get r) ((posIdx b).get c)) := by
  obtain ⟨h1, h2, h3⟩ := hC
  refine ⟨fun r c => h1 _ _, h2, ?_⟩
  rcases h3 with h3 | ⟨⟨i, j, hi, hj, hij⟩, h4⟩
  · exact Or.inl ⟨fun r c => h3.1 _ _, h3.2⟩
  · obtain ⟨r, rfl⟩ := exists_get ha i hi.ne'
    obtain ⟨c, rfl⟩ := exists_get hb j hj.ne'
    exact Or.inr ⟨⟨r, c, hi, hj, hij⟩, h4⟩

theorem solveDense_spec [NeZero n1] [NeZero n2] (centerDual : Bool) {a : Fin n1 → R} {b : Fin n2 → R} {M : Fin n1 → Fin n2 → R} {junk eps feps C : R}
    (heps : 0 ≤ eps) (hfeps : 0 ≤ feps) (hC : CostRange eps C a b M) (ha : ∀ i, 0 ≤ a i) (hb : ∀ j, 0 ≤ b j) (hpos : 0 < ∑ i, a i)
    (hsum : ∑ i, a i = ∑ j, b j) (bs maxIter turns : ℕ) (arcs : ∀ N, List (Fin N)) :
    (∀ r, solveDense centerDual a b M junk eps feps bs maxIter turns arcs = some r →
      (r.status = .optimal → Certified (eps * (2 * (C + 1) * (n1 + n2))) a b M r ∧
        ((centerDual = true ∨ (∃ i, a i = 0) ∨ ∃ j, b j = 0) → ∑ i, a i * r.u i = ∑ j, b j * r.v j)) ∧
      (r.status = .optimal ∨ r.status = .maxIter ∧ 0 < maxIter) ∧ (r.status = .maxIter → IsPartial a b r.G ∧ r.cost = cost M r.G)) ∧
    (2 ^ (n1 * n2 + (n1 + n2)) < turns → (solveDense centerDual a b M junk eps feps bs maxIter turns arcs).isSome) := by
  obtain ⟨τ, hτ⟩ : ∃ τ, τ = eps * (2 * (C + 1) * (n1 + n2)) := ⟨_, rfl⟩
  have hC0 : 0 ≤ C := hC.2.1
  have hτ0 : 0 ≤ τ := by rw [hτ]; positivity
  have hden : ∑ i, a i + ∑ j, b j ≠ 0 := by rw [← hsum]; linarith
  -- from the raw result to the final one
  have post : ∀ o : EmdOut n1 n2 R, Raw τ a b M o →
      let uv := if centerDual then centerOtDual o.u o.v a b else (o.u, o.v)
      let uv' := if (∃ i, a i = 0) ∨ ∃ j, b j = 0 then estimateDualNullWeights uv.1 uv.2 a b M else uv
      Certified τ a b M { o with u := uv'.1, v := uv'.2 } ∧
        ((centerDual = true ∨ (∃ i, a i = 0) ∨ ∃ j, b j = 0) → ∑ i, a i * uv'.1 i = ∑ j, b j * uv'.2 j) := by
    intro o ho uv uv'
    have h1 : (∀ i j, uv.1 i + uv.2 j = o.u i + o.v j) ∧ dualValue a b uv.1 uv.2 = dualValue a b o.u o.v ∧
        (centerDual = true → ∑ i, a i * uv.1 i = ∑ j, b j * uv.2 j) := by
      by_cases hc : centerDual = true
      · have e : uv = centerOtDual o.u o.v a b := if_pos hc
        rw [e]
        exact ⟨fun i j => C16_center_sums _ _ _ _ i j, C16_center_value _ _ _ _ hsum, fun _ => C16_center_balanced _ _ _ _ hden⟩
      · have e : uv = (o.u, o.v) := if_neg hc
        rw [e]
        exact ⟨fun i j => rfl, rfl, fun h => absurd h hc⟩
    have h2 : (∀ i j, uv'.1 i + uv'.2 j ≤ M i j + τ) ∧ dualValue a b uv'.1 uv'.2 = dualValue a b o.u o.v ∧
        ((centerDual = true ∨ (∃ i, a i = 0) ∨ ∃ j, b j = 0) → ∑ i, a i * uv'.1 i = ∑ j, b j * uv'.2 j) := by
      by_cases hz : (∃ i, a i = 0) ∨ ∃ j, b j = 0
      · have e : uv' = estimateDualNullWeights uv.1 uv.2 a b M := if_pos hz
        rw [e]
        refine ⟨repair_tol _ _ _ _ _ hτ0 fun i j hi hj => ?_, ?_, fun _ => ?_⟩
        · rw [h1.1]; exact ho.feasible i j hi hj
        · rw [C17_repair_value _ _ _ _ _ hsum, h1.2.1]
        · unfold estimateDualNullWeights
          exact C16_center_balanced _ _ _ _ hden
      · have e : uv' = uv := if_neg hz
        rw [e]
        push Not at hz
        refine ⟨fun i j => ?_, h1.2.1, fun h => ?_⟩
        · rw [h1.1]; exact ho.feasible i j (hz.1 i) (hz.2 j)
        · rcases h with h | ⟨i, hi⟩ | ⟨j, hj⟩
          · exact h1.2.2 h
          · exact absurd hi (hz.1 i)
          · exact absurd hj (hz.2 j)
    exact ⟨⟨ho.optimal, h2.1, ho.cost_eq, by rw [ho.value_eq]; exact h2.2.1.symm⟩, h2.2.2⟩
  unfold solveDense
  dsimp only
  rw [nzIdx_eq ha, nzIdx_eq hb]
  by_cases hz : (∃ i, a i = 0) ∨ ∃ j, b j = 0
  · simp only [if_pos hz] at post ⊢
    obtain ⟨sa, hsa⟩ : ∃ sa : Fin (posIdx a).length → R, sa = fun r => a ((posIdx a).get r) := ⟨_, rfl⟩
    obtain ⟨sb, hsb⟩ : ∃ sb : Fin (posIdx b).length → R, sb = fun c => b ((posIdx b).get c) := ⟨_, rfl⟩
    obtain ⟨sM, hsM⟩ : ∃ sM : Fin (posIdx a).length → Fin (posIdx b).length → R, sM = fun r c => M ((posIdx a).get r) ((posIdx b).get c) := ⟨_, rfl⟩
    have hCs := costRange_sub ha hb hC
    have e1 : ∑ r, sa r = ∑ i, a i := by rw [hsa]; exact (sum_kept ha a fun _ h => h).symm
    have e2 : ∑ r, sb r = ∑ j, b j := by rw [hsb]; exact (sum_kept hb b fun _ h => h).symm
    have hsa0 : ∀ r, 0 ≤ sa r := fun r => by rw [hsa]; exact ha _
    have hsb0 : ∀ r, 0 ≤ sb r := fun r => by rw [hsb]; exact hb _
    rw [← hsa, ← hsb, ← hsM] at hCs ⊢
    have hl1 := posIdx_length_le a
    have hl2 := posIdx_length_le b
    refine ⟨fun r hr => ?_, fun ht => ?_⟩
    · obtain ⟨o, ho, rfl⟩ := Option.map_eq_some_iff.1 hr
      obtain ⟨w, hw, rfl⟩ := Option.map_eq_some_iff.1 ho
      refine ⟨fun hst => ?_, ?_, fun hst => ?_⟩
      · have hst' : w.status = .optimal := hst
        obtain ⟨q1, q2, _, q4, q5⟩ := C06_optimal_and_certified heps hfeps hCs (by rw [e1, e2, hsum]) hw hst'
        have hle : eps * (2 * (C + 1) * ((posIdx a).length + (posIdx b).length)) ≤ τ := by
          rw [hτ]
          have l1 : ((posIdx a).length : R) ≤ n1 := by exact_mod_cast hl1
          have l2 : ((posIdx b).length : R) ≤ n2 := by exact_mod_cast hl2
          gcongr
        rw [← hτ]
        refine post _ ⟨⟨?_, fun G' hG' => ?_⟩, fun i j hi hj => ?_, ?_, ?_⟩
        · rw [hsa, hsb] at q1; exact scatterM_coupling ha hb q1.1
        · have := q1.2 _ (by rw [hsa, hsb]; exact restrict_coupling ha hb hG')
          rw [hsM, restrict_cost ha hb hG', e1] at this
          dsimp only
          rw [scatterM_cost ha hb]
          have hm := mul_le_mul_of_nonneg_right hle hpos.le
          linarith
        · obtain ⟨r, rfl⟩ := exists_get ha i hi
          obtain ⟨c, rfl⟩ := exists_get hb j hj
          dsimp only
          rw [scatter_get _ (posIdx_nodup a), scatter_get _ (posIdx_nodup b)]
          have := q2 r c (by rw [hsa]; exact lt_of_le_of_ne (ha _) (Ne.symm hi)) (by rw [hsb]; exact lt_of_le_of_ne (hb _) (Ne.symm hj))
          rw [hsM] at this
          dsimp only at this
          linarith
        · dsimp only
          rw [q4, scatterM_cost ha hb, hsM]
        · dsimp only
          rw [q5, scatter_dual ha hb, hsa, hsb]
      · exact C07_never_infeasible_partial heps hfeps hCs hsa0 hsb0 (by rw [e1]; exact hpos) (by rw [e2, ← hsum]; exact hpos)
          (by rw [e1, e2, hsum, sub_self, abs_zero]; exact hfeps) hw
      · obtain ⟨q1, q2⟩ := C05_plan_bounded heps hfeps hw (Or.inr hst)
        refine ⟨⟨fun i j => ?_, fun i => ?_, fun j => ?_⟩, ?_⟩
        · dsimp only
          by_cases hi : a i = 0
          · rw [scatterM_zero _ i j (Or.inl hi)]
          · by_cases hj : b j = 0
            · rw [scatterM_zero _ i j (Or.inr hj)]
            · obtain ⟨r, rfl⟩ := exists_get ha i hi
              obtain ⟨c, rfl⟩ := exists_get hb j hj
              rw [scatterM_get]; exact q1.nonneg r c
        · dsimp only
          by_cases hi : a i = 0
          · rw [sum_eq_zero fun j _ => scatterM_zero _ i j (Or.inl hi)]; exact ha i
          · obtain ⟨r, rfl⟩ := exists_get ha i hi
            rw [scatterM_row ha hb]
            have := q1.row r
            rw [hsa] at this
            exact this
        · dsimp only
          by_cases hj : b j = 0
          · rw [sum_eq_zero fun i _ => scatterM_zero _ i j (Or.inr hj)]; exact hb j
          · obtain ⟨c, rfl⟩ := exists_get hb j hj
            rw [sum_kept ha _ fun i hi => scatterM_zero _ i _ (Or.inl hi)]
            simp only [scatterM_get]
            have := q1.col c
            rw [hsb] at this
            exact this
        · dsimp only
          rw [q2, scatterM_cost ha hb, hsM]
    · have hlt : 2 ^ ((posIdx a).length * (posIdx b).length + ((posIdx a).length + (posIdx b).length)) < turns :=
        lt_of_le_of_lt (Nat.pow_le_pow_right (by decide) (Nat.add_le_add (Nat.mul_le_mul hl1 hl2) (Nat.add_le_add hl1 hl2))) ht
      obtain ⟨w, hw⟩ := C09_emd_terminates sa sb sM junk eps feps heps hfeps bs maxIter turns hlt arcs
      rw [hw]; rfl
  · simp only [if_neg hz] at post ⊢
    refine ⟨fun r hr => ?_, fun ht => ?_⟩
    · obtain ⟨o, ho, rfl⟩ := Option.map_eq_some_iff.1 hr
      obtain ⟨w, hw, rfl⟩ := Option.map_eq_some_iff.1 ho
      refine ⟨fun hst => ?_, ?_, fun hst => ?_⟩
      · have hst' : w.status = .optimal := hst
        obtain ⟨q1, q2, _, q4, q5⟩ := C06_optimal_and_certified heps hfeps hC hsum hw hst'
        rw [← hτ] at q1 q2 ⊢
        refine post _ ⟨q1, fun i j hi hj => ?_, q4, q5⟩
        exact q2 i j (lt_of_le_of_ne (ha i) (Ne.symm hi)) (lt_of_le_of_ne (hb j) (Ne.symm hj))
      · exact C07_never_infeasible_partial heps hfeps hC ha hb hpos (hsum ▸ hpos) (by rw [hsum, sub_self, abs_zero]; exact hfeps) hw
      · exact C05_plan_bounded heps hfeps hw (Or.inr hst)
    · obtain ⟨w, hw⟩ := C09_emd_terminates a b M junk eps feps heps hfeps bs maxIter turns ht arcs
      rw [hw]; rfl

theorem rescale_sum {a : Fin n1 → R} {b : Fin n2 → R} (hb : ∑ j, b j ≠ 0) : ∑ i, a i = ∑ j, rescale a b j := by
  unfold rescale
  simp only [div_eq_mul_inv]
  rw [← sum_mul, ← sum_mul, mul_comm, ← mul_assoc, inv_mul_cancel₀ hb, one_mul]

theorem rescale_self {a : Fin n1 → R} {b : Fin n2 → R} (hb : ∑ j, b j ≠ 0) (hsum : ∑ i, a i = ∑ j, b j) : rescale a b = b := by
  funext j
  unfold rescale
  rw [hsum, mul_div_assoc, div_self hb, mul_one]

theorem rescale_nonneg {a : Fin n1 → R} {b : Fin n2 → R} (ha : ∀ i, 0 ≤ a i) (hb : ∀ j, 0 ≤ b j) (j : Fin n2) : 0 ≤ rescale a b j :=
  div_nonneg (mul_nonneg (hb j) (sum_nonneg fun i _ => ha i)) (sum_nonneg fun j _ => hb j)

/-- **C62**.  `ot.emd(a, b, M, log=True)` on nonnegative weights with positive masses and nonnegative costs (the general cost range: `solveDense_spec`).
Let `b'` be `b` scaled to the mass of `a` (`b' = b` if the masses agree) and `τ = ε·2(C+1)(n1+n2)` where `ε` is the tolerance of the solver and `C`
bounds the costs.
* If the masses differ too much, the call raises, unless the check is switched off.
* A result without warning (OPTIMAL) carries a coupling of `a` and `b'` that is optimal up to `τ` per unit of mass, potentials that satisfy all constraints up
  to `τ`, and a cost that is both the cost of the plan and the value of the potentials; the potentials are centred if asked for.
* Otherwise the warning is that the iteration limit was reached, the plan is nonnegative and its marginals are at most `a` and `b'`. -/
theorem C62_emd_end_to_end [NeZero n1] [NeZero n2] (centerDual checkMarginals : Bool) {tol : R} {a : Fin n1 → R} {b : Fin n2 → R} {M : Fin n1 → Fin n2 → R}
    {junk eps feps C : R} (heps : 0 ≤ eps) (heps8 : 8 * eps ≤ 1) (hfeps : 0 ≤ feps) (hM0 : ∀ i j, 0 ≤ M i j) (hMC : ∀ i j, M i j ≤ C)
    (ha : ∀ i, 0 ≤ a i) (hb : ∀ j, 0 ≤ b j) (hpa : 0 < ∑ i, a i) (hpb : 0 < ∑ j, b j) (bs maxIter turns : ℕ) (arcs : ∀ N, List (Fin N))
    (hturns : 2 ^ (n1 * n2 + (n1 + n2)) < turns) :
    (checkMarginals = true ∧ tol ≤ |∑ i, a i - ∑ j, b j| ∧ emd centerDual checkMarginals tol a b M junk eps feps bs maxIter turns arcs = .assertion) ∨
    ∃ r, emd centerDual checkMarginals tol a b M junk eps feps bs maxIter turns arcs = .done r ∧
      (r.status = .optimal ∧ Certified (eps * (2 * (C + 1) * (n1 + n2))) a (rescale a b) M r ∧
          (centerDual = true → ∑ i, a i * r.u i = ∑ j, rescale a b j * r.v j) ∨
        r.status = .maxIter ∧ 0 < maxIter ∧ IsPartial a (rescale a b) r.G ∧ r.cost = cost M r.G) := by
  by_cases hc : checkMarginals = true ∧ ¬ |∑ i, a i - ∑ j, b j| < tol
  · left
    refine ⟨hc.1, not_lt.1 hc.2, ?_⟩
    unfold emd
    rw [if_pos hc]
  · right
    have hC0 : 0 ≤ C := le_trans (hM0 0 0) (hMC 0 0)
    have hC : CostRange eps C a (rescale a b) M := ⟨fun i j => by rw [abs_of_nonneg (hM0 i j)]; exact hMC i j, hC0, Or.inl ⟨hM0, heps8⟩⟩
    obtain ⟨h1, h2⟩ := solveDense_spec centerDual (junk := junk) heps hfeps hC ha (rescale_nonneg ha hb) hpa (rescale_sum hpb.ne') bs maxIter turns arcs
    obtain ⟨r, hr⟩ := Option.isSome_iff_exists.1 (h2 hturns)
    refine ⟨r, ?_, ?_⟩
    · unfold emd
      rw [if_neg hc, hr]
    · obtain ⟨q1, q2, q3⟩ := h1 r hr
      rcases q2 with q2 | ⟨q2, q4⟩
      · exact Or.inl ⟨q2, (q1 q2).1, fun h => (q1 q2).2 (Or.inl h)⟩
      · exact Or.inr ⟨q2, q4, q3 q2⟩

/-- **C62**, exact arithmetic (`ε = 0`), equal masses, no iteration limit: `ot.emd` returns an optimal plan and optimal dual potentials. -/
theorem C62_emd_exact [NeZero n1] [NeZero n2] (centerDual checkMarginals : Bool) {tol : R} (htol : 0 < tol) {a : Fin n1 → R} {b : Fin n2 → R} {M : Fin n1 → Fin n2 → R}
    {junk feps : R} (hfeps : 0 ≤ feps) (hM0 : ∀ i j, 0 ≤ M i j) (ha : ∀ i, 0 ≤ a i) (hb : ∀ j, 0 ≤ b j) (hpa : 0 < ∑ i, a i)
    (hsum : ∑ i, a i = ∑ j, b j) (bs turns : ℕ) (arcs : ∀ N, List (Fin N)) (hturns : 2 ^ (n1 * n2 + (n1 + n2)) < turns) :
    ∃ r, emd centerDual checkMarginals tol a b M junk 0 feps bs 0 turns arcs = .done r ∧ r.status = .optimal ∧
      IsOptimal a b M r.G ∧ r.cost = cost M r.G ∧ DualFeasible M r.u r.v ∧ dualValue a b r.u r.v = cost M r.G ∧
      ∀ u v, DualFeasible M u v → dualValue a b u v ≤ dualValue a b r.u r.v := by
  have hpb : 0 < ∑ j, b j := hsum ▸ hpa
  have hMC : ∀ i j, M i j ≤ ∑ i, ∑ j, M i j := fun i j =>
    le_trans (single_le_sum (f := fun j => M i j) (fun j _ => hM0 i j) (mem_univ j))
      (single_le_sum (f := fun i => ∑ j, M i j) (fun i _ => sum_nonneg fun j _ => hM0 i j) (mem_univ i))
  rcases C62_emd_end_to_end centerDual checkMarginals (tol := tol) (junk := junk) le_rfl (by rw [mul_zero]; exact zero_le_one) hfeps hM0 hMC ha hb hpa hpb bs 0 turns arcs hturns with
    ⟨_, h2, _⟩ | ⟨r, hr, ⟨h1, hc, _⟩ | ⟨_, h2, _⟩⟩
  · rw [hsum, sub_self, abs_zero] at h2
    exact absurd h2 (not_le.2 htol)
  · rw [rescale_self hpb.ne' hsum] at hc
    obtain ⟨⟨c1, c2⟩, c3, c4, c5⟩ := hc
    simp only [zero_mul, add_zero] at c2 c3
    refine ⟨r, hr, h1, ⟨c1, c2⟩, c4, c3, by rw [← c5, c4], fun u v huv => ?_⟩
    rw [← c5, c4]
    exact weak_duality c1 huv
  · exact absurd h2 (lt_irrefl _)

/-- a call with a zero weight, masses 1 and 2 (check switched off): `b` is scaled to mass 1 and the point of weight zero gets a feasible potential -/
example : (match emd true false (1/1000000) (![1/2, 0, 1/2] : Fin 3 → ℚ) (![1, 1] : Fin 2 → ℚ) (![![0, 1], ![1, 1], ![1, 0]]) 0 0 (1/100000000) 10 0 50
    (fun _ => []) with
    | .done r => decide (r.status = .optimal ∧ r.cost = 0 ∧ r.G 0 0 = 1/2 ∧ r.G 1 0 = 0 ∧ r.G 2 1 = 1/2 ∧ ∀ i j, r.u i + r.v j ≤ ![![(0 : ℚ), 1], ![1, 1], ![1, 0]] i j)
    | _ => false) = true := by decide +kernel

end POT.Props
