import Verif.Model.PartialGw
import Verif.Props.Partial
import Verif.Props.Gromov
import Verif.Lemmas.ExactEmd

/-! # Partial (fused) Gromov-Wasserstein: directions, gradients and the loop -/

set_option linter.unusedSectionVars false

namespace POT.PartialGw

open Finset Gromov Partial Spec Props

variable {R : Type*} [Field R] [LinearOrder R] [IsStrictOrderedRing R]

section Grad

variable {I J : Type*} [Fintype I] [Fintype J] [DecidableEq I] [DecidableEq J]

/-- entries of the gradient: the energy of one pair against the plan, in both directions -/
theorem pgDf_apply (symmetric : Bool) (D : Decomp R) (C1 : I → I → R) (C2 : J → J → R)
    (hsym : symmetric = true → (∀ i k, C1 i k = C1 k i) ∧ (∀ j l, C2 j l = C2 l j)) (T : I → J → R) (i : I) (j : J) :
    pgDf symmetric D C1 C2 T i j = ∑ k, ∑ l, (D.loss (C1 i k) (C2 j l) + D.loss (C1 k i) (C2 l j)) * T k l := by
  have h := inner_pgDf symmetric D C1 C2 T hsym (fun i' j' => if i' = i ∧ j' = j then 1 else 0)
  have e : ∀ F : I → J → R, ∑ i', ∑ j', F i' j' * (if i' = i ∧ j' = j then (1 : R) else 0) = F i j := by
    intro F
    rw [sum_eq_single i, sum_eq_single j]
    · simp
    · intro j' _ hj; simp [hj]
    · simp
    · intro i' _ hi; simp [hi]
    · simp
  rw [e] at h
  rw [h]
  have e1 : gwB D.loss C1 C2 (fun i' j' => if i' = i ∧ j' = j then 1 else 0) T = ∑ k, ∑ l, D.loss (C1 i k) (C2 j l) * T k l := by
    unfold gwB
    rw [← e (fun i' j' => ∑ k, ∑ l, D.loss (C1 i' k) (C2 j' l) * T k l)]
    refine sum_congr rfl fun i' _ => sum_congr rfl fun j' _ => ?_
    rw [sum_mul]
    refine sum_congr rfl fun k _ => ?_
    rw [sum_mul]
    exact sum_congr rfl fun l _ => by ring
  have e2 : gwB D.loss C1 C2 T (fun i' j' => if i' = i ∧ j' = j then 1 else 0) = ∑ k, ∑ l, D.loss (C1 k i) (C2 l j) * T k l := by
    unfold gwB
    refine sum_congr rfl fun k _ => sum_congr rfl fun l _ => ?_
    exact e (fun i' j' => D.loss (C1 k i') (C2 l j') * T k l)
  rw [e1, e2, ← sum_add_distrib]
  refine sum_congr rfl fun k _ => ?_
  rw [← sum_add_distrib]
  exact sum_congr rfl fun l _ => by ring

theorem pgDf_nonneg (symmetric : Bool) (D : Decomp R) (C1 : I → I → R) (C2 : J → J → R)
    (hsym : symmetric = true → (∀ i k, C1 i k = C1 k i) ∧ (∀ j l, C2 j l = C2 l j)) (hL : ∀ i k j l, 0 ≤ D.loss (C1 i k) (C2 j l))
    {T : I → J → R} (hT : ∀ i j, 0 ≤ T i j) (i : I) (j : J) : 0 ≤ pgDf symmetric D C1 C2 T i j := by
  rw [pgDf_apply symmetric D C1 C2 hsym]
  exact sum_nonneg fun k _ => sum_nonneg fun l _ => mul_nonneg (add_nonneg (hL _ _ _ _) (hL _ _ _ _)) (hT k l)

theorem pgDf_pos (symmetric : Bool) (D : Decomp R) (C1 : I → I → R) (C2 : J → J → R)
    (hsym : symmetric = true → (∀ i k, C1 i k = C1 k i) ∧ (∀ j l, C2 j l = C2 l j)) (hL : ∀ i k j l, 0 < D.loss (C1 i k) (C2 j l))
    {T : I → J → R} (hT : ∀ i j, 0 ≤ T i j) (hm : 0 < mass T) (i : I) (j : J) : 0 < pgDf symmetric D C1 C2 T i j := by
  rw [pgDf_apply symmetric D C1 C2 hsym]
  obtain ⟨k, -, hk⟩ := exists_lt_of_sum_lt (s := univ) (f := fun _ : I => (0 : R)) (g := fun i => ∑ j, T i j) (by simpa [mass] using hm)
  obtain ⟨l, -, hl⟩ := exists_lt_of_sum_lt (s := univ) (f := fun _ : J => (0 : R)) (g := fun j => T k j) (by simpa using hk)
  have h0 : ∀ k l, 0 ≤ (D.loss (C1 i k) (C2 j l) + D.loss (C1 k i) (C2 l j)) * T k l := fun k l =>
    mul_nonneg (add_nonneg (hL _ _ _ _).le (hL _ _ _ _).le) (hT k l)
  refine sum_pos' (fun k _ => sum_nonneg fun l _ => h0 k l) ⟨k, mem_univ _, sum_pos' (fun l _ => h0 k l) ⟨l, mem_univ _, ?_⟩⟩
  exact mul_pos (add_pos (hL _ _ _ _) (hL _ _ _ _)) hl

end Grad

section Loop

variable {I J : Type*} [Fintype I] [Fintype J]

/-- The loop with an invariant that convex combinations and the directions found from plans that have it keep. -/
theorem pg_returned (symmetric : Bool) (D : Decomp R) (C1 : I → I → R) (C2 : J → J → R)
    (hsym : symmetric = true → (∀ i k, C1 i k = C1 k i) ∧ (∀ j l, C2 j l = C2 l j)) (M : I → J → R) (reg : R)
    (lp : (I → J → R) → (I → J → R)) (numItermax : ℕ) (stopThr stopThr2 : R) (Inv : (I → J → R) → Prop)
    (hconv : ∀ G H t, Inv G → Inv H → 0 ≤ t → t ≤ 1 → Inv fun i j => G i j + t * (H i j - G i j))
    (hlp : ∀ G, Inv G → Inv (lp fun i j => M i j + reg * pgDf symmetric D C1 C2 G i j)) (G0 : I → J → R) (h0 : Inv G0) :
    let P := pgProblem symmetric D C1 C2 M reg lp numItermax stopThr stopThr2
    let obj := fgwObjective D.loss C1 C2 M reg
    ∃ s, P.loop (max 1 numItermax) (P.init G0) = some s ∧ Inv s.G ∧ s.losses.head? = some (obj s.G) ∧ obj s.G ≤ obj G0 := by
  intro P obj
  have hcost : ∀ G, P.cost G = obj G := by
    intro G
    show _ + reg * pgF D C1 C2 G = _
    rw [pgF_eq D C1 C2]; rfl
  have hgood : P.Good Inv := by
    intro s hG hc hdf
    have hdf' : s.dfG.getD (P.df s.G) = pgDf symmetric D C1 C2 s.G := by
      cases hd : s.dfG with
      | none => rfl
      | some d => exact hdf d hd
    set Mi : I → J → R := fun i j => P.M i j + P.reg1 * s.dfG.getD (P.df s.G) i j with hMi
    have hMi' : Mi = fun i j => M i j + reg * pgDf symmetric D C1 C2 s.G i j := by
      rw [hMi, hdf']; rfl
    have hinv : Inv (lp Mi) := by rw [hMi']; exact hlp _ hG
    rw [hcost] at hc
    obtain ⟨h1, h2, h3, h4, h5⟩ := C39_linesearch_partial symmetric D C1 C2 hsym M reg s.G (lp Mi)
    rw [show fgwObjective D.loss C1 C2 M reg s.G = s.costG from hc.symm] at h1 h2 h3 h4 h5
    set Δ : I → J → R := fun i j => lp Mi i j - s.G i j with hΔ
    set r := pgLinesearch M reg Δ (pgDf symmetric D C1 C2 s.G) (pgDf symmetric D C1 C2 (fun i j => Δ i j + s.G i j)) s.costG
      with hr
    have hstep : P.step s = ⟨fun i j => s.G i j + r.alpha * Δ i j, r.cost, r.df, s.it + 1, r.cost :: s.losses⟩ := by
      rw [hr, ← hdf']; rfl
    rw [hstep]
    refine ⟨hconv _ _ _ hG hinv h1 h2, ?_, ?_, ?_⟩
    · rw [hcost]; exact h3
    · intro d hd
      have : r.df = some d := hd
      rw [h5] at this
      exact (Option.some.inj this).symm
    · have := h4 0 le_rfl zero_le_one
      have e : (fun i j => s.G i j + 0 * Δ i j) = s.G := by funext i j; ring
      rw [e] at this
      show r.cost ≤ s.costG
      rw [hc]; exact this
  refine Optim.Problem.returned (P := P) (G0 := G0) (Inv := Inv) (obj := obj) fun k => ?_
  have hl := hgood.losses h0 k
  have hm := hgood.mono h0 k
  rw [hcost, hcost] at hm
  refine ⟨(hgood.iter h0 k).1, ?_, hm⟩
  rw [hl]
  exact List.map_congr_left fun i _ => hcost _

theorem isPartial_line {a : I → R} {b : J → R} {G H : I → J → R} {t : R} (hG : IsPartial a b G) (hH : IsPartial a b H) (h0 : 0 ≤ t) (h1 : t ≤ 1) :
    IsPartial a b fun i j => G i j + t * (H i j - G i j) := by
  have hmix : ∀ i j, G i j + t * (H i j - G i j) = (1 - t) * G i j + t * H i j := fun i j => by ring
  simp only [hmix]
  refine ⟨fun i j => add_nonneg (mul_nonneg (sub_nonneg.2 h1) (hG.nonneg i j)) (mul_nonneg h0 (hH.nonneg i j)), fun i => ?_, fun j => ?_⟩
  · simp only [sum_add_distrib, ← mul_sum]
    have e1 := mul_le_mul_of_nonneg_left (hG.row i) (sub_nonneg.2 h1)
    have e2 := mul_le_mul_of_nonneg_left (hH.row i) h0
    linarith
  · simp only [sum_add_distrib, ← mul_sum]
    have e1 := mul_le_mul_of_nonneg_left (hG.col j) (sub_nonneg.2 h1)
    have e2 := mul_le_mul_of_nonneg_left (hH.col j) h0
    linarith

theorem mass_line (G H : I → J → R) (t : R) : mass (fun i j => G i j + t * (H i j - G i j)) = (1 - t) * mass G + t * mass H := by
  have hmix : ∀ i j, G i j + t * (H i j - G i j) = (1 - t) * G i j + t * H i j := fun i j => by ring
  unfold mass
  simp only [hmix, sum_add_distrib, ← mul_sum]

end Loop

section Dir

variable {n1 n2 d : ℕ} [NeZero n1] [NeZero n2]

/-- an exact solver of the extended problem -/
def Exact (emd : (Fin (n1 + d) → R) → (Fin (n2 + d) → R) → (Fin (n1 + d) → Fin (n2 + d) → R) → (Fin (n1 + d) → Fin (n2 + d) → R)) : Prop :=
  ∀ a b C, (∃ P, IsCoupling a b P) → IsOptimal a b C (emd a b C)

variable {emd : (Fin (n1 + d) → R) → (Fin (n2 + d) → R) → (Fin (n1 + d) → Fin (n2 + d) → R) → (Fin (n1 + d) → Fin (n2 + d) → R)}

/-- the weights of the extended problem -/
theorem ext_optimal (hemd : Exact emd) (hd : 0 < d) {p : Fin n1 → R} {q : Fin n2 → R} (hp : ∀ i, 0 ≤ p i) (hq : ∀ j, 0 ≤ q j) {m : R}
    (hmp : m ≤ ∑ i, p i) (hmq : m ≤ ∑ j, q j) (C : Fin (n1 + d) → Fin (n2 + d) → R) :
    IsOptimal (extend p d ((∑ j, q j - m) / (d : R))) (extend q d ((∑ i, p i - m) / (d : R))) C
      (emd (extend p d ((∑ j, q j - m) / (d : R))) (extend q d ((∑ i, p i - m) / (d : R))) C) := by
  have hd' : (0 : R) < d := Nat.cast_pos.2 hd
  refine hemd _ _ _ (product_coupling _ _ (extend_nonneg hp (div_nonneg (by linarith) hd'.le)) (extend_nonneg hq (div_nonneg (by linarith) hd'.le)) ?_)
  rw [extend_sum' _ _ hd, extend_sum' _ _ hd]
  ring

/-- any direction is a partial plan of mass at least `m` -/
theorem lp_partial (hemd : Exact emd) (hd : 0 < d) {p : Fin n1 → R} {q : Fin n2 → R} (hp : ∀ i, 0 ≤ p i) (hq : ∀ j, 0 ≤ q j) {m : R}
    (hmp : m ≤ ∑ i, p i) (hmq : m ≤ ∑ j, q j) (M Mi : Fin n1 → Fin n2 → R) :
    let G := lpSolver emd (extend p d ((∑ j, q j - m) / (d : R))) (extend q d ((∑ i, p i - m) / (d : R))) M Mi
    IsPartial p q G ∧ m ≤ mass G := by
  intro G
  have hd' : (0 : R) < d := Nat.cast_pos.2 hd
  have hG := (ext_optimal hemd hd hp hq hmp hmq (extendM Mi d (maxEntry M * 100))).1
  refine ⟨core_partial hG, ?_⟩
  have h1 := core_mass hG
  rw [mul_div_cancel₀ _ hd'.ne'] at h1
  have h2 : 0 ≤ dumMass (emd (extend p d ((∑ j, q j - m) / (d : R))) (extend q d ((∑ i, p i - m) / (d : R))) (extendM Mi d (maxEntry M * 100))) :=
    sum_nonneg fun k _ => sum_nonneg fun l _ => hG.nonneg _ _
  show m ≤ mass (core _)
  linarith

/-- with positive costs (the cost between dummies counted in) the direction has mass `m` and is optimal -/
theorem lp_exact (hemd : Exact emd) (hd : 0 < d) {p : Fin n1 → R} {q : Fin n2 → R} (hp : ∀ i, 0 ≤ p i) (hq : ∀ j, 0 ≤ q j) {m : R} (hm0 : 0 ≤ m)
    (hmp : m ≤ ∑ i, p i) (hmq : m ≤ ∑ j, q j) (M Mi : Fin n1 → Fin n2 → R) (hpos : ∀ i j, 0 < Mi i j + maxEntry M * 100) :
    let G := lpSolver emd (extend p d ((∑ j, q j - m) / (d : R))) (extend q d ((∑ i, p i - m) / (d : R))) M Mi
    mass G = m ∧ ∀ H, IsPartial p q H → mass H = m → cost Mi G ≤ cost Mi H := by
  intro G
  have hd' : (0 : R) < d := Nat.cast_pos.2 hd
  obtain ⟨E, hE⟩ : ∃ E, E = emd (extend p d ((∑ j, q j - m) / (d : R))) (extend q d ((∑ i, p i - m) / (d : R))) (extendM Mi d (maxEntry M * 100)) := ⟨_, rfl⟩
  have hopt := ext_optimal hemd hd hp hq hmp hmq (extendM Mi d (maxEntry M * 100))
  rw [← hE] at hopt
  have hGE : G = core E := by rw [hE]; rfl
  rw [hGE]
  have hG := hopt.1
  have hpart := core_partial hG
  have hmass := core_mass hG
  rw [mul_div_cancel₀ _ hd'.ne'] at hmass
  have hδ : 0 ≤ dumMass E := sum_nonneg fun k _ => sum_nonneg fun l _ => hG.nonneg _ _
  have key : ∀ H, IsPartial p q H → mass H = m → cost Mi (core E) + maxEntry M * 100 * dumMass E ≤ cost Mi H := by
    intro H hH hHm
    have hcpl := complete_coupling (x := (∑ j, q j - m) / (d : R)) (y := (∑ i, p i - m) / (d : R)) (z := 0) hd hH le_rfl
      (by rw [mul_div_cancel₀ _ hd'.ne', hHm]; ring) (by rw [mul_div_cancel₀ _ hd'.ne', hHm]; ring)
    have := hopt.2 _ hcpl
    rw [cost_extendM, cost_extendM, core_complete, dumMass_complete] at this
    simpa using this
  have hz : dumMass E = 0 := by
    by_contra hne
    have hδ' : 0 < dumMass E := lt_of_le_of_ne hδ (Ne.symm hne)
    have hM' : mass (core E) = m + dumMass E := by linarith
    have hMp : 0 < m + dumMass E := by linarith
    have ht1 : m / (m + dumMass E) ≤ 1 := by rw [div_le_one hMp]; linarith
    have ht0 : 0 ≤ m / (m + dumMass E) := div_nonneg hm0 hMp.le
    have h := key (fun i j => m / (m + dumMass E) * core E i j) ⟨fun i j => mul_nonneg ht0 (hpart.nonneg i j), fun i => by
        rw [← mul_sum]
        exact le_trans (mul_le_of_le_one_left (sum_nonneg fun j _ => hpart.nonneg i j) ht1) (hpart.row i), fun j => by
        rw [← mul_sum]
        exact le_trans (mul_le_of_le_one_left (sum_nonneg fun i _ => hpart.nonneg i j) ht1) (hpart.col j)⟩ (by
        have : mass (fun i j => m / (m + dumMass E) * core E i j) = m / (m + dumMass E) * mass (core E) := by
          unfold mass
          simp only [mul_sum]
        rw [this, hM', div_mul_cancel₀ _ hMp.ne'])
    rw [cost_smul] at h
    have hsum : 0 < cost Mi (core E) + maxEntry M * 100 * mass (core E) := by
      have e : cost Mi (core E) + maxEntry M * 100 * mass (core E) = ∑ i, ∑ j, core E i j * (Mi i j + maxEntry M * 100) := by
        unfold cost mass
        rw [mul_sum, ← sum_add_distrib]
        refine sum_congr rfl fun i _ => ?_
        rw [mul_sum, ← sum_add_distrib]
        exact sum_congr rfl fun j _ => by ring
      rw [e]
      have hMm : 0 < mass (core E) := by rw [hM']; exact hMp
      obtain ⟨k, -, hk⟩ := exists_lt_of_sum_lt (s := univ) (f := fun _ : Fin n1 => (0 : R)) (g := fun i => ∑ j, core E i j) (by simpa [mass] using hMm)
      obtain ⟨l, -, hl⟩ := exists_lt_of_sum_lt (s := univ) (f := fun _ : Fin n2 => (0 : R)) (g := fun j => core E k j) (by simpa using hk)
      have h0 : ∀ k l, 0 ≤ core E k l * (Mi k l + maxEntry M * 100) := fun k l => mul_nonneg (hpart.nonneg k l) (hpos k l).le
      exact sum_pos' (fun k _ => sum_nonneg fun l _ => h0 k l) ⟨k, mem_univ _, sum_pos' (fun l _ => h0 k l) ⟨l, mem_univ _, mul_pos hl (hpos k l)⟩⟩
    rw [hM'] at hsum
    have e1 : m / (m + dumMass E) * cost Mi (core E) = cost Mi (core E) - dumMass E / (m + dumMass E) * cost Mi (core E) := by
      field_simp
      ring
    have h2 : 0 < dumMass E / (m + dumMass E) * (cost Mi (core E) + maxEntry M * 100 * (m + dumMass E)) := mul_pos (div_pos hδ' hMp) hsum
    have e2 : dumMass E / (m + dumMass E) * (cost Mi (core E) + maxEntry M * 100 * (m + dumMass E)) =
        dumMass E / (m + dumMass E) * cost Mi (core E) + maxEntry M * 100 * dumMass E := by
      field_simp
    linarith
  refine ⟨by linarith, fun H hH hHm => ?_⟩
  have := key H hH hHm
  rw [hz] at this
  linarith

/-- the default start is a partial plan of mass `m` -/
theorem start_partial {p : Fin n1 → R} {q : Fin n2 → R} (hp : ∀ i, 0 ≤ p i) (hq : ∀ j, 0 ≤ q j) (hsp : 0 < ∑ i, p i) (hsq : 0 < ∑ j, q j) {m : R} (hm0 : 0 ≤ m)
    (hmp : m ≤ ∑ i, p i) (hmq : m ≤ ∑ j, q j) : IsPartial p q (defaultStart p q m) ∧ mass (defaultStart p q m) = m := by
  have hrow : ∀ i, ∑ j, defaultStart p q m i j = p i * (m / ∑ i, p i) := by
    intro i
    unfold defaultStart
    rw [← sum_div, ← sum_mul, ← mul_sum]
    field_simp
  have hcol : ∀ j, ∑ i, defaultStart p q m i j = q j * (m / ∑ j, q j) := by
    intro j
    unfold defaultStart
    rw [← sum_div, ← sum_mul, ← sum_mul]
    field_simp
  refine ⟨⟨fun i j => div_nonneg (mul_nonneg (mul_nonneg (hp i) (hq j)) hm0) (mul_nonneg hsp.le hsq.le), fun i => ?_, fun j => ?_⟩, ?_⟩
  · rw [hrow]; exact mul_le_of_le_one_right (hp i) ((div_le_one hsp).2 hmp)
  · rw [hcol]; exact mul_le_of_le_one_right (hq j) ((div_le_one hsq).2 hmq)
  · unfold mass
    rw [sum_congr rfl fun i _ => hrow i, ← sum_mul, mul_div_cancel₀ _ hsp.ne']

end Dir

end POT.PartialGw
