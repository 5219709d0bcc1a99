import Verif.Lemmas.Fda
import Verif.Props.Ewca
import Mathlib.LinearAlgebra.Matrix.DotProduct

/-! # C124: discriminant analysis (ot/dr.py 37-283) -/

set_option linter.unusedSectionVars false

namespace POT.Props

open Finset Matrix POT.Spec POT.Fda Filter Topology

variable {N : Type*} [Fintype N] {nc d p : ℕ}

/-! ## Wasserstein discriminant analysis -/

private theorem card_pos_of_surj {y : N → Fin nc} (hy : Function.Surjective y) (c : Fin nc) : Nonempty {i // y i = c} := ⟨⟨(hy c).choose, (hy c).choose_spec⟩⟩

private theorem class_limit (m : Solver) (δ : ℝ) (hm : m = .plain → δ = 0) (X : N → Fin d → ℝ) (y : N → Fin nc) (hy : Function.Surjective y) (P : Matrix (Fin d) (Fin p) ℝ) {r : ℝ} (hr : 0 < r) (c c' : Fin nc) :
    ∃ w, IsClassCost X y P r c c' w ∧ (∀ i j, y i = c → y j = c' → projSq P (X i) (X j) ≠ 0 → 0 < w) ∧ 0 ≤ w ∧ Tendsto (fun k => classLoss m δ (shift X) y P r k c c') atTop (𝓝 w) := by
  haveI := card_pos_of_surj hy c
  haveI := card_pos_of_surj hy c'
  have h1 : (0 : ℝ) < Fintype.card {i // y i = c} := by exact_mod_cast Fintype.card_pos
  have h2 : (0 : ℝ) < Fintype.card {i // y i = c'} := by exact_mod_cast Fintype.card_pos
  obtain ⟨G, hG, hGp, hlim⟩ := solve_converges (a := fun _ : {i // y i = c} => 1 / (Fintype.card {i // y i = c} : ℝ)) (b := fun _ : {i // y i = c'} => 1 / (Fintype.card {i // y i = c'} : ℝ)) m δ hm
    (fun i j => projSq P (X i.1) (X j.1)) hr (fun _ => by positivity) (fun _ => by positivity) (by simp only [sum_const, card_univ, nsmul_eq_mul]; field_simp)
  have h0 : ∀ x z : Fin d → ℝ, 0 ≤ projSq P x z := fun x z => sum_nonneg fun _ _ => sq_nonneg _
  have hn : ∀ (i : {i // y i = c}) (j : {i // y i = c'}), 0 ≤ G i j * projSq P (X i.1) (X j.1) := fun i j => mul_nonneg (hGp i j).le (h0 _ _)
  refine ⟨_, ⟨G, hG, rfl⟩, fun i j hi hj hne => ?_, ?_, ?_⟩
  · unfold cost
    refine sum_pos' (fun i _ => sum_nonneg fun j _ => hn i j) ⟨⟨i, hi⟩, mem_univ _, sum_pos' (fun j _ => hn _ j) ⟨⟨j, hj⟩, mem_univ _, ?_⟩⟩
    exact mul_pos (hGp _ _) (lt_of_le_of_ne (h0 _ _) (Ne.symm hne))
  · exact sum_nonneg fun i _ => sum_nonneg fun j _ => hn i j
  · unfold classLoss cost
    simp only [distP_shift]
    exact tendsto_finsetSum _ fun i _ => tendsto_finsetSum _ fun j _ => (hlim i j).mul_const _

private theorem classCost_symm {X : N → Fin d → ℝ} {y : N → Fin nc} (hy : Function.Surjective y) {P : Matrix (Fin d) (Fin p) ℝ} {r w w' : ℝ} {c c' : Fin nc} (h : IsClassCost X y P r c c' w) (h' : IsClassCost X y P r c' c w') : w = w' := by
  haveI := card_pos_of_surj hy c
  haveI := card_pos_of_surj hy c'
  obtain ⟨G, hG, rfl⟩ := h
  obtain ⟨G', hG', rfl⟩ := h'
  have hsymm : ∀ x z : Fin d → ℝ, projSq P x z = projSq P z x := fun x z => by rw [← distP_eq, distP_symm, distP_eq]
  have e : (fun (j : {i // y i = c'}) (i : {i // y i = c}) => projSq P (X i.1) (X j.1)) = fun j i => projSq P (X j.1) (X i.1) := by
    funext j i; exact hsymm _ _
  have hs : IsEntropicOptimal _ _ (fun (i : {i // y i = c}) (j : {i // y i = c'}) => projSq P (X i.1) (X j.1)) r (fun i j => G' j i) := SolveSample.entropic_swap (by rw [e]; exact hG')
  have : G = fun i j => G' j i := (hs.2 G hG.1).2 (hG.2 _ hs.1).1
  rw [this]
  unfold cost
  rw [sum_comm]
  exact sum_congr rfl fun j _ => sum_congr rfl fun i _ => by beta_reduce; rw [hsymm]

private theorem wda_limit (m : Solver) (δ : ℝ) (hm : m = .plain → δ = 0) (X : N → Fin d → ℝ) (y : N → Fin nc) (hy : Function.Surjective y) (P : Matrix (Fin d) (Fin p) ℝ) (reg : ℝ) (P0 : Option (Matrix (Fin d) (Fin p) ℝ)) (nm : Bool)
    (r : Fin nc → Fin nc → ℝ) (hr : ∀ c c', reg * regMean (shift X) y P0 nm c c' = r c c') (hpos : ∀ c c', 0 < r c c') (hsym : ∀ c c', r c c' = r c' c) (hne : ∃ i j, y i ≠ y j ∧ projSq P (X i) (X j) ≠ 0) :
    ∃ w : Fin nc → Fin nc → ℝ, (∀ c c', IsClassCost X y P (r c c') c c' (w c c')) ∧
      Tendsto (fun k => wdaLoss m δ X y reg k P0 nm P) atTop (𝓝 (2 * ((∑ c, w c c) / ∑ c, ∑ c' with c' ≠ c, w c c'))) := by
  choose w h1 h2 h3 h4 using fun c c' => class_limit m δ hm X y hy P (hpos c c') c c'
  refine ⟨w, h1, ?_⟩
  have hws : ∀ c c', w c c' = w c' c := fun c c' => classCost_symm hy (h1 c c') (by rw [hsym]; exact h1 c' c)
  have hdouble : ∑ c, ∑ c' with c' ≠ c, w c c' = 2 * ∑ c, ∑ c' with c < c', w c c' := by
    have e : ∀ c, ∑ c' with c' ≠ c, w c c' = (∑ c' with c < c', w c c') + ∑ c' with c' < c, w c c' := by
      intro c
      simp only [sum_filter, ← sum_add_distrib]
      refine sum_congr rfl fun c' _ => ?_
      rcases lt_trichotomy c c' with h | h | h
      · rw [if_pos h.ne', if_pos h, if_neg h.not_gt, add_zero]
      · subst h; simp
      · rw [if_pos h.ne, if_neg h.not_gt, if_pos h, zero_add]
    rw [sum_congr rfl fun c _ => e c, sum_add_distrib, two_mul]
    congr 1
    simp only [sum_filter]
    rw [sum_comm]
    exact sum_congr rfl fun c _ => sum_congr rfl fun c' _ => by rw [hws]
  have hb : 0 < ∑ c, ∑ c' with c < c', w c c' := by
    obtain ⟨i, j, hij, hp⟩ := hne
    have key : ∀ i j, y i < y j → projSq P (X i) (X j) ≠ 0 → 0 < ∑ c, ∑ c' with c < c', w c c' := by
      intro i j hlt hp
      exact sum_pos' (fun c _ => sum_nonneg fun c' _ => h3 c c') ⟨y i, mem_univ _, sum_pos' (fun c' _ => h3 _ c') ⟨y j, by simpa using hlt, h2 _ _ i j rfl rfl hp⟩⟩
    rcases lt_or_gt_of_ne hij with h | h
    · exact key i j h hp
    · exact key j i h (by rwa [← distP_eq, distP_symm, distP_eq])
  have e : 2 * ((∑ c, w c c) / ∑ c, ∑ c' with c' ≠ c, w c c') = (∑ c, w c c) / ∑ c, ∑ c' with c < c', w c c' := by
    rw [hdouble]; field_simp
  rw [e]
  unfold wdaLoss
  simp only [hr]
  exact (tendsto_finsetSum _ fun c _ => h4 c c).div (tendsto_finsetSum _ fun c _ => tendsto_finsetSum _ fun c' _ => h4 c c') hb.ne'

/-- **What `wda` minimises.**  For every projection `P` that does not collapse two samples of different classes, as the number `k` of inner iterations grows the function given to the manifold solver converges to twice the documented ratio of
within-class to between-class transport costs, each computed with the optimal entropic plan; so it has the same minimisers.  For `sinkhorn_method="sinkhorn"` the guard `1e-50` is idealised to zero. -/
theorem C124_wda_loss_partial (m : Solver) (δ : ℝ) (hm : m = .plain → δ = 0) (X : N → Fin d → ℝ) (y : N → Fin nc) (hy : Function.Surjective y) (P : Matrix (Fin d) (Fin p) ℝ) {reg : ℝ} (hreg : 0 < reg) (P0 : Option (Matrix (Fin d) (Fin p) ℝ))
    (hne : ∃ i j, y i ≠ y j ∧ projSq P (X i) (X j) ≠ 0) :
    ∃ w : Fin nc → Fin nc → ℝ, (∀ c c', IsClassCost X y P reg c c' (w c c')) ∧
      Tendsto (fun k => wdaLoss m δ X y reg k P0 false P) atTop (𝓝 (2 * ((∑ c, w c c) / ∑ c, ∑ c' with c' ≠ c, w c c'))) :=
  wda_limit m δ hm X y hy P reg P0 false (fun _ _ => reg) (fun c c' => by cases P0 <;> simp [regMean]) (fun _ _ => hreg) (fun _ _ => rfl) hne

/-- **Normalised regularisation.**  With `normalize=True` and a start `P0`, the regularisation of each pair of classes is `reg` times the mean squared distance between the two classes projected by `P0`. -/
theorem C124_wda_normalized_partial (m : Solver) (δ : ℝ) (hm : m = .plain → δ = 0) (X : N → Fin d → ℝ) (y : N → Fin nc) (hy : Function.Surjective y) (P P0 : Matrix (Fin d) (Fin p) ℝ) {reg : ℝ} (hreg : 0 < reg)
    (hne : ∃ i j, y i ≠ y j ∧ projSq P (X i) (X j) ≠ 0) (hP0 : ∀ c c', ∃ i j, y i = c ∧ y j = c' ∧ projSq P0 (X i) (X j) ≠ 0) :
    ∃ w : Fin nc → Fin nc → ℝ, (∀ c c', IsClassCost X y P (reg * ((∑ i : {i // y i = c}, ∑ j : {i // y i = c'}, projSq P0 (X i.1) (X j.1)) / ((Fintype.card {i // y i = c} : ℝ) * Fintype.card {i // y i = c'}))) c c' (w c c')) ∧
      Tendsto (fun k => wdaLoss m δ X y reg k (some P0) true P) atTop (𝓝 (2 * ((∑ c, w c c) / ∑ c, ∑ c' with c' ≠ c, w c c'))) := by
  have h0 : ∀ x z : Fin d → ℝ, 0 ≤ projSq P0 x z := fun x z => sum_nonneg fun _ _ => sq_nonneg _
  refine wda_limit m δ hm X y hy P reg (some P0) true _ (fun c c' => by simp only [regMean, distP_shift]) (fun c c' => ?_) (fun c c' => ?_) hne
  · haveI := card_pos_of_surj hy c
    haveI := card_pos_of_surj hy c'
    have h1 : (0 : ℝ) < Fintype.card {i // y i = c} := by exact_mod_cast Fintype.card_pos
    have h2 : (0 : ℝ) < Fintype.card {i // y i = c'} := by exact_mod_cast Fintype.card_pos
    obtain ⟨i, j, hi, hj, hp⟩ := hP0 c c'
    refine mul_pos hreg (div_pos ?_ (mul_pos h1 h2))
    exact sum_pos' (fun _ _ => sum_nonneg fun _ _ => h0 _ _) ⟨⟨i, hi⟩, mem_univ _, sum_pos' (fun _ _ => h0 _ _) ⟨⟨j, hj⟩, mem_univ _, lt_of_le_of_ne (h0 _ _) (Ne.symm hp)⟩⟩
  · rw [sum_comm, mul_comm (Fintype.card {i // y i = c} : ℝ)]
    congr 2
    refine sum_congr rfl fun i _ => sum_congr rfl fun j _ => ?_
    rw [← distP_eq, distP_symm, distP_eq]

/-! ## Fisher discriminant analysis -/

private theorem pencil_ok {E : Fda.Ext d} (hE : E.Ok) (X : N → Fin d → ℝ) (y : N → Fin nc) (hc : ∀ c, 1 ≤ #{i | y i = c}) {reg : ℝ} (hreg : 0 < reg) :
    IsUnit (E.V (between (shift X) y) (within (shift X) y + reg • 1)).det ∧ ∀ j e, ∑ f, between (shift X) y e f * E.V (between (shift X) y) (within (shift X) y + reg • 1) f j
      = E.w (between (shift X) y) (within (shift X) y + reg • 1) j * ∑ f, (within (shift X) y + reg • 1) e f * E.V (between (shift X) y) (within (shift X) y + reg • 1) f j := by
  refine hE.1 _ _ ?_ (fun x hx => ?_) ?_
  · ext e f; rw [transpose_apply, between_eq, between_eq]
  · rw [add_mulVec, smul_mulVec, one_mulVec, dotProduct_add, dotProduct_smul, smul_eq_mul]
    have h1 := within_nonneg (shift X) y hc x
    have h2 : 0 < x ⬝ᵥ x := lt_of_le_of_ne (sum_nonneg fun _ _ => mul_self_nonneg _) (Ne.symm fun h => hx (dotProduct_self_eq_zero.1 h))
    nlinarith [mul_pos hreg h2]
  · rw [transpose_add, within_symm, transpose_smul, transpose_one]

/-- **What the directions returned by `fda` see.**  For every returned direction `v`: either all features of `(within + reg) v` agree, or the coordinates of `v` sum to zero, or the classes have the same mean over all features.  The
between-class part only sees one number per class, the mean over all its entries. -/
theorem C124_fda_directions {E : Fda.Ext d} (hE : E.Ok) (X : N → Fin d → ℝ) (y : N → Fin nc) (hc : ∀ c, 2 ≤ #{i | y i = c}) (p : ℕ) {reg : ℝ} (hreg : 0 < reg) {v : Fin d → ℝ} (hv : v ∈ (fda E X y p reg).P) :
    v ≠ 0 ∧ ((∀ e f, ∑ g, withinScatter X y e g * v g + reg * v e = ∑ g, withinScatter X y f g * v g + reg * v f) ∨ ∑ e, v e = 0 ∨ ∀ c c', classScalarMean X y c = classScalarMean X y c') := by
  have hc0 : ∀ c, 0 < #{i | y i = c} := fun c => lt_of_lt_of_le (by norm_num) (hc c)
  obtain ⟨j, hj, rfl⟩ := List.mem_map.1 hv
  obtain ⟨hdet, heig⟩ := pencil_ok hE X y (fun c => (hc0 c)) hreg
  have hne : (fun e => E.V (between (shift X) y) (within (shift X) y + reg • 1) e j) ≠ 0 := by
    intro h0
    have := det_eq_zero_of_column_eq_zero j fun e => congrFun h0 e
    rw [this] at hdet
    exact not_isUnit_zero hdet
  refine ⟨hne, ?_⟩
  obtain ⟨V, hV⟩ : ∃ V : Fin d → ℝ, V = fun e => E.V (between (shift X) y) (within (shift X) y + reg • 1) e j := ⟨_, rfl⟩
  obtain ⟨w, hw⟩ : ∃ w, w = E.w (between (shift X) y) (within (shift X) y + reg • 1) j := ⟨_, rfl⟩
  obtain ⟨κ, hκ⟩ : ∃ κ, κ = ∑ c, (classMean (shift X) y c - (∑ c', classMean (shift X) y c') / nc) ^ 2 := ⟨_, rfl⟩
  have hB : ∀ e, ∑ f, (within (shift X) y + reg • 1) e f * V f = ∑ g, withinScatter X y e g * V g + reg * V e := by
    intro e
    simp only [Matrix.add_apply, Matrix.smul_apply, smul_eq_mul, within_eq X y hc0, add_mul, sum_add_distrib, one_apply, mul_ite, mul_one, mul_zero, ite_mul, zero_mul, sum_ite_eq, mem_univ, if_true]
  have h : ∀ e, κ * ∑ f, V f = w * (∑ g, withinScatter X y e g * V g + reg * V e) := by
    intro e
    have := heig j e
    rw [← hw] at this
    rw [← hB, hV, ← this, hκ, mul_sum]
    exact sum_congr rfl fun f _ => by rw [between_eq]
  have hV' : ∀ e, E.V (between (shift X) y) (within (shift X) y + reg • 1) e j = V e := fun e => by rw [hV]
  simp only [hV']
  by_cases hw0 : w = 0
  · right
    have hd : 0 < d := lt_of_le_of_lt (Nat.zero_le _) j.2
    have h0 := h j
    rw [hw0, zero_mul] at h0
    rcases mul_eq_zero.1 h0 with h1 | h1
    · right
      intro c c'
      have hz : ∀ c, classMean (shift X) y c = (∑ c', classMean (shift X) y c') / nc := by
        intro c
        rw [hκ] at h1
        have := (sum_eq_zero_iff_of_nonneg fun c _ => sq_nonneg _).1 h1 c (mem_univ _)
        have := pow_eq_zero_iff (two_ne_zero) |>.1 this
        linarith
      have e1 := scalar_shift X y hd (hc0 c)
      have e2 := scalar_shift X y hd (hc0 c')
      have := (hz c).trans (hz c').symm
      linarith
    · left; exact h1
  · left
    intro e f
    have := (h e).symm.trans (h f)
    exact mul_left_cancel₀ hw0 this

/-- **How many directions.**  With at least two classes and `p ≥ 1`, the number of directions is `min (nc - 1, p)`, at most the number of features. -/
theorem C124_fda_count {E : Fda.Ext d} (hE : E.Ok) (X : N → Fin d → ℝ) (y : N → Fin nc) {p : ℕ} (hp : 1 ≤ p) (hnc : 2 ≤ nc) (reg : ℝ) : (fda E X y p reg).P.length = min (min (nc - 1) p) d := by
  unfold fda lastSlice
  rw [List.length_map, if_neg (by omega), List.length_drop]
  have : (E.argsort (E.w (between (shift X) y) (within (shift X) y + reg • 1))).length = d := by
    rw [(hE.2 _).1.length_eq, List.length_finRange]
  rw [this]
  omega

/-- **Refuted: at most `p` directions.**  With a single class the slice `[-0:]` keeps all the eigenvectors: `d` directions are returned whatever `p`. -/
theorem C124_fda_one_class_refuted {E : Fda.Ext d} (hE : E.Ok) (X : N → Fin d → ℝ) (y : N → Fin 1) (p : ℕ) (reg : ℝ) : (fda E X y p reg).P.length = d := by
  unfold fda lastSlice
  simp only [Nat.sub_self, Nat.zero_min, if_true, List.length_map]
  rw [(hE.2 _).1.length_eq, List.length_finRange]

/-- **The caller's data are overwritten**: after the call the array passed as `X` holds `X` minus the mean of all its entries; it is unchanged only when the entries sum to zero. -/
theorem C124_fda_overwrites [Nonempty N] (hd : 0 < d) (E : Fda.Ext d) (X : N → Fin d → ℝ) (y : N → Fin nc) (p : ℕ) (reg : ℝ) : (fda E X y p reg).X = X ↔ ∑ i, ∑ e, X i e = 0 := by
  have hN : (0 : ℝ) < Fintype.card N := by exact_mod_cast Fintype.card_pos
  have hd' : (0 : ℝ) < d := by exact_mod_cast hd
  have e : (fda E X y p reg).X = shift X := rfl
  rw [e]
  constructor
  · intro h
    have := congrFun (congrFun h (Classical.arbitrary N)) ⟨0, hd⟩
    have h0 : meanAll X = 0 := by unfold shift at this; linarith
    unfold meanAll at h0
    rcases div_eq_zero_iff.1 h0 with h1 | h1
    · exact h1
    · exact absurd h1 (mul_pos hN hd').ne'
  · intro h
    funext i e
    unfold shift meanAll
    rw [h, zero_div, sub_zero]

/-- **Refuted: `proj` centres the data.**  With three classes, two features of different means and `p = 2`, some projected coordinate of the training samples does not average to zero: the number subtracted is the mean of all entries, not the
mean of each feature. -/
theorem C124_fda_centering_refuted {E : Fda.Ext 2} (hE : E.Ok) (X : N → Fin 2 → ℝ) (y : N → Fin 3) (hc : ∀ c, 2 ≤ #{i | y i = c}) {reg : ℝ} (hreg : 0 < reg) (hne : featMean X 0 ≠ featMean X 1) :
    ∃ q, ∑ i, ((fda E X y 2 reg).proj (X i)).getD q 0 ≠ 0 := by
  by_contra hall
  push Not at hall
  obtain ⟨hdet, -⟩ := pencil_ok hE X y (fun c => le_trans (by norm_num) (hc c)) hreg
  obtain ⟨V, hV⟩ : ∃ V, V = E.V (between (shift X) y) (within (shift X) y + reg • 1) := ⟨_, rfl⟩
  obtain ⟨l, hl⟩ : ∃ l, l = E.argsort (E.w (between (shift X) y) (within (shift X) y + reg • 1)) := ⟨_, rfl⟩
  have hperm : l.Perm (List.finRange 2) := by rw [hl]; exact (hE.2 _).1
  have hlen : l.length = 2 := by rw [hperm.length_eq, List.length_finRange]
  have hP : (fda E X y 2 reg).P = l.map fun j e => V e j := by
    rw [hl, hV]
    have : lastSlice l (min (3 - 1) 2) = l := by
      unfold lastSlice
      rw [if_neg (by norm_num), hlen]
      rfl
    rw [hl] at this
    unfold fda
    simp only [this]
  have hproj : ∀ j : Fin 2, ∑ i, ∑ e, (X i e - meanAll X) * V e j = 0 := by
    intro j
    obtain ⟨q, hq, hqj⟩ := List.getElem_of_mem (hperm.mem_iff.2 (List.mem_finRange j))
    have := hall q
    have e : ∀ i, ((fda E X y 2 reg).proj (X i)).getD q 0 = ∑ e, (X i e - meanAll X) * V e j := by
      intro i
      have e1 : (fda E X y 2 reg).proj (X i) = (fda E X y 2 reg).P.map fun v => ∑ e, (X i e - meanAll X) * v e := rfl
      rw [e1, hP, List.map_map, List.getD_eq_getElem?_getD, List.getElem?_eq_getElem (by rw [List.length_map]; exact hq), Option.getD_some, List.getElem_map, hqj]
      rfl
    simpa only [e] using this
  obtain ⟨i0, hi0⟩ : ∃ i, y i = 0 := by
    obtain ⟨i, hi⟩ := card_pos.1 (lt_of_lt_of_le (by norm_num) (hc 0))
    exact ⟨i, (mem_filter.1 hi).2⟩
  have hN : (0 : ℝ) < Fintype.card N := by
    haveI : Nonempty N := ⟨i0⟩
    exact_mod_cast Fintype.card_pos
  have hrow : (fun e => ∑ i, (X i e - meanAll X)) ᵥ* V = 0 := by
    funext j
    rw [vecMul, dotProduct, Pi.zero_apply, ← hproj j]
    simp only [sum_mul]
    rw [sum_comm]
  have hz : (fun e => ∑ i, (X i e - meanAll X)) = 0 := by
    rw [← hV] at hdet
    have := congrArg (· ᵥ* V⁻¹) hrow
    simpa [vecMul_vecMul, mul_nonsing_inv _ hdet] using this
  have h0 := congrFun hz 0
  have h1 := congrFun hz 1
  simp only [sum_sub_distrib, Pi.zero_apply] at h0 h1
  apply hne
  unfold featMean
  congr 1
  linarith

/-- Two classes of four points: a cross of radius one around `(2, -1)` and one around `(-2, 1)`. -/
def crossData : Fin 8 → Fin 2 → ℝ := ![![3, -1], ![1, -1], ![2, 0], ![2, -2], ![-3, 1], ![-1, 1], ![-2, 0], ![-2, 2]]
def crossLabels : Fin 8 → Fin 2 := ![0, 0, 0, 0, 1, 1, 1, 1]

/-- **Refuted: `fda` finds a Fisher direction.**  Whatever the eigenvalue and sorting routines, on two round classes centred at `(2, -1)` and `(-2, 1)` the single returned direction is a multiple of `(1, 1)`; it does not maximise the ratio of
between-class to within-class spread. -/
theorem C124_fda_fisher_refuted {E : Fda.Ext 2} (hE : E.Ok) {reg : ℝ} (hreg : 0 < reg) :
    ∃ v, (fda E crossData crossLabels 2 reg).P = [v] ∧ v 0 = v 1 ∧ ¬ IsFisherDirection crossData crossLabels reg v := by
  have hcard : ∀ c, #{i | crossLabels i = c} = 4 := by decide
  have hc : ∀ c, 2 ≤ #{i | crossLabels i = c} := fun c => by rw [hcard]; norm_num
  have hlen := C124_fda_count hE crossData crossLabels (p := 2) (by norm_num) le_rfl reg
  obtain ⟨v, hv⟩ := List.length_eq_one_iff.1 (by simpa using hlen)
  have hS : ∀ c : Fin 2, (univ.filter fun i => crossLabels i = c) = if c = 0 then {0, 1, 2, 3} else {4, 5, 6, 7} := by decide
  have hfm : ∀ c e, classFeatMean crossData crossLabels c e = if c = 0 then (if e = 0 then 2 else -1) else (if e = 0 then -2 else 1) := by
    intro c e
    unfold classFeatMean
    rw [hcard]
    fin_cases c <;> fin_cases e <;> simp [hS, crossData] <;> norm_num
  have hw : ∀ e f, withinScatter crossData crossLabels e f = if e = f then 2 / 3 else 0 := by
    intro e f
    unfold withinScatter
    simp only [hcard, hfm, Fin.sum_univ_two]
    fin_cases e <;> fin_cases f <;> simp [hS, crossData] <;> norm_num
  have hsm : ∀ c : Fin 2, classScalarMean crossData crossLabels c = if c = 0 then 1 / 2 else -1 / 2 := by
    intro c
    unfold classScalarMean
    simp only [hfm, Fin.sum_univ_two]
    fin_cases c <;> simp <;> norm_num
  -- the returned direction has the largest eigenvalue
  obtain ⟨V, hV⟩ : ∃ V, V = E.V (between (shift crossData) crossLabels) (within (shift crossData) crossLabels + reg • 1) := ⟨_, rfl⟩
  obtain ⟨w, hwd⟩ : ∃ w, w = E.w (between (shift crossData) crossLabels) (within (shift crossData) crossLabels + reg • 1) := ⟨_, rfl⟩
  obtain ⟨hdet, heig⟩ := pencil_ok hE crossData crossLabels (fun c => le_trans (by norm_num) (hc c)) hreg
  rw [← hV] at hdet heig
  rw [← hwd] at heig
  have hm0 : meanAll crossData = 0 := by
    unfold meanAll crossData
    simp [Fin.sum_univ_succ]
    norm_num
  have hbet : ∀ e f, between (shift crossData) crossLabels e f = 1 / 2 := by
    intro e f
    rw [between_eq]
    have h0 : ∀ c, classMean (shift crossData) crossLabels c = classScalarMean crossData crossLabels c := fun c => by
      rw [scalar_shift crossData crossLabels two_pos (by rw [hcard]; norm_num), hm0, sub_zero]
    simp only [h0, hsm, Fin.sum_univ_two]
    norm_num
  have heig' : ∀ j e, 1 / 2 * (V 0 j + V 1 j) = w j * ((2 / 3 + reg) * V e j) := by
    intro j e
    have := heig j e
    simp only [hbet, Fin.sum_univ_two, Matrix.add_apply, Matrix.smul_apply, smul_eq_mul, one_apply] at this
    rw [within_eq _ _ (fun c => by rw [hcard]; norm_num), within_eq _ _ (fun c => by rw [hcard]; norm_num), hw, hw] at this
    fin_cases e <;> simp at this ⊢ <;> linarith
  have hsome : ∃ j, V 0 j + V 1 j ≠ 0 := by
    by_contra hcon
    push Not at hcon
    have hz : (![1, 1] : Fin 2 → ℝ) ᵥ* V = 0 := by
      funext j
      simp [vecMul, dotProduct, Fin.sum_univ_two, hcon j]
    have := congrArg (· ᵥ* V⁻¹) hz
    have h1 : (![1, 1] : Fin 2 → ℝ) = 0 := by simpa [vecMul_vecMul, mul_nonsing_inv _ hdet] using this
    have := congrFun h1 0
    simp at this
  obtain ⟨j, hj⟩ := hsome
  have hβ : 0 < 2 / 3 + reg := by linarith
  have hwj : 0 < w j := by
    have h0 := heig' j 0
    have h1 := heig' j 1
    have hne : w j ≠ 0 := fun h => hj (by rw [h] at h0; linarith)
    have e : V 0 j = V 1 j := by
      have := h0.symm.trans h1
      exact mul_left_cancel₀ hβ.ne' (mul_left_cancel₀ hne this)
    rw [← e] at h0 hj
    have hv0 : V 0 j ≠ 0 := fun h => hj (by rw [h]; norm_num)
    have : (w j * (2 / 3 + reg) - 1) * V 0 j = 0 := by linarith
    rcases mul_eq_zero.1 this with h | h
    · by_contra hneg
      nlinarith
    · exact absurd h hv0
  -- the last index of the sorted list
  obtain ⟨l, hl⟩ : ∃ l, l = E.argsort w := ⟨_, rfl⟩
  have hperm : l.Perm (List.finRange 2) := by rw [hl]; exact (hE.2 _).1
  have hsort : l.Pairwise fun a b => w a ≤ w b := by rw [hl]; exact (hE.2 _).2
  have hlen2 : l.length = 2 := by rw [hperm.length_eq, List.length_finRange]
  obtain ⟨a, b, rfl⟩ := List.length_eq_two.1 hlen2
  have hP : (fda E crossData crossLabels 2 reg).P = [fun e => V e b] := by
    unfold fda
    simp only
    rw [← hwd, ← hl, ← hV]
    rfl
  have hvb : v = fun e => V e b := by
    rw [hv] at hP
    exact (List.cons.inj hP).1
  have hwb : 0 < w b := by
    have hab : w a ≤ w b := by simpa using hsort
    have hmem : j ∈ [a, b] := hperm.mem_iff.2 (List.mem_finRange j)
    simp only [List.mem_cons, List.not_mem_nil, or_false] at hmem
    rcases hmem with rfl | rfl
    · linarith
    · exact hwj
  have hve : v 0 = v 1 := by
    rw [hvb]
    have := (heig' b 0).symm.trans (heig' b 1)
    exact mul_left_cancel₀ hβ.ne' (mul_left_cancel₀ hwb.ne' this)
  have hvne : v ≠ 0 := (C124_fda_directions hE crossData crossLabels hc 2 hreg (v := v) (by rw [hv]; simp)).1
  refine ⟨v, hv, hve, fun hF => ?_⟩
  have h := hF ![2, -1]
  have hB : ∀ u : Fin 2 → ℝ, fisherBetween crossData crossLabels u = 2 * (2 * u 0 - u 1) ^ 2 := by
    intro u
    unfold fisherBetween
    simp only [hfm, Fin.sum_univ_two, Fintype.card_fin]
    norm_num
    ring
  have hW : ∀ u : Fin 2 → ℝ, fisherWithin crossData crossLabels u = 2 / 3 * (u 0 ^ 2 + u 1 ^ 2) := by
    intro u
    unfold fisherWithin
    simp only [hcard, hfm, hS, Fin.sum_univ_two, Fintype.card_fin]
    simp [crossData]
    ring
  simp only [hB, hW, Fin.sum_univ_two] at h
  rw [← hve] at h
  simp at h
  have hv0 : v 0 ≠ 0 := by
    intro h0
    apply hvne
    funext e
    fin_cases e
    · exact h0
    · exact (hve.symm.trans h0)
  have hp : 0 < v 0 ^ 2 := by positivity
  nlinarith [mul_pos hp hβ]

/-! ## Non-vacuity -/

/-- Eigenvalue and sorting routines with the promises used above exist in every dimension. -/
theorem fdaExt_exists (d : ℕ) : ∃ E : Fda.Ext d, E.Ok := by
  obtain ⟨e, he⟩ := eigh_exists d
  have key : ∀ A B : Matrix (Fin d) (Fin d) ℝ, ∃ (w : Fin d → ℝ) (V : Matrix (Fin d) (Fin d) ℝ), Aᵀ = A → (∀ x, x ≠ 0 → 0 < x ⬝ᵥ (B *ᵥ x)) → Bᵀ = B → IsUnit V.det ∧ ∀ j e, ∑ f, A e f * V f j = w j * ∑ f, B e f * V f j := by
    intro A B
    by_cases h : Aᵀ = A ∧ (∀ x, x ≠ 0 → 0 < x ⬝ᵥ (B *ᵥ x)) ∧ Bᵀ = B
    swap
    · exact ⟨0, 0, fun h1 h2 h3 => absurd ⟨h1, h2, h3⟩ h⟩
    obtain ⟨hA, hB, hBt⟩ := h
    have hpd : B.PosDef := by
      refine Matrix.PosDef.of_dotProduct_mulVec_pos (by rw [IsHermitian, conjTranspose_eq_transpose_of_trivial]; exact hBt) fun x hx => ?_
      simpa using hB x hx
    obtain ⟨S, hS, hSS⟩ := Bures.exists_sqrt hpd.posSemidef
    have hSt : Sᵀ = S := Bures.psd_t hS
    have hdS : IsUnit S.det := by
      have h0 : B.det ≠ 0 := hpd.det_pos.ne'
      rw [← hSS, det_mul] at h0
      exact isUnit_iff_ne_zero.2 (left_ne_zero_of_mul h0)
    have h1 : S * S⁻¹ = 1 := mul_nonsing_inv _ hdS
    have h2 : S⁻¹ * S = 1 := nonsing_inv_mul _ hdS
    obtain ⟨hU, hD, -⟩ := he (S⁻¹ * A * S⁻¹) (by rw [transpose_mul, transpose_mul, transpose_nonsing_inv, hSt, hA, Matrix.mul_assoc])
    obtain ⟨U, hUd⟩ : ∃ U, U = e.vecs (S⁻¹ * A * S⁻¹) := ⟨_, rfl⟩
    obtain ⟨w, hw⟩ : ∃ w, w = e.vals (S⁻¹ * A * S⁻¹) := ⟨_, rfl⟩
    rw [← hUd] at hU hD
    rw [← hw] at hD
    have hAS : A = S * (U * diagonal w * Uᵀ) * S := by
      rw [← hD]
      calc A = 1 * A * 1 := by rw [Matrix.one_mul, Matrix.mul_one]
        _ = (S * S⁻¹) * A * (S⁻¹ * S) := by rw [h1, h2]
        _ = _ := by simp only [Matrix.mul_assoc]
    refine ⟨w, S⁻¹ * U, fun _ _ _ => ⟨?_, fun j e => ?_⟩⟩
    · rw [det_mul]
      refine IsUnit.mul (isUnit_iff_ne_zero.2 fun h => ?_) (isUnit_iff_ne_zero.2 fun h => ?_)
      · have := congrArg det h1
        rw [det_mul, h, mul_zero, det_one] at this
        exact zero_ne_one this
      · have := congrArg det hU
        rw [det_mul, h, mul_zero, det_one] at this
        exact zero_ne_one this
    · have hAV : A * (S⁻¹ * U) = B * (S⁻¹ * U) * diagonal w := by
        have l : A * (S⁻¹ * U) = S * (U * diagonal w) := by
          calc A * (S⁻¹ * U) = S * (U * diagonal w * Uᵀ) * S * (S⁻¹ * U) := by rw [← hAS]
            _ = S * U * diagonal w * Uᵀ * (S * S⁻¹) * U := by simp only [Matrix.mul_assoc]
            _ = S * (U * diagonal w) * (Uᵀ * U) := by rw [h1, Matrix.mul_one]; simp only [Matrix.mul_assoc]
            _ = _ := by rw [hU, Matrix.mul_one]
        have r : B * (S⁻¹ * U) = S * U := by
          calc B * (S⁻¹ * U) = S * (S * S⁻¹) * U := by rw [← hSS]; simp only [Matrix.mul_assoc]
            _ = _ := by rw [h1, Matrix.mul_one]
        rw [l, r, Matrix.mul_assoc]
      have := congrFun (congrFun hAV e) j
      rw [mul_diagonal, mul_apply, mul_apply] at this
      rw [this, mul_comm]
  choose w V h using key
  refine ⟨⟨w, V, fun w => List.ofFn (Tuple.sort w)⟩, h, fun w => ⟨?_, ?_⟩⟩
  · dsimp only
    rw [List.ofFn_eq_map]
    exact (Tuple.sort w).map_finRange_perm
  · dsimp only
    rw [List.pairwise_ofFn]
    exact fun i j hij => Tuple.monotone_sort w hij.le

/-- calls meeting the hypotheses of the theorems on `fda` -/
example : ∃ E : Fda.Ext 2, E.Ok ∧ (∃ v, v ∈ (fda E crossData crossLabels 2 1).P) := by
  obtain ⟨E, hE⟩ := fdaExt_exists 2
  obtain ⟨v, hv, -⟩ := C124_fda_fisher_refuted hE one_pos
  exact ⟨E, hE, v, by rw [hv]; simp⟩

example : ∃ (E : Fda.Ext 2) (X : Fin 6 → Fin 2 → ℝ) (y : Fin 6 → Fin 3), E.Ok ∧ (∀ c, 2 ≤ #{i | y i = c}) ∧ featMean X 0 ≠ featMean X 1 := by
  obtain ⟨E, hE⟩ := fdaExt_exists 2
  refine ⟨E, fun i => ![1, 0], ![0, 0, 1, 1, 2, 2], hE, by decide, ?_⟩
  simp [featMean]

/-- a call meeting the hypotheses of the theorems on `wda` -/
example : Function.Surjective crossLabels ∧ (∃ i j, crossLabels i ≠ crossLabels j ∧ projSq (!![1; 0] : Matrix (Fin 2) (Fin 1) ℝ) (crossData i) (crossData j) ≠ 0) ∧
    ∀ c c', ∃ i j, crossLabels i = c ∧ crossLabels j = c' ∧ projSq (!![1; 0] : Matrix (Fin 2) (Fin 1) ℝ) (crossData i) (crossData j) ≠ 0 := by
  have h01 : projSq (!![1; 0] : Matrix (Fin 2) (Fin 1) ℝ) (crossData 0) (crossData 1) ≠ 0 := by norm_num [projSq, crossData, Fin.sum_univ_two]
  have h45 : projSq (!![1; 0] : Matrix (Fin 2) (Fin 1) ℝ) (crossData 4) (crossData 5) ≠ 0 := by simp [projSq, crossData, Fin.sum_univ_two] <;> norm_num
  have h04 : projSq (!![1; 0] : Matrix (Fin 2) (Fin 1) ℝ) (crossData 0) (crossData 4) ≠ 0 := by simp [projSq, crossData, Fin.sum_univ_two] <;> norm_num
  have h40 : projSq (!![1; 0] : Matrix (Fin 2) (Fin 1) ℝ) (crossData 4) (crossData 0) ≠ 0 := by simp [projSq, crossData, Fin.sum_univ_two] <;> norm_num
  refine ⟨by decide, ⟨0, 4, by decide, h04⟩, fun c c' => ?_⟩
  fin_cases c <;> fin_cases c'
  · exact ⟨0, 1, rfl, rfl, h01⟩
  · exact ⟨0, 4, rfl, rfl, h04⟩
  · exact ⟨4, 0, rfl, rfl, h40⟩
  · exact ⟨4, 5, rfl, rfl, h45⟩

end POT.Props
