import Verif.Lemmas.GromovUnb
import Mathlib.Tactic.NormNum
import Mathlib.Analysis.SpecialFunctions.Log.Deriv
import Mathlib.Analysis.Complex.ExponentialBounds

/-! # C42, C43, C60, C61: unbalanced across-spaces solvers -/

set_option linter.unusedSectionVars false

namespace POT.Props

open Finset GromovUnb Spec

variable {K L I J D E : Type*} [Fintype K] [Fintype L] [Fintype I] [Fintype J] [Fintype D] [Fintype E]

/-- The Boolean used in the specification for a divergence name / a regularisation type of the code. -/
def isKl : Div → Bool | .kl => true | .l2 => false
def isJoint : RegType → Bool | .joint => true | .independent => false

theorem prodMeasure_ne {p : K → ℝ} {q : L → ℝ} (hp : ∀ k, 0 < p k) (hq : ∀ l, 0 < q l) (x : K × L) : prodMeasure p q x ≠ 0 :=
  (mul_pos (hp x.1) (hq x.2)).ne'

/-! ## C42 -/

/-- C42. `div_between_product` is the divergence between the two product measures. -/
theorem C42_div_between_product (dv : Div) (mu : K → ℝ) (nu : L → ℝ) (al : K → ℝ) (be : L → ℝ) (ha : ∀ k, 0 < al k)
    (hb : ∀ l, 0 < be l) :
    divBetweenProduct mu nu al be dv = divergence (isKl dv) (prodMeasure mu nu) (prodMeasure al be) := by
  cases dv
  · simp only [divBetweenProduct, isKl, divergence, if_true]
    rw [kl_prod mu nu al be (fun k => (ha k).ne') (fun l => (hb l).ne'), klDiv_eq, klDiv_eq]
    simp only [if_true]; ring
  · simp only [divBetweenProduct, isKl, divergence, Bool.false_eq_true, if_false]
    rw [l2_prod]; ring

/-- C42. `div_to_product` with the marginals of the plan is the divergence between the plan and the product of `a` and `b`. -/
theorem C42_div_to_product (dv : Div) (pi : I → J → ℝ) (a : I → ℝ) (b : J → ℝ) (ha : ∀ k, 0 < a k) (hb : ∀ l, 0 < b l) :
    divToProduct pi a b (fun i => ∑ j, pi i j) (fun j => ∑ i, pi i j) dv true
      = divergence (isKl dv) (asMeasure pi) (prodMeasure a b) := by
  cases dv
  · have h := divToProduct_false pi a b (fun k => (ha k).ne') (fun l => (hb l).ne')
    simp only [isKl, divergence, if_true]
    rw [klDivergence_eq, ← h, sum_asMeasure, sum_prodMeasure]
    simp only [divToProduct, if_true, marg1, marg2, Bool.false_eq_true, if_false]
    ring
  · simp only [isKl, divergence, Bool.false_eq_true, if_false]
    rw [l2_eq]
    simp only [divToProduct]
    rw [Fintype.sum_prod_type, Fintype.sum_prod_type, Fintype.sum_prod_type]
    have h1 : ∑ i, ∑ j, prodMeasure a b (i, j) ^ 2 = (∑ i, a i ^ 2) * ∑ j, b j ^ 2 := by
      rw [sum_mul_sum]; exact sum_congr rfl fun i _ => sum_congr rfl fun j _ => by simp only [prodMeasure]; ring
    have h2 : ∑ i, ∑ j, prodMeasure a b (i, j) * asMeasure pi (i, j) = ∑ i, a i * ∑ j, pi i j * b j := by
      refine sum_congr rfl fun i _ => ?_
      rw [mul_sum]; exact sum_congr rfl fun j _ => by simp only [prodMeasure, asMeasure]; ring
    rw [h1, h2]
    simp only [asMeasure]
    ring

/-! ## C43 -/

theorem ite_zero_mul (r x : ℝ) : (if r = 0 then 0 else r * x) = r * x := by
  split_ifs with h
  · rw [h, zero_mul]
  · rfl

/-- C43 for the joint regularisation: the reported total cost is the documented objective. -/
theorem C43_total_cost_joint (dv : Div) (d : Data I J D E) (h1 : ∀ i, 0 < d.wxs i) (h2 : ∀ i, 0 < d.wxf i)
    (h3 : ∀ i, 0 < d.wys i) (h4 : ∀ i, 0 < d.wyf i) (P : I → J → ℝ) (Q : D → E → ℝ) :
    totalCost d dv .joint P Q
      = cootObjective (isKl dv) true d.X d.Y d.wxs d.wxf d.wys d.wyf d.Ms d.Mf d.rhoX d.rhoY d.epsS d.epsF P Q := by
  simp only [totalCost, cootObjective, ite_zero_mul, if_true]
  rw [linearCost_eq, C42_div_between_product dv _ _ _ _ h1 h2, C42_div_between_product dv _ _ _ _ h3 h4,
    C42_div_between_product dv _ _ (fun x : I × J => outer d.wxs d.wys x.1 x.2) (fun x : D × E => outer d.wxf d.wyf x.1 x.2)
      (fun x => mul_pos (h1 x.1) (h3 x.2)) (fun x => mul_pos (h2 x.1) (h4 x.2))]
  have m1 : marg1 P = fun i => ∑ j, P i j := rfl
  have m2 : marg2 P = fun j => ∑ i, P i j := rfl
  have m3 : marg1 Q = fun i => ∑ j, Q i j := rfl
  have m4 : marg2 Q = fun j => ∑ i, Q i j := rfl
  have m5 : asMeasure P = fun x : I × J => P x.1 x.2 := rfl
  have m6 : asMeasure Q = fun x : D × E => Q x.1 x.2 := rfl
  have m7 : prodMeasure d.wxs d.wys = fun x : I × J => outer d.wxs d.wys x.1 x.2 := rfl
  have m8 : prodMeasure d.wxf d.wyf = fun x : D × E => outer d.wxf d.wyf x.1 x.2 := rfl
  rw [m1, m2, m3, m4, m5, m6, m7, m8]
  ring

/-- C43 for the independent regularisation, `_partial`: only for plans whose marginals are exactly the given weights.
Missing: all other plans, for which the statement is false (`C43_total_cost_counterexample`). -/
theorem C43_total_cost_independent_partial (dv : Div) (d : Data I J D E) (h1 : ∀ i, 0 < d.wxs i) (h2 : ∀ i, 0 < d.wxf i)
    (h3 : ∀ i, 0 < d.wys i) (h4 : ∀ i, 0 < d.wyf i) (P : I → J → ℝ) (Q : D → E → ℝ)
    (hP1 : ∀ i, ∑ j, P i j = d.wxs i) (hP2 : ∀ j, ∑ i, P i j = d.wys j)
    (hQ1 : ∀ i, ∑ j, Q i j = d.wxf i) (hQ2 : ∀ j, ∑ i, Q i j = d.wyf j) :
    totalCost d dv .independent P Q
      = cootObjective (isKl dv) false d.X d.Y d.wxs d.wxf d.wys d.wyf d.Ms d.Mf d.rhoX d.rhoY d.epsS d.epsF P Q := by
  have e1 : (fun i => ∑ j, P i j) = d.wxs := funext hP1
  have e2 : (fun j => ∑ i, P i j) = d.wys := funext hP2
  have e3 : (fun i => ∑ j, Q i j) = d.wxf := funext hQ1
  have e4 : (fun j => ∑ i, Q i j) = d.wyf := funext hQ2
  have f1 := C42_div_to_product dv P d.wxs d.wys h1 h3
  have f2 := C42_div_to_product dv Q d.wxf d.wyf h2 h4
  rw [e1, e2] at f1
  rw [e3, e4] at f2
  simp only [totalCost, cootObjective, ite_zero_mul, Bool.false_eq_true, if_false]
  rw [linearCost_eq, C42_div_between_product dv _ _ _ _ h1 h2, C42_div_between_product dv _ _ _ _ h3 h4,
    e1, e2, e3, e4, f1, f2]
  have m1 : marg1 P = d.wxs := e1
  have m2 : marg2 P = d.wys := e2
  have m3 : marg1 Q = d.wxf := e3
  have m4 : marg2 Q = d.wyf := e4
  rw [m1, m2, m3, m4]
  ring

/-- one sample, one feature on each side, all weights one, plan `(2)` for the samples, `(1)` for the features -/
noncomputable def tinyData : Data (Fin 1) (Fin 1) (Fin 1) (Fin 1) :=
  { X := fun _ _ => 0, Y := fun _ _ => 0, wxs := fun _ => 1, wxf := fun _ => 1, wys := fun _ => 1, wyf := fun _ => 1,
    Ms := fun _ _ => 0, Mf := fun _ _ => 0, rhoX := 0, rhoY := 0, epsS := 1, epsF := 0 }

/-- C43 is false for the independent regularisation: the reported total cost is not the documented one
(3 instead of `2 log 2 - 1`). -/
theorem C43_total_cost_counterexample :
    totalCost tinyData .kl .independent (fun _ _ => 2) (fun _ _ => 1) = 3 ∧
    cootObjective true false tinyData.X tinyData.Y tinyData.wxs tinyData.wxf tinyData.wys tinyData.wyf tinyData.Ms tinyData.Mf
      tinyData.rhoX tinyData.rhoY tinyData.epsS tinyData.epsF (fun _ _ => 2) (fun _ _ => 1) = 2 * Real.log 2 - 1 ∧
    (2 * Real.log 2 - 1 : ℝ) ≠ 3 := by
  refine ⟨?_, ?_, ?_⟩
  · simp [totalCost, tinyData, linearCost, divToProduct]
    ring
  · simp [cootObjective, tinyData, cootLinear, divergence, klDivergence, asMeasure, prodMeasure]
    ring
  · have := Real.log_two_lt_d9
    intro h; linarith

/-! ## C60 -/

/-- The objective of the problem handed to the inner solver. -/
noncomputable def blockObjective (kl : Bool) (b : Block I J) (G : I → J → ℝ) : ℝ :=
  uotObjective kl b.cost b.wx b.wy b.wxy b.rhoX b.rhoY b.eps G

/-- C60, KL divergence, joint regularisation, sample block: up to a constant the inner problem is the documented joint objective. The
code sets `eps_feat = eps_samp` in this case. -/
theorem C60_sample_block_joint (d : Data I J D E) (h1 : ∀ i, 0 < d.wxs i) (h2 : ∀ i, 0 < d.wxf i)
    (h3 : ∀ i, 0 < d.wys i) (h4 : ∀ i, 0 < d.wyf i) (heps : d.epsF = d.epsS) (he0 : 0 ≤ d.epsS)
    (piS P P' : I → J → ℝ) (Q : D → E → ℝ) :
    let obj := fun P => cootObjective true true d.X d.Y d.wxs d.wxf d.wys d.wyf d.Ms d.Mf d.rhoX d.rhoY d.epsS d.epsF P Q
    let inner := blockObjective true (sampleBlock d .kl .joint piS Q)
    inner P - inner P' = obj P - obj P' := by
  have key : ∀ P : I → J → ℝ,
      blockObjective true (sampleBlock d .kl .joint piS Q) P
        - cootObjective true true d.X d.Y d.wxs d.wxf d.wys d.wyf d.Ms d.Mf d.rhoX d.rhoY d.epsS d.epsF P Q
      = d.rhoX * ((∑ k, ∑ l, Q k l) * ∑ i, d.wxs i) - d.rhoX * ((∑ i, d.wxs i) * ∑ k, d.wxf k)
        + d.rhoY * ((∑ k, ∑ l, Q k l) * ∑ i, d.wys i) - d.rhoY * ((∑ i, d.wys i) * ∑ k, d.wyf k)
        + d.epsS * ((∑ k, ∑ l, Q k l) * ((∑ i, d.wxs i) * ∑ j, d.wys j))
        - d.epsS * (((∑ i, d.wxs i) * ∑ j, d.wys j) * ((∑ i, d.wxf i) * ∑ j, d.wyf j))
        - (∑ k, ∑ l, Q k l * d.Mf k l) := by
    intro P
    have hlin := cootLinear_eq d.X d.Y P Q
    have heps' : ∀ x : ℝ, (if (True ∧ 0 < d.epsF) then d.epsF * x else 0) = d.epsS * x := by
      intro x
      rw [heps]
      rcases he0.eq_or_lt with h | h
      · rw [← h]; simp
      · simp [h]
    have hcost : ∑ i, ∑ j, P i j * (sampleBlock d .kl .joint piS Q).cost i j
        = cootLinear d.X d.Y P Q + (∑ i, ∑ j, P i j * d.Ms i j)
          + (∑ i, ∑ j, P i j) * (d.rhoX * ent (marg1 Q) d.wxf + d.rhoY * ent (marg2 Q) d.wyf
              + d.epsS * ent (asMeasure Q) (prodMeasure d.wxf d.wyf)) := by
      have hd := divToProduct_false Q d.wxf d.wyf (fun k => (h2 k).ne') (fun l => (h4 l).ne')
      unfold marg1 marg2 at hd
      simp only [sampleBlock, uotCostMatrix, ite_zero_mul, heps', hd]
      rw [hlin, sum_mul, ← sum_add_distrib, ← sum_add_distrib]
      refine sum_congr rfl fun i _ => ?_
      rw [sum_mul, ← sum_add_distrib, ← sum_add_distrib]
      refine sum_congr rfl fun j _ => ?_
      rw [klDiv_eq, klDiv_eq]
      have m1 : marg1 Q = fun d => ∑ e, Q d e := rfl
      have m2 : marg2 Q = fun e => ∑ d, Q d e := rfl
      simp only [m1, m2, Bool.false_eq_true, if_false, add_zero]
      ring
    simp only [blockObjective, uotObjective, hcost]
    simp only [cootObjective, divergence, if_true, sampleBlock]
    rw [kl_prod _ _ _ _ (fun k => (h1 k).ne') (fun k => (h2 k).ne'), kl_prod _ _ _ _ (fun k => (h3 k).ne') (fun k => (h4 k).ne'),
      kl_prod _ _ _ _ (prodMeasure_ne h1 h3) (prodMeasure_ne h2 h4)]
    simp only [klDivergence_eq, sum_asMeasure, sum_marg1, sum_marg2, sum_prodMeasure]
    have ho : asMeasure (outer d.wxs d.wys) = prodMeasure d.wxs d.wys := rfl
    have ho' : ∑ k, ∑ l, outer d.wxs d.wys k l = (∑ i, d.wxs i) * ∑ j, d.wys j := by rw [sum_mul_sum]; rfl
    rw [ho, ho', heps]
    ring
  intro obj inner
  have a := key P
  have b := key P'
  simp only [obj, inner]
  linarith

/-- the problem with the roles of samples and features exchanged -/
def swapData (d : Data I J D E) : Data D E I J :=
  { X := fun k i => d.X i k, Y := fun l j => d.Y j l, wxs := d.wxf, wxf := d.wxs, wys := d.wyf, wyf := d.wys,
    Ms := d.Mf, Mf := d.Ms, rhoX := d.rhoX, rhoY := d.rhoY, epsS := d.epsF, epsF := d.epsS }

/-- C60, KL divergence, joint regularisation, feature block. -/
theorem C60_feature_block_joint (d : Data I J D E) (h1 : ∀ i, 0 < d.wxs i) (h2 : ∀ i, 0 < d.wxf i)
    (h3 : ∀ i, 0 < d.wys i) (h4 : ∀ i, 0 < d.wyf i) (heps : d.epsF = d.epsS) (he0 : 0 ≤ d.epsS)
    (P : I → J → ℝ) (piF Q Q' : D → E → ℝ) :
    let obj := fun Q => cootObjective true true d.X d.Y d.wxs d.wxf d.wys d.wyf d.Ms d.Mf d.rhoX d.rhoY d.epsS d.epsF P Q
    let inner := blockObjective true (featureBlock d .kl .joint P piF)
    inner Q - inner Q' = obj Q - obj Q' := by
  intro obj inner
  have hs := C60_sample_block_joint (swapData d) h2 h1 h4 h3 heps.symm (by simpa [swapData, heps] using he0) piF Q Q' P
  have hb : blockObjective true (sampleBlock (swapData d) .kl .joint piF P) = inner := by
    simp only [inner, sampleBlock, featureBlock, swapData, heps]
  have ho : ∀ Q : D → E → ℝ, cootObjective true true (swapData d).X (swapData d).Y (swapData d).wxs (swapData d).wxf (swapData d).wys
      (swapData d).wyf (swapData d).Ms (swapData d).Mf (swapData d).rhoX (swapData d).rhoY (swapData d).epsS (swapData d).epsF Q P
      = obj Q := by
    intro Q
    simp only [obj, cootObjective, divergence, if_true, swapData]
    rw [← cootLinear_swap d.X d.Y P Q]
    rw [kl_prod _ _ _ _ (fun k => (h1 k).ne') (fun k => (h2 k).ne'), kl_prod _ _ _ _ (fun k => (h3 k).ne') (fun k => (h4 k).ne'),
      kl_prod _ _ _ _ (fun k => (h2 k).ne') (fun k => (h1 k).ne'), kl_prod _ _ _ _ (fun k => (h4 k).ne') (fun k => (h3 k).ne'),
      kl_prod _ _ _ _ (prodMeasure_ne h1 h3) (prodMeasure_ne h2 h4),
      kl_prod _ _ _ _ (prodMeasure_ne h2 h4) (prodMeasure_ne h1 h3), heps]
    ring
  simp only at hs
  rw [hb, ho, ho] at hs
  exact hs

/-- C60, consequence: a plan that the inner solver makes no worse than the current one does not increase the documented joint objective. -/
theorem C60_sample_block_descent (d : Data I J D E) (h1 : ∀ i, 0 < d.wxs i) (h2 : ∀ i, 0 < d.wxf i)
    (h3 : ∀ i, 0 < d.wys i) (h4 : ∀ i, 0 < d.wyf i) (heps : d.epsF = d.epsS) (he0 : 0 ≤ d.epsS)
    (P P' : I → J → ℝ) (Q : D → E → ℝ)
    (hsolve : blockObjective true (sampleBlock d .kl .joint P Q) P' ≤ blockObjective true (sampleBlock d .kl .joint P Q) P) :
    totalCost d .kl .joint P' Q ≤ totalCost d .kl .joint P Q := by
  rw [C43_total_cost_joint .kl d h1 h2 h3 h4, C43_total_cost_joint .kl d h1 h2 h3 h4]
  have := C60_sample_block_joint d h1 h2 h3 h4 heps he0 P P' P Q
  simp only [isKl] at this ⊢
  linarith

/-- C60 is false for the L2 divergence: the rescaled weights are computed from the plan being updated instead of the fixed one.  With all
weights one, sample mass 2 and current feature mass 1, the inner problem prefers feature mass 1 although mass 1/2 is
strictly better for the documented objective. -/
theorem C60_l2_counterexample :
    let d : Data (Fin 1) (Fin 1) (Fin 1) (Fin 1) := { tinyData with rhoX := 1, rhoY := 1, epsS := 0, epsF := 0 }
    let P : Fin 1 → Fin 1 → ℝ := fun _ _ => 2
    let Q : Fin 1 → Fin 1 → ℝ := fun _ _ => 1
    let Q' : Fin 1 → Fin 1 → ℝ := fun _ _ => 1 / 2
    blockObjective false (featureBlock d .l2 .joint P Q) Q < blockObjective false (featureBlock d .l2 .joint P Q) Q' ∧
    cootObjective false true d.X d.Y d.wxs d.wxf d.wys d.wyf d.Ms d.Mf d.rhoX d.rhoY d.epsS d.epsF P Q'
      < cootObjective false true d.X d.Y d.wxs d.wxf d.wys d.wyf d.Ms d.Mf d.rhoX d.rhoY d.epsS d.epsF P Q := by
  intro d P Q Q'
  constructor
  · simp [blockObjective, uotObjective, featureBlock, l2Params, uotCostMatrix, d, P, Q, Q', tinyData, divergence, l2Divergence,
      marg1, marg2, asMeasure, outer]
    norm_num
  · simp [cootObjective, d, P, Q, Q', tinyData, divergence, l2Divergence, cootLinear, marg1, marg2, asMeasure, prodMeasure]

/-- C60 is false for the independent regularisation: the sample block is regularised with `eps_feat` instead of `eps_samp`. -/
theorem C60_independent_counterexample :
    let d : Data (Fin 1) (Fin 1) (Fin 1) (Fin 1) := { tinyData with epsS := 0, epsF := 1 }
    let P : Fin 1 → Fin 1 → ℝ := fun _ _ => 2
    let P' : Fin 1 → Fin 1 → ℝ := fun _ _ => 1
    let Q : Fin 1 → Fin 1 → ℝ := fun _ _ => 1
    blockObjective true (sampleBlock d .kl .independent P Q) P - blockObjective true (sampleBlock d .kl .independent P Q) P' ≠
      cootObjective true false d.X d.Y d.wxs d.wxf d.wys d.wyf d.Ms d.Mf d.rhoX d.rhoY d.epsS d.epsF P Q
      - cootObjective true false d.X d.Y d.wxs d.wxf d.wys d.wyf d.Ms d.Mf d.rhoX d.rhoY d.epsS d.epsF P' Q := by
  intro d P P' Q
  simp [blockObjective, uotObjective, sampleBlock, uotCostMatrix, d, P, P', Q, tinyData, divergence, klDivergence, asMeasure,
    outer, cootObjective, cootLinear, prodMeasure]
  have := Real.log_two_gt_d9
  intro h; linarith

/-! ## C61 -/

/-- C61, `_partial`: what the rescaling achieves. The rescaled plan has as mass the geometric mean of the two masses; it has the mass of
the other plan exactly when the masses already agreed.  Missing: equality of the masses (documented), which is false. -/
theorem C61_rescale_mass_partial (m : ℝ) (hm : 0 < m) (pi : I → J → ℝ) (hpi : 0 < ∑ i, ∑ j, pi i j) :
    ∑ i, ∑ j, rescale m pi i j = Real.sqrt (m * ∑ i, ∑ j, pi i j) ∧
      (∑ i, ∑ j, rescale m pi i j = m ↔ ∑ i, ∑ j, pi i j = m) := by
  set s := ∑ i, ∑ j, pi i j with hs
  have h1 : ∑ i, ∑ j, rescale m pi i j = Real.sqrt (m * s) := by
    simp only [rescale, ← mul_sum]
    rw [← hs, ← Real.sqrt_sq hpi.le, ← Real.sqrt_mul (div_nonneg hm.le (Real.sqrt_nonneg _)), Real.sqrt_sq hpi.le]
    congr 1
    field_simp
  refine ⟨h1, ?_⟩
  rw [h1]
  constructor
  · intro h
    have h2 : m * s = m ^ 2 := by
      calc m * s = Real.sqrt (m * s) ^ 2 := (Real.sq_sqrt (mul_nonneg hm.le hpi.le)).symm
        _ = m ^ 2 := by rw [h]
    have : m * (s - m) = 0 := by linear_combination h2
    rcases mul_eq_zero.1 this with h | h
    · exact absurd h hm.ne'
    · linarith
  · intro h
    rw [h, ← sq, Real.sqrt_sq hm.le]

/-- C61 is false: masses 4 and 1 become 4 and 2. -/
theorem C61_rescale_counterexample :
    ∑ i : Fin 1, ∑ j : Fin 1, rescale 4 (fun _ _ : Fin 1 => (1 : ℝ)) i j ≠ 4 := by
  have := (C61_rescale_mass_partial (I := Fin 1) (J := Fin 1) 4 (by norm_num) (fun _ _ => 1) (by simp)).2
  rw [Ne, this]
  simp

/-! ## The hypotheses are met -/

/-- two samples, one feature, non-uniform weights, equal positive regularisations -/
noncomputable def smallData : Data (Fin 2) (Fin 2) (Fin 1) (Fin 1) :=
  { X := fun i _ => i, Y := fun i _ => 2 * i, wxs := fun i => 1 + i, wxf := fun _ => 1, wys := fun _ => 3 / 2, wyf := fun _ => 1,
    Ms := fun i j => i + j, Mf := fun _ _ => 0, rhoX := 1, rhoY := 2, epsS := 1, epsF := 1 }

example (P P' piS : Fin 2 → Fin 2 → ℝ) (Q : Fin 1 → Fin 1 → ℝ) :=
  C60_sample_block_joint smallData (fun i => by simp only [smallData]; positivity) (fun _ => by norm_num [smallData])
    (fun _ => by norm_num [smallData]) (fun _ => by norm_num [smallData]) rfl (by norm_num [smallData]) piS P P' Q

/-- the product plan has the marginals demanded in `C43_total_cost_independent_partial` -/
example :
    (∀ i : Fin 2, ∑ j : Fin 2, ((1 + (i : ℝ)) / 2) = smallData.wxs i) ∧ (∀ j : Fin 2, ∑ i : Fin 2, ((1 + (i : ℝ)) / 2) = smallData.wys j) := by
  constructor <;> intro i <;> simp [smallData, Fin.sum_univ_two] <;> norm_num <;> ring

end POT.Props
