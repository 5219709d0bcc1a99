import Verif.Lemmas.Screen
import Verif.Lemmas.SinkhornOpt
import Mathlib.Analysis.SpecialFunctions.Log.Deriv
import Mathlib.Analysis.Calculus.Deriv.Mul
import Mathlib.Tactic.FinCases
import Mathlib.Tactic.NormNum

/-!
# C111: `screenkhorn`

Screened dual of entropic transport (ot/bregman/_screenkhorn.py). Specification: `Verif/Spec/Screen.lean`, `Verif/Spec/Entropic.lean`.
-/

set_option linter.unusedSectionVars false

namespace POT.Props

open Finset POT.Spec POT.Screen Classical

variable {I J : Type*} [Fintype I] [Fintype J]

/-! ### objective and gradient -/

private theorem deriv_log {k c u d : ℝ} (hu : 0 < u) : HasDerivAt (fun t : ℝ => k * Real.log (u + t * d) + c) (k * (d / u)) 0 := by
  have h1 : HasDerivAt (fun t : ℝ => u + t * d) d 0 := by simpa using ((hasDerivAt_id (0 : ℝ)).mul_const d).const_add u
  have h2 := ((h1.log (by simpa using hu.ne')).const_mul k).add_const c
  simpa using h2

/-- **The gradient handed to the solver is the gradient of the objective handed to the solver**, at all positive scalings and in every direction. -/
theorem C111_gradient (K : I → J → ℝ) (a : I → ℝ) (b : J → ℝ) (ε κ : ℝ) (S : I → Prop) (T : J → Prop) {u : {i // S i} → ℝ} {v : {j // T j} → ℝ} (hu : ∀ i, 0 < u i) (hv : ∀ j, 0 < v j) (du : {i // S i} → ℝ) (dv : {j // T j} → ℝ) :
    HasDerivAt (fun t : ℝ => screenedObj K a b ε κ S T (fun i => u i + t * du i) fun j => v j + t * dv j) (∑ i, gradU K a ε κ S T u v i * du i + ∑ j, gradV K b ε κ S T u v j * dv j) 0 := by
  unfold screenedObj
  have hU : ∀ i, HasDerivAt (fun t : ℝ => u i + t * du i) (du i) 0 := fun i => by simpa using ((hasDerivAt_id (0 : ℝ)).mul_const (du i)).const_add (u i)
  have hV : ∀ j, HasDerivAt (fun t : ℝ => v j + t * dv j) (dv j) 0 := fun i => by simpa using ((hasDerivAt_id (0 : ℝ)).mul_const (dv i)).const_add (v i)
  have h1 : HasDerivAt (fun t : ℝ => ∑ i : {i // S i}, ∑ j : {j // T j}, (u i + t * du i) * K i j * (v j + t * dv j)) (∑ i : {i // S i}, ∑ j : {j // T j}, (du i * K i j * v j + u i * K i j * dv j)) 0 :=
    HasDerivAt.fun_sum fun i _ => HasDerivAt.fun_sum fun j _ => by simpa using ((hU i).mul_const (K i j)).fun_mul (hV j)
  have h2 : HasDerivAt (fun t : ℝ => ∑ i : {i // S i}, a i * Real.log (u i + t * du i)) (∑ i : {i // S i}, a i * (du i / u i)) 0 :=
    HasDerivAt.fun_sum fun i _ => by simpa using deriv_log (k := a i) (c := 0) (d := du i) (hu i)
  have h3 : HasDerivAt (fun t : ℝ => ∑ j : {j // T j}, b j * Real.log (v j + t * dv j)) (∑ j : {j // T j}, b j * (dv j / v j)) 0 :=
    HasDerivAt.fun_sum fun j _ => by simpa using deriv_log (k := b j) (c := 0) (d := dv j) (hv j)
  have h4 : HasDerivAt (fun t : ℝ => ∑ i : {i // S i}, (u i + t * du i) * vecIJc K ε κ S T i) (∑ i : {i // S i}, du i * vecIJc K ε κ S T i) 0 := HasDerivAt.fun_sum fun i _ => (hU i).mul_const _
  have h5 : HasDerivAt (fun t : ℝ => ∑ j : {j // T j}, vecIcJ K ε κ S T j * (v j + t * dv j)) (∑ j : {j // T j}, vecIcJ K ε κ S T j * dv j) 0 := HasDerivAt.fun_sum fun j _ => (hV j).const_mul _
  refine ((((h1.sub (h2.const_mul κ)).sub (h3.const_mul (1 / κ))).add h4).add h5).congr_deriv ?_
  unfold gradU gradV
  have e1 : ∑ i : {i // S i}, (∑ j : {j // T j}, K i j * v j + vecIJc K ε κ S T i - κ * a i / u i) * du i = ∑ i : {i // S i}, ∑ j : {j // T j}, du i * K i j * v j + ∑ i : {i // S i}, du i * vecIJc K ε κ S T i - κ * ∑ i : {i // S i}, a i * (du i / u i) := by
    rw [mul_sum, ← sum_add_distrib, ← sum_sub_distrib]
    refine sum_congr rfl fun i _ => ?_
    rw [sub_mul, add_mul, sum_mul]
    congr 1
    · congr 1
      · exact sum_congr rfl fun j _ => by ring
      · ring
    · ring
  have e2 : ∑ j : {j // T j}, (∑ i : {i // S i}, K i j * u i + vecIcJ K ε κ S T j - 1 / κ * b j / v j) * dv j = ∑ i : {i // S i}, ∑ j : {j // T j}, u i * K i j * dv j + ∑ j : {j // T j}, vecIcJ K ε κ S T j * dv j - 1 / κ * ∑ j : {j // T j}, b j * (dv j / v j) := by
    rw [sum_comm, mul_sum, ← sum_add_distrib, ← sum_sub_distrib]
    refine sum_congr rfl fun i _ => ?_
    rw [sub_mul, add_mul, sum_mul]
    congr 1
    · congr 1
      exact sum_congr rfl fun j _ => by ring
    · ring
  rw [e1, e2]
  simp_rw [sum_add_distrib]
  ring

/-- **The restricted objective** is the documented dual at the scalings completed by `ε/κ` and `εκ`, up to a constant that does not depend on the scalings. -/
theorem C111_objective (K : I → J → ℝ) (a : I → ℝ) (b : J → ℝ) {ε κ : ℝ} (hε : 0 < ε) (hκ : 0 < κ) (S : I → Prop) (T : J → Prop) :
    ∃ c : ℝ, ∀ (u : {i // S i} → ℝ) (v : {j // T j} → ℝ), (∀ i, 0 < u i) → (∀ j, 0 < v j) →
      screenDual K a b κ (fun i => Real.log (ext S u (ε / κ) i)) (fun j => Real.log (ext T v (ε * κ) j)) = screenedObj K a b ε κ S T u v + c :=
  ⟨_, fun _ _ hu hv => obj_ext K a b ε κ S T hε hκ hu hv⟩

/-! ### screening -/

section setup

variable {ns nt : ℕ} [NeZero ns] [NeZero nt] {uniform : Bool} {K : Fin ns → Fin nt → ℝ} {a : Fin ns → ℝ} {b : Fin nt → ℝ} {nsb ntb : ℕ}

/-- positive data and budgets in range, not both full -/
structure ScreenData (K : Fin ns → Fin nt → ℝ) (a : Fin ns → ℝ) (b : Fin nt → ℝ) (nsb ntb : ℕ) : Prop where
  hK : ∀ i j, 0 < K i j
  ha : ∀ i, 0 < a i
  hb : ∀ j, 0 < b j
  h1 : 1 ≤ nsb
  h2 : nsb ≤ ns
  h3 : 1 ≤ ntb
  h4 : ntb ≤ nt
  hne : ¬ (nsb = ns ∧ ntb = nt)

private theorem setup_spec (d : ScreenData K a b nsb ntb) (uniform : Bool) : ∃ eu ev, 0 < eu ∧ 0 < ev ∧ eu = epsSq uniform a (fun i => ∑ j, K i j) nsb ∧ ev = epsSq uniform b (fun j => ∑ i, K i j) ntb ∧
    setup uniform K a b nsb ntb = ⟨sel a (fun i => ∑ j, K i j) eu, sel b (fun j => ∑ i, K i j) ev, epsilon eu ev, kappa eu ev⟩ := by
  refine ⟨_, _, epsSq_pos uniform d.ha (fun i => sum_pos (fun j _ => d.hK i j) univ_nonempty) d.h1 d.h2, epsSq_pos uniform d.hb (fun j => sum_pos (fun i _ => d.hK i j) univ_nonempty) d.h3 d.h4, rfl, rfl, ?_⟩
  unfold setup
  rw [if_neg d.hne]

/-- **The selected points are the budgeted ones** (`uniform=False`): at least as many as the budget, exactly as many if the ratios `a_i / ∑_j K_ij` are distinct; every selected ratio exceeds every rejected one. -/
theorem C111_budget (d : ScreenData K a b nsb ntb) : nsb ≤ (univ.filter (setup false K a b nsb ntb).S).card ∧ ntb ≤ (univ.filter (setup false K a b nsb ntb).T).card ∧
    (Function.Injective (fun i => a i / ∑ j, K i j) → (univ.filter (setup false K a b nsb ntb).S).card = nsb) ∧ (Function.Injective (fun j => b j / ∑ i, K i j) → (univ.filter (setup false K a b nsb ntb).T).card = ntb) ∧
    (∀ i k, (setup false K a b nsb ntb).S i → ¬ (setup false K a b nsb ntb).S k → a k / ∑ j, K k j < a i / ∑ j, K i j) ∧ ∀ j l, (setup false K a b nsb ntb).T j → ¬ (setup false K a b nsb ntb).T l → b l / ∑ i, K i l < b j / ∑ i, K i j := by
  have sK : ∀ i, 0 < ∑ j, K i j := fun i => sum_pos (fun j _ => d.hK i j) univ_nonempty
  have sL : ∀ j, 0 < ∑ i, K i j := fun j => sum_pos (fun i _ => d.hK i j) univ_nonempty
  obtain ⟨eu, ev, p1, p2, q1, q2, hs⟩ := setup_spec d false
  rw [hs]
  rw [epsSq_eq sK d.h1 d.h2] at q1
  rw [epsSq_eq sL d.h3 d.h4] at q2
  have gen : ∀ {n m : ℕ} [NeZero n] (w S : Fin n → ℝ) (e : ℝ) (hS : ∀ i, 0 < S i) (_ : 1 ≤ m) (_ : m ≤ n) (_ : e = (sortDesc fun i => w i / S i).getD (m - 1) 0),
      m ≤ (univ.filter (sel w S e)).card ∧ (Function.Injective (fun i => w i / S i) → (univ.filter (sel w S e)).card = m) ∧ ∀ i k, sel w S e i → ¬ sel w S e k → w k / S k < w i / S i := by
    intro n m _ w S e hS h1 h2 he
    have es : univ.filter (sel w S e) = univ.filter fun i => (sortDesc fun i => w i / S i).getD (m - 1) 0 ≤ w i / S i := by
      refine filter_congr fun i _ => ?_
      unfold sel
      rw [sel_iff hS, he]
    refine ⟨by rw [es]; exact (count_ge _ h1 h2).1, fun hinj => ?_, fun i k hi hk => ?_⟩
    · rw [es]
      refine (count_ge _ h1 h2).2 fun l hl1 hl2 => lt_of_le_of_ne (sortDesc_anti _ (by omega) hl2) fun heq => ?_
      have hnd : (sortDesc fun i => w i / S i).Nodup := (sortDesc_perm _).nodup_iff.2 (List.nodup_ofFn.2 hinj)
      have hl' : l < (sortDesc fun i => w i / S i).length := by rw [sortDesc_length]; exact hl2
      have hm' : m - 1 < (sortDesc fun i => w i / S i).length := by rw [sortDesc_length]; omega
      rw [List.getD_eq_getElem _ _ hl', List.getD_eq_getElem _ _ hm'] at heq
      have := (List.Nodup.getElem_inj_iff hnd).1 heq
      omega
    · unfold sel at hi hk
      rw [sel_iff hS] at hi hk
      exact lt_of_lt_of_le (not_le.1 hk) hi
  obtain ⟨g1, g2, g3⟩ := gen a (fun i => ∑ j, K i j) eu sK d.h1 d.h2 q1
  obtain ⟨k1, k2, k3⟩ := gen b (fun j => ∑ i, K i j) ev sL d.h3 d.h4 q2
  exact ⟨g1, k1, g2, k2, g3, k3⟩

/-- **The parameters are positive and consistent**: the rejected points are exactly those with `κ a_i < ε² ∑_j K_ij` resp. `b_j / κ < ε² ∑_i K_ij`. -/
theorem C111_parameters (d : ScreenData K a b nsb ntb) (uniform : Bool) : 0 < (setup uniform K a b nsb ntb).ε ∧ 0 < (setup uniform K a b nsb ntb).κ ∧
    (∀ i, ¬ (setup uniform K a b nsb ntb).S i ↔ (setup uniform K a b nsb ntb).κ * a i < (setup uniform K a b nsb ntb).ε ^ 2 * ∑ j, K i j) ∧
    ∀ j, ¬ (setup uniform K a b nsb ntb).T j ↔ 1 / (setup uniform K a b nsb ntb).κ * b j < (setup uniform K a b nsb ntb).ε ^ 2 * ∑ i, K i j := by
  obtain ⟨eu, ev, p1, p2, -, -, hs⟩ := setup_spec d uniform
  rw [hs]
  obtain ⟨k1, k2, k3, k4⟩ := eps_kappa p1 p2
  refine ⟨k1, k2, fun i => ?_, fun j => ?_⟩
  · unfold sel
    dsimp only
    have e : eu * kappa eu ev * ∑ j, K i j = kappa eu ev * (eu * ∑ j, K i j) := by ring
    rw [k3, not_le, e]
    exact ⟨fun h => mul_lt_mul_of_pos_left h k2, fun h => lt_of_mul_lt_mul_left h k2.le⟩
  · unfold sel
    dsimp only
    rw [not_le, one_div, inv_mul_lt_iff₀ k2, ← mul_assoc, mul_comm (kappa eu ev), k4]

end setup

/-- the screening condition: rejected rows and columns carry little mass -/
def Screened (K : I → J → ℝ) (a : I → ℝ) (b : J → ℝ) (ε κ : ℝ) (S : I → Prop) (T : J → Prop) : Prop :=
  (∀ i, ¬ S i → κ * a i < ε ^ 2 * ∑ j, K i j) ∧ ∀ j, ¬ T j → 1 / κ * b j < ε ^ 2 * ∑ i, K i j

variable {K : I → J → ℝ} {a : I → ℝ} {b : J → ℝ} {ε κ : ℝ} {S : I → Prop} {T : J → Prop}

/-- **Screening is safe** (Lemma 1 of the reference): at every optimum of the full dual, the rejected scalings sit at their bounds. -/
theorem C111_screening [Nonempty I] [Nonempty J] (hK : ∀ i j, 0 < K i j) (ha : ∀ i, 0 ≤ a i) (hb : ∀ j, 0 ≤ b j) (hε : 0 < ε) (hκ : 0 < κ) (hs : Screened K a b ε κ S T) {x : I → ℝ} {y : J → ℝ} (h : IsScreenOpt K a b ε κ x y) :
    (∀ i, ¬ S i → Real.exp (x i) = ε / κ) ∧ ∀ j, ¬ T j → Real.exp (y j) = ε * κ := by
  refine ⟨fun i hi => ?_, fun j hj => ?_⟩
  · by_contra hne
    have hlt := lt_of_le_of_ne (h.1.1 i) (Ne.symm hne)
    have h1 := (opt_row hK ha hε hκ h i).2 hlt
    have h2 : ε ^ 2 * ∑ j, K i j ≤ ∑ j, Real.exp (x i) * K i j * Real.exp (y j) := by
      rw [mul_sum]
      refine sum_le_sum fun j _ => ?_
      have := mul_le_mul (h.1.1 i) (h.1.2 j) (mul_pos hε hκ).le (Real.exp_pos _).le
      have e : ε / κ * (ε * κ) = ε ^ 2 := by field_simp
      rw [e] at this
      have := mul_le_mul_of_nonneg_right this (hK i j).le
      linarith
    have := hs.1 i hi
    linarith
  · by_contra hne
    have hlt := lt_of_le_of_ne (h.1.2 j) (Ne.symm hne)
    have h1 := (opt_col hK hb hε hκ h j).2 hlt
    have h2 : ε ^ 2 * ∑ i, K i j ≤ ∑ i, Real.exp (x i) * K i j * Real.exp (y j) := by
      rw [mul_sum]
      refine sum_le_sum fun i _ => ?_
      have := mul_le_mul (h.1.1 i) (h.1.2 j) (mul_pos hε hκ).le (Real.exp_pos _).le
      have e : ε / κ * (ε * κ) = ε ^ 2 := by field_simp
      rw [e] at this
      have := mul_le_mul_of_nonneg_right this (hK i j).le
      linarith
    have := hs.2 j hj
    linarith

private theorem sign_log {X : Set ℝ} {g u t : ℝ} (hu : 0 < u) (ht : 0 < t) (h : FirstOrder X g u) (hX : t ∈ X) : 0 ≤ u * g * (Real.log t - Real.log u) := by
  have h1 := h.2 t hX
  rcases lt_trichotomy u t with hl | he | hl
  · have hg : 0 ≤ g := by by_contra hn; push Not at hn; nlinarith
    exact mul_nonneg (mul_nonneg hu.le hg) (sub_nonneg.2 (Real.log_le_log hu hl.le))
  · rw [he, sub_self, mul_zero]
  · have hg : g ≤ 0 := by by_contra hn; push Not at hn; nlinarith
    exact mul_nonneg_of_nonpos_of_nonpos (mul_nonpos_of_nonneg_of_nonpos hu.le hg) (sub_nonpos.2 (Real.log_le_log ht hl.le))

/-- first-order points of the restricted problem over boxes beat every completed point of the boxes, and every feasible point that lies in the boxes on the selected coordinates -/
private theorem solution_le (hK : ∀ i j, 0 < K i j) (hε : 0 < ε) (hκ : 0 < κ) (hs : Screened K a b ε κ S T) {X : {i // S i} → Set ℝ} {Y : {j // T j} → Set ℝ} {u : {i // S i} → ℝ} {v : {j // T j} → ℝ} (hu : ∀ i, 0 < u i) (hv : ∀ j, 0 < v j)
    (lu : ∀ i, ε / κ ≤ u i) (lv : ∀ j, ε * κ ≤ v j) (h1 : ∀ i, FirstOrder (X i) (gradU K a ε κ S T u v i) (u i)) (h2 : ∀ j, FirstOrder (Y j) (gradV K b ε κ S T u v j) (v j))
    {x : I → ℝ} {y : J → ℝ} (hf : ScreenFeasible ε κ x y) (hx : ∀ i : {i // S i}, Real.exp (x i) ∈ X i) (hy : ∀ j : {j // T j}, Real.exp (y j) ∈ Y j) :
    screenDual K a b κ (fun i => Real.log (ext S u (ε / κ) i)) (fun j => Real.log (ext T v (ε * κ) j)) ≤ screenDual K a b κ x y := by
  have lo1 := div_pos hε hκ
  have lo2 := mul_pos hε hκ
  have p1 := ext_pos hu lo1
  have p2 := ext_pos hv lo2
  have l1 : ∀ i, ε / κ ≤ ext S u (ε / κ) i := fun i => by unfold Screen.ext; split_ifs; exacts [lu _, le_rfl]
  have l2 : ∀ j, ε * κ ≤ ext T v (ε * κ) j := fun j => by unfold Screen.ext; split_ifs; exacts [lv _, le_rfl]
  refine dual_le_of_first_order (fun i j => (hK i j).le) (fun i => ?_) fun j => ?_
  · simp only [Real.exp_log (p1 _), Real.exp_log (p2 _)]
    by_cases hi : S i
    · have e1 : ext S u (ε / κ) i = u ⟨i, hi⟩ := ext_sel u _ ⟨i, hi⟩
      have e : ∑ j, ext S u (ε / κ) i * K i j * ext T v (ε * κ) j - κ * a i = u ⟨i, hi⟩ * gradU K a ε κ S T u v ⟨i, hi⟩ := by
        unfold gradU
        rw [← row_ext K ε κ S T v ⟨i, hi⟩, e1, mul_sub, mul_sum]
        have := (hu ⟨i, hi⟩).ne'
        congr 1
        · exact sum_congr rfl fun j _ => by ring
        · field_simp
      rw [e, e1]
      have := sign_log (hu ⟨i, hi⟩) (Real.exp_pos _) (h1 ⟨i, hi⟩) (hx ⟨i, hi⟩)
      rwa [Real.log_exp] at this
    · have e1 : ext S u (ε / κ) i = ε / κ := ext_not u _ ⟨i, hi⟩
      rw [e1]
      have h3 : ε ^ 2 * ∑ j, K i j ≤ ∑ j, ε / κ * K i j * ext T v (ε * κ) j := by
        rw [mul_sum]
        refine sum_le_sum fun j _ => ?_
        have := mul_le_mul_of_nonneg_left (l2 j) (mul_pos lo1 (hK i j)).le
        have e : ε / κ * K i j * (ε * κ) = ε ^ 2 * K i j := by field_simp
        linarith
      have h4 := hs.1 i hi
      exact mul_nonneg (by linarith) (sub_nonneg.2 ((Real.log_le_iff_le_exp lo1).2 (hf.1 i)))
  · simp only [Real.exp_log (p1 _), Real.exp_log (p2 _)]
    by_cases hj : T j
    · have e1 : ext T v (ε * κ) j = v ⟨j, hj⟩ := ext_sel v _ ⟨j, hj⟩
      have e : ∑ i, ext S u (ε / κ) i * K i j * ext T v (ε * κ) j - 1 / κ * b j = v ⟨j, hj⟩ * gradV K b ε κ S T u v ⟨j, hj⟩ := by
        unfold gradV
        rw [← col_ext K ε κ S T u ⟨j, hj⟩, e1, mul_sub, mul_sum]
        have := (hv ⟨j, hj⟩).ne'
        congr 1
        · exact sum_congr rfl fun j _ => by ring
        · field_simp
      rw [e, e1]
      have := sign_log (hv ⟨j, hj⟩) (Real.exp_pos _) (h2 ⟨j, hj⟩) (hy ⟨j, hj⟩)
      rwa [Real.log_exp] at this
    · have e1 : ext T v (ε * κ) j = ε * κ := ext_not v _ ⟨j, hj⟩
      rw [e1]
      have h3 : ε ^ 2 * ∑ i, K i j ≤ ∑ i, ext S u (ε / κ) i * K i j * (ε * κ) := by
        rw [mul_sum]
        refine sum_le_sum fun i _ => ?_
        have := mul_le_mul_of_nonneg_right (l1 i) (mul_pos (hK i j) lo2).le
        have e : ε / κ * (K i j * (ε * κ)) = ε ^ 2 * K i j := by field_simp
        linarith
      have h4 := hs.2 j hj
      exact mul_nonneg (by linarith) (sub_nonneg.2 ((Real.log_le_iff_le_exp lo2).2 (hf.2 j)))

private theorem ext_feasible (hε : 0 < ε) (hκ : 0 < κ) {u : {i // S i} → ℝ} {v : {j // T j} → ℝ} (lu : ∀ i, ε / κ ≤ u i) (lv : ∀ j, ε * κ ≤ v j) :
    ScreenFeasible ε κ (fun i => Real.log (ext S u (ε / κ) i)) fun j => Real.log (ext T v (ε * κ) j) := by
  have lo1 := div_pos hε hκ
  have lo2 := mul_pos hε hκ
  refine ⟨fun i => ?_, fun j => ?_⟩
  · rw [Real.exp_log (ext_pos (fun i => lt_of_lt_of_le lo1 (lu i)) lo1 i)]; unfold Screen.ext; split_ifs; exacts [lu _, le_rfl]
  · rw [Real.exp_log (ext_pos (fun i => lt_of_lt_of_le lo2 (lv i)) lo2 j)]; unfold Screen.ext; split_ifs; exacts [lv _, le_rfl]

/-- **Solving the small problem solves the large one.** A first-order point of the restricted objective under the lower bounds `ε/κ`, `εκ`, completed by these bounds, is an optimum of the documented dual over *all* scalings. -/
theorem C111_solution (hK : ∀ i j, 0 < K i j) (hε : 0 < ε) (hκ : 0 < κ) (hs : Screened K a b ε κ S T) {u : {i // S i} → ℝ} {v : {j // T j} → ℝ}
    (h1 : ∀ i, FirstOrder (Set.Ici (ε / κ)) (gradU K a ε κ S T u v i) (u i)) (h2 : ∀ j, FirstOrder (Set.Ici (ε * κ)) (gradV K b ε κ S T u v j) (v j)) :
    IsScreenOpt K a b ε κ (fun i => Real.log (ext S u (ε / κ) i)) fun j => Real.log (ext T v (ε * κ) j) := by
  have lu : ∀ i, ε / κ ≤ u i := fun i => (h1 i).1
  have lv : ∀ j, ε * κ ≤ v j := fun j => (h2 j).1
  refine ⟨ext_feasible hε hκ lu lv, fun x y hf => ?_⟩
  exact solution_le hK hε hκ hs (fun i => lt_of_lt_of_le (div_pos hε hκ) (lu i)) (fun j => lt_of_lt_of_le (mul_pos hε hκ) (lv j)) lu lv h1 h2 hf (fun i => hf.1 i) fun j => hf.2 j

/-- **The plan is determined.** The documented dual has an optimum, and all optima have the same matrix `diag(eˣ) K diag(eʸ)`. -/
theorem C111_unique [Nonempty I] [Nonempty J] (hK : ∀ i j, 0 < K i j) (ha : ∀ i, 0 ≤ a i) (hb : ∀ j, 0 ≤ b j) (hε : 0 < ε) (hκ : 0 < κ) :
    (∃ x y, IsScreenOpt K a b ε κ x y) ∧ ∀ x y x' y', IsScreenOpt K a b ε κ x y → IsScreenOpt K a b ε κ x' y' → ∀ i j, Real.exp (x' i) * K i j * Real.exp (y' j) = Real.exp (x i) * K i j * Real.exp (y j) := by
  refine ⟨exists_opt hK ha hb hε hκ, fun x y x' y' h h' i j => ?_⟩
  have := opt_unique hK ha hb hε hκ h h' i j
  rw [mul_right_comm, ← Real.exp_add, this, Real.exp_add, mul_right_comm]

/-- **Marginals at the optimum**, before normalisation: row sums at least `κ a`, column sums at least `b / κ`, with equality wherever the scaling is above its bound. -/
theorem C111_marginals [Nonempty I] [Nonempty J] (hK : ∀ i j, 0 < K i j) (ha : ∀ i, 0 ≤ a i) (hb : ∀ j, 0 ≤ b j) (hε : 0 < ε) (hκ : 0 < κ) {x : I → ℝ} {y : J → ℝ} (h : IsScreenOpt K a b ε κ x y) :
    (∀ i, κ * a i ≤ ∑ j, Real.exp (x i) * K i j * Real.exp (y j) ∧ (ε / κ < Real.exp (x i) → ∑ j, Real.exp (x i) * K i j * Real.exp (y j) = κ * a i)) ∧
    ∀ j, 1 / κ * b j ≤ ∑ i, Real.exp (x i) * K i j * Real.exp (y j) ∧ (ε * κ < Real.exp (y j) → ∑ i, Real.exp (x i) * K i j * Real.exp (y j) = 1 / κ * b j) :=
  ⟨opt_row hK ha hε hκ h, opt_col hK hb hε hκ h⟩

/-- **The returned plan** is positive and of total mass one, and proportional to `diag(u) K diag(v)` for the completed scalings. -/
theorem C111_plan [Nonempty I] [Nonempty J] (hK : ∀ i j, 0 < K i j) (hε : 0 < ε) (hκ : 0 < κ) {u : {i // S i} → ℝ} {v : {j // T j} → ℝ} (hu : ∀ i, 0 < u i) (hv : ∀ j, 0 < v j) :
    (∀ i j, 0 < screenPlan K ε κ S T u v i j) ∧ ∑ i, ∑ j, screenPlan K ε κ S T u v i j = 1 ∧
    ∃ z, 0 < z ∧ ∀ i j, screenPlan K ε κ S T u v i j = ext S u (ε / κ) i * K i j * ext T v (ε * κ) j / z := by
  have p : ∀ i j, 0 < ext S u (ε / κ) i * K i j * ext T v (ε * κ) j := fun i j => mul_pos (mul_pos (ext_pos hu (div_pos hε hκ) i) (hK i j)) (ext_pos hv (mul_pos hε hκ) j)
  have z : 0 < ∑ i, ∑ j, ext S u (ε / κ) i * K i j * ext T v (ε * κ) j := sum_pos (fun i _ => sum_pos (fun j _ => p i j) univ_nonempty) univ_nonempty
  refine ⟨fun i j => div_pos (p i j) z, ?_, _, z, fun i j => rfl⟩
  unfold screenPlan
  simp_rw [← sum_div]
  exact div_self z.ne'

/-! ### the box -/

private theorem box_upper [Nonempty I] [Nonempty J] (hK : ∀ i j, 0 < K i j) (ha : ∀ i, 0 ≤ a i) (hε : 0 < ε) (hκ : 0 < κ) {Kmin aMax : ℝ} (hm : 0 < Kmin) (hmin : ∀ i j, S i → Kmin ≤ K i j) (hmax : ∀ i, S i → a i ≤ aMax)
    (hsel : ∀ i, S i → ε ^ 2 * ∑ j, K i j ≤ κ * a i) {x : I → ℝ} {y : J → ℝ} (h : IsScreenOpt K a b ε κ x y) (i : I) (hi : S i) : Real.exp (x i) ≤ aMax / (Fintype.card J * ε * Kmin) := by
  have cJ : (0 : ℝ) < Fintype.card J := Nat.cast_pos.2 Fintype.card_pos
  rw [le_div_iff₀ (by positivity)]
  have sK : Fintype.card J * Kmin ≤ ∑ j, K i j := by
    have := sum_le_sum fun j (_ : j ∈ univ) => hmin i j hi
    rwa [sum_const, card_univ, nsmul_eq_mul] at this
  have key : Real.exp (x i) * (ε * ∑ j, K i j) ≤ a i := by
    rcases (h.1.1 i).eq_or_lt with he | hl
    · rw [← he]
      have := hsel i hi
      have e : ε / κ * (ε * ∑ j, K i j) = ε ^ 2 * (∑ j, K i j) / κ := by ring
      rw [e, div_le_iff₀ hκ]; linarith
    · have h1 := (opt_row hK ha hε hκ h i).2 hl
      have h2 : κ * (Real.exp (x i) * (ε * ∑ j, K i j)) ≤ ∑ j, Real.exp (x i) * K i j * Real.exp (y j) := by
        rw [mul_sum, mul_sum, mul_sum]
        refine sum_le_sum fun j _ => ?_
        have := mul_le_mul_of_nonneg_left (h.1.2 j) (mul_pos (Real.exp_pos (x i)) (hK i j)).le
        linarith
      rw [h1] at h2
      exact le_of_mul_le_mul_left h2 hκ
  calc Real.exp (x i) * (Fintype.card J * ε * Kmin) = Real.exp (x i) * (ε * (Fintype.card J * Kmin)) := by ring
    _ ≤ Real.exp (x i) * (ε * ∑ j, K i j) := by gcongr
    _ ≤ a i := key
    _ ≤ aMax := hmax i hi

private theorem box_lower [Nonempty I] [Nonempty J] (hK : ∀ i j, 0 < K i j) (hK1 : ∀ i j, K i j ≤ 1) (ha : ∀ i, 0 ≤ a i) (hε : 0 < ε) (hκ : 0 < κ) {Kmin aMin bMax : ℝ} (hm : 0 < Kmin)
    (hmin : ∀ i, S i → aMin ≤ a i) (hb0 : 0 < bMax) (hT : 0 < Fintype.card {j // T j}) {x : I → ℝ} {y : J → ℝ} (h : IsScreenOpt K a b ε κ x y) (hyT : ∀ j, ¬ T j → Real.exp (y j) = ε * κ)
    (hyu : ∀ j, T j → Real.exp (y j) ≤ bMax / (Fintype.card I * ε * Kmin)) (i : I) (hi : S i) :
    aMin / (((Fintype.card J : ℝ) - Fintype.card {j // T j}) * ε + Fintype.card {j // T j} * (bMax / (Fintype.card I * ε * κ * Kmin))) ≤ Real.exp (x i) := by
  have cI : (0 : ℝ) < Fintype.card I := Nat.cast_pos.2 Fintype.card_pos
  have cT : (0 : ℝ) < Fintype.card {j // T j} := Nat.cast_pos.2 hT
  have cc : (Fintype.card {j // ¬ T j} : ℝ) = Fintype.card J - Fintype.card {j // T j} := by
    have h1 := Fintype.card_subtype_compl T
    rw [h1, Nat.cast_sub (Fintype.card_subtype_le T)]
  rw [← cc]
  have D0 : 0 < (Fintype.card {j // ¬ T j} : ℝ) * ε + Fintype.card {j // T j} * (bMax / (Fintype.card I * ε * κ * Kmin)) := by positivity
  rw [div_le_iff₀ D0]
  have h1 := (opt_row hK ha hε hκ h i).1
  have h2 : ∑ j, Real.exp (x i) * K i j * Real.exp (y j) ≤ Real.exp (x i) * (κ * ((Fintype.card {j // ¬ T j} : ℝ) * ε + Fintype.card {j // T j} * (bMax / (Fintype.card I * ε * κ * Kmin)))) := by
    have h3 : ∑ j, Real.exp (x i) * K i j * Real.exp (y j) ≤ ∑ j, Real.exp (x i) * Real.exp (y j) := sum_le_sum fun j _ => by
      have := mul_le_mul_of_nonneg_left (hK1 i j) (mul_pos (Real.exp_pos (x i)) (Real.exp_pos (y j))).le
      linarith
    refine h3.trans ?_
    rw [← mul_sum]
    refine mul_le_mul_of_nonneg_left ?_ (Real.exp_pos _).le
    rw [sum_split T]
    have s1 : ∑ j : {j // T j}, Real.exp (y j) ≤ ∑ _j : {j // T j}, bMax / (Fintype.card I * ε * Kmin) := sum_le_sum fun j _ => hyu j j.2
    have s2 : ∑ j : {j // ¬ T j}, Real.exp (y j) = ∑ _j : {j // ¬ T j}, ε * κ := sum_congr rfl fun j _ => hyT j j.2
    rw [sum_const, card_univ, nsmul_eq_mul] at s1 s2
    have e : κ * (Fintype.card {j // T j} * (bMax / (Fintype.card I * ε * κ * Kmin))) = Fintype.card {j // T j} * (bMax / (Fintype.card I * ε * Kmin)) := by field_simp
    rw [s2, mul_add, e]
    linarith
  have h4 := mul_le_mul_of_nonneg_left (hmin i hi) hκ.le
  have h5 : κ * aMin ≤ κ * (Real.exp (x i) * ((Fintype.card {j // ¬ T j} : ℝ) * ε + Fintype.card {j // T j} * (bMax / (Fintype.card I * ε * κ * Kmin)))) := by linarith
  exact le_of_mul_le_mul_left h5 hκ

private theorem boundsV_swap (ns nt nsb : ℕ) (ε κ Kmin bMin bMax aMax : ℝ) (hκ : 0 < κ) : boundsV ns nt nsb ε κ Kmin bMin bMax aMax = boundsU nt ns nsb ε (1 / κ) Kmin bMin bMax aMax := by
  unfold boundsV boundsU
  congr 2
  · congr 3
    field_simp
  · rw [div_div_eq_mul_div, div_one]

/-- what the box needs: a non-negative cost (`K ≤ 1`), extremes of the selected weights, and a `Kmin` below *every entry of the kernel in a selected row or column* (the code takes the minimum over selected rows and columns only) -/
structure BoxData (K : I → J → ℝ) (a : I → ℝ) (b : J → ℝ) (S : I → Prop) (T : J → Prop) (Kmin aMin aMax bMin bMax : ℝ) : Prop where
  hK1 : ∀ i j, K i j ≤ 1
  hm : 0 < Kmin
  hmin : ∀ i j, S i ∨ T j → Kmin ≤ K i j
  hS : ∃ i, S i
  hT : ∃ j, T j
  ha : ∀ i, S i → aMin ≤ a i ∧ a i ≤ aMax
  hb : ∀ j, T j → bMin ≤ b j ∧ b j ≤ bMax
  ha0 : 0 < aMax
  hb0 : 0 < bMax

/-- **The box contains the optimum** (Proposition 1 of the reference), if `Kmin` bounds all the entries in selected rows and columns. -/
theorem C111_box [Nonempty I] [Nonempty J] (hK : ∀ i j, 0 < K i j) (ha : ∀ i, 0 ≤ a i) (hb : ∀ j, 0 ≤ b j) (hε : 0 < ε) (hκ : 0 < κ) (hs : ∀ i, ¬ S i ↔ κ * a i < ε ^ 2 * ∑ j, K i j) (ht : ∀ j, ¬ T j ↔ 1 / κ * b j < ε ^ 2 * ∑ i, K i j)
    {Kmin aMin aMax bMin bMax : ℝ} (d : BoxData K a b S T Kmin aMin aMax bMin bMax) {x : I → ℝ} {y : J → ℝ} (h : IsScreenOpt K a b ε κ x y) :
    (∀ i, S i → Real.exp (x i) ∈ Set.Icc (boundsU (Fintype.card I) (Fintype.card J) (Fintype.card {j // T j}) ε κ Kmin aMin aMax bMax).1 (boundsU (Fintype.card I) (Fintype.card J) (Fintype.card {j // T j}) ε κ Kmin aMin aMax bMax).2) ∧
    ∀ j, T j → Real.exp (y j) ∈ Set.Icc (boundsV (Fintype.card I) (Fintype.card J) (Fintype.card {i // S i}) ε κ Kmin bMin bMax aMax).1 (boundsV (Fintype.card I) (Fintype.card J) (Fintype.card {i // S i}) ε κ Kmin bMin bMax aMax).2 := by
  obtain ⟨f1, f2⟩ := C111_screening hK ha hb hε hκ ⟨fun i => (hs i).1, fun j => (ht j).1⟩ h
  have hs' : ∀ i, S i → ε ^ 2 * ∑ j, K i j ≤ κ * a i := fun i hi => not_lt.1 fun hlt => (hs i).2 hlt hi
  have ht' : ∀ j, T j → ε ^ 2 * ∑ i, K i j ≤ 1 / κ * b j := fun j hj => not_lt.1 fun hlt => (ht j).2 hlt hj
  have hsw := opt_swap h
  have u1 := box_upper (S := S) hK ha hε hκ d.hm (fun i j hi => d.hmin i j (Or.inl hi)) (fun i hi => (d.ha i hi).2) hs' h
  have u2 := box_upper (S := T) (fun j i => hK i j) hb hε (one_div_pos.2 hκ) d.hm (fun j i hj => d.hmin i j (Or.inr hj)) (fun j hj => (d.hb j hj).2) ht' hsw
  obtain ⟨i0, hi0⟩ := d.hS
  obtain ⟨j0, hj0⟩ := d.hT
  have cS : 0 < Fintype.card {i // S i} := Fintype.card_pos_iff.2 ⟨⟨i0, hi0⟩⟩
  have cT : 0 < Fintype.card {j // T j} := Fintype.card_pos_iff.2 ⟨⟨j0, hj0⟩⟩
  have l1 := box_lower (S := S) (T := T) hK d.hK1 ha hε hκ d.hm (fun i hi => (d.ha i hi).1) d.hb0 cT h f2 u2
  have l2 := box_lower (S := T) (T := S) (fun j i => hK i j) (fun j i => d.hK1 i j) hb hε (one_div_pos.2 hκ) d.hm (fun i hi => (d.hb i hi).1) d.ha0 cS hsw (fun i hi => by rw [mul_one_div]; exact f1 i hi) u1
  refine ⟨fun i hi => ⟨max_le (l1 i hi) (h.1.1 i), u1 i hi⟩, fun j hj => ?_⟩
  rw [boundsV_swap _ _ _ _ _ _ _ _ _ hκ]
  exact ⟨max_le (l2 j hj) (hsw.1.1 j), u2 j hj⟩

/-- **The boxes of the code are harmless when `Kmin` is valid**: a first-order point of the restricted objective over the boxes, completed by the lower bounds, is an optimum of the documented dual over all scalings. -/
theorem C111_box_solution [Nonempty I] [Nonempty J] (hK : ∀ i j, 0 < K i j) (ha : ∀ i, 0 ≤ a i) (hb : ∀ j, 0 ≤ b j) (hε : 0 < ε) (hκ : 0 < κ) (hs : ∀ i, ¬ S i ↔ κ * a i < ε ^ 2 * ∑ j, K i j) (ht : ∀ j, ¬ T j ↔ 1 / κ * b j < ε ^ 2 * ∑ i, K i j)
    {Kmin aMin aMax bMin bMax : ℝ} (d : BoxData K a b S T Kmin aMin aMax bMin bMax) {u : {i // S i} → ℝ} {v : {j // T j} → ℝ}
    (h1 : ∀ i, FirstOrder (Set.Icc (boundsU (Fintype.card I) (Fintype.card J) (Fintype.card {j // T j}) ε κ Kmin aMin aMax bMax).1 (boundsU (Fintype.card I) (Fintype.card J) (Fintype.card {j // T j}) ε κ Kmin aMin aMax bMax).2) (gradU K a ε κ S T u v i) (u i))
    (h2 : ∀ j, FirstOrder (Set.Icc (boundsV (Fintype.card I) (Fintype.card J) (Fintype.card {i // S i}) ε κ Kmin bMin bMax aMax).1 (boundsV (Fintype.card I) (Fintype.card J) (Fintype.card {i // S i}) ε κ Kmin bMin bMax aMax).2) (gradV K b ε κ S T u v j) (v j)) :
    IsScreenOpt K a b ε κ (fun i => Real.log (ext S u (ε / κ) i)) fun j => Real.log (ext T v (ε * κ) j) := by
  have lu : ∀ i, ε / κ ≤ u i := fun i => (le_max_right _ _).trans (h1 i).1.1
  have lv : ∀ j, ε * κ ≤ v j := fun j => (le_max_right _ _).trans (h2 j).1.1
  obtain ⟨x, y, h⟩ := exists_opt hK ha hb hε hκ
  obtain ⟨b1, b2⟩ := C111_box hK ha hb hε hκ hs ht d h
  have hle := solution_le hK hε hκ ⟨fun i => (hs i).1, fun j => (ht j).1⟩ (fun i => lt_of_lt_of_le (div_pos hε hκ) (lu i)) (fun j => lt_of_lt_of_le (mul_pos hε hκ) (lv j)) lu lv h1 h2 h.1 (fun i => b1 i i.2) fun j => b2 j j.2
  exact ⟨ext_feasible hε hκ lu lv, fun x' y' hf => hle.trans (h.2 x' y' hf)⟩

/-! ### the starting point -/

private theorem scalar_best {c k t : ℝ} (hc : 0 < c) (hk : 0 < k) (ht : 0 < t) : c * (k / c) - k * Real.log (k / c) ≤ c * t - k * Real.log t := by
  have h1 := Real.log_le_sub_one_of_pos (x := c * t / k) (by positivity)
  have e1 : c * (k / c) = k := by field_simp
  have e2 : Real.log (k / c) = Real.log t - Real.log (c * t / k) := by
    rw [← Real.log_div ht.ne' (by positivity)]
    congr 1
    field_simp
  rw [e1, e2]
  have h2 : k * Real.log (c * t / k) ≤ c * t - k := by
    calc k * Real.log (c * t / k) ≤ k * (c * t / k - 1) := mul_le_mul_of_nonneg_left h1 hk.le
      _ = c * t - k := by field_simp
  linarith

/-- **Restricted Sinkhorn is exact block minimisation**: the new `v` minimises the restricted objective for the given `u`, the new `u` for the new `v`; so every iteration decreases it. -/
theorem C111_restricted (hK : ∀ i j, 0 < K i j) (ha : ∀ i, 0 < a i) (hb : ∀ j, 0 < b j) (hε : 0 ≤ ε) (hκ : 0 < κ) [Nonempty {i // S i}] [Nonempty {j // T j}] {u : {i // S i} → ℝ} (hu : ∀ i, 0 < u i) :
    (∀ j, 0 < (rsStep K a b ε κ S T u).2 j) ∧ (∀ i, 0 < (rsStep K a b ε κ S T u).1 i) ∧
    (∀ v, (∀ j, 0 < v j) → screenedObj K a b ε κ S T u (rsStep K a b ε κ S T u).2 ≤ screenedObj K a b ε κ S T u v) ∧
    (∀ w, (∀ i, 0 < w i) → screenedObj K a b ε κ S T (rsStep K a b ε κ S T u).1 (rsStep K a b ε κ S T u).2 ≤ screenedObj K a b ε κ S T w (rsStep K a b ε κ S T u).2) ∧
    ∀ v, (∀ j, 0 < v j) → screenedObj K a b ε κ S T (rsStep K a b ε κ S T u).1 (rsStep K a b ε κ S T u).2 ≤ screenedObj K a b ε κ S T u v := by
  have n1 : ∀ i, 0 ≤ vecIJc K ε κ S T i := fun i => mul_nonneg (mul_nonneg hε hκ.le) (sum_nonneg fun j _ => (hK _ _).le)
  have n2 : ∀ j, 0 ≤ vecIcJ K ε κ S T j := fun i => mul_nonneg (div_nonneg hε hκ.le) (sum_nonneg fun j _ => (hK _ _).le)
  have c2 : ∀ j : {j // T j}, 0 < ∑ i : {i // S i}, K i j * u i + vecIcJ K ε κ S T j := fun j => add_pos_of_pos_of_nonneg (sum_pos (fun i _ => mul_pos (hK _ _) (hu i)) univ_nonempty) (n2 j)
  obtain ⟨v', hv'⟩ : ∃ v', v' = (rsStep K a b ε κ S T u).2 := ⟨_, rfl⟩
  have ev : ∀ j, v' j = 1 / κ * b j / (∑ i : {i // S i}, K i j * u i + vecIcJ K ε κ S T j) := fun j => by
    rw [hv']
    change b j / (κ * (∑ i : {i // S i}, K i j * u i + vecIcJ K ε κ S T j)) = _
    rw [one_div, div_mul_eq_div_div, ← div_eq_inv_mul]
  have v0 : ∀ j, 0 < v' j := fun j => by rw [ev]; exact div_pos (mul_pos (one_div_pos.2 hκ) (hb j)) (c2 j)
  have c1 : ∀ i : {i // S i}, 0 < ∑ j : {j // T j}, K i j * v' j + vecIJc K ε κ S T i := fun i => add_pos_of_pos_of_nonneg (sum_pos (fun j _ => mul_pos (hK _ _) (v0 j)) univ_nonempty) (n1 i)
  obtain ⟨u', hu'⟩ : ∃ u', u' = (rsStep K a b ε κ S T u).1 := ⟨_, rfl⟩
  have eu : ∀ i, u' i = κ * a i / (∑ j : {j // T j}, K i j * v' j + vecIJc K ε κ S T i) := fun i => by rw [hu', hv']; rfl
  have u0 : ∀ i, 0 < u' i := fun i => by rw [eu]; exact div_pos (mul_pos hκ (ha i)) (c1 i)
  have fv : ∀ (w : {i // S i} → ℝ) (v : {j // T j} → ℝ), screenedObj K a b ε κ S T w v = ∑ j : {j // T j}, ((∑ i : {i // S i}, K i j * w i + vecIcJ K ε κ S T j) * v j - 1 / κ * b j * Real.log (v j)) + (∑ i, w i * vecIJc K ε κ S T i - κ * ∑ i : {i // S i}, a i * Real.log (w i)) := fun w v => by
    unfold screenedObj
    rw [sum_comm, sum_sub_distrib]
    simp_rw [add_mul, sum_add_distrib, sum_mul, mul_assoc (1 / κ), ← mul_sum]
    have : ∑ j : {j // T j}, ∑ i : {i // S i}, w i * K i j * v j = ∑ j : {j // T j}, ∑ i : {i // S i}, K i j * w i * v j := sum_congr rfl fun j _ => sum_congr rfl fun i _ => by ring
    rw [this]; ring
  have fu : ∀ (w : {i // S i} → ℝ) (v : {j // T j} → ℝ), screenedObj K a b ε κ S T w v = ∑ i : {i // S i}, ((∑ j : {j // T j}, K i j * v j + vecIJc K ε κ S T i) * w i - κ * a i * Real.log (w i)) + (∑ j, vecIcJ K ε κ S T j * v j - 1 / κ * ∑ j : {j // T j}, b j * Real.log (v j)) := fun w v => by
    unfold screenedObj
    rw [sum_sub_distrib]
    simp_rw [add_mul, sum_add_distrib, sum_mul, mul_assoc κ, ← mul_sum]
    have : ∑ i : {i // S i}, ∑ j : {j // T j}, w i * K i j * v j = ∑ i : {i // S i}, ∑ j : {j // T j}, K i j * v j * w i := sum_congr rfl fun j _ => sum_congr rfl fun i _ => by ring
    have e2 : ∑ i, w i * vecIJc K ε κ S T i = ∑ i, vecIJc K ε κ S T i * w i := sum_congr rfl fun i _ => mul_comm _ _
    rw [this, e2]; ring
  have m1 : ∀ v, (∀ j, 0 < v j) → screenedObj K a b ε κ S T u v' ≤ screenedObj K a b ε κ S T u v := fun v hv => by
    rw [fv, fv]
    refine add_le_add (sum_le_sum fun j _ => ?_) le_rfl
    rw [ev]
    exact scalar_best (c2 j) (mul_pos (one_div_pos.2 hκ) (hb j)) (hv j)
  have m2 : ∀ w, (∀ i, 0 < w i) → screenedObj K a b ε κ S T u' v' ≤ screenedObj K a b ε κ S T w v' := fun w hw => by
    rw [fu, fu]
    refine add_le_add (sum_le_sum fun i _ => ?_) le_rfl
    rw [eu]
    exact scalar_best (c1 i) (mul_pos hκ (ha i)) (hw i)
  rw [← hv', ← hu']
  exact ⟨v0, u0, m1, m2, fun v hv => (m2 u hu).trans (m1 v hv)⟩

/-- **The start handed to the solver** respects the lower bounds. -/
theorem C111_start [Nonempty {i // S i}] (restricted full : Bool) {w : ({i // S i} → ℝ) × ({j // T j} → ℝ)} (h : start K a b ε κ S T restricted full = some w) : (∀ i, ε / κ ≤ w.1 i) ∧ ∀ j, ε * κ ≤ w.2 j := by
  unfold start at h
  dsimp only at h
  split_ifs at h with h1 <;> simp only [Option.some.injEq] at h <;> subst h <;> exact ⟨fun i => le_max_right _ _, fun j => le_max_right _ _⟩

/-- **Unbound names.** With `restricted=False` and less than the full budget, or when ties make the corrected budget the full one, the function raises. -/
theorem C111_unbound_refuted [Nonempty {i // S i}] : start K a b ε κ S T false false = none ∧ ((∀ i, S i) → (∀ j, T j) → ∀ restricted, start K a b ε κ S T restricted false = none) := by
  unfold start
  refine ⟨by simp, fun h1 h2 r => ?_⟩
  dsimp only
  rw [if_neg]
  push Not
  exact ⟨by simp, fun _ => ⟨h1, h2⟩⟩

/-! ### the full budget -/

/-- **The full budget is entropic transport**: a first-order point of the objective over the positive scalings has exact marginals, and the returned plan is the unique optimum of entropic transport. -/
theorem C111_full [Nonempty I] [Nonempty J] {M : I → J → ℝ} {reg : ℝ} (hreg : 0 < reg) (ha : ∑ i, a i = 1) {u : {_i : I // True} → ℝ} {v : {_j : J // True} → ℝ} (hu : ∀ i, 0 < u i) (hv : ∀ j, 0 < v j)
    (h1 : ∀ i, FirstOrder (Set.Ici 0) (gradU (kern M reg) a 0 1 (fun _ => True) (fun _ => True) u v i) (u i)) (h2 : ∀ j, FirstOrder (Set.Ici 0) (gradV (kern M reg) b 0 1 (fun _ => True) (fun _ => True) u v j) (v j)) :
    IsEntropicOptimal a b M reg (screenPlan (kern M reg) 0 1 (fun _ => True) (fun _ => True) u v) := by
  have z : ∀ {g t : ℝ}, 0 < t → FirstOrder (Set.Ici 0) g t → g = 0 := fun {g t} ht h => by
    have q1 := h.2 0 (Set.mem_Ici.2 le_rfl)
    have q2 := h.2 (2 * t) (Set.mem_Ici.2 (by linarith))
    have q3 : 0 ≤ g * t := by linarith
    have q4 : g * t ≤ 0 := by linarith
    exact (mul_eq_zero.1 (le_antisymm q4 q3)).resolve_right ht.ne'
  obtain ⟨U, hU⟩ : ∃ U : I → ℝ, U = fun i => ext (fun _ => True) u (0 / 1) i := ⟨_, rfl⟩
  obtain ⟨V, hV⟩ : ∃ V : J → ℝ, V = fun j => ext (fun _ => True) v (0 * 1) j := ⟨_, rfl⟩
  have eU : ∀ i, U i = u ⟨i, trivial⟩ := fun i => by rw [hU]; exact ext_sel (P := fun _ => True) u _ ⟨i, trivial⟩
  have eV : ∀ j, V j = v ⟨j, trivial⟩ := fun j => by rw [hV]; exact ext_sel (P := fun _ => True) v _ ⟨j, trivial⟩
  have U0 : ∀ i, 0 < U i := fun i => by rw [eU]; exact hu _
  have V0 : ∀ j, 0 < V j := fun j => by rw [eV]; exact hv _
  have row : ∀ i, ∑ j, U i * kern M reg i j * V j = a i := fun i => by
    have q := z (hu ⟨i, trivial⟩) (h1 ⟨i, trivial⟩)
    unfold gradU at q
    rw [← row_ext (kern M reg) 0 1 (fun _ => True) (fun _ => True) v ⟨i, trivial⟩, one_mul, sub_eq_zero, eq_div_iff (hu _).ne'] at q
    rw [← q, eU, sum_mul, hV]
    exact sum_congr rfl fun j _ => by ring
  have col : ∀ j, ∑ i, U i * kern M reg i j * V j = b j := fun j => by
    have q := z (hv ⟨j, trivial⟩) (h2 ⟨j, trivial⟩)
    unfold gradV at q
    rw [← col_ext (kern M reg) 0 1 (fun _ => True) (fun _ => True) u ⟨j, trivial⟩, one_div_one, one_mul, sub_eq_zero, eq_div_iff (hv _).ne'] at q
    rw [← q, eV, sum_mul, hU]
    exact sum_congr rfl fun j _ => by ring
  have tot : ∑ i, ∑ j, U i * kern M reg i j * V j = 1 := by rw [← ha]; exact sum_congr rfl fun i _ => row i
  have eP : screenPlan (kern M reg) 0 1 (fun _ => True) (fun _ => True) u v = fun i j => U i * kern M reg i j * V j := by
    funext i j
    unfold screenPlan
    rw [hU, hV] at tot
    rw [tot, div_one, hU, hV]
  rw [eP]
  have kp : ∀ i j, 0 < kern M reg i j := fun i j => Real.exp_pos _
  refine Sinkhorn.optimal_of_form hreg (x := fun i => Real.log (U i)) (y := fun j => Real.log (V j)) ⟨fun i j => (mul_pos (mul_pos (U0 i) (kp i j)) (V0 j)).le, row, col⟩ (fun i j => mul_pos (mul_pos (U0 i) (kp i j)) (V0 j)) fun i j => ?_
  rw [Real.log_mul (mul_pos (U0 i) (kp i j)).ne' (V0 j).ne', Real.log_mul (U0 i).ne' (kp i j).ne', kern, Real.log_exp]
  ring

/-- **The full budget needs a square problem**: with `ns ≠ nt` the objective raises at its first evaluation, because the two vectors of zeros have each other's length. -/
theorem C111_full_refuted {ns nt : ℕ} {u v : List ℝ} (hu : u.length = ns) (hv : v.length = nt) : (fullParts ns nt u v = none ↔ ns ≠ nt) ∧ (ns = nt → fullParts ns nt u v = some (0, 0)) := by
  have z : ∀ l : List ℝ, (List.zipWith (· * ·) l (List.replicate l.length 0)).sum = 0 := fun l => by induction l with
    | nil => simp
    | cons x l ih => simpa [List.replicate_succ] using ih
  have z' : ∀ l : List ℝ, (List.zipWith (· * ·) (List.replicate l.length 0) l).sum = 0 := fun l => by induction l with
    | nil => simp
    | cons x l ih => simpa [List.replicate_succ] using ih
  have some' : ns = nt → fullParts ns nt u v = some (0, 0) := fun h => by
    unfold fullParts npDot
    have e1 : nt = u.length := by omega
    have e2 : ns = v.length := by omega
    rw [if_pos (by simp; omega), if_pos (by simp; omega)]
    have z1 := z u
    have z2 := z' v
    rw [← e1] at z1
    rw [← e2] at z2
    simp [z1, z2]
  refine ⟨⟨fun h he => by rw [some' he] at h; simp at h, fun h => ?_⟩, some'⟩
  unfold fullParts npDot
  rw [if_neg (by simp; omega)]
  rfl

/-! ### ties and empty boxes -/

private theorem thr_const {n m : ℕ} [NeZero n] {w R : Fin n → ℝ} (hR : ∀ i, 0 < R i) (h1 : 1 ≤ m) (h2 : m ≤ n) {c : ℝ} (hc : ∀ i, w i / R i = c) : epsSq false w R m = c := by
  rw [epsSq_eq hR h1 h2]
  obtain ⟨i, hi⟩ := sortDesc_mem (getD_mem (L := sortDesc fun i => w i / R i) (k := m - 1) (by rw [sortDesc_length]; omega))
  rw [← hi, hc]

/-- **Ties defeat the budget, and the function raises.** If the ratios `a_i / ∑_j K_ij` are all equal and so are the `b_j / ∑_i K_ij` (uniform weights and a cost whose rows are permutations of each other), every point is selected for *every* budget, and,
the full budget not having been asked for, the constants of the restricted Sinkhorn iterations are never defined, with `restricted=True` (the default) or not. -/
theorem C111_ties_refuted {ns nt : ℕ} [NeZero ns] [NeZero nt] {K : Fin ns → Fin nt → ℝ} {a : Fin ns → ℝ} {b : Fin nt → ℝ} {nsb ntb : ℕ} (d : ScreenData K a b nsb ntb) {c c' : ℝ} (h1 : ∀ i, a i / ∑ j, K i j = c) (h2 : ∀ j, b j / ∑ i, K i j = c') :
    ∃ ε κ, setup false K a b nsb ntb = ⟨fun _ => True, fun _ => True, ε, κ⟩ ∧ ∀ [Nonempty {_i : Fin ns // True}] restricted, start K a b ε κ (fun _ => True) (fun _ => True) restricted false = none := by
  have sK : ∀ i, 0 < ∑ j, K i j := fun i => sum_pos (fun j _ => d.hK i j) univ_nonempty
  have sL : ∀ j, 0 < ∑ i, K i j := fun j => sum_pos (fun i _ => d.hK i j) univ_nonempty
  obtain ⟨eu, ev, p1, p2, q1, q2, hs⟩ := setup_spec d false
  rw [thr_const sK d.h1 d.h2 h1] at q1
  rw [thr_const sL d.h3 d.h4 h2] at q2
  refine ⟨epsilon eu ev, kappa eu ev, ?_, fun r => (C111_unbound_refuted).2 (fun _ => trivial) (fun _ => trivial) r⟩
  · rw [hs]
    congr 1
    · funext i
      unfold sel
      rw [eq_iff_iff, iff_true, q1, ← h1 i, div_mul_cancel₀ _ (sK i).ne']
    · funext j
      unfold sel
      rw [eq_iff_iff, iff_true, q2, ← h2 j, div_mul_cancel₀ _ (sL j).ne']

/-- the smallest tied problem: two points a side, uniform weights, cost `|i - j|` -/
noncomputable def tiedK (t : ℝ) : Fin 2 → Fin 2 → ℝ := fun i j => if i = j then 1 else t

example : ScreenData (tiedK (1 / 2)) (fun _ => 1 / 2) (fun _ => 1 / 2) (defaultBudget 2) (defaultBudget 2) ∧ (∀ i : Fin 2, (1 / 2 : ℝ) / ∑ j, tiedK (1 / 2) i j = 1 / 3) ∧ ∀ j : Fin 2, (1 / 2 : ℝ) / ∑ i, tiedK (1 / 2) i j = 1 / 3 := by
  refine ⟨⟨fun i j => by unfold tiedK; split_ifs <;> norm_num, fun _ => by norm_num, fun _ => by norm_num, by norm_num [defaultBudget], by norm_num [defaultBudget], by norm_num [defaultBudget], by norm_num [defaultBudget], by norm_num [defaultBudget]⟩, fun i => ?_, fun j => ?_⟩
  · fin_cases i <;> norm_num [tiedK, Fin.sum_univ_two]
  · fin_cases j <;> norm_num [tiedK, Fin.sum_univ_two]

private theorem skew_data {t : ℝ} (h0 : 0 < t) : ScreenData (tiedK t) ![2 / 3, 1 / 3] ![2 / 3, 1 / 3] (defaultBudget 2) (defaultBudget 2) :=
  ⟨fun i j => by unfold tiedK; split_ifs <;> [norm_num; exact h0], fun i => by fin_cases i <;> norm_num, fun i => by fin_cases i <;> norm_num, by norm_num [defaultBudget], by norm_num [defaultBudget], by norm_num [defaultBudget], by norm_num [defaultBudget], by norm_num [defaultBudget]⟩

private theorem skew_sum (t : ℝ) (i : Fin 2) : ∑ j, tiedK t i j = 1 + t ∧ ∑ j, tiedK t j i = 1 + t := by
  constructor <;> fin_cases i <;> norm_num [tiedK, Fin.sum_univ_two] <;> ring

private theorem skew_thr {t : ℝ} (h0 : 0 < t) : epsSq false ![2 / 3, 1 / 3] (fun _ : Fin 2 => 1 + t) 1 = 2 / 3 / (1 + t) := by
  have hR : ∀ _ : Fin 2, 0 < 1 + t := fun _ => by linarith
  rw [epsSq_eq hR le_rfl (by norm_num)]
  obtain ⟨i, hi⟩ := sortDesc_mem (getD_mem (L := sortDesc fun i : Fin 2 => (![2 / 3, 1 / 3] : Fin 2 → ℝ) i / (1 + t)) (k := 0) (by rw [sortDesc_length]; norm_num))
  have h1 : 1 ≤ (univ.filter fun i : Fin 2 => (sortDesc fun i : Fin 2 => (![2 / 3, 1 / 3] : Fin 2 → ℝ) i / (1 + t)).getD (1 - 1) 0 ≤ (![2 / 3, 1 / 3] : Fin 2 → ℝ) i / (1 + t)).card := (count_ge _ le_rfl (by norm_num)).1
  have h2 : ∀ k : Fin 2, (![2 / 3, 1 / 3] : Fin 2 → ℝ) k / (1 + t) ≤ (sortDesc fun i : Fin 2 => (![2 / 3, 1 / 3] : Fin 2 → ℝ) i / (1 + t)).getD (1 - 1) 0 := fun k => by
    obtain ⟨n, hn, he⟩ := List.getElem_of_mem ((sortDesc_perm fun i : Fin 2 => (![2 / 3, 1 / 3] : Fin 2 → ℝ) i / (1 + t)).mem_iff.2 (List.mem_ofFn.2 ⟨k, rfl⟩))
    rw [← he, ← List.getD_eq_getElem _ 0 hn]
    exact sortDesc_anti _ (Nat.zero_le n) (by rwa [sortDesc_length] at hn)
  have h3 := h2 0
  have hlt : (1 : ℝ) / 3 / (1 + t) < 2 / 3 / (1 + t) := by
    have : (0 : ℝ) < 1 + t := by linarith
    gcongr; norm_num
  rw [Nat.sub_self] at h3 ⊢
  rw [← hi] at h3 ⊢
  fin_cases i
  · rfl
  · simp at h3 hlt; exact absurd h3 (not_le.2 hlt)

/-- **The box can be empty.** For the weights `(2/3, 1/3)` on both sides, the cost `|i - j|`, every regularisation and the default budget, the upper bound that the function passes for the selected scaling is *below* its lower bound, because `K_min` is the minimum over
the selected rows *and* columns: `fmin_l_bfgs_b` refuses the call. -/
theorem C111_box_refuted {reg : ℝ} (hreg : 0 < reg) :
    ∃ ε κ, setup false (kern (fun i j : Fin 2 => if i = j then 0 else 1) reg) ![2 / 3, 1 / 3] ![2 / 3, 1 / 3] (defaultBudget 2) (defaultBudget 2) = ⟨fun i => i = 0, fun j => j = 0, ε, κ⟩ ∧
      (boundsU 2 2 1 ε κ (kern (fun i j : Fin 2 => if i = j then 0 else 1) reg 0 0) (2 / 3) (2 / 3) (2 / 3)).2 < (boundsU 2 2 1 ε κ (kern (fun i j : Fin 2 => if i = j then 0 else 1) reg 0 0) (2 / 3) (2 / 3) (2 / 3)).1 := by
  obtain ⟨t, ht⟩ : ∃ t, t = Real.exp (-1 / reg) := ⟨_, rfl⟩
  have h0 : 0 < t := by rw [ht]; exact Real.exp_pos _
  have hlt : t < 1 := by rw [ht, Real.exp_lt_one_iff]; exact div_neg_of_neg_of_pos (by norm_num) hreg
  have eK : kern (fun i j : Fin 2 => if i = j then 0 else 1) reg = tiedK t := by
    funext i j
    unfold kern tiedK
    by_cases h : i = j
    · simp [h]
    · simp [h, ht]
  rw [eK]
  have d := skew_data h0
  obtain ⟨eu, ev, p1, p2, q1, q2, hs⟩ := setup_spec d false
  have e1 : (fun i => ∑ j, tiedK t i j) = fun _ : Fin 2 => 1 + t := funext fun i => (skew_sum t i).1
  have e2 : (fun j => ∑ i, tiedK t i j) = fun _ : Fin 2 => 1 + t := funext fun i => (skew_sum t i).2
  rw [e1, show defaultBudget 2 = 1 from rfl, skew_thr h0] at q1
  rw [e2, show defaultBudget 2 = 1 from rfl, skew_thr h0] at q2
  have tp : 0 < 1 + t := by linarith
  obtain ⟨k1, k2, k3, k4⟩ := eps_kappa p1 p2
  have hsel : sel ![2 / 3, 1 / 3] (fun _ : Fin 2 => 1 + t) (2 / 3 / (1 + t)) = fun i => i = 0 := by
    funext i
    unfold sel
    rw [div_mul_cancel₀ _ tp.ne']
    fin_cases i <;> norm_num
  refine ⟨epsilon eu ev, kappa eu ev, ?_, ?_⟩
  · rw [hs, e1, e2, q1, q2, hsel]
  · have hk : kappa eu ev = 1 := by
      unfold kappa
      rw [q1, q2, div_self (by positivity), Real.one_rpow]
    rw [hk, mul_one] at k3
    rw [hk]
    unfold boundsU
    refine lt_of_lt_of_le ?_ (le_max_right _ _)
    dsimp only
    have e3 : tiedK t 0 0 = 1 := by simp [tiedK]
    rw [e3, div_one, mul_one, div_lt_iff₀ (by positivity)]
    have e4 : epsilon eu ev * ((2 : ℕ) * epsilon eu ev) = 2 * epsilon eu ev ^ 2 := by push_cast; ring
    rw [e4, k3, q1, ← mul_div_assoc, lt_div_iff₀ tp]
    linarith

/-! ### non-vacuity -/

example : (∃ i, ¬ (setup false (tiedK (1 / 2)) ![2 / 3, 1 / 3] ![2 / 3, 1 / 3] 1 1).S i) := by
  have d := skew_data (t := 1 / 2) (by norm_num)
  refine ⟨1, ((C111_parameters d false).2.2.1 1).2 ?_⟩
  obtain ⟨eu, ev, p1, p2, q1, q2, hs⟩ := setup_spec d false
  change (setup false (tiedK (1 / 2)) ![2 / 3, 1 / 3] ![2 / 3, 1 / 3] (defaultBudget 2) (defaultBudget 2)).κ * _ < (setup false (tiedK (1 / 2)) ![2 / 3, 1 / 3] ![2 / 3, 1 / 3] (defaultBudget 2) (defaultBudget 2)).ε ^ 2 * _
  rw [hs]
  obtain ⟨k1, k2, k3, k4⟩ := eps_kappa p1 p2
  have e1 : (fun i => ∑ j, tiedK (1 / 2) i j) = fun _ : Fin 2 => 1 + 1 / 2 := funext fun i => (skew_sum (1 / 2) i).1
  rw [e1, show defaultBudget 2 = 1 from rfl, skew_thr (by norm_num)] at q1
  dsimp only
  rw [k3, (skew_sum (1 / 2) 1).1, mul_comm eu, mul_assoc]
  refine mul_lt_mul_of_pos_left ?_ k2
  rw [q1]
  norm_num

/-- a screened problem whose restricted problem is solved exactly: one selected point a side, `ε = κ = 1`, kernel `1` -/
example : IsScreenOpt (fun _ _ : Fin 2 => (1 : ℝ)) ![6, 1] ![6, 1] 1 1 (fun i => Real.log (Screen.ext (fun i : Fin 2 => i = 0) (fun _ => 2) (1 / 1) i)) fun j => Real.log (Screen.ext (fun j : Fin 2 => j = 0) (fun _ => 2) (1 * 1) j) := by
  have hc : Fintype.card {i : Fin 2 // i = 0} = 1 := by simp
  have hn : Fintype.card {i : Fin 2 // ¬ i = 0} = 1 := by simp [Fintype.card_subtype_compl]
  refine C111_solution (fun _ _ => one_pos) one_pos one_pos ⟨fun i hi => ?_, fun j hj => ?_⟩ (fun i => ⟨by norm_num, fun y _ => ?_⟩) fun j => ⟨by norm_num, fun y _ => ?_⟩
  · fin_cases i <;> simp at hi ⊢
  · fin_cases j <;> simp at hj ⊢
  · obtain ⟨i, rfl⟩ := i
    unfold gradU vecIJc
    beta_reduce
    simp only [sum_const, card_univ, nsmul_eq_mul, hc, hn]
    norm_num
  · obtain ⟨i, rfl⟩ := j
    unfold gradV vecIcJ
    beta_reduce
    simp only [sum_const, card_univ, nsmul_eq_mul, hc, hn]
    norm_num

/-- the entropic problem `M = 0` on one point a side, solved at the full budget -/
example : IsEntropicOptimal (fun _ : Fin 1 => (1 : ℝ)) (fun _ : Fin 1 => (1 : ℝ)) (fun _ _ => 0) 1 (screenPlan (kern (fun (_ : Fin 1) (_ : Fin 1) => (0 : ℝ)) 1) 0 1 (fun _ => True) (fun _ => True) (fun _ => 1) fun _ => 1) := by
  have hc : Fintype.card {_i : Fin 1 // True} = 1 := by simp
  refine C111_full one_pos (by simp) (fun _ => one_pos) (fun _ => one_pos) (fun i => ⟨by norm_num, fun y _ => ?_⟩) fun j => ⟨by norm_num, fun y _ => ?_⟩
  · unfold gradU vecIJc kern
    beta_reduce
    simp only [sum_const, card_univ, nsmul_eq_mul, hc]
    simp
  · unfold gradV vecIcJ kern
    beta_reduce
    simp only [sum_const, card_univ, nsmul_eq_mul, hc]
    simp

/-- valid box data: the problem above, `K_min = 1` -/
example : BoxData (fun _ _ : Fin 2 => (1 : ℝ)) ![6, 1] ![6, 1] (fun i => i = 0) (fun j => j = 0) 1 6 6 6 6 :=
  ⟨fun _ _ => le_rfl, one_pos, fun _ _ _ => le_rfl, ⟨0, rfl⟩, ⟨0, rfl⟩, fun i hi => by rw [hi]; norm_num, fun i hi => by rw [hi]; norm_num, by norm_num, by norm_num⟩

example := C111_restricted (K := fun _ _ : Fin 2 => (1 : ℝ)) (a := ![6, 1]) (b := ![6, 1]) (ε := 1) (κ := 1) (S := fun i => i = 0) (T := fun j => j = 0) (fun _ _ => one_pos) (fun i => by fin_cases i <;> norm_num) (fun i => by fin_cases i <;> norm_num) zero_le_one one_pos (u := fun _ => 1)

example := C111_full_refuted (ns := 1) (nt := 2) (u := [1]) (v := [1, 1]) rfl rfl

end POT.Props
