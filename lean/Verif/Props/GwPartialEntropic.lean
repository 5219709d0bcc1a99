import Verif.Lemmas.GwPartialEntropic
import Verif.Props.GwEntropic
import Verif.Props.PartialEntropic

/-! # C89: entropic partial (fused) Gromov-Wasserstein -/

set_option linter.unusedSectionVars false

namespace POT.Props

open Finset Spec Gromov GwEntropic GwPartialEntropic

variable {I J : Type*} [Fintype I] [Fintype J]
variable {symmetric : Bool} {D : Decomp ℝ} {C1 : I → I → ℝ} {C2 : J → J → ℝ} {p : I → ℝ} {q : J → ℝ} {M : I → J → ℝ} {α ε : ℝ}
  {sk : ℝ → (I → J → ℝ) → I → J → ℝ}

/-- C89: half the range of the loss bounds the curvature. -/
theorem C89_curvature {L : ℝ → ℝ → ℝ} {lo d : ℝ} (h : ∀ i k j l, lo ≤ L (C1 i k) (C2 j l) ∧ L (C1 i k) (C2 j l) ≤ lo + d) :
    MassCurvatureLe L C1 C2 (d / 2) := fun _ hΔ => gwEnergy_osc_mass h hΔ

theorem epMass_some (x : ℝ) : epMass p q (some x) = if x < 0 then none else if x > min (∑ i, p i) (∑ j, q j) then none else some x := rfl

/-- C89: a mass below zero or above one of the total weights is rejected. Every other mass, and the default, is accepted with the default start. -/
theorem C89_mass (m : Option ℝ) (numItermax : ℕ) (tol : ℝ) :
    (∀ x, m = some x → x < 0 ∨ ∑ i, p i < x ∨ ∑ j, q j < x → ∀ G0,
      entropicPartialGw symmetric D C1 C2 p q sk m G0 numItermax tol = none ∧
      entropicPartialFgw symmetric D C1 C2 p q M α sk m G0 numItermax tol = none) ∧
    ((∀ x, m = some x → 0 ≤ x ∧ x ≤ ∑ i, p i ∧ x ≤ ∑ j, q j) →
      (entropicPartialGw symmetric D C1 C2 p q sk m none numItermax tol).isSome = true ∧
      (entropicPartialFgw symmetric D C1 C2 p q M α sk m none numItermax tol).isSome = true) := by
  constructor
  · rintro x rfl h G0
    have e : epMass p q (some x) = none := by
      rw [epMass_some]
      rcases h with h | h | h
      · rw [if_pos h]
      · split
        · rfl
        · rw [if_pos (lt_of_le_of_lt (min_le_left _ _) h)]
      · split
        · rfl
        · rw [if_pos (lt_of_le_of_lt (min_le_right _ _) h)]
    unfold entropicPartialGw entropicPartialFgw
    rw [e]
    exact ⟨rfl, rfl⟩
  · intro h
    obtain ⟨y, hy⟩ : ∃ y, epMass p q m = some y := by
      cases m with
      | none => exact ⟨_, rfl⟩
      | some x =>
        obtain ⟨h0, h1, h2⟩ := h x rfl
        refine ⟨x, ?_⟩
        rw [epMass_some, if_neg (not_lt.2 h0), if_neg (not_lt.2 (le_min h1 h2))]
    unfold entropicPartialGw entropicPartialFgw
    rw [hy]
    exact ⟨rfl, rfl⟩

/-- The mass that is moved. -/
theorem epMass_eq {m : Option ℝ} {x : ℝ} (h : epMass p q m = some x) : x = m.getD (min (∑ i, p i) (∑ j, q j)) ∧ x ≤ ∑ i, p i ∧ x ≤ ∑ j, q j := by
  cases m with
  | none =>
    have : min (∑ i, p i) (∑ j, q j) = x := Option.some.inj h
    rw [← this]
    exact ⟨rfl, min_le_left _ _, min_le_right _ _⟩
  | some y =>
    rw [epMass_some] at h
    split at h
    · exact absurd h (by simp)
    · split at h
      · exact absurd h (by simp)
      · rename_i h1
        have : y = x := Option.some.inj h
        subst this
        push Not at h1
        exact ⟨rfl, h1.trans (min_le_left _ _), h1.trans (min_le_right _ _)⟩

theorem loop_feasible {x : ℝ} {step : (I → J → ℝ) → I → J → ℝ} (hs : ∀ T, IsPartialOf p q x (step T)) (G : I → J → ℝ) {n : ℕ} (hn : 1 ≤ n) {tol : ℝ} (ht : tol < 1) :
    IsPartialOf p q x (egwLoop step tol n 0 { T := G, err := 1 }).T := by
  obtain ⟨k, rfl⟩ : ∃ k, n = k + 1 := ⟨n - 1, by omega⟩
  rw [egwLoop_succ, if_pos (show (1 : ℝ) > tol from ht)]
  exact egwLoop_inv (Inv := fun T => IsPartialOf p q x T) (fun T _ => hs T) tol k _ (hs G)

/-- C89: whatever the start, the plan returned by either function is nonnegative, does not exceed the marginals and moves exactly the requested mass. -/
theorem C89_feasible (m : Option ℝ) (hsk : SolvesEntropicPartial p q ε (m.getD (min (∑ i, p i) (∑ j, q j))) (sk (m.getD (min (∑ i, p i) (∑ j, q j)))))
    (G0 : Option (I → J → ℝ)) {numItermax : ℕ} (hn : 1 ≤ numItermax) {tol : ℝ} (ht : tol < 1) :
    (∀ s, entropicPartialGw symmetric D C1 C2 p q sk m G0 numItermax tol = some s → IsPartialOf p q (m.getD (min (∑ i, p i) (∑ j, q j))) s.T) ∧
    (∀ s, entropicPartialFgw symmetric D C1 C2 p q M α sk m G0 numItermax tol = some s → IsPartialOf p q (m.getD (min (∑ i, p i) (∑ j, q j))) s.T) := by
  constructor
  all_goals
    intro s h
    first | unfold entropicPartialGw at h | unfold entropicPartialFgw at h
    split at h
    · exact absurd h (by simp)
    · rename_i x hx
      split at h
      · exact absurd h (by simp)
      · rename_i G hG
        have hxe := (epMass_eq hx).1
        rw [← hxe] at hsk ⊢
        have := Option.some.inj h
        rw [← this]
        exact loop_feasible (fun T => (hsk _).1) G hn ht

/-- C89: the reported values are the Gromov-Wasserstein energy and the fused cost of the plan. -/
theorem C89_value (T : I → J → ℝ) :
    epValue D C1 C2 T = gwEnergy D.loss C1 C2 T ∧ epfValue D C1 C2 M α T = fgwCost D.loss C1 C2 M α T := by
  unfold epValue epfValue fgwCost
  rw [pgF_eq]
  exact ⟨rfl, by rw [add_comm]; rfl⟩

section Descent

variable (hsym : symmetric = true → (∀ i k, C1 i k = C1 k i) ∧ (∀ j l, C2 j l = C2 l j)) (hε : 0 < ε)
include hsym hε

theorem ep_step_dec {m κ : ℝ} (hm : 0 < m) (hκ : MassCurvatureLe D.loss C1 C2 κ) {sk : (I → J → ℝ) → I → J → ℝ} (hsk : SolvesEntropicPartial p q ε m sk)
    {T : I → J → ℝ} (hT : IsPartialOf p q m T) :
    fgwEntropic D.loss C1 C2 (fun _ _ => 0) 1 ε (sk (epGrad symmetric D C1 C2 T))
      ≤ fgwEntropic D.loss C1 C2 (fun _ _ => 0) 1 ε T - (ε / (2 * m) - κ) * l1dist (sk (epGrad symmetric D C1 C2 T)) T ^ 2 := by
  have h := ep_dec (α := 1) (c := 0) hsym hε.le zero_le_one hm hκ hsk hT
  have e : (fun i j => 1 * pgDf symmetric D C1 C2 T i j + 0) = epGrad symmetric D C1 C2 T := by
    funext i j; rw [one_mul, add_zero]; rfl
  rwa [e, one_mul] at h

theorem gw_entropic_eq (T : I → J → ℝ) :
    fgwEntropic D.loss C1 C2 (fun _ _ => 0) 1 ε T = gwEnergy D.loss C1 C2 T + ε * ∑ i, ∑ j, T i j * Real.log (T i j) := by
  simp [fgwEntropic, fgwCost]

/-- C89: when `2 κ m ≤ reg`, with `κ` a curvature bound, more iterations of `entropic_partial_gromov_wasserstein` never increase its objective: the energy of the plan plus `reg ∑ T log T`. -/
theorem C89_monotone {m κ : ℝ} (hm : 0 < m) (hmp : m ≤ ∑ i, p i) (hmq : m ≤ ∑ j, q j) (hκ : MassCurvatureLe D.loss C1 C2 κ) (hc : 2 * m * κ ≤ ε)
    (hsk : SolvesEntropicPartial p q ε m (sk m)) (G0 : Option (I → J → ℝ)) {G : I → J → ℝ} (hG : epStart p q m G0 = some G) (hf : IsPartialOf p q m G) (tol : ℝ) :
    ∃ s : ℕ → St I J, (∀ n, entropicPartialGw symmetric D C1 C2 p q sk (some m) G0 n tol = some (s n)) ∧
      Antitone (fun n => gwEnergy D.loss C1 C2 (s n).T + ε * ∑ i, ∑ j, (s n).T i j * Real.log ((s n).T i j)) ∧ (s 0).T = G := by
  have hx : epMass p q (some m) = some m := by
    rw [epMass_some, if_neg (not_lt.2 hm.le), if_neg (not_lt.2 (le_min hmp hmq))]
  refine ⟨fun n => egwLoop (fun T => sk m (epGrad symmetric D C1 C2 T)) tol n 0 { T := G, err := 1 }, fun n => ?_, ?_, rfl⟩
  · unfold entropicPartialGw
    rw [hx]
    simp only [hG]
  · have hc0 : 0 ≤ ε / (2 * m) - κ := by
      rw [sub_nonneg, le_div_iff₀ (by positivity)]; linarith
    have hanti := egwLoop_antitone (Inv := fun T => IsPartialOf p q m T) (step := fun T => sk m (epGrad symmetric D C1 C2 T)) (fun T _ => (hsk _).1)
      (Φ := fun T => fgwEntropic D.loss C1 C2 (fun _ _ => 0) 1 ε T)
      (fun T hT => (ep_step_dec hsym hε hm hκ hsk hT).trans (sub_le_self _ (mul_nonneg hc0 (sq_nonneg _)))) tol 0 (s := { T := G, err := 1 }) hf
    intro a b hab
    have := hanti hab
    simp only [gw_entropic_eq hsym hε] at this
    exact this

/-- C89: when `2 κ m < reg` the stopping test is met after `O(1 / tol^2)` iterations. -/
theorem C89_stops {m κ : ℝ} (hm : 0 < m) (hκ : MassCurvatureLe D.loss C1 C2 κ) (hc : 2 * m * κ < ε)
    (hsk : SolvesEntropicPartial p q ε m (sk m)) (G0 : Option (I → J → ℝ)) {G : I → J → ℝ} (hG : epStart p q m G0 = some G) (hf : IsPartialOf p q m G) :
    ∃ B : ℝ, ∀ tol : ℝ, 0 < tol → ∀ n : ℕ, B * (1 / tol ^ 2 + 1) ≤ n → ∀ s,
      entropicPartialGw symmetric D C1 C2 p q sk (some m) G0 n tol = some s → s.err ≤ tol := by
  have hc0 : 0 < ε / (2 * m) - κ := by
    rw [sub_pos, lt_div_iff₀ (by positivity)]; linarith
  obtain ⟨B, hB⟩ := fgwEntropic_bound_entry D.loss C1 C2 (fun _ _ => 0) 1 hε (fun _ : I => m)
  obtain ⟨B', hB'⟩ : ∃ B', B' = fgwEntropic D.loss C1 C2 (fun _ _ => 0) 1 ε G + B := ⟨_, rfl⟩
  have hb : ∀ T, IsPartialOf p q m T → fgwEntropic D.loss C1 C2 (fun _ _ => 0) 1 ε G - fgwEntropic D.loss C1 C2 (fun _ _ => 0) 1 ε T ≤ B' := fun T hT => by
    have hle : ∀ i j, T i j ≤ m := fun i j => by
      rw [← hT.mass]
      exact (single_le_sum (f := fun j => T i j) (fun j _ => hT.nonneg i j) (mem_univ j)).trans
        (single_le_sum (f := fun i => ∑ j, T i j) (fun i _ => sum_nonneg fun j _ => hT.nonneg i j) (mem_univ i))
    rw [hB']; linarith [hB T hT.nonneg hle]
  have hB0 : 0 ≤ B' := by have := hb _ hf; linarith
  obtain ⟨c, hcd⟩ : ∃ c, c = ε / (2 * m) - κ := ⟨_, rfl⟩
  rw [← hcd] at hc0
  refine ⟨10 * (B' / c + 1), fun tol htol n hn s hs => ?_⟩
  have hs' : s = egwLoop (fun T => sk m (epGrad symmetric D C1 C2 T)) tol n 0 { T := G, err := 1 } := by
    unfold entropicPartialGw at hs
    split at hs
    · exact absurd hs (by simp)
    · rename_i x hx
      have := (epMass_eq hx).1
      simp only [Option.getD_some] at this
      subst this
      rw [hG] at hs
      exact (Option.some.inj hs).symm
  rw [hs']
  refine egwLoop_rate (c := c) (B := B') (Inv := fun T => IsPartialOf p q m T) (Φ := fun T => fgwEntropic D.loss C1 C2 (fun _ _ => 0) 1 ε T) hf
    (fun T _ => (hsk _).1) hc0 (fun T hT => ?_) hb htol (le_trans ?_ hn)
  · have h := ep_step_dec hsym hε hm hκ hsk hT
    rw [← hcd] at h
    have := mul_le_mul_of_nonneg_left (frob_le_l1 (sk m (epGrad symmetric D C1 C2 T)) T) hc0.le
    linarith
  · have hx : 0 ≤ B' / c := div_nonneg hB0 hc0.le
    have ht : 0 < 1 / tol ^ 2 := by positivity
    have e : B' / (c * tol ^ 2) = B' / c * (1 / tol ^ 2) := by field_simp
    rw [e]
    nlinarith

end Descent

theorem gwB_osc_mass {L : ℝ → ℝ → ℝ} {lo d : ℝ} (h : ∀ i k j l, lo ≤ L (C1 i k) (C2 j l) ∧ L (C1 i k) (C2 j l) ≤ lo + d) {S T : I → J → ℝ}
    (hS : ∑ i, ∑ j, S i j = 0) : |gwB L C1 C2 S T| ≤ d / 2 * (∑ i, ∑ j, |S i j|) * ∑ i, ∑ j, |T i j| ∧ |gwB L C1 C2 T S| ≤ d / 2 * (∑ i, ∑ j, |S i j|) * ∑ i, ∑ j, |T i j| := by
  have hb := gwB_abs_le (L := fun a b => L a b - (lo + d / 2)) (C1 := C1) (C2 := C2) (K := d / 2)
    (fun i k j l => abs_le.2 ⟨by linarith [(h i k j l).1], by linarith [(h i k j l).2]⟩)
  have h1 : ∑ i, ∑ j, ∑ k, ∑ l, (lo + d / 2) * S i j * T k l = 0 := by
    have : ∀ i j, ∑ k, ∑ l, (lo + d / 2) * S i j * T k l = S i j * ((lo + d / 2) * ∑ k, ∑ l, T k l) := fun i j => by
      simp only [← mul_sum]; ring
    simp only [this, ← sum_mul]
    rw [hS, zero_mul]
  have h2 : ∑ i, ∑ j, ∑ k, ∑ l, (lo + d / 2) * T i j * S k l = 0 := by
    simp only [← mul_sum]
    rw [hS]
    simp
  have e1 : gwB L C1 C2 S T = (∑ i, ∑ j, ∑ k, ∑ l, (lo + d / 2) * S i j * T k l) + gwB (fun a b => L a b - (lo + d / 2)) C1 C2 S T := by
    unfold gwB
    simp only [← sum_add_distrib]
    refine sum_congr rfl fun i _ => sum_congr rfl fun j _ => sum_congr rfl fun k _ => sum_congr rfl fun l _ => ?_
    ring
  have e2 : gwB L C1 C2 T S = (∑ i, ∑ j, ∑ k, ∑ l, (lo + d / 2) * T i j * S k l) + gwB (fun a b => L a b - (lo + d / 2)) C1 C2 T S := by
    unfold gwB
    simp only [← sum_add_distrib]
    refine sum_congr rfl fun i _ => sum_congr rfl fun j _ => sum_congr rfl fun k _ => sum_congr rfl fun l _ => ?_
    ring
  rw [e1, e2, h1, h2, zero_add, zero_add]
  refine ⟨hb S T, (hb T S).trans (le_of_eq (by ring))⟩

/-- C89: a plan accepted by the stopping test is stationary for the objective, up to a multiple of `tol`: moving a fraction `t` of the way to any feasible plan gains at most
`2 d m √(n1 n2) tol t` to first order, with `d` the range of the loss. -/
theorem C89_stationary (hsym : symmetric = true → (∀ i k, C1 i k = C1 k i) ∧ (∀ j l, C2 j l = C2 l j)) {m lo d : ℝ}
    (hL : ∀ i k j l, lo ≤ D.loss (C1 i k) (C2 j l) ∧ D.loss (C1 i k) (C2 j l) ≤ lo + d) (hd : 0 ≤ d)
    (hsk : SolvesEntropicPartial p q ε m (sk m)) (G0 : Option (I → J → ℝ)) {G : I → J → ℝ} (hG : epStart p q m G0 = some G) (hf : IsPartialOf p q m G) {n : ℕ}
    {tol : ℝ} (ht : tol < 1) {s : St I J} (hs : entropicPartialGw symmetric D C1 C2 p q sk (some m) G0 n tol = some s) (hacc : s.err ≤ tol)
    {H : I → J → ℝ} (hH : IsPartialOf p q m H) {t : ℝ} (h0 : 0 ≤ t) (h1 : t ≤ 1) :
    fgwEntropic D.loss C1 C2 (fun _ _ => 0) 1 ε s.T ≤ fgwEntropic D.loss C1 C2 (fun _ _ => 0) 1 ε (fun i j => s.T i j + t * (H i j - s.T i j))
      + t * (2 * d * m * Real.sqrt (Fintype.card I * Fintype.card J) * tol) + t ^ 2 * (2 * d * m ^ 2) := by
  have hs' : s = egwLoop (fun T => sk m (epGrad symmetric D C1 C2 T)) tol n 0 { T := G, err := 1 } := by
    unfold entropicPartialGw at hs
    split at hs
    · exact absurd hs (by simp)
    · rename_i x hx
      have := (epMass_eq hx).1
      simp only [Option.getD_some] at this
      subst this
      rw [hG] at hs
      exact (Option.some.inj hs).symm
  rw [hs'] at hacc
  obtain ⟨k, -, -, hT', hfr⟩ := egwLoop_stop _ tol n 0 _ (show (1 : ℝ) > tol from ht) hacc
  rw [← hs'] at hT'
  obtain ⟨T, hTd⟩ : ∃ T, T = (fun T => sk m (epGrad symmetric D C1 C2 T))^[k] G := ⟨_, rfl⟩
  have hT : IsPartialOf p q m T := by
    rw [hTd]
    clear hTd hT' hfr
    cases k with
    | zero => exact hf
    | succ k => rw [Function.iterate_succ_apply']; exact (hsk _).1
  simp only [← hTd] at hfr hT'
  obtain ⟨hP, hmin⟩ := hsk (epGrad symmetric D C1 C2 T)
  rw [← hT'] at hfr hP hmin
  generalize s.T = P at *
  clear hT' hTd hs hs' hacc
  have hz := hmin _ (isPartialOf_convex hH hP h0 h1)
  have ez : (fun i j => t * H i j + (1 - t) * P i j) = fun i j => P i j + t * (H i j - P i j) := by funext i j; ring
  rw [ez] at hz
  obtain ⟨Γ, hΓ⟩ : ∃ Γ : I → J → ℝ, Γ = fun i j => H i j - P i j := ⟨_, rfl⟩
  have hΓ' : ∀ i j, H i j - P i j = Γ i j := fun i j => by rw [hΓ]
  simp only [hΓ'] at hz ⊢
  have hline := gwEnergy_line D.loss C1 C2 P Γ t
  have hin := inner_pgDf symmetric D C1 C2 T hsym Γ
  have hcost : cost (epGrad symmetric D C1 C2 T) (fun i j => P i j + t * Γ i j) = cost (epGrad symmetric D C1 C2 T) P
      + t * ∑ i, ∑ j, pgDf symmetric D C1 C2 T i j * Γ i j := by
    simp only [cost, epGrad, mul_sum, ← sum_add_distrib]
    exact sum_congr rfl fun i _ => sum_congr rfl fun j _ => by ring
  unfold entropicObjective at hz
  rw [hcost, hin] at hz
  have s1 : gwB D.loss C1 C2 Γ (fun i j => P i j - T i j) = gwB D.loss C1 C2 Γ P - gwB D.loss C1 C2 Γ T := by
    have := gwB_add_right D.loss C1 C2 Γ (fun i j => P i j - T i j) T
    simp only [sub_add_cancel] at this
    linarith
  have s2 : gwB D.loss C1 C2 (fun i j => P i j - T i j) Γ = gwB D.loss C1 C2 P Γ - gwB D.loss C1 C2 T Γ := by
    have := gwB_add_left D.loss C1 C2 (fun i j => P i j - T i j) T Γ
    simp only [sub_add_cancel] at this
    linarith
  have hΓ0 : ∑ i, ∑ j, Γ i j = 0 := by rw [hΓ]; simp only [sum_sub_distrib]; rw [hP.mass, hH.mass, sub_self]
  have hΓl : ∑ i, ∑ j, |Γ i j| ≤ 2 * m := by
    have : ∑ i, ∑ j, |Γ i j| ≤ ∑ i, ∑ j, (H i j + P i j) := by
      refine sum_le_sum fun i _ => sum_le_sum fun j _ => ?_
      rw [hΓ]
      refine (abs_sub _ _).trans ?_
      rw [abs_of_nonneg (hH.nonneg i j), abs_of_nonneg (hP.nonneg i j)]
    refine this.trans (le_of_eq ?_)
    simp only [sum_add_distrib]
    rw [hH.mass, hP.mass]; ring
  obtain ⟨b1, b2⟩ := gwB_osc_mass hL (T := fun i j => P i j - T i j) hΓ0
  have hE := (gwB_osc_mass hL (T := Γ) hΓ0).1
  have hl : ∑ i, ∑ j, |P i j - T i j| ≤ Real.sqrt (Fintype.card I * Fintype.card J) * tol :=
    (l1_le_frob P T).trans (mul_le_mul_of_nonneg_left hfr (Real.sqrt_nonneg _))
  have hl0 : 0 ≤ ∑ i, ∑ j, |P i j - T i j| := sum_nonneg fun _ _ => sum_nonneg fun _ _ => abs_nonneg _
  have hg0 : 0 ≤ ∑ i, ∑ j, |Γ i j| := sum_nonneg fun _ _ => sum_nonneg fun _ _ => abs_nonneg _
  have hprod : (∑ i, ∑ j, |Γ i j|) * (∑ i, ∑ j, |P i j - T i j|) ≤ 2 * m * (Real.sqrt (Fintype.card I * Fintype.card J) * tol) :=
    mul_le_mul hΓl hl hl0 (hg0.trans hΓl)
  have hsq : (∑ i, ∑ j, |Γ i j|) * (∑ i, ∑ j, |Γ i j|) ≤ 2 * m * (2 * m) := mul_le_mul hΓl hΓl hg0 (hg0.trans hΓl)
  have hprod' := mul_le_mul_of_nonneg_left hprod hd
  have hsq' := mul_le_mul_of_nonneg_left hsq hd
  have g1 : -(2 * d * m * Real.sqrt (Fintype.card I * Fintype.card J) * tol)
      ≤ gwB D.loss C1 C2 Γ (fun i j => P i j - T i j) + gwB D.loss C1 C2 (fun i j => P i j - T i j) Γ := by
    have a1 := (abs_le.1 b1).1
    have a2 := (abs_le.1 b2).1
    nlinarith
  have g2 : -(2 * d * m ^ 2) ≤ gwEnergy D.loss C1 C2 Γ := by
    have a1 := (abs_le.1 hE).1
    rw [gwEnergy_eq]
    nlinarith
  have g1' := mul_le_mul_of_nonneg_left g1 h0
  have g2' := mul_le_mul_of_nonneg_left g2 (sq_nonneg t)
  rw [s1, s2] at g1'
  have hz0 : ∀ U : I → J → ℝ, cost (fun _ _ => (0 : ℝ)) U = 0 := fun U => by simp [cost]
  unfold fgwEntropic fgwCost
  rw [hz0, hz0, hline]
  nlinarith

/-! ## The fused version ignores the features -/

/-- The loop solver of `entropic_partial_wasserstein` does not see a constant added to the cost. -/
theorem dykSolver_shift (p : I → ℝ) (q : J → ℝ) (reg : ℝ) (n : ℕ) (thr m : ℝ) (N : I → J → ℝ) (c : ℝ) :
    dykSolver p q reg n thr m (fun i j => N i j + c) = dykSolver p q reg n thr m N := by
  have e : Partial.dykInit (fun i j => N i j + c) reg = Partial.dykInit N reg := by
    funext x
    unfold Partial.dykInit
    have hK : ∀ i j, Real.exp ((N i j + c) / (-reg)) = Real.exp (N i j / (-reg)) * Real.exp (c / (-reg)) := fun i j => by
      rw [← Real.exp_add, add_div]
    simp only [hK, ← sum_mul]
    have hc := Real.exp_pos (c / (-reg))
    congr 1
    funext i j
    generalize Real.exp (c / (-reg)) = e at hc ⊢
    generalize ∑ i, ∑ j, Real.exp (N i j / (-reg)) = S
    rcases eq_or_ne S 0 with h | h
    · rw [h]; simp
    · field_simp
  unfold dykSolver Partial.entropicPartial
  rw [e]

theorem fused_shift {sk : ℝ → (I → J → ℝ) → I → J → ℝ} (hs : ∀ m N c, sk m (fun i j => N i j + c) = sk m N) (M : I → J → ℝ) (m : Option ℝ)
    (G0 : Option (I → J → ℝ)) (n : ℕ) (tol : ℝ) :
    entropicPartialFgw symmetric D C1 C2 p q M α sk m G0 n tol = entropicPartialFgw symmetric D C1 C2 p q (fun _ _ => 0) α sk m G0 n tol := by
  unfold entropicPartialFgw
  have e : ∀ mm, (fun T => sk mm (epfGrad symmetric D C1 C2 M α T)) = fun T => sk mm (epfGrad symmetric D C1 C2 (fun _ _ => 0) α T) := fun mm => by
    funext T
    unfold epfGrad
    rw [hs mm (fun i j => α * pgDf symmetric D C1 C2 T i j), hs mm (fun i j => α * pgDf symmetric D C1 C2 T i j)]
  simp only [e]

/-- C89: `entropic_partial_fused_gromov_wasserstein` ignores the feature cost. With the solver the code uses for the inner problem, the plan, the error and the exceptions are the same for every two feature matrices, for all other arguments. -/
theorem C89_features_ignored_refuted (M M' : I → J → ℝ) (reg : ℝ) (nInner : ℕ) (thr : ℝ) (m : Option ℝ) (G0 : Option (I → J → ℝ)) (n : ℕ) (tol : ℝ) :
    entropicPartialFgw symmetric D C1 C2 p q M α (dykSolver p q reg nInner thr) m G0 n tol
      = entropicPartialFgw symmetric D C1 C2 p q M' α (dykSolver p q reg nInner thr) m G0 n tol := by
  rw [fused_shift (fun m N c => dykSolver_shift p q reg nInner thr m N c) M, fused_shift (fun m N c => dykSolver_shift p q reg nInner thr m N c) M']

/-! ## Existence of the inner solver -/

/-- Every entropic partial problem has a solution, so the hypotheses on `sk` can be met. -/
theorem exists_partial_solver [Nonempty I] [Nonempty J] (hp : ∀ i, 0 < p i) (hq : ∀ j, 0 < q j) (hε : 0 < ε) {m : ℝ} (hm : 0 < m) (hmp : m ≤ ∑ i, p i) (hmq : m ≤ ∑ j, q j) :
    ∃ sk, SolvesEntropicPartial p q ε m sk := by
  choose f h1 h2 h3 _ using fun N : I → J → ℝ => C46_converges hp hq hm hmp hmq N hε
  exact ⟨f, fun N => ⟨⟨(h1 N).nonneg, (h1 N).row, (h1 N).col, h2 N⟩, fun H hH => (h3 N H ⟨hH.nonneg, hH.row, hH.col⟩ hH.mass).1⟩⟩

/-- The hypotheses of the descent theorem hold for a two-point instance with the default start. -/
example : ∃ sk : ℝ → (Fin 2 → Fin 2 → ℝ) → Fin 2 → Fin 2 → ℝ, ∃ κ G,
    MassCurvatureLe (square : Decomp ℝ).loss exC1 exC2 κ ∧ 2 * (1 / 2) * κ < (2 : ℝ) ∧ SolvesEntropicPartial exHalf exHalf 2 (1 / 2) (sk (1 / 2)) ∧
      epStart exHalf exHalf (1 / 2) none = some G ∧ IsPartialOf exHalf exHalf (1 / 2) G := by
  have hs : ∑ i, exHalf i = 1 := by simp [exHalf]
  obtain ⟨sk, h⟩ := exists_partial_solver (p := exHalf) (q := exHalf) (ε := 2) (m := 1 / 2) (fun i => by simp [exHalf]) (fun i => by simp [exHalf]) (by norm_num)
    (by norm_num) (by rw [hs]; norm_num) (by rw [hs]; norm_num)
  refine ⟨fun _ => sk, 1 / 2, _, C89_curvature (lo := 0) (d := 1) ?_, by norm_num, h, rfl,
    epStart_ok (fun i => by simp [exHalf]) (fun i => by simp [exHalf]) (by rw [hs]; norm_num) (by rw [hs]; norm_num) (by norm_num) (by rw [hs]; norm_num) (by rw [hs]; norm_num)⟩
  intro i k j l
  fin_cases i <;> fin_cases k <;> fin_cases j <;> fin_cases l <;> simp [Decomp.loss, square, exC1, exC2] <;> norm_num

/-- C89: the fused function does not solve its documented problem. For two-point spaces with equal structures of zero distances, features `M = [[0,1],[1,0]]`, `alpha = 1/2` and `reg = 1/4` it returns the product plan after any number of
iterations, although the identity plan has a smaller objective. -/
theorem C89_fused_refuted : ∀ sk : ℝ → (Fin 2 → Fin 2 → ℝ) → Fin 2 → Fin 2 → ℝ, SolvesEntropicPartial exHalf exHalf (1 / 4) 1 (sk 1) → ∀ n tol, ∃ s Q,
    entropicPartialFgw true square (fun _ _ => 0) (fun _ _ => 0) exHalf exHalf exC1 (1 / 2) sk none none n tol = some s ∧
      IsPartialOf exHalf exHalf 1 s.T ∧ IsPartialOf exHalf exHalf 1 Q ∧
      fgwEntropic sqLoss (fun _ _ : Fin 2 => 0) (fun _ _ : Fin 2 => 0) exC1 (1 / 2) (1 / 4) Q
        < fgwEntropic sqLoss (fun _ _ : Fin 2 => 0) (fun _ _ : Fin 2 => 0) exC1 (1 / 2) (1 / 4) s.T := by
  intro sk hsk n tol
  have hmass : epMass exHalf exHalf none = some 1 := by simp [epMass, exHalf]
  have hst : epStart exHalf exHalf 1 none = some fun _ _ => 1 / 4 := by
    simp only [epStart, exHalf, Fin.sum_univ_two]
    congr 1
    funext i j; norm_num
  have hgrad : ∀ T : Fin 2 → Fin 2 → ℝ, epfGrad true square (fun _ _ => 0) (fun _ _ => 0) exC1 (1 / 2) T = fun _ _ => (1 - 1 / 2) * ∑ i, ∑ j, T i j * exC1 i j := by
    intro T
    funext i j
    simp [epfGrad, pgDf, gwDf, gwggrad, tensorProduct, constC, dot3, mapM, square]
  have hunif : IsPartialOf exHalf exHalf 1 fun _ _ => 1 / 4 :=
    ⟨fun _ _ => by norm_num, fun _ => by norm_num [exHalf, Fin.sum_univ_two], fun _ => by norm_num [exHalf, Fin.sum_univ_two], by norm_num [Fin.sum_univ_two]⟩
  have hconst : ∀ c : ℝ, sk 1 (fun _ _ => c) = fun _ _ => 1 / 4 := by
    intro c
    obtain ⟨hP, hmin⟩ := hsk fun _ _ => c
    have hg := entropic_growth (by norm_num : (0 : ℝ) ≤ 1 / 4) hP hmin hunif
    generalize sk 1 (fun _ _ => c) = P at *
    have hle : entropicObjective (fun _ _ => c) (1 / 4) (fun _ _ : Fin 2 => (1 / 4 : ℝ)) ≤ entropicObjective (fun _ _ => c) (1 / 4) P := by
      have ht : ∀ i j, P i j * Real.log (1 / 4) + P i j - 1 / 4 ≤ P i j * Real.log (P i j) := fun i j => by
        have := kl1_nonneg (hP.nonneg i j) (by norm_num : (0 : ℝ) < 1 / 4)
        rcases eq_or_lt_of_le (hP.nonneg i j) with h | h
        · rw [← h]; norm_num
        · rw [Real.log_div h.ne' (by norm_num)] at this
          linarith
      have hm := hP.mass
      simp only [Fin.sum_univ_two] at hm
      have hc : cost (fun _ _ => c) P = c := by
        simp only [cost, Fin.sum_univ_two]
        linear_combination c * hm
      unfold entropicObjective
      rw [hc]
      simp only [cost, Fin.sum_univ_two]
      have hsum := add_le_add (add_le_add (ht 0 0) (ht 0 1)) (add_le_add (ht 1 0) (ht 1 1))
      have : P 0 0 * Real.log (1 / 4) + P 0 1 * Real.log (1 / 4) + P 1 0 * Real.log (1 / 4) + P 1 1 * Real.log (1 / 4) = Real.log (1 / 4) := by
        linear_combination Real.log (1 / 4) * hm
      nlinarith
    have hl : l1dist (fun _ _ => (1 / 4 : ℝ)) P ^ 2 ≤ 0 := by nlinarith
    have hl0 : l1dist (fun _ _ => (1 / 4 : ℝ)) P = 0 := by
      have := sq_nonneg (l1dist (fun _ _ => (1 / 4 : ℝ)) P)
      exact pow_eq_zero_iff (two_ne_zero) |>.1 (le_antisymm hl this)
    funext i j
    have h1 := (sum_eq_zero_iff_of_nonneg (fun i _ => sum_nonneg fun j _ => abs_nonneg _)).1 hl0 i (mem_univ i)
    have h2 := (sum_eq_zero_iff_of_nonneg (fun j _ => abs_nonneg _)).1 h1 j (mem_univ j)
    have := abs_eq_zero.1 h2
    linarith
  have hstep : (fun T => sk 1 (epfGrad true square (fun _ _ => 0) (fun _ _ => 0) exC1 (1 / 2) T)) = fun _ => fun _ _ => 1 / 4 := by
    funext T
    rw [hgrad T, hconst]
  refine ⟨egwLoop (fun _ => fun _ _ => 1 / 4) tol n 0 { T := fun _ _ => 1 / 4, err := 1 }, fun i j => if i = j then 1 / 2 else 0, ?_, ?_, ?_, ?_⟩
  · unfold entropicPartialFgw
    rw [hmass]
    simp only [hst, hstep]
  · exact egwLoop_inv (Inv := fun T => IsPartialOf exHalf exHalf 1 T) (fun _ _ => hunif) tol n 0 hunif
  · refine ⟨fun i j => by split <;> norm_num, fun i => ?_, fun j => ?_, ?_⟩
    · fin_cases i <;> simp [exHalf]
    · fin_cases j <;> simp [exHalf]
    · simp
  · have hT : (egwLoop (fun _ => fun _ _ => (1 / 4 : ℝ)) tol n 0 { T := fun (_ _ : Fin 2) => (1 / 4 : ℝ), err := 1 }).T = fun _ _ => 1 / 4 :=
      egwLoop_inv (Inv := fun T => T = fun _ _ => (1 / 4 : ℝ)) (fun _ _ => rfl) tol n 0 rfl
    rw [hT]
    have l4 : Real.log (1 / 4 : ℝ) = -(2 * Real.log 2) := by
      rw [one_div, Real.log_inv, show (4 : ℝ) = 2 ^ 2 by norm_num, Real.log_pow]; norm_num
    have hlog : Real.log 2 < 1 := by
      have := Real.log_lt_sub_one_of_pos (by norm_num : (0 : ℝ) < 2) (by norm_num); linarith
    unfold fgwEntropic fgwCost gwEnergy
    simp only [cost, sqLoss, exC1, Fin.sum_univ_two, l4]
    simp [Real.log_inv]
    have h4 : Real.log 4 = 2 * Real.log 2 := by
      rw [show (4 : ℝ) = 2 ^ 2 by norm_num, Real.log_pow]; norm_num
    try rw [h4]
    nlinarith

/-- C89: a start that exceeds the marginals is accepted, because its marginals are compared with `any` and not with `all`; it is returned when no iteration is made. -/
theorem C89_start_refuted : ∃ G : Fin 2 → Fin 2 → ℝ, (∀ i j, 0 ≤ G i j) ∧ ¬ (∀ i, ∑ j, G i j ≤ exHalf i) ∧ ∀ sk tol,
    entropicPartialGw true square exC1 exC2 exHalf exHalf sk none (some G) 0 tol = some { T := G, err := 1 } := by
  refine ⟨fun i j => if i = 0 ∧ j = 0 then 1 else 0, fun i j => by dsimp only; split <;> norm_num, fun h => ?_, fun sk tol => ?_⟩
  · have := h 0
    norm_num [exHalf] at this
  · have hmass : epMass exHalf exHalf none = some 1 := by simp [epMass, exHalf]
    have hst : epStart exHalf exHalf 1 (some fun i j : Fin 2 => if i = 0 ∧ j = 0 then (1 : ℝ) else 0) = some fun i j => if i = 0 ∧ j = 0 then 1 else 0 := by
      simp only [epStart]
      rw [if_pos]
      refine ⟨⟨1, by norm_num [rowSum, exHalf]⟩, ⟨1, by norm_num [colSum, exHalf]⟩⟩
    unfold entropicPartialGw
    rw [hmass]
    simp only [hst]
    rfl

end POT.Props
