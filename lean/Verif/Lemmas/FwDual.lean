import Verif.Lemmas.Uot1dConv

/-! # Lemmas: Frank-Wolfe on the dual of unbalanced transport, for any linear oracle -/

namespace POT.Uot1d

open Finset POT.LpDual POT.Spec

set_option linter.unusedSectionVars false

section Gen

variable {I J : Type*} [Fintype I] [Fintype J] {a : I → ℝ} {b : J → ℝ} {ρ₁ ρ₂ : Option ℝ} {K : (I → ℝ) → (J → ℝ) → Prop}
  {orc : (I → ℝ) → (J → ℝ) → (I → ℝ) × (J → ℝ)} {W : (I → ℝ) → (J → ℝ) → ℝ} {C : ℝ}

/-- the potentials after `k` steps with the directions of `orc` -/
noncomputable def genLoop (orc : (I → ℝ) → (J → ℝ) → (I → ℝ) × (J → ℝ)) (ρ₁ ρ₂ : Option ℝ) (a : I → ℝ) (b : J → ℝ) : ℕ → (I → ℝ) × (J → ℝ)
  | 0 => (fun _ => 0, fun _ => 0)
  | k + 1 =>
    let fg := genLoop orc ρ₁ ρ₂ a b k
    let r := getReweighted fg.1 fg.2 a b ρ₁ ρ₂
    let d := orc r.u r.v
    let t : ℝ := 2 / (2 + k)
    (fun i => r.f i + t * (d.1 i - r.f i), fun j => r.g j + t * (d.2 j - r.g j))

/-- the reweighted marginals before step `k` -/
noncomputable def genRw (orc : (I → ℝ) → (J → ℝ) → (I → ℝ) × (J → ℝ)) (ρ₁ ρ₂ : Option ℝ) (a : I → ℝ) (b : J → ℝ) (k : ℕ) : Rw I J :=
  getReweighted (genLoop orc ρ₁ ρ₂ a b k).1 (genLoop orc ρ₁ ρ₂ a b k).2 a b ρ₁ ρ₂

/-- `d` maximises the linear form over `K`, with value `w`; it is balanced and bounded -/
structure IsOracle (K : (I → ℝ) → (J → ℝ) → Prop) (C : ℝ) (u : I → ℝ) (v : J → ℝ) (d : (I → ℝ) × (J → ℝ)) (w : ℝ) : Prop where
  mem : K d.1 d.2
  val : ∑ i, u i * d.1 i + ∑ j, v j * d.2 j = w
  opt : ∀ f g, K f g → ∑ i, u i * f i + ∑ j, v j * g j ≤ w
  bal : ∑ i, u i * d.1 i = ∑ j, v j * d.2 j
  bdd : Bdd C d.1 d.2

/-- a convex set of potentials, invariant by translation, and data of a call -/
structure GenCall (K : (I → ℝ) → (J → ℝ) → Prop) (C : ℝ) (ρ₁ ρ₂ : Option ℝ) (a : I → ℝ) (b : J → ℝ) : Prop where
  zero : K (fun _ => 0) (fun _ => 0)
  convex : ∀ f g f' g' (t : ℝ), K f g → K f' g' → 0 ≤ t → t ≤ 1 → K (fun i => f i + t * (f' i - f i)) (fun j => g j + t * (g' j - g j))
  translate : ∀ f g (t : ℝ), K f g → K (fun i => f i + t) (fun j => g j - t)
  hC0 : 0 ≤ C
  h₁ : PosParam ρ₁
  h₂ : PosParam ρ₂
  ha : ∀ i, 0 < a i
  hb : ∀ j, 0 < b j
  hsa : 0 < ∑ i, a i
  hsb : 0 < ∑ j, b j
  hmass : ρ₁ = none → ρ₂ = none → ∑ i, a i = ∑ j, b j

theorem GenCall.rw (h : GenCall K C ρ₁ ρ₂ a b) (k : ℕ) :
    let r := genRw orc ρ₁ ρ₂ a b k
    (∀ i, 0 < r.u i) ∧ (∀ j, 0 < r.v j) ∧ ∑ i, r.u i = 1 ∧ ∑ j, r.v j = 1 ∧ 0 < r.mass ∧
      (∀ i, r.u i * r.mass = reweight ρ₁ a r.f i) ∧ ∀ j, r.v j * r.mass = reweight ρ₂ b r.g j :=
  getReweighted_spec h.h₁ h.h₂ h.ha h.hb h.hsa h.hsb h.hmass _ _

/-- the oracle is exact before step `k` -/
def OracleAt (K : (I → ℝ) → (J → ℝ) → Prop) (C : ℝ) (orc : (I → ℝ) → (J → ℝ) → (I → ℝ) × (J → ℝ)) (W : (I → ℝ) → (J → ℝ) → ℝ) (ρ₁ ρ₂ : Option ℝ) (a : I → ℝ) (b : J → ℝ) (l : ℕ) : Prop :=
  IsOracle K C (genRw orc ρ₁ ρ₂ a b l).u (genRw orc ρ₁ ρ₂ a b l).v (orc (genRw orc ρ₁ ρ₂ a b l).u (genRw orc ρ₁ ρ₂ a b l).v) (W (genRw orc ρ₁ ρ₂ a b l).u (genRw orc ρ₁ ρ₂ a b l).v)

theorem GenCall.inv (h : GenCall K C ρ₁ ρ₂ a b) : ∀ k, (∀ l < k, OracleAt K C orc W ρ₁ ρ₂ a b l) →
    K (genLoop orc ρ₁ ρ₂ a b k).1 (genLoop orc ρ₁ ρ₂ a b k).2 ∧ Bdd C (genLoop orc ρ₁ ρ₂ a b k).1 (genLoop orc ρ₁ ρ₂ a b k).2
  | 0, _ => ⟨h.zero, fun i j => by simpa [genLoop] using h.hC0⟩
  | k + 1, hor => by
    obtain ⟨ih1, ih2⟩ := h.inv k fun l hl => hor l (by omega)
    have ho := hor k (by omega)
    have ht := step_size k
    exact ⟨h.convex _ _ _ _ _ (h.translate _ _ _ ih1) ho.mem ht.1 ht.2, (ih2.translate _).convex ho.bdd ht.1 ht.2⟩

/-- Frank-Wolfe: curvature and gap -/
theorem GenCall.gap (h : GenCall K C ρ₁ ρ₂ a b) : ∃ B, 0 ≤ B ∧ ∀ k, (∀ l ≤ k, OracleAt K C orc W ρ₁ ρ₂ a b l) →
    let r := genRw orc ρ₁ ρ₂ a b k
    let d := orc r.u r.v
    let gap := W r.u r.v * r.mass - ∑ i, reweight ρ₁ a r.f i * r.f i - ∑ j, reweight ρ₂ b r.g j * r.g j
    (∀ t, 0 ≤ t → t ≤ 1 → uotDual a b ρ₁ ρ₂ r.f r.g + t * gap - t ^ 2 * B ≤
        uotDual a b ρ₁ ρ₂ (fun i => r.f i + t * (d.1 i - r.f i)) (fun j => r.g j + t * (d.2 j - r.g j))) ∧
      ∀ f g, K f g → uotDual a b ρ₁ ρ₂ f g ≤ uotDual a b ρ₁ ρ₂ r.f r.g + gap := by
  have hR : ∃ R, ∀ (f : I → ℝ) (g : J → ℝ), Bdd C f g →
      (ρ₁ ≠ none → ∀ i, |f i + rescaleTransl f g a b ρ₁ ρ₂| ≤ R) ∧ (ρ₂ ≠ none → ∀ j, |g j - rescaleTransl f g a b ρ₁ ρ₂| ≤ R) := by
    by_cases hρ : ρ₁ ≠ none ∨ ρ₂ ≠ none
    · obtain ⟨R, hR⟩ := bdd_translated h.h₁ h.h₂ (fun i => (h.ha i).le) (fun j => (h.hb j).le) h.hsa h.hsb hρ C
      exact ⟨R, fun f g hb => ⟨fun _ => (hR f g hb).1, fun _ => (hR f g hb).2⟩⟩
    · push Not at hρ
      exact ⟨0, fun f g _ => ⟨fun h => absurd hρ.1 h, fun h => absurd hρ.2 h⟩⟩
  obtain ⟨R, hR⟩ := hR
  obtain ⟨B₁, hB₁, c1⟩ := dualTerm_curv h.h₁ (fun i => (h.ha i).le) R (3 * C + R)
  obtain ⟨B₂, hB₂, c2⟩ := dualTerm_curv h.h₂ (fun i => (h.hb i).le) R (3 * C + R)
  refine ⟨B₁ + B₂, add_nonneg hB₁ hB₂, fun k hor => ?_⟩
  obtain ⟨ih1, ih2⟩ := h.inv k fun l hl => hor l hl.le
  obtain ⟨hu, hv, hsu, hsv, hmp, hum, hvm⟩ := h.rw (orc := orc) k
  have ho := hor k le_rfl
  have : Nonempty I := by
    by_contra he
    rw [not_nonempty_iff] at he
    have := h.hsa
    simp at this
  have : Nonempty J := by
    by_contra he
    rw [not_nonempty_iff] at he
    have := h.hsb
    simp at this
  have s1 := bdd_centered (fun i => (hu i).le) hsu (fun j => (hv j).le) hsv ho.bdd ho.bal
  have s2 := bdd_centered (fun i => (hv i).le) hsv (fun j => (hu j).le) hsu ho.bdd.swap ho.bal.symm
  have hr := hR _ _ ih2
  obtain ⟨r, er⟩ : ∃ r, r = genRw orc ρ₁ ρ₂ a b k := ⟨_, rfl⟩
  have hr1 : ρ₁ ≠ none → ∀ i, |r.f i| ≤ R := fun hne i => by rw [er]; exact hr.1 hne i
  have hr2 : ρ₂ ≠ none → ∀ j, |r.g j| ≤ R := fun hne j => by rw [er]; exact hr.2 hne j
  unfold OracleAt at ho
  rw [← er] at hum hvm hu hv hmp ho s1 s2
  obtain ⟨d, ed⟩ : ∃ d, d = orc r.u r.v := ⟨_, rfl⟩
  rw [← ed] at ho s1 s2
  simp only [← er, ← ed]
  have hW : ∑ i, reweight ρ₁ a r.f i * d.1 i + ∑ j, reweight ρ₂ b r.g j * d.2 j = W r.u r.v * r.mass := by
    rw [← ho.val, add_mul, sum_mul, sum_mul]
    congr 1
    · exact sum_congr rfl fun i _ => by rw [← hum i]; ring
    · exact sum_congr rfl fun j _ => by rw [← hvm j]; ring
  refine ⟨fun t h0 h1 => ?_, fun f g hfg => ?_⟩
  · have e1 := c1 r.f (fun i => d.1 i - r.f i) t (fun hne => ⟨hr1 hne, fun i => (abs_sub _ _).trans (add_le_add (s1 i) (hr1 hne i))⟩) h0 h1
    have e2 := c2 r.g (fun j => d.2 j - r.g j) t (fun hne => ⟨hr2 hne, fun j => (abs_sub _ _).trans (add_le_add (s2 j) (hr2 hne j))⟩) h0 h1
    simp only [mul_sub, sum_sub_distrib] at e1 e2
    unfold uotDual
    simp only [mul_sub]
    rw [← hW]
    linarith
  · have e1 := dualTerm_add_le h.h₁ (fun i => (h.ha i).le) r.f (fun i => f i - r.f i)
    have e2 := dualTerm_add_le h.h₂ (fun i => (h.hb i).le) r.g (fun j => g j - r.g j)
    rw [show (fun i => r.f i + (f i - r.f i)) = f from funext fun i => by ring] at e1
    rw [show (fun i => r.g i + (g i - r.g i)) = g from funext fun i => by ring] at e2
    simp only [mul_sub, sum_sub_distrib] at e1 e2
    have hwk : ∑ i, reweight ρ₁ a r.f i * f i + ∑ j, reweight ρ₂ b r.g j * g j ≤ W r.u r.v * r.mass := by
      have := mul_le_mul_of_nonneg_right (ho.opt f g hfg) hmp.le
      refine le_trans (le_of_eq ?_) this
      rw [add_mul, sum_mul, sum_mul]
      congr 1
      · exact sum_congr rfl fun i _ => by rw [← hum i]; ring
      · exact sum_congr rfl fun j _ => by rw [← hvm j]; ring
    unfold uotDual
    linarith

/-- rate of the dual objective -/
theorem GenCall.rate (h : GenCall K C ρ₁ ρ₂ a b) : ∃ B, 0 ≤ B ∧ ∀ k, (∀ l ≤ k, OracleAt K C orc W ρ₁ ρ₂ a b l) → 1 ≤ k →
    let r := genRw orc ρ₁ ρ₂ a b k
    let gap := W r.u r.v * r.mass - ∑ i, reweight ρ₁ a r.f i * r.f i - ∑ j, reweight ρ₂ b r.g j * r.g j
    (∀ f g, K f g → uotDual a b ρ₁ ρ₂ f g ≤ uotDual a b ρ₁ ρ₂ r.f r.g + 4 * B / (k + 2)) ∧ gap ≤ 5 * B / Real.sqrt (k + 2) := by
  obtain ⟨B, hB, hg⟩ := h.gap (orc := orc) (W := W)
  have hrate : ∀ k, (∀ l ≤ k, OracleAt K C orc W ρ₁ ρ₂ a b l) → 1 ≤ k →
      ∀ f g, K f g → uotDual a b ρ₁ ρ₂ f g ≤ uotDual a b ρ₁ ρ₂ (genRw orc ρ₁ ρ₂ a b k).f (genRw orc ρ₁ ρ₂ a b k).g + 4 * B / (k + 2) := by
    -- one step
    have step : ∀ k, (∀ l ≤ k, OracleAt K C orc W ρ₁ ρ₂ a b l) →
        ∀ f g, K f g →
          uotDual a b ρ₁ ρ₂ f g - uotDual a b ρ₁ ρ₂ (genRw orc ρ₁ ρ₂ a b (k + 1)).f (genRw orc ρ₁ ρ₂ a b (k + 1)).g ≤
            (1 - 2 / (2 + (k : ℝ))) * (uotDual a b ρ₁ ρ₂ f g - uotDual a b ρ₁ ρ₂ (genRw orc ρ₁ ρ₂ a b k).f (genRw orc ρ₁ ρ₂ a b k).g) + (2 / (2 + (k : ℝ))) ^ 2 * B := by
      intro k hor f g hfg
      obtain ⟨g1, g2⟩ := hg k hor
      have ht := step_size k
      have e1 := g1 _ ht.1 ht.2
      have e2 := g2 f g hfg
      have e3 := uotDual_translate_le h.h₁ h.h₂ (fun i => (h.ha i).le) (fun j => (h.hb j).le) h.hsa h.hsb h.hmass
        (genLoop orc ρ₁ ρ₂ a b (k + 1)).1 (genLoop orc ρ₁ ρ₂ a b (k + 1)).2 0
      simp only [add_zero, sub_zero] at e3
      have e4 : uotDual a b ρ₁ ρ₂ (fun i => (genRw orc ρ₁ ρ₂ a b k).f i + 2 / (2 + (k : ℝ)) * ((orc (genRw orc ρ₁ ρ₂ a b k).u (genRw orc ρ₁ ρ₂ a b k).v).1 i - (genRw orc ρ₁ ρ₂ a b k).f i))
          (fun j => (genRw orc ρ₁ ρ₂ a b k).g j + 2 / (2 + (k : ℝ)) * ((orc (genRw orc ρ₁ ρ₂ a b k).u (genRw orc ρ₁ ρ₂ a b k).v).2 j - (genRw orc ρ₁ ρ₂ a b k).g j)) ≤
            uotDual a b ρ₁ ρ₂ (genRw orc ρ₁ ρ₂ a b (k + 1)).f (genRw orc ρ₁ ρ₂ a b (k + 1)).g := e3
      have e5 := mul_le_mul_of_nonneg_left e2 ht.1
      nlinarith
    intro k
    induction k with
    | zero => intro _ h0; omega
    | succ k ih =>
      intro hor _ f g hfg
      have hs := step k (fun l hl => hor l (by omega)) f g hfg
      have hk0 : (0 : ℝ) ≤ k := Nat.cast_nonneg k
      rcases Nat.eq_zero_or_pos k with h0 | h0
      · subst h0
        norm_num at hs ⊢
        linarith
      · have ihk := ih (fun l hl => hor l (by omega)) h0 f g hfg
        have h1 : (0 : ℝ) ≤ 1 - 2 / (2 + (k : ℝ)) := by linarith [(step_size k).2]
        have h2 := mul_le_mul_of_nonneg_left (show uotDual a b ρ₁ ρ₂ f g - uotDual a b ρ₁ ρ₂ (genRw orc ρ₁ ρ₂ a b k).f (genRw orc ρ₁ ρ₂ a b k).g ≤ 4 * B / (k + 2) by linarith) h1
        have h3 : (1 - 2 / (2 + (k : ℝ))) * (4 * B / (k + 2)) + (2 / (2 + (k : ℝ))) ^ 2 * B ≤ 4 * B / ((k : ℝ) + 1 + 2) := by
          have e : (1 - 2 / (2 + (k : ℝ))) * (4 * B / (k + 2)) + (2 / (2 + (k : ℝ))) ^ 2 * B = 4 * B * ((k : ℝ) + 1) / (k + 2) ^ 2 := by field_simp; ring
          rw [e, div_le_div_iff₀ (by positivity) (by positivity)]
          nlinarith
        push_cast
        linarith
  refine ⟨B, hB, fun k hor hk => ⟨hrate k hor hk, ?_⟩⟩
  obtain ⟨g1, g2⟩ := hg k hor
  obtain ⟨ih1, _⟩ := h.inv k fun l hl => hor l hl.le
  have d1 := (hor k le_rfl).mem
  have hsq : 0 < Real.sqrt ((k : ℝ) + 2) := Real.sqrt_pos.2 (by positivity)
  obtain ⟨t, ht⟩ : ∃ t, t = 1 / Real.sqrt ((k : ℝ) + 2) := ⟨_, rfl⟩
  have t0 : 0 < t := by rw [ht]; positivity
  have t1 : t ≤ 1 := by
    rw [ht, div_le_one hsq]
    exact Real.le_sqrt_of_sq_le (by have : (0 : ℝ) ≤ k := Nat.cast_nonneg k; linarith)
  have t2 : t ^ 2 = 1 / ((k : ℝ) + 2) := by rw [ht, div_pow, one_pow, Real.sq_sqrt (by positivity)]
  have e1 := g1 t t0.le t1
  have e2 := hrate k hor hk _ _ (h.convex _ _ _ _ t (h.translate _ _ (rescaleTransl (genLoop orc ρ₁ ρ₂ a b k).1 (genLoop orc ρ₁ ρ₂ a b k).2 a b ρ₁ ρ₂) ih1) d1 t0.le t1)
  have e3 := e1.trans e2
  have e4 : 4 * B / ((k : ℝ) + 2) = 4 * B * t ^ 2 := by rw [t2]; ring
  rw [e4] at e3
  have e5 : 5 * B / Real.sqrt ((k : ℝ) + 2) = 5 * B * t := by rw [ht]; ring
  rw [e5]
  refine le_of_mul_le_mul_left ?_ t0
  nlinarith

end Gen

end POT.Uot1d
