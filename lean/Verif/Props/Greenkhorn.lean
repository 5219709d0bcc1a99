import Verif.Props.Sinkhorn

/-!
# Greenkhorn (C30)

`greenkhorn a b M reg pick₁ pick₂ numItermax stopThr warm` models `ot.bregman.greenkhorn`; `pick₁`, `pick₂` stand for `argmax` (any tie breaking).
-/

set_option linter.unusedSectionVars false

namespace POT.Props

open Finset Spec Sinkhorn

variable {I J : Type*} [Fintype I] [Fintype J] [Nonempty I] [Nonempty J]

section Green

variable {a : I → ℝ} {b : J → ℝ} {K : I → J → ℝ}

/-- The stored plan is the scaled kernel and the stored violations are the true ones. -/
structure GreenInv (a : I → ℝ) (b : J → ℝ) (K : I → J → ℝ) (s : Green I J) : Prop where
  G : ∀ i j, s.G i j = s.u i * K i j * s.v j
  viol : ∀ i, s.viol i = ∑ j, s.G i j - a i
  viol2 : ∀ j, s.viol2 j = ∑ i, s.G i j - b j

theorem greenInit_inv (warm : Option ((I → ℝ) × (J → ℝ))) : GreenInv a b K (greenInit a b K warm) :=
  ⟨fun _ _ => rfl, fun _ => rfl, fun _ => rfl⟩

section
variable [DecidableEq I] [DecidableEq J]

theorem greenRow_G (i₁ : I) (s : Green I J) (h : GreenInv a b K s) (i : I) (j : J) :
    (greenRow a K i₁ s).G i j = (greenRow a K i₁ s).u i * K i j * s.v j := by
  rcases eq_or_ne i i₁ with rfl | hi
  · simp [greenRow]
  · simp [greenRow, hi, h.G i j]

theorem greenRow_inv (i₁ : I) (s : Green I J) (h : GreenInv a b K s) : GreenInv a b K (greenRow a K i₁ s) := by
  refine ⟨greenRow_G i₁ s h, fun i => ?_, fun j => ?_⟩
  · rcases eq_or_ne i i₁ with rfl | hi
    · simp [greenRow]
    · simp [greenRow, hi, h.viol i]
  · have e : ∑ i, (greenRow a K i₁ s).G i j
        = ∑ i, s.G i j + K i₁ j * (a i₁ / ∑ j, K i₁ j * s.v j - s.u i₁) * s.v j := by
      rw [← add_sum_erase univ (fun i => (greenRow a K i₁ s).G i j) (mem_univ i₁), ← add_sum_erase univ (fun i => s.G i j) (mem_univ i₁)]
      have e2 : ∑ i ∈ univ.erase i₁, (greenRow a K i₁ s).G i j = ∑ i ∈ univ.erase i₁, s.G i j := by
        refine sum_congr rfl fun i hi => ?_
        simp [greenRow, ne_of_mem_erase hi]
      rw [e2, greenRow_G i₁ s h, h.G]
      simp only [greenRow, Function.update_self]
      ring
    rw [e]
    have : (greenRow a K i₁ s).viol2 j = s.viol2 j + K i₁ j * (a i₁ / ∑ j, K i₁ j * s.v j - s.u i₁) * s.v j := rfl
    rw [this, h.viol2]
    ring

theorem greenCol_G (j₁ : J) (s : Green I J) (h : GreenInv a b K s) (i : I) (j : J) :
    (greenCol b K j₁ s).G i j = s.u i * K i j * (greenCol b K j₁ s).v j := by
  rcases eq_or_ne j j₁ with rfl | hj
  · simp [greenCol]
  · simp [greenCol, hj, h.G i j]

theorem greenCol_inv (j₁ : J) (s : Green I J) (h : GreenInv a b K s) : GreenInv a b K (greenCol b K j₁ s) := by
  refine ⟨greenCol_G j₁ s h, fun i => ?_, fun j => ?_⟩
  · have e : ∑ j, (greenCol b K j₁ s).G i j
        = ∑ j, s.G i j + (-s.v j₁ + b j₁ / ∑ i, K i j₁ * s.u i) * K i j₁ * s.u i := by
      rw [← add_sum_erase univ (fun j => (greenCol b K j₁ s).G i j) (mem_univ j₁), ← add_sum_erase univ (fun j => s.G i j) (mem_univ j₁)]
      have e2 : ∑ j ∈ univ.erase j₁, (greenCol b K j₁ s).G i j = ∑ j ∈ univ.erase j₁, s.G i j := by
        refine sum_congr rfl fun j hj => ?_
        simp [greenCol, ne_of_mem_erase hj]
      rw [e2, greenCol_G j₁ s h, h.G]
      simp only [greenCol, Function.update_self]
      ring
    rw [e]
    have : (greenCol b K j₁ s).viol i = s.viol i + (-s.v j₁ + b j₁ / ∑ i, K i j₁ * s.u i) * K i j₁ * s.u i := rfl
    rw [this, h.viol]
    ring
  · rcases eq_or_ne j j₁ with rfl | hj
    · simp only [greenCol, Function.update_self]
      rw [mul_sum]
      congr 1
      exact sum_congr rfl fun i _ => by ring
    · simp [greenCol, hj, h.viol2 j]

theorem greenRow_exact (hK : ∀ i j, 0 < K i j) (i₁ : I) (s : Green I J) (hv : ∀ j, 0 < s.v j) :
    ∑ j, (greenRow a K i₁ s).G i₁ j = a i₁ := by
  simp only [greenRow, Function.update_self]
  have p : 0 < ∑ j, K i₁ j * s.v j := sum_pos (fun j _ => mul_pos (hK _ _) (hv j)) univ_nonempty
  calc ∑ j, (a i₁ / ∑ j, K i₁ j * s.v j) * K i₁ j * s.v j = (a i₁ / ∑ j, K i₁ j * s.v j) * ∑ j, K i₁ j * s.v j := by
        rw [mul_sum]; exact sum_congr rfl fun j _ => by ring
    _ = a i₁ := div_mul_cancel₀ _ p.ne'

theorem greenCol_exact (hK : ∀ i j, 0 < K i j) (j₁ : J) (s : Green I J) (hu : ∀ i, 0 < s.u i) :
    ∑ i, (greenCol b K j₁ s).G i j₁ = b j₁ := by
  simp only [greenCol, Function.update_self]
  have p : 0 < ∑ i, K i j₁ * s.u i := sum_pos (fun i _ => mul_pos (hK _ _) (hu i)) univ_nonempty
  calc ∑ i, s.u i * K i j₁ * (b j₁ / ∑ i, K i j₁ * s.u i) = (∑ i, K i j₁ * s.u i) * (b j₁ / ∑ i, K i j₁ * s.u i) := by
        rw [sum_mul]; exact sum_congr rfl fun i _ => by ring
    _ = b j₁ := mul_div_cancel₀ _ p.ne'

/-- Positive scalings. -/
def GreenPos (s : Green I J) : Prop := (∀ i, 0 < s.u i) ∧ ∀ j, 0 < s.v j

theorem greenRow_pos (hK : ∀ i j, 0 < K i j) (ha : ∀ i, 0 < a i) (i₁ : I) (s : Green I J) (hs : GreenPos s) : GreenPos (greenRow a K i₁ s) := by
  refine ⟨fun i => ?_, hs.2⟩
  rcases eq_or_ne i i₁ with rfl | hi
  · simp only [greenRow, Function.update_self]
    exact div_pos (ha _) (sum_pos (fun j _ => mul_pos (hK _ _) (hs.2 j)) univ_nonempty)
  · simp only [greenRow, Function.update_of_ne hi]
    exact hs.1 i

theorem greenCol_pos (hK : ∀ i j, 0 < K i j) (hb : ∀ j, 0 < b j) (j₁ : J) (s : Green I J) (hs : GreenPos s) : GreenPos (greenCol b K j₁ s) := by
  refine ⟨hs.1, fun j => ?_⟩
  rcases eq_or_ne j j₁ with rfl | hj
  · simp only [greenCol, Function.update_self]
    exact div_pos (hb _) (sum_pos (fun i _ => mul_pos (hK _ _) (hs.1 i)) univ_nonempty)
  · simp only [greenCol, Function.update_of_ne hj]
    exact hs.2 j

omit [DecidableEq I] [DecidableEq J] in
theorem G_pos (hK : ∀ i j, 0 < K i j) {s : Green I J} (h : GreenInv a b K s) (hs : GreenPos s) (i : I) (j : J) : 0 < s.G i j := by
  rw [h.G]
  exact mul_pos (mul_pos (hs.1 i) (hK i j)) (hs.2 j)

/-- Decrease of the divergence by a column update. -/
theorem greenCol_kl (hK : ∀ i j, 0 < K i j) (hb : ∀ j, 0 < b j) (j₁ : J) (s : Green I J) (h : GreenInv a b K s) (hs : GreenPos s)
    {Q : I → J → ℝ} (hQ : IsCoupling a b Q) :
    klPlan Q (greenCol b K j₁ s).G = klPlan Q s.G
      - (b j₁ * Real.log (b j₁ / ∑ i, s.G i j₁) - b j₁ + ∑ i, s.G i j₁) := by
  have hG := G_pos hK h hs
  have hc : ∀ j, 0 < ∑ i, s.G i j := fun j => sum_pos (fun i _ => hG i j) univ_nonempty
  obtain ⟨w, hw⟩ : ∃ w : J → ℝ, w = fun j => if j = j₁ then b j₁ / ∑ i, s.G i j₁ else 1 := ⟨_, rfl⟩
  have hwp : ∀ j, 0 < w j := by
    intro j
    rw [hw]
    dsimp only
    split_ifs
    · exact div_pos (hb _) (hc _)
    · exact one_pos
  have e : (greenCol b K j₁ s).G = fun i j => s.G i j * w j := by
    funext i j
    rw [hw]
    rcases eq_or_ne j j₁ with rfl | hj
    · simp only [greenCol, Function.update_self, if_true]
      have e2 : ∑ i, s.G i j = (∑ i, K i j * s.u i) * s.v j := by
        rw [sum_mul]
        exact sum_congr rfl fun i _ => by rw [h.G]; ring
      rw [e2, h.G]
      have p : 0 < ∑ i, K i j * s.u i := sum_pos (fun i _ => mul_pos (hK _ _) (hs.1 i)) univ_nonempty
      have := (hs.2 j).ne'
      field_simp
    · simp [greenCol, hj]
  rw [e, klPlan_colScale hG hwp]
  have e3 : ∑ j, (∑ i, Q i j) * Real.log (w j) = b j₁ * Real.log (b j₁ / ∑ i, s.G i j₁) := by
    rw [sum_eq_single j₁]
    · rw [hw, hQ.col]; simp
    · intro j _ hj
      rw [hw]; simp [hj]
    · simp
  have e4 : ∑ j, (∑ i, s.G i j) * (w j - 1) = b j₁ - ∑ i, s.G i j₁ := by
    rw [sum_eq_single j₁]
    · rw [hw]
      simp only [if_true]
      have := (hc j₁).ne'
      field_simp
    · intro j _ hj
      rw [hw]; simp [hj]
    · simp
  rw [e3, e4]
  ring

/-- Decrease of the divergence by a row update. -/
theorem greenRow_kl (hK : ∀ i j, 0 < K i j) (ha : ∀ i, 0 < a i) (i₁ : I) (s : Green I J) (h : GreenInv a b K s) (hs : GreenPos s)
    {Q : I → J → ℝ} (hQ : IsCoupling a b Q) :
    klPlan Q (greenRow a K i₁ s).G = klPlan Q s.G
      - (a i₁ * Real.log (a i₁ / ∑ j, s.G i₁ j) - a i₁ + ∑ j, s.G i₁ j) := by
  have hG := G_pos hK h hs
  have hc : ∀ i, 0 < ∑ j, s.G i j := fun i => sum_pos (fun j _ => hG i j) univ_nonempty
  obtain ⟨w, hw⟩ : ∃ w : I → ℝ, w = fun i => if i = i₁ then a i₁ / ∑ j, s.G i₁ j else 1 := ⟨_, rfl⟩
  have hwp : ∀ i, 0 < w i := by
    intro i
    rw [hw]
    dsimp only
    split_ifs
    · exact div_pos (ha _) (hc _)
    · exact one_pos
  have e : (greenRow a K i₁ s).G = fun i j => s.G i j * w i := by
    funext i j
    rw [hw]
    rcases eq_or_ne i i₁ with rfl | hi
    · simp only [greenRow, Function.update_self, if_true]
      have e2 : ∑ j, s.G i j = s.u i * ∑ j, K i j * s.v j := by
        rw [mul_sum]
        exact sum_congr rfl fun j _ => by rw [h.G]; ring
      rw [e2, h.G]
      have p : 0 < ∑ j, K i j * s.v j := sum_pos (fun j _ => mul_pos (hK _ _) (hs.2 j)) univ_nonempty
      have := (hs.1 i).ne'
      field_simp
    · simp [greenRow, hi]
  rw [e, ← klPlan_transpose, klPlan_colScale (Q := fun j i => Q i j) (P := fun j i => s.G i j) (fun j i => hG i j) hwp, klPlan_transpose]
  have e3 : ∑ i, (∑ j, Q i j) * Real.log (w i) = a i₁ * Real.log (a i₁ / ∑ j, s.G i₁ j) := by
    rw [sum_eq_single i₁]
    · rw [hw, hQ.row]; simp
    · intro i _ hi
      rw [hw]; simp [hi]
    · simp
  have e4 : ∑ i, (∑ j, s.G i j) * (w i - 1) = a i₁ - ∑ j, s.G i₁ j := by
    rw [sum_eq_single i₁]
    · rw [hw]
      simp only [if_true]
      have := (hc i₁).ne'
      field_simp
    · intro i _ hi
      rw [hw]; simp [hi]
    · simp
  rw [e3, e4]
  ring

end

open Classical in
theorem greenStep_cases (pick₁ : (I → ℝ) → I) (pick₂ : (J → ℝ) → J) (s : Green I J) :
    (|s.viol2 (pick₂ fun j => |s.viol2 j|)| < |s.viol (pick₁ fun i => |s.viol i|)| ∧
      greenStep a b K pick₁ pick₂ s = greenRow a K (pick₁ fun i => |s.viol i|) s) ∨
    (|s.viol (pick₁ fun i => |s.viol i|)| ≤ |s.viol2 (pick₂ fun j => |s.viol2 j|)| ∧
      greenStep a b K pick₁ pick₂ s = greenCol b K (pick₂ fun j => |s.viol2 j|) s) := by
  unfold greenStep
  dsimp only
  split_ifs with h
  · exact Or.inl ⟨h, rfl⟩
  · exact Or.inr ⟨not_lt.1 h, rfl⟩

theorem greenIter (hK : ∀ i j, 0 < K i j) (ha : ∀ i, 0 < a i) (hb : ∀ j, 0 < b j) (pick₁ : (I → ℝ) → I) (pick₂ : (J → ℝ) → J)
    (s : Green I J) (h : GreenInv a b K s) (hs : GreenPos s) (k : ℕ) :
    GreenInv a b K ((greenStep a b K pick₁ pick₂)^[k] s) ∧ GreenPos ((greenStep a b K pick₁ pick₂)^[k] s) := by
  classical
  induction k with
  | zero => exact ⟨h, hs⟩
  | succ k ih =>
    rw [Function.iterate_succ_apply']
    rcases greenStep_cases (a := a) (b := b) (K := K) pick₁ pick₂ ((greenStep a b K pick₁ pick₂)^[k] s) with ⟨-, e⟩ | ⟨-, e⟩ <;> rw [e]
    · exact ⟨greenRow_inv _ _ ih.1, greenRow_pos hK ha _ _ ih.2⟩
    · exact ⟨greenCol_inv _ _ ih.1, greenCol_pos hK hb _ _ ih.2⟩

/-- Lower bound on the decrease in terms of the violation. -/
theorem drop_ge {x y D S thr : ℝ} (hx : 0 ≤ x) (hy : 0 < y) (hxS : x ≤ S) (hD : x * Real.log (x / y) - x + y ≤ D)
    (hthr : 0 ≤ thr) (hv : thr ≤ |y - x|) :
    thr ^ 2 ≤ (x * Real.log (x / y) - x + y) * (2 * Real.sqrt S + Real.sqrt D) ^ 2 := by
  have h1 := kl1_ge hx hy
  have hD0 : (Real.sqrt x - Real.sqrt y) ^ 2 ≤ D := h1.trans hD
  have h2 : Real.sqrt y ≤ Real.sqrt x + Real.sqrt D := by
    have := Real.abs_le_sqrt hD0
    have := (abs_le.1 this).1
    linarith
  have h3 : Real.sqrt x ≤ Real.sqrt S := Real.sqrt_le_sqrt hxS
  have h4 : (y - x) ^ 2 = (Real.sqrt x - Real.sqrt y) ^ 2 * (Real.sqrt x + Real.sqrt y) ^ 2 := by
    have e1 := Real.sq_sqrt hx
    have e2 := Real.sq_sqrt hy.le
    calc (y - x) ^ 2 = ((Real.sqrt y) ^ 2 - (Real.sqrt x) ^ 2) ^ 2 := by rw [e1, e2]
      _ = _ := by ring
  have h5 : Real.sqrt x + Real.sqrt y ≤ 2 * Real.sqrt S + Real.sqrt D := by linarith
  have h6 : (Real.sqrt x + Real.sqrt y) ^ 2 ≤ (2 * Real.sqrt S + Real.sqrt D) ^ 2 :=
    pow_le_pow_left₀ (add_nonneg (Real.sqrt_nonneg _) (Real.sqrt_nonneg _)) h5 2
  calc thr ^ 2 ≤ |y - x| ^ 2 := pow_le_pow_left₀ hthr hv 2
    _ = (Real.sqrt x - Real.sqrt y) ^ 2 * (Real.sqrt x + Real.sqrt y) ^ 2 := by rw [sq_abs, h4]
    _ ≤ (x * Real.log (x / y) - x + y) * (2 * Real.sqrt S + Real.sqrt D) ^ 2 :=
        mul_le_mul h1 h6 (sq_nonneg _) (kl1_nonneg hx hy)

theorem green_step_kl (hK : ∀ i j, 0 < K i j) (ha : ∀ i, 0 < a i) (hb : ∀ j, 0 < b j) (pick₁ : (I → ℝ) → I) (pick₂ : (J → ℝ) → J)
    (s : Green I J) (h : GreenInv a b K s) (hs : GreenPos s) {Q : I → J → ℝ} (hQ : IsCoupling a b Q) {D thr : ℝ} (hthr : 0 ≤ thr)
    (hD : klPlan Q s.G ≤ D) :
    klPlan Q (greenStep a b K pick₁ pick₂ s).G ≤ klPlan Q s.G ∧
    (thr ≤ greenVal pick₁ pick₂ s → thr ^ 2 ≤ (klPlan Q s.G - klPlan Q (greenStep a b K pick₁ pick₂ s).G)
      * (2 * Real.sqrt (∑ i, a i) + Real.sqrt D) ^ 2) := by
  classical
  have hG := G_pos hK h hs
  have hQS : ∑ i, a i = ∑ j, b j := hQ.sum_eq
  rcases greenStep_cases (a := a) (b := b) (K := K) pick₁ pick₂ s with ⟨hlt, e⟩ | ⟨hlt, e⟩
  · have ek := greenRow_kl hK ha (pick₁ fun i => |s.viol i|) s h hs hQ
    have hp := greenRow_pos hK ha (pick₁ fun i => |s.viol i|) s hs
    have hi := greenRow_inv (pick₁ fun i => |s.viol i|) s h
    obtain ⟨i₁, hi₁⟩ : ∃ i₁, (pick₁ fun i => |s.viol i|) = i₁ := ⟨_, rfl⟩
    rw [hi₁] at ek hp hi e hlt
    have hr : 0 < ∑ j, s.G i₁ j := sum_pos (fun j _ => hG _ j) univ_nonempty
    have h0 := kl1_nonneg (ha i₁).le hr
    have h1 := klPlan_nonneg hQ.nonneg (G_pos hK hi hp)
    have e' : greenStep a b K pick₁ pick₂ s = greenRow a K i₁ s := by convert e
    rw [e', ek]
    refine ⟨by linarith, fun hv => ?_⟩
    have hval : greenVal pick₁ pick₂ s = |∑ j, s.G i₁ j - a i₁| := by
      unfold greenVal
      rw [hi₁, max_eq_left hlt.le, h.viol]
    rw [sub_sub_cancel]
    exact drop_ge (ha i₁).le hr (single_le_sum (fun i _ => (ha i).le) (mem_univ i₁)) (by linarith) hthr (hval ▸ hv)
  · have ek := greenCol_kl hK hb (pick₂ fun j => |s.viol2 j|) s h hs hQ
    have hp := greenCol_pos hK hb (pick₂ fun j => |s.viol2 j|) s hs
    have hi := greenCol_inv (pick₂ fun j => |s.viol2 j|) s h
    obtain ⟨j₁, hj₁⟩ : ∃ j₁, (pick₂ fun j => |s.viol2 j|) = j₁ := ⟨_, rfl⟩
    rw [hj₁] at ek hp hi e hlt
    have hr : 0 < ∑ i, s.G i j₁ := sum_pos (fun i _ => hG i _) univ_nonempty
    have h0 := kl1_nonneg (hb j₁).le hr
    have h1 := klPlan_nonneg hQ.nonneg (G_pos hK hi hp)
    have e' : greenStep a b K pick₁ pick₂ s = greenCol b K j₁ s := by convert e
    rw [e', ek]
    refine ⟨by linarith, fun hv => ?_⟩
    have hval : greenVal pick₁ pick₂ s = |∑ i, s.G i j₁ - b j₁| := by
      unfold greenVal
      rw [hj₁, max_eq_right hlt, h.viol2]
    rw [sub_sub_cancel, hQS]
    exact drop_ge (hb j₁).le hr (single_le_sum (fun j _ => (hb j).le) (mem_univ j₁)) (by linarith) hthr (hval ▸ hv)

theorem greenInit_pos (warm : Option ((I → ℝ) × (J → ℝ))) : GreenPos (greenInit a b K warm) := knoppInit_pos warm

end Green

/-- **C30.** For all costs, positive weights, warm starts, tie-breaking rules and iteration counts `k`: the stored plan is `diag(u) K diag(v)`, the incrementally
updated violations are exactly the row and column violations of the stored plan, and the row or column updated last (the one with the larger
violation) is matched exactly. -/
theorem C30_violations_exact (a : I → ℝ) (b : J → ℝ) (M : I → J → ℝ) (reg : ℝ) (pick₁ : (I → ℝ) → I) (pick₂ : (J → ℝ) → J)
    (warm : Option ((I → ℝ) × (J → ℝ))) (ha : ∀ i, 0 < a i) (hb : ∀ j, 0 < b j) (k : ℕ) :
    let K := kernel M reg
    let s := (greenStep a b K pick₁ pick₂)^[k] (greenInit a b K warm)
    let s' := greenStep a b K pick₁ pick₂ s
    (∀ i j, s.G i j = s.u i * Real.exp (-(M i j / reg)) * s.v j) ∧ (∀ i, s.viol i = ∑ j, s.G i j - a i) ∧
    (∀ j, s.viol2 j = ∑ i, s.G i j - b j) ∧
    ((|s.viol2 (pick₂ fun j => |s.viol2 j|)| < |s.viol (pick₁ fun i => |s.viol i|)| ∧
        ∑ j, s'.G (pick₁ fun i => |s.viol i|) j = a (pick₁ fun i => |s.viol i|)) ∨
     (|s.viol (pick₁ fun i => |s.viol i|)| ≤ |s.viol2 (pick₂ fun j => |s.viol2 j|)| ∧
        ∑ i, s'.G i (pick₂ fun j => |s.viol2 j|) = b (pick₂ fun j => |s.viol2 j|))) := by
  classical
  intro K s s'
  have hK := kernel_pos M reg
  obtain ⟨h1, h2⟩ := greenIter hK ha hb pick₁ pick₂ (greenInit a b K warm) (greenInit_inv warm) (greenInit_pos warm) k
  refine ⟨fun i j => ?_, h1.viol, h1.viol2, ?_⟩
  · have := h1.G i j
    rw [kernel, div_neg] at this
    exact this
  · rcases greenStep_cases (a := a) (b := b) (K := K) pick₁ pick₂ s with ⟨h, e⟩ | ⟨h, e⟩
    · left
      refine ⟨h, ?_⟩
      change ∑ j, (greenStep a b K pick₁ pick₂ s).G _ j = _
      rw [e]
      exact greenRow_exact hK _ s h2.2
    · right
      refine ⟨h, ?_⟩
      change ∑ i, (greenStep a b K pick₁ pick₂ s).G i _ = _
      rw [e]
      exact greenCol_exact hK _ s h2.1

/-- **C30, progress.** Each greedy update does not increase the divergence from any coupling, and as soon as the iteration limit exceeds
`D (2 √S + √D)² / thr²` — `D` the divergence of the product coupling from the starting plan, `S` the total mass — `greenkhorn` ends by its test. -/
theorem C30_terminates (a : I → ℝ) (b : J → ℝ) (M : I → J → ℝ) (reg : ℝ) (pick₁ : (I → ℝ) → I) (pick₂ : (J → ℝ) → J)
    (warm : Option ((I → ℝ) × (J → ℝ))) (ha : ∀ i, 0 < a i) (hb : ∀ j, 0 < b j) (hS : ∑ i, a i = ∑ j, b j) (thr : ℝ) (hthr : 0 < thr)
    (n : ℕ) :
    let D := klPlan (fun i j => a i * b j / ∑ i, a i) (greenInit a b (kernel M reg) warm).G
    D * (2 * Real.sqrt (∑ i, a i) + Real.sqrt D) ^ 2 < n * thr ^ 2 →
    (greenkhorn a b M reg pick₁ pick₂ n thr warm).exit = .converged := by
  intro D hn
  have hK := kernel_pos M reg
  have hQ := prod_coupling ha hb hS
  have hit := greenIter hK ha hb pick₁ pick₂ (greenInit a b (kernel M reg) warm) (greenInit_inv warm) (greenInit_pos warm)
  obtain ⟨C, hC⟩ : ∃ C, (2 * Real.sqrt (∑ i, a i) + Real.sqrt D) ^ 2 = C := ⟨_, rfl⟩
  have hstop : ∃ k < n, greenVal pick₁ pick₂ ((greenStep a b (kernel M reg) pick₁ pick₂)^[k] (greenInit a b (kernel M reg) warm)) ≤ thr := by
    by_contra hcon
    push Not at hcon
    have key : ∀ k ≤ n, klPlan (fun i j => a i * b j / ∑ i, a i)
        ((greenStep a b (kernel M reg) pick₁ pick₂)^[k] (greenInit a b (kernel M reg) warm)).G ≤ D ∧ 
        klPlan (fun i j => a i * b j / ∑ i, a i)
        ((greenStep a b (kernel M reg) pick₁ pick₂)^[k] (greenInit a b (kernel M reg) warm)).G * C + k * thr ^ 2 ≤ D * C := by
      intro k
      induction k with
      | zero => intro _; simp only [Function.iterate_zero, id]; exact ⟨le_rfl, by simp [D]⟩
      | succ k ih =>
        intro hk
        obtain ⟨i1, i2⟩ := ih (by omega)
        have h1 := green_step_kl hK ha hb pick₁ pick₂ _ (hit k).1 (hit k).2 hQ hthr.le i1
        have h2 := h1.2 (hcon k (by omega)).le
        rw [hC] at h2
        rw [Function.iterate_succ_apply']
        refine ⟨h1.1.trans i1, ?_⟩
        push_cast
        linarith
    have h1 := (key n le_rfl).2
    have h2 := klPlan_nonneg hQ.nonneg (G_pos hK (hit n).1 (hit n).2)
    have h3 : 0 ≤ C := hC ▸ sq_nonneg _
    rw [hC] at hn
    have := mul_nonneg h2 h3
    linarith
  obtain ⟨k, hk, hs⟩ := hstop
  exact loop_stops n 0 _ (fun _ h => h) k hk hs

/-- **C30, what convergence means.** If `pick₁`, `pick₂` return positions of a maximum, then in a run that ended by its test every row and every column violation of the
returned plan is at most twice the threshold (the test looks at the plan before the last update, which can move mass `thr` into one row or column). -/
theorem C30_converged (a : I → ℝ) (b : J → ℝ) (M : I → J → ℝ) (reg : ℝ) (pick₁ : (I → ℝ) → I) (pick₂ : (J → ℝ) → J)
    (hp₁ : ∀ (x : I → ℝ) i, x i ≤ x (pick₁ x)) (hp₂ : ∀ (x : J → ℝ) j, x j ≤ x (pick₂ x))
    (warm : Option ((I → ℝ) × (J → ℝ))) (ha : ∀ i, 0 < a i) (hb : ∀ j, 0 < b j) (thr : ℝ) (n : ℕ)
    (h : (greenkhorn a b M reg pick₁ pick₂ n thr warm).exit = .converged) :
    let G := (greenkhorn a b M reg pick₁ pick₂ n thr warm).s.G
    (∀ i, |∑ j, G i j - a i| ≤ 2 * thr) ∧ ∀ j, |∑ i, G i j - b j| ≤ 2 * thr := by
  intro G
  have hK := kernel_pos M reg
  obtain ⟨k, hk, e, -, -, x1, x2, x3⟩ := loop_spec (step := greenStep a b (kernel M reg) pick₁ pick₂) (bad := fun _ => False)
    (stop := fun _ old _ => greenVal pick₁ pick₂ old ≤ thr) n 0 (greenInit a b (kernel M reg) warm)
  obtain ⟨l, rfl, -, hval⟩ := x2 h
  obtain ⟨h1, h2⟩ := greenIter hK ha hb pick₁ pick₂ (greenInit a b (kernel M reg) warm) (greenInit_inv warm) (greenInit_pos warm) l
  obtain ⟨s, hs⟩ : ∃ s, (greenStep a b (kernel M reg) pick₁ pick₂)^[l] (greenInit a b (kernel M reg) warm) = s := ⟨_, rfl⟩
  have eG : G = (greenStep a b (kernel M reg) pick₁ pick₂ s).G := by
    have : (greenkhorn a b M reg pick₁ pick₂ n thr warm).s = _ := e
    change (greenkhorn a b M reg pick₁ pick₂ n thr warm).s.G = _
    rw [this, Function.iterate_succ_apply', hs]
  rw [hs] at h1 h2 hval
  have hv1 : ∀ i, |s.viol i| ≤ thr := fun i => (hp₁ (fun i => |s.viol i|) i).trans ((le_max_left _ _).trans hval)
  have hv2 : ∀ j, |s.viol2 j| ≤ thr := fun j => (hp₂ (fun j => |s.viol2 j|) j).trans ((le_max_right _ _).trans hval)
  have hthr : 0 ≤ thr := (abs_nonneg _).trans (hv1 (Classical.arbitrary I))
  have hGp := G_pos hK h1 h2
  classical
  rcases greenStep_cases (a := a) (b := b) (K := kernel M reg) pick₁ pick₂ s with ⟨-, e2⟩ | ⟨-, e2⟩
  · obtain ⟨i₁, hi₁⟩ : ∃ i₁, (pick₁ fun i => |s.viol i|) = i₁ := ⟨_, rfl⟩
    rw [hi₁] at e2
    have e3 : greenStep a b (kernel M reg) pick₁ pick₂ s = greenRow a (kernel M reg) i₁ s := by convert e2
    rw [eG, e3]
    have hex := greenRow_exact (a := a) hK i₁ s h2.2
    have hne : ∀ i, i ≠ i₁ → ∀ j, (greenRow a (kernel M reg) i₁ s).G i j = s.G i j := fun i hi j => by simp [greenRow, hi]
    constructor
    · intro i
      rcases eq_or_ne i i₁ with rfl | hi
      · rw [hex]; simp; linarith
      · simp only [hne i hi, ← h1.viol]
        have := hv1 i
        linarith
    · intro j
      have hinv := greenRow_inv i₁ s h1
      -- change of the column sum
      have hcs : ∑ i, (greenRow a (kernel M reg) i₁ s).G i j - b j
          = s.viol2 j + ((greenRow a (kernel M reg) i₁ s).G i₁ j - s.G i₁ j) := by
        rw [h1.viol2, ← add_sum_erase univ (fun i => (greenRow a (kernel M reg) i₁ s).G i j) (mem_univ i₁),
          ← add_sum_erase univ (fun i => s.G i j) (mem_univ i₁), sum_congr rfl fun i hi => hne i (ne_of_mem_erase hi) j]
        ring
      -- all entries of the row move in the same direction
      have hmove : ∀ j, (greenRow a (kernel M reg) i₁ s).G i₁ j - s.G i₁ j
          = ((greenRow a (kernel M reg) i₁ s).u i₁ / s.u i₁ - 1) * s.G i₁ j := by
        intro j
        rw [greenRow_G i₁ s h1, h1.G]
        have := (h2.1 i₁).ne'
        field_simp
      obtain ⟨w, hw⟩ : ∃ w, (greenRow a (kernel M reg) i₁ s).u i₁ / s.u i₁ - 1 = w := ⟨_, rfl⟩
      rw [hw] at hmove
      have hsum : w * ∑ j, s.G i₁ j = - s.viol i₁ := by
        rw [mul_sum, h1.viol, ← sum_congr rfl fun j _ => hmove j, sum_sub_distrib, hex]
        ring
      have hle : |w * s.G i₁ j| ≤ |w * ∑ j, s.G i₁ j| := by
        rw [abs_mul, abs_mul]
        refine mul_le_mul_of_nonneg_left ?_ (abs_nonneg _)
        rw [abs_of_pos (hGp i₁ j), abs_of_nonneg (sum_nonneg fun j _ => (hGp i₁ j).le)]
        exact single_le_sum (f := fun j => s.G i₁ j) (fun j _ => (hGp i₁ j).le) (mem_univ j)
      rw [hsum, abs_neg] at hle
      rw [hcs, hmove]
      have := abs_add_le (s.viol2 j) (w * s.G i₁ j)
      have := hv2 j
      have := hv1 i₁
      linarith
  · obtain ⟨j₁, hj₁⟩ : ∃ j₁, (pick₂ fun j => |s.viol2 j|) = j₁ := ⟨_, rfl⟩
    rw [hj₁] at e2
    have e3 : greenStep a b (kernel M reg) pick₁ pick₂ s = greenCol b (kernel M reg) j₁ s := by convert e2
    rw [eG, e3]
    have hex := greenCol_exact (b := b) hK j₁ s h2.1
    have hne : ∀ j, j ≠ j₁ → ∀ i, (greenCol b (kernel M reg) j₁ s).G i j = s.G i j := fun j hj i => by simp [greenCol, hj]
    constructor
    · intro i
      have hcs : ∑ j, (greenCol b (kernel M reg) j₁ s).G i j - a i
          = s.viol i + ((greenCol b (kernel M reg) j₁ s).G i j₁ - s.G i j₁) := by
        rw [h1.viol, ← add_sum_erase univ (fun j => (greenCol b (kernel M reg) j₁ s).G i j) (mem_univ j₁),
          ← add_sum_erase univ (fun j => s.G i j) (mem_univ j₁), sum_congr rfl fun j hj => hne j (ne_of_mem_erase hj) i]
        ring
      have hmove : ∀ i, (greenCol b (kernel M reg) j₁ s).G i j₁ - s.G i j₁
          = ((greenCol b (kernel M reg) j₁ s).v j₁ / s.v j₁ - 1) * s.G i j₁ := by
        intro i
        rw [greenCol_G j₁ s h1, h1.G]
        have := (h2.2 j₁).ne'
        field_simp
      obtain ⟨w, hw⟩ : ∃ w, (greenCol b (kernel M reg) j₁ s).v j₁ / s.v j₁ - 1 = w := ⟨_, rfl⟩
      rw [hw] at hmove
      have hsum : w * ∑ i, s.G i j₁ = - s.viol2 j₁ := by
        rw [mul_sum, h1.viol2, ← sum_congr rfl fun i _ => hmove i, sum_sub_distrib, hex]
        ring
      have hle : |w * s.G i j₁| ≤ |w * ∑ i, s.G i j₁| := by
        rw [abs_mul, abs_mul]
        refine mul_le_mul_of_nonneg_left ?_ (abs_nonneg _)
        rw [abs_of_pos (hGp i j₁), abs_of_nonneg (sum_nonneg fun i _ => (hGp i j₁).le)]
        exact single_le_sum (f := fun i => s.G i j₁) (fun i _ => (hGp i j₁).le) (mem_univ i)
      rw [hsum, abs_neg] at hle
      rw [hcs, hmove]
      have := abs_add_le (s.viol i) (w * s.G i j₁)
      have := hv1 i
      have := hv2 j₁
      linarith
    · intro j
      rcases eq_or_ne j j₁ with rfl | hj
      · rw [hex]; simp; linarith
      · simp only [hne j hj, ← h1.viol2]
        have := hv2 j
        linarith

/-- Non-vacuity: an actual `argmax` on a finite type satisfies the hypotheses on `pick`. -/
example : ∃ pick : (Fin 3 → ℝ) → Fin 3, ∀ (x : Fin 3 → ℝ) i, x i ≤ x (pick x) :=
  ⟨fun x => Classical.choose (Finite.exists_max x), fun x => Classical.choose_spec (Finite.exists_max x)⟩

end POT.Props
