import Verif.Lemmas.CircleOpt
import Verif.Lemmas.Emd1d
import Mathlib.Analysis.Convex.SpecificFunctions.Basic
import Mathlib.Data.Rat.Floor
import Mathlib.Data.Fin.VecNotation

/-!
# C67: `binary_search_circle` and `wasserstein_circle` compute the transport cost on the circle

Model: `Model/CircleSearch.lean`.  Vocabulary: `Spec/Transport.lean`, `Spec/Circle.lean`.
-/

set_option linter.unusedSectionVars false

namespace POT.Props

open Finset POT.Spec POT.Circle

section
variable {K : Type*} [Field K] [LinearOrder K] [IsStrictOrderedRing K] [FloorRing K]

/-- a coupling of the sorted weights is a coupling of the weights -/
theorem circle_unsort {n m : ℕ} {uw : Fin (n + 1) → K} {vw : Fin (m + 1) → K} (su : Equiv.Perm (Fin (n + 1))) (sv : Equiv.Perm (Fin (m + 1))) (C P : Fin (n + 1) → Fin (m + 1) → K) :
    (IsCoupling (fun i => uw (su i)) (fun j => vw (sv j)) (fun i j => P (su i) (sv j)) ↔ IsCoupling uw vw P) ∧ cost (fun i j => C (su i) (sv j)) (fun i j => P (su i) (sv j)) = cost C P := by
  refine ⟨⟨fun h => ⟨fun i j => ?_, fun i => ?_, fun j => ?_⟩, fun h => ⟨fun i j => h.nonneg _ _, fun i => ?_, fun j => ?_⟩⟩, ?_⟩
  · have := h.nonneg (su.symm i) (sv.symm j)
    simpa using this
  · have := h.row (su.symm i)
    simp only [Equiv.apply_symm_apply] at this
    rwa [Equiv.sum_comp sv (fun j => P i j)] at this
  · have := h.col (sv.symm j)
    simp only [Equiv.apply_symm_apply] at this
    rwa [Equiv.sum_comp su (fun i => P i j)] at this
  · rw [Equiv.sum_comp sv (fun j => P (su i) j)]; exact h.row _
  · rw [Equiv.sum_comp su (fun i => P i (sv j))]; exact h.col _
  · unfold cost
    rw [Equiv.sum_comp su (fun i => ∑ j, P i (sv j) * C i (sv j))]
    exact sum_congr rfl fun i _ => Equiv.sum_comp sv (fun j => P i j * C i j)

/-- `binary_search_circle` for a convex even cost of the arc length, over any ordered field. -/
theorem circle_search {n m : ℕ} (h : K → K) (hh : ∀ a b x x', a ≤ b → x ≤ x' → h (x' - b) - h (x' - a) ≤ h (x - b) - h (x - a)) (habs : ∀ x y, |x| ≤ |y| → h x ≤ h y) {Λ : K} (hΛ0 : 0 ≤ Λ)
    (hΛ : ∀ x y, |x| ≤ 3 → |y| ≤ 3 → |h x - h y| ≤ Λ * |x - y|) (u uw : Fin (n + 1) → K) (v vw : Fin (m + 1) → K) (su : Equiv.Perm (Fin (n + 1))) (sv : Equiv.Perm (Fin (m + 1)))
    (hsu : Monotone fun i => Int.fract (u (su i))) (hsv : Monotone fun j => Int.fract (v (sv j))) (huw : ∀ i, 0 ≤ uw i) (huw1 : ∑ i, uw i = 1) (hvw : ∀ j, 0 ≤ vw j) (hvw1 : ∑ j, vw j = 1)
    {Lm Lp eps : K} (hL : 0 < max Lm Lp) (he : 0 < eps) :
    (∃ fuel r, binarySearch h u uw v vw su sv Lm Lp (-1) 1 eps fuel = some r) ∧
    ∀ fuel w b, binarySearch h u uw v vw su sv Lm Lp (-1) 1 eps fuel = some (w, b) →
      (∃ P, IsCoupling uw vw P ∧ cost (fun i j => h (circDist (u i) (v j))) P ≤ w) ∧
      (∀ P, IsCoupling uw vw P → w ≤ cost (fun i j => h (circDist (u i) (v j))) P + Λ * (eps / max Lm Lp)) ∧
      (b = true → IsLeast {c | ∃ P, IsCoupling uw vw P ∧ cost (fun i j => h (circDist (u i) (v j))) P = c} w) := by
  have hu0 : ∀ i, 0 ≤ Int.fract (u (su i)) := fun i => Int.fract_nonneg _
  have hu1 : ∀ i, Int.fract (u (su i)) < 1 := fun i => Int.fract_lt_one _
  have hv0 : ∀ j, 0 ≤ Int.fract (v (sv j)) := fun j => Int.fract_nonneg _
  have hv1 : ∀ j, Int.fract (v (sv j)) < 1 := fun j => Int.fract_lt_one _
  have huw1' : ∑ i, uw (su i) = 1 := by rw [Equiv.sum_comp su uw, huw1]
  have hvw1' : ∑ j, vw (sv j) = 1 := by rw [Equiv.sum_comp sv vw, hvw1]
  have hcost : ∀ i j, h (circDist (Int.fract (u (su i))) (Int.fract (v (sv j)))) = (fun i j => h (circDist (u i) (v j))) (su i) (sv j) := fun i j => by rw [circDist_fract]
  constructor
  · obtain ⟨fuel, r, hr⟩ := search_ends h (cdfs fun i => uw (su i)) (fun i => Int.fract (u (su i))) (cdfs fun j => vw (sv j)) (fun j => Int.fract (v (sv j))) he hL (-1) 1
    refine ⟨fuel, (otCost h (cdfs fun i => uw (su i)) (fun i => Int.fract (u (su i))) (cdfs fun j => vw (sv j)) (fun j => Int.fract (v (sv j))) r.1, r.2), ?_⟩
    unfold binarySearch
    simp only [hr, Option.map_some]
  · intro fuel w b hwb
    unfold binarySearch at hwb
    simp only [Option.map_eq_some_iff] at hwb
    obtain ⟨r, hr, hrw⟩ := hwb
    rw [Prod.mk.injEq] at hrw
    obtain ⟨rfl, rfl⟩ := hrw
    have hspec := search_spec h hh habs hsu hu0 hu1 hsv hv0 hv1 (fun i => huw (su i)) huw1' (fun j => hvw (sv j)) hvw1' hΛ0 hΛ he hL fuel (-1) 1 _ r (le_refl _) (by norm_num) (by norm_num) (le_refl _)
      ⟨_, dCm_neg_one h habs hu0 hsv hv0 hv1 (fun i => huw (su i)) huw1' (fun j => hvw (sv j)) hvw1', Or.inr rfl⟩ ⟨_, dCp_one h habs hu1 hsv hv0 hv1 (fun j => hvw (sv j)) hvw1', Or.inl rfl⟩ hr
    have hA : ∃ P, IsCoupling uw vw P ∧ cost (fun i j => h (circDist (u i) (v j))) P ≤
        otCost h (cdfs fun i => uw (su i)) (fun i => Int.fract (u (su i))) (cdfs fun j => vw (sv j)) (fun j => Int.fract (v (sv j))) r.1 := by
      obtain ⟨P, hP, hPc⟩ := lift_coupling h habs (lift_self h (u := fun i => Int.fract (u (su i))) (v := fun j => Int.fract (v (sv j))) (fun i => huw (su i)) huw1' (fun j => hvw (sv j)) hvw1' r.1)
      have e := circle_unsort (uw := uw) (vw := vw) su sv (fun i j => h (circDist (u i) (v j))) (fun i j => P (su.symm i) (sv.symm j))
      simp only [Equiv.symm_apply_apply] at e
      refine ⟨_, e.1.1 hP, ?_⟩
      rw [← e.2]
      simp only [hcost] at hPc
      exact hPc
    have hB : ∀ P, IsCoupling uw vw P → ∃ ρ, IsLift h (fun i => Int.fract (u (su i))) (fun i => uw (su i)) (fun j => Int.fract (v (sv j))) (fun j => vw (sv j)) ρ (cost (fun i j => h (circDist (u i) (v j))) P) := by
      intro P hP
      have e := circle_unsort (uw := uw) (vw := vw) su sv (fun i j => h (circDist (u i) (v j))) P
      obtain ⟨ρ, hρ⟩ := coupling_lift h (u := fun i => Int.fract (u (su i))) (v := fun j => Int.fract (v (sv j))) habs (e.1.2 hP)
      simp only [hcost] at hρ
      rw [e.2] at hρ
      exact ⟨ρ, hρ⟩
    refine ⟨hA, fun P hP => ?_, fun hb => ?_⟩
    · obtain ⟨ρ, hρ⟩ := hB P hP
      exact hspec.1 ρ _ hρ
    · have hlow : ∀ P, IsCoupling uw vw P → _ ≤ cost (fun i j => h (circDist (u i) (v j))) P := fun P hP => by
        obtain ⟨ρ, hρ⟩ := hB P hP
        exact hspec.2 hb ρ _ hρ
      obtain ⟨P, hP, hPc⟩ := hA
      refine ⟨⟨P, hP, le_antisymm hPc (hlow P hP)⟩, ?_⟩
      rintro c ⟨P', hP', rfl⟩
      exact hlow P' hP'

end

theorem abs_rpow_lipschitz {p : ℝ} (hp : 1 ≤ p) (x y : ℝ) (hx : |x| ≤ 3) (hy : |y| ≤ 3) : |(|x| ^ p) - |y| ^ p| ≤ p * 3 ^ (p - 1) * |x - y| := by
  have key : ∀ a b : ℝ, 0 ≤ b → b ≤ a → a ≤ 3 → a ^ p - b ^ p ≤ p * 3 ^ (p - 1) * (a - b) := by
    intro a b hb hba ha
    rcases eq_or_lt_of_le (hb.trans hba) with h0 | h0
    · have : b = 0 := le_antisymm (by linarith) hb
      rw [← h0, this]; simp
    · have h1 := one_add_mul_self_le_rpow_one_add (show -1 ≤ b / a - 1 by linarith [div_nonneg hb h0.le]) hp
      rw [show 1 + (b / a - 1) = b / a by ring, Real.div_rpow hb h0.le, le_div_iff₀ (Real.rpow_pos_of_pos h0 p)] at h1
      have h2 : a ^ p = a ^ (p - 1) * a := by rw [← Real.rpow_add_one h0.ne']; congr 1; ring
      have h3 : (1 + p * (b / a - 1)) * a ^ p = a ^ p - p * a ^ (p - 1) * (a - b) := by rw [h2]; field_simp; ring
      have h4 : a ^ (p - 1) ≤ 3 ^ (p - 1) := Real.rpow_le_rpow h0.le ha (by linarith)
      have h5 : p * a ^ (p - 1) * (a - b) ≤ p * 3 ^ (p - 1) * (a - b) := mul_le_mul_of_nonneg_right (mul_le_mul_of_nonneg_left h4 (by linarith)) (by linarith)
      linarith
  have hc : 0 ≤ p * 3 ^ (p - 1) := by positivity
  have hxy : |x| - |y| ≤ |x - y| := abs_sub_abs_le_abs_sub x y
  have hyx : |y| - |x| ≤ |x - y| := by rw [abs_sub_comm]; exact abs_sub_abs_le_abs_sub y x
  rcases le_total |y| |x| with hle | hle
  · rw [abs_of_nonneg (by linarith [Real.rpow_le_rpow (abs_nonneg y) hle (show 0 ≤ p by linarith)])]
    exact (key _ _ (abs_nonneg y) hle hx).trans (mul_le_mul_of_nonneg_left hxy hc)
  · rw [abs_of_nonpos (by linarith [Real.rpow_le_rpow (abs_nonneg x) hle (show 0 ≤ p by linarith)])]
    have := (key _ _ (abs_nonneg x) hle hy).trans (mul_le_mul_of_nonneg_left hyx hc)
    linarith

/-- **C67.** For every exponent `p ≥ 1`, every two weighted point sets on the circle with non-negative weights of total one, and every positive tolerance, the search ends.
The returned value is at least the cost of some plan for the cost "arc length to the power `p`", exceeds the cost of every plan by at most `p 3^(p-1) eps / max(Lm, Lp)`, and is exactly the least cost when the
derivative test stopped the search. -/
theorem C67_binary_search_circle {n m : ℕ} {p : ℝ} (hp : 1 ≤ p) (u uw : Fin (n + 1) → ℝ) (v vw : Fin (m + 1) → ℝ) (su : Equiv.Perm (Fin (n + 1))) (sv : Equiv.Perm (Fin (m + 1)))
    (hsu : Monotone fun i => Int.fract (u (su i))) (hsv : Monotone fun j => Int.fract (v (sv j))) (huw : ∀ i, 0 ≤ uw i) (huw1 : ∑ i, uw i = 1) (hvw : ∀ j, 0 ≤ vw j) (hvw1 : ∑ j, vw j = 1)
    {Lm Lp eps : ℝ} (hL : 0 < max Lm Lp) (he : 0 < eps) :
    (∃ fuel r, binarySearch (fun x => |x| ^ p) u uw v vw su sv Lm Lp (-1) 1 eps fuel = some r) ∧
    ∀ fuel w b, binarySearch (fun x => |x| ^ p) u uw v vw su sv Lm Lp (-1) 1 eps fuel = some (w, b) →
      (∃ P, IsCoupling uw vw P ∧ cost (fun i j => circDist (u i) (v j) ^ p) P ≤ w) ∧
      (∀ P, IsCoupling uw vw P → w ≤ cost (fun i j => circDist (u i) (v j) ^ p) P + p * 3 ^ (p - 1) * (eps / max Lm Lp)) ∧
      (b = true → IsLeast {c | ∃ P, IsCoupling uw vw P ∧ cost (fun i j => circDist (u i) (v j) ^ p) P = c} w) := by
  have h := circle_search (fun x : ℝ => |x| ^ p) (fun a b x x' hab hxx => by have := POT.Emd1d.monge_of_convex (POT.Emd1d.convex_abs_rpow hp) hxx hab; linarith)
    (fun x y hxy => Real.rpow_le_rpow (abs_nonneg x) hxy (by linarith)) (show 0 ≤ p * 3 ^ (p - 1) by positivity) (abs_rpow_lipschitz hp) u uw v vw su sv hsu hsv huw huw1 hvw hvw1 hL he
  have e : ∀ i j, |circDist (u i) (v j)| = circDist (u i) (v j) := fun i j => abs_of_nonneg (circDist_nonneg (u i) (v j))
  simp only [e] at h
  exact h

/-- The values returned for two runs, with any order of equal atoms and any tolerances, differ by no more than the sum of the two error bounds. -/
theorem C67_binary_search_circle_stable {n m : ℕ} {p : ℝ} (hp : 1 ≤ p) (u uw : Fin (n + 1) → ℝ) (v vw : Fin (m + 1) → ℝ) (su su' : Equiv.Perm (Fin (n + 1))) (sv sv' : Equiv.Perm (Fin (m + 1)))
    (hsu : Monotone fun i => Int.fract (u (su i))) (hsv : Monotone fun j => Int.fract (v (sv j))) (hsu' : Monotone fun i => Int.fract (u (su' i))) (hsv' : Monotone fun j => Int.fract (v (sv' j)))
    (huw : ∀ i, 0 ≤ uw i) (huw1 : ∑ i, uw i = 1) (hvw : ∀ j, 0 ≤ vw j) (hvw1 : ∑ j, vw j = 1)
    {Lm Lp eps Lm' Lp' eps' : ℝ} (hL : 0 < max Lm Lp) (he : 0 < eps) (hL' : 0 < max Lm' Lp') (he' : 0 < eps') (fuel fuel' : ℕ) (w w' : ℝ) (b b' : Bool)
    (h : binarySearch (fun x => |x| ^ p) u uw v vw su sv Lm Lp (-1) 1 eps fuel = some (w, b)) (h' : binarySearch (fun x => |x| ^ p) u uw v vw su' sv' Lm' Lp' (-1) 1 eps' fuel' = some (w', b')) :
    w ≤ w' + p * 3 ^ (p - 1) * (eps / max Lm Lp) := by
  obtain ⟨-, h2, -⟩ := (C67_binary_search_circle hp u uw v vw su sv hsu hsv huw huw1 hvw hvw1 hL he).2 fuel w b h
  obtain ⟨⟨P, hP, hPc⟩, -, -⟩ := (C67_binary_search_circle hp u uw v vw su' sv' hsu' hsv' huw huw1 hvw hvw1 hL' he').2 fuel' w' b' h'
  linarith [h2 P hP]

/-- Exchanging the two measures changes the returned value by no more than the error bound. -/
theorem C67_binary_search_circle_symm {n m : ℕ} {p : ℝ} (hp : 1 ≤ p) (u uw : Fin (n + 1) → ℝ) (v vw : Fin (m + 1) → ℝ) (su su' : Equiv.Perm (Fin (n + 1))) (sv sv' : Equiv.Perm (Fin (m + 1)))
    (hsu : Monotone fun i => Int.fract (u (su i))) (hsv : Monotone fun j => Int.fract (v (sv j))) (hsu' : Monotone fun i => Int.fract (u (su' i))) (hsv' : Monotone fun j => Int.fract (v (sv' j)))
    (huw : ∀ i, 0 ≤ uw i) (huw1 : ∑ i, uw i = 1) (hvw : ∀ j, 0 ≤ vw j) (hvw1 : ∑ j, vw j = 1)
    {Lm Lp eps : ℝ} (hL : 0 < max Lm Lp) (he : 0 < eps) (fuel fuel' : ℕ) (w w' : ℝ) (b b' : Bool)
    (h : binarySearch (fun x => |x| ^ p) u uw v vw su sv Lm Lp (-1) 1 eps fuel = some (w, b)) (h' : binarySearch (fun x => |x| ^ p) v vw u uw sv' su' Lm Lp (-1) 1 eps fuel' = some (w', b')) :
    w ≤ w' + p * 3 ^ (p - 1) * (eps / max Lm Lp) := by
  obtain ⟨-, h2, -⟩ := (C67_binary_search_circle hp u uw v vw su sv hsu hsv huw huw1 hvw hvw1 hL he).2 fuel w b h
  obtain ⟨⟨P, hP, hPc⟩, -, -⟩ := (C67_binary_search_circle hp v vw u uw sv' su' hsv' hsu' hvw hvw1 huw huw1 hL he).2 fuel' w' b' h'
  have hPT : IsCoupling uw vw fun i j => P j i := ⟨fun i j => hP.nonneg _ _, fun i => hP.col i, fun j => hP.row j⟩
  have e : cost (fun i j => circDist (u i) (v j) ^ p) (fun i j => P j i) = cost (fun j i => circDist (v j) (u i) ^ p) P := by
    unfold cost
    rw [sum_comm]
    simp only [circDist_comm]
  have := h2 _ hPT
  rw [e] at this
  linarith

/-! ### the hypotheses are met: the example of the documentation -/

example : Monotone (fun i : Fin 3 => Int.fract ((![1/5, 1/2, 4/5] : Fin 3 → ℚ) i)) ∧ (∑ i, (![1/3, 1/3, 1/3] : Fin 3 → ℚ) i = 1) := by
  refine ⟨?_, by decide +kernel⟩
  intro a b hab
  revert a b
  decide +kernel

/-- there the derivative test stops the search in its first turn -/
example : search (fun x : ℚ => |x|) (cdfs ![1/3, 1/3, 1/3]) ![1/5, 1/2, 4/5] (cdfs ![1/3, 1/3, 1/3]) ![2/5, 1/2, 7/10] (1/1000000) 10 1 (-1) 1 0 = some (0, true) := by
  decide +kernel

/-- with this data the derivative test fails at first and the lower end moves -/
example : search (fun x : ℚ => |x|) (cdfs ![1]) ![9/10] (cdfs ![1]) ![1/10] (1/1000000) 10 1 (-1) 1 0 = none := by
  decide +kernel

/-- the theorem applied to two atoms against one -/
example : ∃ fuel w b, binarySearch (fun x : ℝ => |x| ^ (2 : ℝ)) ![1/4, 3/4] ![1/2, 1/2] ![1/8] ![1] (Equiv.refl _) (Equiv.refl _) 10 10 (-1) 1 (1/1000000) fuel = some (w, b) ∧
    ∀ P, IsCoupling ![1/2, 1/2] ![1] P → w ≤ cost (fun i j => circDist ((![1/4, 3/4] : Fin 2 → ℝ) i) ((![1/8] : Fin 1 → ℝ) j) ^ (2 : ℝ)) P + 2 * 3 ^ ((2 : ℝ) - 1) * (1/1000000 / max 10 10) := by
  have h := C67_binary_search_circle (p := 2) (n := 1) (m := 0) (by norm_num) ![1/4, 3/4] ![1/2, 1/2] ![1/8] ![1] (Equiv.refl _) (Equiv.refl _) (by
    have e1 : Int.fract (1/4 : ℝ) = 1/4 := Int.fract_eq_self.2 ⟨by norm_num, by norm_num⟩
    have e2 : Int.fract (3/4 : ℝ) = 3/4 := Int.fract_eq_self.2 ⟨by norm_num, by norm_num⟩
    intro a b hab
    fin_cases a <;> fin_cases b <;> simp [e2] at hab ⊢
    · rw [show (4 : ℝ)⁻¹ = 1/4 by norm_num, e1]; norm_num) (fun a b _ => by fin_cases a; fin_cases b; exact le_refl _)
    (fun i => by fin_cases i <;> norm_num) (by norm_num [Fin.sum_univ_succ]) (fun j => by fin_cases j; norm_num) (by norm_num) (Lm := 10) (Lp := 10) (eps := 1/1000000) (by norm_num) (by norm_num)
  obtain ⟨fuel, ⟨w, b⟩, hr⟩ := h.1
  exact ⟨fuel, w, b, hr, (h.2 fuel w b hr).2.1⟩

end POT.Props
