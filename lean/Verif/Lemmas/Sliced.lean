import Verif.Spec.Sliced
import Verif.Lemmas.Transport
import Verif.Lemmas.ExactEmd
import Mathlib.Analysis.MeanInequalities
import Mathlib.Algebra.BigOperators.Field

/-!
# Wasserstein distances: gluing, triangle inequality
-/

set_option linter.unusedSectionVars false

namespace POT.Spec

open Finset

variable {I J K D : Type*} [Fintype I] [Fintype J] [Fintype K] [Fintype D]

/-- The gluing lemma. -/
theorem glue_couplings {a : I → ℝ} {b : J → ℝ} {c : K → ℝ} {P : I → J → ℝ} {Q : J → K → ℝ} (hP : IsCoupling a b P) (hQ : IsCoupling b c Q) :
    ∃ T : I → J → K → ℝ, (∀ i j k, 0 ≤ T i j k) ∧ (∀ i j, ∑ k, T i j k = P i j) ∧ ∀ j k, ∑ i, T i j k = Q j k := by
  refine ⟨fun i j k => P i j * Q j k / b j, fun i j k => div_nonneg (mul_nonneg (hP.nonneg i j) (hQ.nonneg j k)) (hP.right_nonneg j), fun i j => ?_, fun j k => ?_⟩
  · rw [← sum_div, ← mul_sum, hQ.row]
    by_cases h : b j = 0
    · have h1 := hP.le_right i j
      have h2 := hP.nonneg i j
      rw [h] at h1 ⊢
      simp; linarith
    · field_simp
  · rw [← sum_div, ← sum_mul, hP.col]
    by_cases h : b j = 0
    · have h1 := hQ.le_left j k
      have h2 := hQ.nonneg j k
      rw [h] at h1 ⊢
      simp; linarith
    · field_simp

theorem cost_mono {M M' P : I → J → ℝ} (hP : ∀ i j, 0 ≤ P i j) (h : ∀ i j, M i j ≤ M' i j) : cost M P ≤ cost M' P :=
  sum_le_sum fun i _ => sum_le_sum fun j _ => mul_le_mul_of_nonneg_left (h i j) (hP i j)

theorem cost_nonneg' {M P : I → J → ℝ} (hP : ∀ i j, 0 ≤ P i j) (h : ∀ i j, 0 ≤ M i j) : 0 ≤ cost M P :=
  sum_nonneg fun i _ => sum_nonneg fun j _ => mul_nonneg (hP i j) (h i j)

theorem IsOtValue.nonneg {a : I → ℝ} {b : J → ℝ} {M : I → J → ℝ} {v : ℝ} (h : IsOtValue a b M v) (hM : ∀ i j, 0 ≤ M i j) : 0 ≤ v := by
  obtain ⟨P, hP, rfl⟩ := h.1
  exact cost_nonneg' hP.nonneg hM

theorem IsOptimal.isOtValue {a : I → ℝ} {b : J → ℝ} {M P : I → J → ℝ} (h : IsOptimal a b M P) : IsOtValue a b M (cost M P) :=
  ⟨⟨P, h.1, rfl⟩, fun _ ⟨Q, hQ, e⟩ => e ▸ h.2 Q hQ⟩

theorem IsOtValue.unique {a : I → ℝ} {b : J → ℝ} {M : I → J → ℝ} {v v' : ℝ} (h : IsOtValue a b M v) (h' : IsOtValue a b M v') : v = v' := IsLeast.unique h h'

theorem IsOtValue.swap {a : I → ℝ} {b : J → ℝ} {M : I → J → ℝ} {v : ℝ} (h : IsOtValue a b M v) : IsOtValue b a (fun j i => M i j) v := by
  have hc : ∀ (P : J → I → ℝ), cost M (fun i j => P j i) = cost (fun j i => M i j) P := fun P => sum_comm
  obtain ⟨⟨P, hP, e⟩, hl⟩ := h
  refine ⟨⟨fun j i => P i j, ⟨fun j i => hP.nonneg i j, hP.col, hP.row⟩, ?_⟩, ?_⟩
  · rw [← hc]; exact e
  · rintro _ ⟨Q, hQ, rfl⟩
    rw [← hc]
    exact hl ⟨fun i j => Q j i, ⟨fun j i => hQ.nonneg i j, hQ.col, hQ.row⟩, rfl⟩

/-- The triangle inequality of the Wasserstein distance. -/
theorem wasserstein_triangle {p : ℝ} (hp : 1 ≤ p) {a : I → ℝ} {b : J → ℝ} {c : K → ℝ} {ρ : I → J → ℝ} {ρ' : J → K → ℝ} {ρ'' : I → K → ℝ}
    (h0 : ∀ i j, 0 ≤ ρ i j) (h0' : ∀ j k, 0 ≤ ρ' j k) (h0'' : ∀ i k, 0 ≤ ρ'' i k) (ht : ∀ i j k, ρ'' i k ≤ ρ i j + ρ' j k)
    {w w' w'' : ℝ} (h : IsWasserstein p a b ρ w) (h' : IsWasserstein p b c ρ' w') (h'' : IsWasserstein p a c ρ'' w'') : w'' ≤ w + w' := by
  obtain ⟨v, ⟨⟨P, hP, hPv⟩, _⟩, rfl⟩ := h
  obtain ⟨v', ⟨⟨Q, hQ, hQv⟩, _⟩, rfl⟩ := h'
  obtain ⟨v'', hv'', rfl⟩ := h''
  have hv0 := hv''.nonneg fun i k => Real.rpow_nonneg (h0'' i k) p
  obtain ⟨T, hT0, hTP, hTQ⟩ := glue_couplings hP hQ
  have hp0 : 0 < p := by linarith
  have hR : IsCoupling a c fun i k => ∑ j, T i j k := by
    refine ⟨fun i k => sum_nonneg fun j _ => hT0 i j k, fun i => ?_, fun k => ?_⟩
    · rw [sum_comm, ← hP.row i]; exact sum_congr rfl fun j _ => hTP i j
    · rw [sum_comm, ← hQ.col k]; exact sum_congr rfl fun j _ => hTQ j k
  have h1 : v'' ≤ cost (fun i k => ρ'' i k ^ p) fun i k => ∑ j, T i j k := hv''.2 ⟨_, hR, rfl⟩
  have e1 : ∀ x : I × J × K, ∀ r : ℝ, 0 ≤ r → (T x.1 x.2.1 x.2.2 ^ (1 / p) * r) ^ p = T x.1 x.2.1 x.2.2 * r ^ p := by
    intro x r hr
    rw [Real.mul_rpow (Real.rpow_nonneg (hT0 _ _ _) _) hr, ← Real.rpow_mul (hT0 _ _ _), one_div_mul_cancel hp0.ne', Real.rpow_one]
  have h2 : cost (fun i k => ρ'' i k ^ p) (fun i k => ∑ j, T i j k) ≤
      ∑ x : I × J × K, (T x.1 x.2.1 x.2.2 ^ (1 / p) * ρ x.1 x.2.1 + T x.1 x.2.1 x.2.2 ^ (1 / p) * ρ' x.2.1 x.2.2) ^ p := by
    unfold cost
    rw [Fintype.sum_prod_type]
    refine sum_le_sum fun i _ => ?_
    rw [Fintype.sum_prod_type, sum_comm]
    refine sum_le_sum fun k _ => ?_
    rw [sum_mul]
    refine sum_le_sum fun j _ => ?_
    rw [← mul_add, e1 (i, j, k) _ (add_nonneg (h0 _ _) (h0' _ _))]
    exact mul_le_mul_of_nonneg_left (Real.rpow_le_rpow (h0'' _ _) (ht i j k) hp0.le) (hT0 _ _ _)
  have h3 := Real.Lp_add_le_of_nonneg (s := (univ : Finset (I × J × K))) (p := p) (f := fun x => T x.1 x.2.1 x.2.2 ^ (1 / p) * ρ x.1 x.2.1)
    (g := fun x => T x.1 x.2.1 x.2.2 ^ (1 / p) * ρ' x.2.1 x.2.2) hp
    (fun x _ => mul_nonneg (Real.rpow_nonneg (hT0 _ _ _) _) (h0 _ _)) (fun x _ => mul_nonneg (Real.rpow_nonneg (hT0 _ _ _) _) (h0' _ _))
  have h4 : ∑ x : I × J × K, (T x.1 x.2.1 x.2.2 ^ (1 / p) * ρ x.1 x.2.1) ^ p = v := by
    rw [← hPv]; unfold cost
    rw [Fintype.sum_prod_type]
    refine sum_congr rfl fun i _ => ?_
    rw [Fintype.sum_prod_type]
    refine sum_congr rfl fun j _ => ?_
    rw [← hTP i j, sum_mul]
    exact sum_congr rfl fun k _ => e1 (i, j, k) _ (h0 _ _)
  have h5 : ∑ x : I × J × K, (T x.1 x.2.1 x.2.2 ^ (1 / p) * ρ' x.2.1 x.2.2) ^ p = v' := by
    rw [← hQv]; unfold cost
    rw [Fintype.sum_prod_type, sum_comm, Fintype.sum_prod_type]
    refine sum_congr rfl fun j _ => sum_congr rfl fun k _ => ?_
    rw [← hTQ j k, sum_mul]
    exact sum_congr rfl fun i _ => e1 (i, j, k) _ (h0' _ _)
  rw [h4, h5] at h3
  exact (Real.rpow_le_rpow hv0 (h1.trans h2) (by positivity)).trans h3

theorem IsWasserstein.nonneg {p : ℝ} {a : I → ℝ} {b : J → ℝ} {ρ : I → J → ℝ} {w : ℝ} (h : IsWasserstein p a b ρ w) (h0 : ∀ i j, 0 ≤ ρ i j) : 0 ≤ w := by
  obtain ⟨v, hv, rfl⟩ := h
  exact Real.rpow_nonneg (hv.nonneg fun i j => Real.rpow_nonneg (h0 i j) p) _

theorem IsWasserstein.pow {p : ℝ} (hp : 0 < p) {a : I → ℝ} {b : J → ℝ} {ρ : I → J → ℝ} {w : ℝ} (h : IsWasserstein p a b ρ w) (h0 : ∀ i j, 0 ≤ ρ i j) :
    IsOtValue a b (fun i j => ρ i j ^ p) (w ^ p) := by
  obtain ⟨v, hv, rfl⟩ := h
  rwa [← Real.rpow_mul (hv.nonneg fun i j => Real.rpow_nonneg (h0 i j) p), one_div_mul_cancel hp.ne', Real.rpow_one]

theorem IsWasserstein.unique {p : ℝ} {a : I → ℝ} {b : J → ℝ} {ρ : I → J → ℝ} {w w' : ℝ} (h : IsWasserstein p a b ρ w) (h' : IsWasserstein p a b ρ w') : w = w' := by
  obtain ⟨v, hv, rfl⟩ := h
  obtain ⟨v', hv', rfl⟩ := h'
  rw [hv.unique hv']

theorem IsWasserstein.mono {p : ℝ} (hp : 0 < p) {a : I → ℝ} {b : J → ℝ} {ρ ρ' : I → J → ℝ} (h0 : ∀ i j, 0 ≤ ρ i j) (hle : ∀ i j, ρ i j ≤ ρ' i j) {w w' : ℝ}
    (h : IsWasserstein p a b ρ w) (h' : IsWasserstein p a b ρ' w') : w ≤ w' := by
  obtain ⟨v, hv, rfl⟩ := h
  obtain ⟨v', ⟨⟨P, hP, rfl⟩, _⟩, rfl⟩ := h'
  exact Real.rpow_le_rpow (hv.nonneg fun i j => Real.rpow_nonneg (h0 i j) p)
    ((hv.2 ⟨P, hP, rfl⟩).trans (cost_mono hP.nonneg fun i j => Real.rpow_le_rpow (h0 i j) (hle i j) hp.le)) (by positivity)

theorem exists_wasserstein (p : ℝ) {a : I → ℝ} {b : J → ℝ} (ρ : I → J → ℝ) (ha : ∀ i, 0 ≤ a i) (hb : ∀ j, 0 ≤ b j) (hs : ∑ i, a i = ∑ j, b j) :
    ∃ w, IsWasserstein p a b ρ w := by
  obtain ⟨P, hP⟩ := exists_optimal a b (fun i j => ρ i j ^ p) (product_coupling a b ha hb hs)
  exact ⟨_, _, hP.isOtValue, rfl⟩

/-- Moving nothing costs nothing: the distance from a sample to itself is zero. -/
theorem wasserstein_self {p : ℝ} (hp : 0 < p) {a : I → ℝ} (ha : ∀ i, 0 ≤ a i) {ρ : I → I → ℝ} (h0 : ∀ i j, 0 ≤ ρ i j) (hd : ∀ i, ρ i i = 0) : IsWasserstein p a a ρ 0 := by
  classical
  refine ⟨0, ⟨⟨fun i j => if i = j then a i else 0, ⟨fun i j => ?_, fun i => ?_, fun j => ?_⟩, ?_⟩, ?_⟩, ?_⟩
  · split_ifs <;> simp [ha]
  · simp
  · simp
  · unfold cost; simp [hd, Real.zero_rpow hp.ne']
  · rintro _ ⟨Q, hQ, rfl⟩
    exact cost_nonneg' hQ.nonneg fun i j => Real.rpow_nonneg (h0 i j) p
  · rw [Real.zero_rpow (by positivity)]

theorem dotP_sub (x y θ : D → ℝ) : dotP x θ - dotP y θ = ∑ d, (x d - y d) * θ d := by
  unfold dotP; rw [← sum_sub_distrib]; exact sum_congr rfl fun d _ => by ring

/-- Cauchy-Schwarz: projections on a vector of norm at most one are 1-Lipschitz. -/
theorem dotP_lip {θ : D → ℝ} (h : ∑ d, θ d ^ 2 ≤ 1) (x y : D → ℝ) : |dotP x θ - dotP y θ| ≤ euclid x y := by
  rw [dotP_sub]
  unfold euclid
  apply Real.abs_le_sqrt
  refine (sum_mul_sq_le_sq_mul_sq univ (fun d => x d - y d) θ).trans ?_
  exact mul_le_of_le_one_right (sum_nonneg fun d _ => sq_nonneg _) h

/-- The `p`-mean satisfies Minkowski's inequality. -/
theorem mean_add_le {L : ℕ} {p : ℝ} (hp : 1 ≤ p) {w w' w'' : Fin L → ℝ} (h : ∀ k, 0 ≤ w k) (h' : ∀ k, 0 ≤ w' k) (h'' : ∀ k, 0 ≤ w'' k) (ht : ∀ k, w'' k ≤ w k + w' k) :
    ((∑ k, w'' k ^ p) / L) ^ (1 / p) ≤ ((∑ k, w k ^ p) / L) ^ (1 / p) + ((∑ k, w' k ^ p) / L) ^ (1 / p) := by
  have hp0 : 0 < p := by linarith
  have hL : (0 : ℝ) ≤ L := Nat.cast_nonneg L
  have key : ∀ u : Fin L → ℝ, (∀ k, 0 ≤ u k) → ((∑ k, u k ^ p) / L) ^ (1 / p) = (∑ k, u k ^ p) ^ (1 / p) / (L : ℝ) ^ (1 / p) :=
    fun u hu => Real.div_rpow (sum_nonneg fun k _ => Real.rpow_nonneg (hu k) p) hL _
  rw [key w h, key w' h', key w'' h'', ← add_div]
  refine div_le_div_of_nonneg_right ?_ (Real.rpow_nonneg hL _)
  refine le_trans ?_ (Real.Lp_add_le_of_nonneg (s := univ) hp (fun k _ => h k) fun k _ => h' k)
  exact Real.rpow_le_rpow (sum_nonneg fun k _ => Real.rpow_nonneg (h'' k) p)
    (sum_le_sum fun k _ => Real.rpow_le_rpow (h'' k) (ht k) hp0.le) (by positivity)

end POT.Spec
