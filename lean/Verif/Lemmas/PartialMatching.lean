import Verif.Spec.Matching
import Verif.Spec.Transport
import Mathlib.Analysis.Convex.Birkhoff
import Mathlib.Data.Fintype.Sum
import Mathlib.Data.Fintype.EquivFin

/-! # Partial plans between unit weights with an integral mass are not cheaper than matchings -/

set_option linter.unusedSectionVars false

namespace POT.Partial1d

open Spec Finset

variable {R : Type*} [Field R] [LinearOrder R] [IsStrictOrderedRing R]

/-- the partial plan completed by `m - t` additional rows and `n - t` additional columns -/
def extend {n m : ℕ} (t : ℕ) (G : Fin n → Fin m → R) : Fin n ⊕ Fin (m - t) → Fin m ⊕ Fin (n - t) → R
  | .inl i, .inl j => G i j
  | .inl i, .inr _ => (1 - ∑ j, G i j) / ((n - t : ℕ) : R)
  | .inr _, .inl j => (1 - ∑ i, G i j) / ((m - t : ℕ) : R)
  | .inr _, .inr _ => 0

theorem extend_row {n m t : ℕ} {G : Fin n → Fin m → R} (hG : IsPartial (fun _ => 1) (fun _ => 1) G) (hm : mass G = t) (h1 : t ≤ n) (h2 : t ≤ m) (r) :
    ∑ c, extend t G r c = 1 := by
  rw [Fintype.sum_sum_type]
  rcases r with i | d
  · simp only [extend, sum_const, card_univ, Fintype.card_fin, nsmul_eq_mul]
    by_cases hn : n - t = 0
    · have hnt : n = t := by omega
      have h3 : ∑ i, (1 - ∑ j, G i j) = 0 := by
        rw [sum_sub_distrib]
        unfold mass at hm
        rw [hm]
        simp [hnt]
      have h4 := (sum_eq_zero_iff_of_nonneg fun i _ => sub_nonneg.2 (hG.row i)).1 h3 i (mem_univ _)
      rw [hn]
      simp
      linarith
    · have : ((n - t : ℕ) : R) ≠ 0 := Nat.cast_ne_zero.2 hn
      rw [mul_div_cancel₀ _ this]
      ring
  · have hpos : (m - t : ℕ) ≠ 0 := fun h => absurd d.2 (by omega)
    have : ((m - t : ℕ) : R) ≠ 0 := Nat.cast_ne_zero.2 hpos
    simp only [extend, sum_const_zero, add_zero]
    rw [← sum_div, sum_sub_distrib, sum_comm]
    unfold mass at hm
    rw [hm]
    simp only [sum_const, card_univ, Fintype.card_fin, nsmul_eq_mul, mul_one]
    rw [← Nat.cast_sub h2]
    exact div_self this

theorem extend_col {n m t : ℕ} {G : Fin n → Fin m → R} (hG : IsPartial (fun _ => 1) (fun _ => 1) G) (hm : mass G = t) (h1 : t ≤ n) (h2 : t ≤ m) (c) :
    ∑ r, extend t G r c = 1 := by
  rw [Fintype.sum_sum_type]
  rcases c with i | d
  · simp only [extend, sum_const, card_univ, Fintype.card_fin, nsmul_eq_mul]
    by_cases hn : m - t = 0
    · have hnt : m = t := by omega
      have h3 : ∑ j, (1 - ∑ i, G i j) = 0 := by
        rw [sum_sub_distrib, sum_comm]
        unfold mass at hm
        rw [hm]
        simp [hnt]
      have h4 := (sum_eq_zero_iff_of_nonneg fun i _ => sub_nonneg.2 (hG.col i)).1 h3 i (mem_univ _)
      rw [hn]
      simp
      linarith
    · have : ((m - t : ℕ) : R) ≠ 0 := Nat.cast_ne_zero.2 hn
      rw [mul_div_cancel₀ _ this]
      ring
  · have hpos : (n - t : ℕ) ≠ 0 := fun h => absurd d.2 (by omega)
    have : ((n - t : ℕ) : R) ≠ 0 := Nat.cast_ne_zero.2 hpos
    simp only [extend, sum_const_zero, add_zero]
    rw [← sum_div, sum_sub_distrib]
    unfold mass at hm
    rw [hm]
    simp only [sum_const, card_univ, Fintype.card_fin, nsmul_eq_mul, mul_one]
    rw [← Nat.cast_sub h1]
    exact div_self this

theorem extend_nonneg {n m t : ℕ} {G : Fin n → Fin m → R} (hG : IsPartial (fun _ => 1) (fun _ => 1) G) (r c) : 0 ≤ extend t G r c := by
  rcases r with i | d <;> rcases c with j | d'
  · exact hG.nonneg i j
  · exact div_nonneg (sub_nonneg.2 (hG.row i)) (Nat.cast_nonneg _)
  · exact div_nonneg (sub_nonneg.2 (hG.col j)) (Nat.cast_nonneg _)
  · exact le_refl _

/-- the pairs of real points of a permutation of the completed problem -/
def pairsOf {n m t : ℕ} (τ : Fin n ⊕ Fin (m - t) ≃ Fin m ⊕ Fin (n - t)) : Finset (Fin n × Fin m) := univ.filter fun e => τ (.inl e.1) = .inl e.2

theorem pairsOf_card {n m t : ℕ} (h2 : t ≤ m) (τ : Fin n ⊕ Fin (m - t) ≃ Fin m ⊕ Fin (n - t)) (h : ∀ d d', τ (.inr d) ≠ .inr d') : (pairsOf τ).card = t := by
  have key : ∀ j : Fin m, (∑ i : Fin n, if τ (.inl i) = .inl j then 1 else 0) + (∑ d : Fin (m - t), if τ (.inr d) = .inl j then 1 else 0) = 1 := by
    intro j
    have := Fintype.sum_sum_type (fun r => if τ r = .inl j then 1 else 0)
    rw [← this]
    have e : ∀ r, (if τ r = .inl j then 1 else 0) = if r = τ.symm (.inl j) then 1 else 0 := fun r => by
      congr 1
      rw [Equiv.eq_symm_apply]
    rw [sum_congr rfl fun r _ => e r]
    simp
  have row : ∀ d : Fin (m - t), (∑ j : Fin m, if τ (.inr d) = .inl j then 1 else 0) = 1 := by
    intro d
    rcases hd : τ (.inr d) with j | d'
    · simp
    · exact absurd hd (h d d')
  have s1 := sum_congr (s₁ := (univ : Finset (Fin m))) rfl fun j _ => key j
  rw [sum_add_distrib] at s1
  have s2 : (∑ j : Fin m, ∑ d : Fin (m - t), if τ (.inr d) = .inl j then 1 else 0) = m - t := by
    rw [sum_comm, sum_congr rfl fun d _ => row d]
    simp
  rw [s2] at s1
  have s3 : (pairsOf τ).card = ∑ j : Fin m, ∑ i : Fin n, if τ (.inl i) = .inl j then 1 else 0 := by
    unfold pairsOf
    rw [card_filter, ← univ_product_univ, sum_product, sum_comm]
  simp at s1
  rw [s3]
  simp
  omega

/-- **Integrality.** A bound on all matchings of size `t` is a bound on all partial plans of mass `t` between unit weights. -/
theorem partial_ge_matching {n m t : ℕ} (c : ℕ → ℕ → R) (v : R) (hv : ∀ l, IsMatching n m l → l.length = t → v ≤ (l.map fun e => c e.1 e.2).sum)
    (G : Fin n → Fin m → R) (hG : IsPartial (fun _ => 1) (fun _ => 1) G) (hm : mass G = t) : v ≤ cost (fun (i : Fin n) (j : Fin m) => c i j) G := by
  have h1 : t ≤ n := by
    have : (t : R) ≤ n := by
      rw [← hm]
      unfold mass
      refine (sum_le_sum fun i _ => hG.row i).trans ?_
      simp
    exact_mod_cast this
  have h2 : t ≤ m := by
    have : (t : R) ≤ m := by
      rw [← hm]
      unfold mass
      rw [sum_comm]
      refine (sum_le_sum fun i _ => hG.col i).trans ?_
      simp
    exact_mod_cast this
  have hcard : Fintype.card (Fin n ⊕ Fin (m - t)) = Fintype.card (Fin m ⊕ Fin (n - t)) := by simp; omega
  obtain ⟨e⟩ : Nonempty (Fin n ⊕ Fin (m - t) ≃ Fin m ⊕ Fin (n - t)) := ⟨Fintype.equivOfCardEq hcard⟩
  have hds : (Matrix.of fun r s => extend t G r (e s)) ∈ doublyStochastic R (Fin n ⊕ Fin (m - t)) := by
    rw [mem_doublyStochastic_iff_sum]
    refine ⟨fun r s => extend_nonneg hG r (e s), fun r => ?_, fun s => extend_col hG hm h1 h2 (e s)⟩
    rw [← extend_row hG hm h1 h2 r]
    exact Equiv.sum_comp e (extend t G r)
  obtain ⟨w, w0, w1, w2⟩ := exists_eq_sum_perm_of_mem_doublyStochastic hds
  have hD : ∀ r c, extend t G r c = ∑ σ, w σ * if (σ.trans e) r = c then 1 else 0 := by
    intro r c
    have h := congrFun (congrFun w2 r) (e.symm c)
    rw [Matrix.sum_apply] at h
    simp only [Matrix.of_apply, Equiv.apply_symm_apply, Matrix.smul_apply, smul_eq_mul] at h
    rw [← h]
    refine sum_congr rfl fun σ _ => ?_
    congr 1
    simp only [Equiv.Perm.permMatrix, PEquiv.toMatrix_apply, Equiv.toPEquiv_apply, Option.mem_def, Option.some.injEq, Equiv.trans_apply]
    congr 1
    rw [Equiv.eq_symm_apply]
  have hcost : cost (fun (i : Fin n) (j : Fin m) => c i j) G = ∑ σ, w σ * ∑ e' ∈ pairsOf (σ.trans e), c e'.1 e'.2 := by
    unfold cost
    have : ∀ (i : Fin n) (j : Fin m), G i j * c i j = ∑ σ, w σ * if (σ.trans e) (.inl i) = .inl j then c i j else 0 := by
      intro i j
      have := hD (.inl i) (.inl j)
      simp only [extend] at this
      rw [this, sum_mul]
      refine sum_congr rfl fun σ _ => ?_
      split_ifs <;> ring
    simp only [this]
    rw [sum_congr rfl fun i _ => sum_comm, sum_comm]
    refine sum_congr rfl fun σ _ => ?_
    simp only [← mul_sum]
    congr 1
    unfold pairsOf
    rw [sum_filter, ← univ_product_univ, sum_product]
  rw [hcost]
  have hle : ∀ σ, w σ * v ≤ w σ * ∑ e' ∈ pairsOf (σ.trans e), c e'.1 e'.2 := by
    intro σ
    by_cases hσ : w σ = 0
    · rw [hσ]; simp
    · refine mul_le_mul_of_nonneg_left ?_ (w0 σ)
      have hdd : ∀ d d', (σ.trans e) (.inr d) ≠ .inr d' := by
        intro d d' hd
        have h3 := hD (.inr d) (.inr d')
        simp only [extend] at h3
        have h4 := (sum_eq_zero_iff_of_nonneg fun σ _ => mul_nonneg (w0 σ) (by split_ifs <;> simp)).1 h3.symm σ (mem_univ _)
        rw [if_pos hd, mul_one] at h4
        exact hσ h4
      have hc := pairsOf_card h2 (σ.trans e) hdd
      have hl := hv ((pairsOf (σ.trans e)).toList.map fun e => ((e.1 : ℕ), (e.2 : ℕ))) ⟨?_, ?_, ?_⟩ (by simp [hc])
      · refine hl.trans (le_of_eq ?_)
        rw [List.map_map]
        exact Finset.sum_map_toList _ _
      · rw [List.map_map]
        refine List.Nodup.map_on ?_ (Finset.nodup_toList _)
        intro a ha b hb he
        rw [mem_toList] at ha hb
        have ha' := (mem_filter.1 ha).2
        have hb' := (mem_filter.1 hb).2
        have e1 : a.1 = b.1 := Fin.ext he
        rw [e1] at ha'
        exact Prod.ext e1 (Sum.inl.inj (ha'.symm.trans hb'))
      · rw [List.map_map]
        refine List.Nodup.map_on ?_ (Finset.nodup_toList _)
        intro a ha b hb he
        rw [mem_toList] at ha hb
        have ha' := (mem_filter.1 ha).2
        have hb' := (mem_filter.1 hb).2
        have e1 : a.2 = b.2 := Fin.ext he
        rw [e1] at ha'
        exact Prod.ext (Sum.inl.inj ((σ.trans e).injective (ha'.trans hb'.symm))) e1
      · intro x hx
        obtain ⟨y, _, rfl⟩ := List.mem_map.1 hx
        exact ⟨y.1.2, y.2.2⟩
  calc v = ∑ σ, w σ * v := by rw [← sum_mul, w1, one_mul]
    _ ≤ _ := sum_le_sum fun σ _ => hle σ

end POT.Partial1d
