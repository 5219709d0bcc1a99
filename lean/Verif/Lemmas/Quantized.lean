import Verif.Model.Quantized
import Verif.Spec.Quantized
import Verif.Props.Emd1d
import Mathlib.Tactic.Linarith
import Mathlib.Tactic.FieldSimp
import Mathlib.Tactic.Ring
import Mathlib.Algebra.BigOperators.Field

/-!
# Lemmas on the quantized Gromov-Wasserstein solvers
-/

set_option linter.unusedSectionVars false

namespace POT.Quantized

open Finset POT.Emd1d POT.Spec

/-- positions increase with the partition, then with the rank in it -/
theorem pos_lt {K : ℕ} {n : Fin K → ℕ} (x y : Σ k, Fin (n k)) (h : finSigmaFinEquiv x < finSigmaFinEquiv y) :
    x.1 < y.1 ∨ ∃ e : x.1 = y.1, (x.2 : ℕ) < (y.2 : ℕ) := by
  have hF : ∀ z : Σ k, Fin (n k), (finSigmaFinEquiv z : ℕ) = (∑ t ∈ range z.1.val, if h : t < K then n ⟨t, h⟩ else 0) + z.2.val := by
    intro z
    rw [finSigmaFinEquiv_apply, Finset.sum_range]
    congr 1
    refine Finset.sum_congr rfl fun i _ => ?_
    rw [dif_pos (lt_trans i.2 z.1.2)]
    rfl
  rcases lt_trichotomy x.1 y.1 with hlt | heq | hgt
  · exact Or.inl hlt
  · right
    refine ⟨heq, ?_⟩
    have h' : (finSigmaFinEquiv x : ℕ) < finSigmaFinEquiv y := h
    have hv : x.1.val = y.1.val := congrArg Fin.val heq
    have hx := hF x
    simp only [hv] at hx
    rw [hx, hF y] at h'
    omega
  · exfalso
    have h' : (finSigmaFinEquiv x : ℕ) < finSigmaFinEquiv y := h
    rw [hF x, hF y] at h'
    have h1 : (∑ t ∈ range (y.1.val + 1), if h : t < K then n ⟨t, h⟩ else 0) ≤ ∑ t ∈ range x.1.val, if h : t < K then n ⟨t, h⟩ else 0 :=
      Finset.sum_le_sum_of_subset (Finset.range_mono (Nat.succ_le_of_lt hgt))
    rw [Finset.sum_range_succ, dif_pos y.1.2] at h1
    have h2 := y.2.2
    simp only [Fin.eta] at h1
    omega

theorem order_stable {n : ℕ} (part : Fin n → ℕ) : StableSort part ((finCongr (size_sum part)).trans (order part)) := by
  intro r s hrs
  obtain ⟨x, hx⟩ := (finSigmaFinEquiv (n := fun k : Fin (partIds part).length => (indices part ((partIds part).get k)).length)).surjective (Fin.cast (size_sum part) r)
  obtain ⟨y, hy⟩ := (finSigmaFinEquiv (n := fun k : Fin (partIds part).length => (indices part ((partIds part).get k)).length)).surjective (Fin.cast (size_sum part) s)
  have e1 : ((finCongr (size_sum part)).trans (order part)) r = node part x.1 x.2 := by
    simp only [Equiv.trans_apply, finCongr_apply, ← hx, order, Equiv.symm_apply_apply, Equiv.ofBijective_apply]
  have e2 : ((finCongr (size_sum part)).trans (order part)) s = node part y.1 y.2 := by
    simp only [Equiv.trans_apply, finCongr_apply, ← hy, order, Equiv.symm_apply_apply, Equiv.ofBijective_apply]
  have hlt : finSigmaFinEquiv x < finSigmaFinEquiv y := by rw [hx, hy]; exact hrs
  rw [e1, e2, node_part part x.1 x.2, node_part part y.1 y.2]
  have hsort : (partIds part).SortedLT := Finset.sortedLT_sort _
  rcases pos_lt x y hlt with h | ⟨he, h⟩
  · left
    exact hsort.strictMono_get h
  · right
    obtain ⟨k, i⟩ := x
    obtain ⟨l, j⟩ := y
    obtain rfl : k = l := he
    refine ⟨rfl, ?_⟩
    have hs' : (indices part ((partIds part).get k)).Pairwise (· < ·) := (List.pairwise_lt_finRange n).filter _
    exact List.pairwise_iff_get.1 hs' i j h

theorem indices_pos {n : ℕ} (part : Fin n → ℕ) (k : Fin (partIds part).length) : 1 ≤ (indices part ((partIds part).get k)).length := by
  have := List.get_mem (partIds part) k
  obtain ⟨u, -, hu⟩ := Finset.mem_image.1 ((Finset.mem_sort _).1 this)
  exact List.length_pos_of_mem (List.mem_filter.2 ⟨List.mem_finRange u, decide_eq_true hu⟩)

theorem mass_sum {n : ℕ} (C : Fin n → Fin n → ℝ) (p : Fin n → ℝ) (part : Fin n → ℕ) (rep) : ∑ k, ∑ i, (format C p part rep).w k i = ∑ u, p u := by
  rw [← Equiv.sum_comp (Equiv.ofBijective _ (node_bijective part)) p, Fintype.sum_sigma]
  rfl

variable (S S' : Parted)

theorem localPlan_ok (σ : Sorts S S') (hs : ∀ k, 1 ≤ S.size k) (hs' : ∀ l, 1 ≤ S'.size l) (hw : ∀ k i, 0 ≤ S.w k i) (hw' : ∀ l j, 0 ≤ S'.w l j)
    (hl : ∀ k l, Monotone fun i => S.R k (σ.left k l i)) (hr : ∀ k l, Monotone fun j => S'.R l (σ.right k l j)) (k l) (hk : 0 < S.mass k) (hl' : 0 < S'.mass l) :
    ∃ G, localPlan S S' σ k l = some G ∧ IsOptimal (S.norm k) (S'.norm l) (fun i j => (S.R k i - S'.R l j) ^ 2) G := by
  have hn : ∑ i, S.norm k i = 1 := by
    simp only [Parted.norm, ← Finset.sum_div]; exact div_self hk.ne'
  have hn' : ∑ i, S'.norm l i = 1 := by
    simp only [Parted.norm, ← Finset.sum_div]; exact div_self hl'.ne'
  obtain ⟨G, hG, hopt⟩ := Props.C03_emd1d_optimal (hs k) (hs' l) .sqeuclidean 1 le_rfl (S.R k) (S'.R l) (S.norm k) (S'.norm l) (σ.left k l) (σ.right k l) (hl k l) (hr k l)
    (fun i => div_nonneg (hw k i) hk.le) (fun j => div_nonneg (hw' l j) hl'.le) (hn.trans hn'.symm) (by rw [hn']; exact one_pos)
  refine ⟨G, by rw [localPlan, hG], ?_⟩
  have e : (fun i j => metricCost .sqeuclidean 1 (S.R k i) (S'.R l j)) = fun i j => (S.R k i - S'.R l j) ^ 2 := by
    funext i j; simp only [metricCost]; ring
  rwa [e] at hopt

end POT.Quantized
