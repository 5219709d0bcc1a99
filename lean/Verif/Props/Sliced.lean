import Verif.Lemmas.Sliced
import Verif.Model.Sliced
import Verif.Props.Emd1d

/-!
# C75: sliced and max-sliced Wasserstein distances
-/

set_option linter.unusedSectionVars false

namespace POT.Props

open Finset POT.Spec POT.Emd1d POT.Sliced

variable {n m q L : ℕ} {D : Type*} [Fintype D]

/-- Weights of two samples: non-negative, of the same mass. -/
structure SlicedWeights (a : Fin n → ℝ) (b : Fin m → ℝ) : Prop where
  n1 : 1 ≤ n
  m1 : 1 ≤ m
  ha : ∀ i, 0 ≤ a i
  hb : ∀ j, 0 ≤ b j
  mass : ∑ i, a i = ∑ j, b j

theorem projectedEmd_value {p : ℝ} (hp : 1 ≤ p) (X : Fin n → D → ℝ) (Y : Fin m → D → ℝ) {a : Fin n → ℝ} {b : Fin m → ℝ} (hw : SlicedWeights a b)
    (θ : Fin L → D → ℝ) (σ : Sorters n m L) (hσ : σ.Sorts X Y θ) (k : Fin L) :
    IsOtValue a b (fun i j => |dotP (X i) (θ k) - dotP (Y j) (θ k)| ^ p) (projectedEmd p X Y a b θ σ k) := by
  obtain ⟨h1, h2⟩ := C04_wasserstein1d_optimal hw.n1 hw.m1 p hp (proj X θ k) (proj Y θ k) a b (σ.permA k) (σ.permB k) (hσ k).1 (hσ k).2 hw.ha hw.hb hw.mass
  unfold projectedEmd
  rw [h2]
  exact h1.isOtValue

theorem projectedEmd_wasserstein {p : ℝ} (hp : 1 ≤ p) (X : Fin n → D → ℝ) (Y : Fin m → D → ℝ) {a : Fin n → ℝ} {b : Fin m → ℝ} (hw : SlicedWeights a b)
    (θ : Fin L → D → ℝ) (σ : Sorters n m L) (hσ : σ.Sorts X Y θ) (k : Fin L) :
    IsWasserstein p a b (fun i j => |dotP (X i) (θ k) - dotP (Y j) (θ k)|) (projectedEmd p X Y a b θ σ k ^ (1 / p)) :=
  ⟨_, projectedEmd_value hp X Y hw θ σ hσ k, rfl⟩

theorem projectedEmd_nonneg {p : ℝ} (hp : 1 ≤ p) (X : Fin n → D → ℝ) (Y : Fin m → D → ℝ) {a : Fin n → ℝ} {b : Fin m → ℝ} (hw : SlicedWeights a b)
    (θ : Fin L → D → ℝ) (σ : Sorters n m L) (hσ : σ.Sorts X Y θ) (k : Fin L) : 0 ≤ projectedEmd p X Y a b θ σ k :=
  (projectedEmd_value hp X Y hw θ σ hσ k).nonneg fun _ _ => Real.rpow_nonneg (abs_nonneg _) _

/-- C75. `sliced_wasserstein_distance` returns the sliced Wasserstein distance over the given directions: the `p`-mean of the exact
one-dimensional Wasserstein distances of the projected samples, for all weights of equal mass and every outcome of the sorts. -/
theorem C75_sliced_value (p : ℝ) (hp : 1 ≤ p) (X : Fin n → D → ℝ) (Y : Fin m → D → ℝ) (a : Fin n → ℝ) (b : Fin m → ℝ) (hw : SlicedWeights a b)
    (θ : Fin L → D → ℝ) (σ : Sorters n m L) (hσ : σ.Sorts X Y θ) : IsSliced p X Y a b θ (slicedWasserstein p X Y a b θ σ) := by
  refine ⟨_, projectedEmd_wasserstein hp X Y hw θ σ hσ, ?_⟩
  unfold slicedWasserstein
  congr 2
  refine sum_congr rfl fun k _ => ?_
  rw [← Real.rpow_mul (projectedEmd_nonneg hp X Y hw θ σ hσ k), one_div_mul_cancel (by linarith : p ≠ 0), Real.rpow_one]

/-- C75. `max_sliced_wasserstein_distance` returns the largest of the one-dimensional Wasserstein distances of the projected samples. -/
theorem C75_max_sliced_value (p : ℝ) (hp : 1 ≤ p) (X : Fin n → D → ℝ) (Y : Fin m → D → ℝ) (a : Fin n → ℝ) (b : Fin m → ℝ) (hw : SlicedWeights a b)
    (θ : Fin (L + 1) → D → ℝ) (σ : Sorters n m (L + 1)) (hσ : σ.Sorts X Y θ) : IsMaxSliced p X Y a b θ (maxSlicedWasserstein p X Y a b θ σ) := by
  unfold maxSlicedWasserstein
  constructor
  · obtain ⟨k, _, hk⟩ := exists_mem_eq_sup' univ_nonempty (projectedEmd p X Y a b θ σ)
    refine ⟨k, ?_⟩
    rw [hk]
    exact projectedEmd_wasserstein hp X Y hw θ σ hσ k
  · intro k w hk
    rw [hk.unique (projectedEmd_wasserstein hp X Y hw θ σ hσ k)]
    exact Real.rpow_le_rpow (projectedEmd_nonneg hp X Y hw θ σ hσ k) (le_sup' _ (mem_univ k)) (by positivity)

/-- C75. The value does not depend on how ties are broken in the sorts. -/
theorem C75_sliced_ties (p : ℝ) (hp : 1 ≤ p) (X : Fin n → D → ℝ) (Y : Fin m → D → ℝ) (a : Fin n → ℝ) (b : Fin m → ℝ) (hw : SlicedWeights a b)
    (θ : Fin (L + 1) → D → ℝ) (σ σ' : Sorters n m (L + 1)) (hσ : σ.Sorts X Y θ) (hσ' : σ'.Sorts X Y θ) :
    slicedWasserstein p X Y a b θ σ = slicedWasserstein p X Y a b θ σ' ∧ maxSlicedWasserstein p X Y a b θ σ = maxSlicedWasserstein p X Y a b θ σ' := by
  have h : projectedEmd p X Y a b θ σ = projectedEmd p X Y a b θ σ' := by
    funext k
    exact (projectedEmd_value hp X Y hw θ σ hσ k).unique (projectedEmd_value hp X Y hw θ σ' hσ' k)
  unfold slicedWasserstein maxSlicedWasserstein
  rw [h]
  exact ⟨rfl, rfl⟩

/-- C75. Symmetry: exchanging the two samples does not change either distance. -/
theorem C75_sliced_symm (p : ℝ) (hp : 1 ≤ p) (X : Fin n → D → ℝ) (Y : Fin m → D → ℝ) (a : Fin n → ℝ) (b : Fin m → ℝ) (hw : SlicedWeights a b)
    (θ : Fin (L + 1) → D → ℝ) (σ : Sorters n m (L + 1)) (σ' : Sorters m n (L + 1)) (hσ : σ.Sorts X Y θ) (hσ' : σ'.Sorts Y X θ) :
    slicedWasserstein p X Y a b θ σ = slicedWasserstein p Y X b a θ σ' ∧ maxSlicedWasserstein p X Y a b θ σ = maxSlicedWasserstein p Y X b a θ σ' := by
  have hw' : SlicedWeights b a := ⟨hw.m1, hw.n1, hw.hb, hw.ha, hw.mass.symm⟩
  have h : projectedEmd p X Y a b θ σ = projectedEmd p Y X b a θ σ' := by
    funext k
    refine (projectedEmd_value hp X Y hw θ σ hσ k).swap.unique ?_
    have := projectedEmd_value hp Y X hw' θ σ' hσ' k
    simpa only [abs_sub_comm] using this
  unfold slicedWasserstein maxSlicedWasserstein
  rw [h]
  exact ⟨rfl, rfl⟩

/-- C75. Both distances are non-negative and zero between a weighted sample and itself. -/
theorem C75_sliced_self (p : ℝ) (hp : 1 ≤ p) (X : Fin n → D → ℝ) (a : Fin n → ℝ) (hn : 1 ≤ n) (ha : ∀ i, 0 ≤ a i)
    (θ : Fin (L + 1) → D → ℝ) (σ : Sorters n n (L + 1)) (hσ : σ.Sorts X X θ) :
    slicedWasserstein p X X a a θ σ = 0 ∧ maxSlicedWasserstein p X X a a θ σ = 0 := by
  have hp0 : 0 < p := by linarith
  have h : ∀ k, projectedEmd p X X a a θ σ k = 0 := by
    intro k
    refine (projectedEmd_value hp X X ⟨hn, hn, ha, ha, rfl⟩ θ σ hσ k).unique ?_
    have := (wasserstein_self hp0 ha (ρ := fun i j => |dotP (X i) (θ k) - dotP (X j) (θ k)|) (fun i j => abs_nonneg _) (by simp)).pow hp0 (fun i j => abs_nonneg _)
    rwa [Real.zero_rpow hp0.ne'] at this
  constructor
  · unfold slicedWasserstein
    simp only [h, sum_const_zero, zero_div]
    exact Real.zero_rpow (by positivity)
  · unfold maxSlicedWasserstein
    rw [sup'_congr univ_nonempty rfl (fun k _ => h k), sup'_const]
    exact Real.zero_rpow (by positivity)

theorem C75_sliced_nonneg (p : ℝ) (hp : 1 ≤ p) (X : Fin n → D → ℝ) (Y : Fin m → D → ℝ) (a : Fin n → ℝ) (b : Fin m → ℝ) (hw : SlicedWeights a b)
    (θ : Fin (L + 1) → D → ℝ) (σ : Sorters n m (L + 1)) (hσ : σ.Sorts X Y θ) : 0 ≤ slicedWasserstein p X Y a b θ σ ∧ 0 ≤ maxSlicedWasserstein p X Y a b θ σ := by
  have h0 := projectedEmd_nonneg hp X Y hw θ σ hσ
  have hM : 0 ≤ univ.sup' univ_nonempty (projectedEmd p X Y a b θ σ) := (h0 0).trans (le_sup' (projectedEmd p X Y a b θ σ) (mem_univ 0))
  unfold slicedWasserstein maxSlicedWasserstein
  exact ⟨Real.rpow_nonneg (div_nonneg (sum_nonneg fun k _ => h0 k) (Nat.cast_nonneg _)) _, Real.rpow_nonneg hM _⟩

/-- C75. Triangle inequality of both distances, over the same directions. -/
theorem C75_sliced_triangle (p : ℝ) (hp : 1 ≤ p) (X : Fin n → D → ℝ) (Y : Fin m → D → ℝ) (Z : Fin q → D → ℝ) (a : Fin n → ℝ) (b : Fin m → ℝ) (c : Fin q → ℝ)
    (hab : SlicedWeights a b) (hbc : SlicedWeights b c) (θ : Fin (L + 1) → D → ℝ) (σ : Sorters n m (L + 1)) (σ' : Sorters m q (L + 1)) (σ'' : Sorters n q (L + 1))
    (hσ : σ.Sorts X Y θ) (hσ' : σ'.Sorts Y Z θ) (hσ'' : σ''.Sorts X Z θ) :
    slicedWasserstein p X Z a c θ σ'' ≤ slicedWasserstein p X Y a b θ σ + slicedWasserstein p Y Z b c θ σ' ∧
      maxSlicedWasserstein p X Z a c θ σ'' ≤ maxSlicedWasserstein p X Y a b θ σ + maxSlicedWasserstein p Y Z b c θ σ' := by
  have hac : SlicedWeights a c := ⟨hab.n1, hbc.m1, hab.ha, hbc.hb, hab.mass.trans hbc.mass⟩
  have ht : ∀ k w w' w'', IsWasserstein p a b (fun i j => |dotP (X i) (θ k) - dotP (Y j) (θ k)|) w → IsWasserstein p b c (fun i j => |dotP (Y i) (θ k) - dotP (Z j) (θ k)|) w' →
      IsWasserstein p a c (fun i j => |dotP (X i) (θ k) - dotP (Z j) (θ k)|) w'' → w'' ≤ w + w' := fun k w w' w'' h h' h'' =>
    wasserstein_triangle hp (ρ := fun i j => |dotP (X i) (θ k) - dotP (Y j) (θ k)|) (ρ' := fun i j => |dotP (Y i) (θ k) - dotP (Z j) (θ k)|)
      (ρ'' := fun i j => |dotP (X i) (θ k) - dotP (Z j) (θ k)|) (fun _ _ => abs_nonneg _) (fun _ _ => abs_nonneg _) (fun _ _ => abs_nonneg _)
      (fun i j l => abs_sub_le (dotP (X i) (θ k)) (dotP (Y j) (θ k)) (dotP (Z l) (θ k))) h h' h''
  constructor
  · obtain ⟨w, hw, e⟩ := C75_sliced_value p hp X Y a b hab θ σ hσ
    obtain ⟨w', hw', e'⟩ := C75_sliced_value p hp Y Z b c hbc θ σ' hσ'
    obtain ⟨w'', hw'', e''⟩ := C75_sliced_value p hp X Z a c hac θ σ'' hσ''
    rw [e, e', e'']
    exact mean_add_le hp (fun k => (hw k).nonneg fun _ _ => abs_nonneg _) (fun k => (hw' k).nonneg fun _ _ => abs_nonneg _) (fun k => (hw'' k).nonneg fun _ _ => abs_nonneg _)
      fun k => ht k _ _ _ (hw k) (hw' k) (hw'' k)
  · obtain ⟨⟨k, hk⟩, _⟩ := C75_max_sliced_value p hp X Z a c hac θ σ'' hσ''
    have h1 := (C75_max_sliced_value p hp X Y a b hab θ σ hσ).2 k _ (projectedEmd_wasserstein hp X Y hab θ σ hσ k)
    have h2 := (C75_max_sliced_value p hp Y Z b c hbc θ σ' hσ').2 k _ (projectedEmd_wasserstein hp Y Z hbc θ σ' hσ' k)
    exact (ht k _ _ _ (projectedEmd_wasserstein hp X Y hab θ σ hσ k) (projectedEmd_wasserstein hp Y Z hbc θ σ' hσ' k) hk).trans (add_le_add h1 h2)

/-- C75. With directions of norm at most one, the sliced distance is at most the max-sliced distance, which is at most the Wasserstein
distance of the samples in the original space. -/
theorem C75_sliced_le_max_le_wasserstein (p : ℝ) (hp : 1 ≤ p) (X : Fin n → D → ℝ) (Y : Fin m → D → ℝ) (a : Fin n → ℝ) (b : Fin m → ℝ) (hw : SlicedWeights a b)
    (θ : Fin (L + 1) → D → ℝ) (hθ : ∀ k, ∑ d, θ k d ^ 2 ≤ 1) (σ : Sorters n m (L + 1)) (hσ : σ.Sorts X Y θ) (w : ℝ)
    (hW : IsWasserstein p a b (fun i j => euclid (X i) (Y j)) w) :
    slicedWasserstein p X Y a b θ σ ≤ maxSlicedWasserstein p X Y a b θ σ ∧ maxSlicedWasserstein p X Y a b θ σ ≤ w := by
  have h0 := projectedEmd_nonneg hp X Y hw θ σ hσ
  constructor
  · refine Real.rpow_le_rpow (div_nonneg (sum_nonneg fun k _ => h0 k) (Nat.cast_nonneg _)) ?_ (by positivity)
    rw [div_le_iff₀ (by positivity)]
    have := sum_le_card_nsmul univ (projectedEmd p X Y a b θ σ) (univ.sup' univ_nonempty (projectedEmd p X Y a b θ σ)) fun k hk => le_sup' (projectedEmd p X Y a b θ σ) hk
    simp only [card_univ, Fintype.card_fin, nsmul_eq_mul] at this
    rw [mul_comm]
    exact this
  · obtain ⟨⟨k, hk⟩, _⟩ := C75_max_sliced_value p hp X Y a b hw θ σ hσ
    exact hk.mono (by linarith) (fun _ _ => abs_nonneg _) (fun i j => dotP_lip (hθ k) _ _) hW

/-- C75. Translating both samples by the same vector changes nothing. -/
theorem C75_sliced_translation (p : ℝ) (hp : 1 ≤ p) (X : Fin n → D → ℝ) (Y : Fin m → D → ℝ) (t : D → ℝ) (a : Fin n → ℝ) (b : Fin m → ℝ) (hw : SlicedWeights a b)
    (θ : Fin (L + 1) → D → ℝ) (σ σ' : Sorters n m (L + 1)) (hσ : σ.Sorts X Y θ) (hσ' : σ'.Sorts (fun i d => X i d + t d) (fun j d => Y j d + t d) θ) :
    slicedWasserstein p (fun i d => X i d + t d) (fun j d => Y j d + t d) a b θ σ' = slicedWasserstein p X Y a b θ σ ∧
      maxSlicedWasserstein p (fun i d => X i d + t d) (fun j d => Y j d + t d) a b θ σ' = maxSlicedWasserstein p X Y a b θ σ := by
  have h : projectedEmd p (fun i d => X i d + t d) (fun j d => Y j d + t d) a b θ σ' = projectedEmd p X Y a b θ σ := by
    funext k
    refine (projectedEmd_value hp _ _ hw θ σ' hσ' k).unique ?_
    have := projectedEmd_value hp X Y hw θ σ hσ k
    simp only [dotP_sub] at this ⊢
    simpa only [add_sub_add_right_eq_sub] using this
  unfold slicedWasserstein maxSlicedWasserstein
  rw [h]
  exact ⟨rfl, rfl⟩

/-- C75. `get_random_projections` returns unit vectors, for every draw without a null column. -/
theorem C75_random_projections (z : Fin L → D → ℝ) (hz : ∀ k, ∃ d, z k d ≠ 0) (k : Fin L) :
    ∑ d, randomProjections z k d ^ 2 = 1 ∧ ∃ c : ℝ, 0 < c ∧ ∀ d, randomProjections z k d = c * z k d := by
  have hpos : 0 < ∑ d, z k d ^ 2 := by
    obtain ⟨d, hd⟩ := hz k
    exact sum_pos' (fun d _ => sq_nonneg _) ⟨d, mem_univ d, by positivity⟩
  have hs := Real.sqrt_pos.2 hpos
  refine ⟨?_, 1 / Real.sqrt (∑ d, z k d ^ 2), by positivity, fun d => ?_⟩
  · unfold randomProjections
    simp only [div_pow, Real.sq_sqrt hpos.le]
    rw [← sum_div, div_self hpos.ne']
  · unfold randomProjections; ring

/-- non-vacuity: the sorts always have an outcome. -/
theorem exists_sorts (X : Fin n → D → ℝ) (Y : Fin m → D → ℝ) (θ : Fin L → D → ℝ) : ∃ σ : Sorters n m L, σ.Sorts X Y θ :=
  ⟨⟨fun k => Tuple.sort (proj X θ k), fun k => Tuple.sort (proj Y θ k)⟩, fun k => ⟨Tuple.monotone_sort (proj X θ k), Tuple.monotone_sort (proj Y θ k)⟩⟩

/-- non-vacuity: the default weights of samples of different sizes meet the hypotheses. -/
theorem slicedWeights_uniform (n m : ℕ) : SlicedWeights (fun _ : Fin (n + 1) => (1 : ℝ) / (n + 1)) (fun _ : Fin (m + 1) => (1 : ℝ) / (m + 1)) where
  n1 := by omega
  m1 := by omega
  ha _ := by positivity
  hb _ := by positivity
  mass := by simp; field_simp

/-- non-vacuity: two points against three points on the plane, two directions. -/
example : ∃ σ : Sorters 2 3 2, IsSliced 2 ![![0, 0], ![3, 1]] ![![1, 1], ![2, 0], ![5, 5]] (fun _ => 1 / (1 + 1)) (fun _ => 1 / (2 + 1)) ![![1, 0], ![0.6, 0.8]]
    (slicedWasserstein 2 ![![0, 0], ![3, 1]] ![![1, 1], ![2, 0], ![5, 5]] (fun _ => 1 / (1 + 1)) (fun _ => 1 / (2 + 1)) ![![1, 0], ![0.6, 0.8]] σ) := by
  obtain ⟨σ, hσ⟩ := exists_sorts (n := 2) (m := 3) (L := 2) (D := Fin 2) ![![0, 0], ![3, 1]] ![![1, 1], ![2, 0], ![5, 5]] ![![1, 0], ![0.6, 0.8]]
  have hw := slicedWeights_uniform 1 2
  norm_num at hw ⊢
  exact ⟨σ, by have := C75_sliced_value 2 (by norm_num) _ _ _ _ hw _ σ hσ; norm_num at this; exact this⟩

end POT.Props
