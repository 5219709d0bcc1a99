import Verif.Props.Gmm
import Verif.Props.GaussBary

/-! # C82: barycenters of Gaussian mixtures -/

set_option linter.unusedSectionVars false

namespace POT.Props

open Finset Matrix POT.Spec POT.Bures POT.Gaussian POT.Gmm

variable {D : Type*} [Fintype D] [DecidableEq D] {S : Type*} [Fintype S]

/-- `r` is a barycenter of the Gaussians `(m t, C t)` with weights `w` (what C79 says of `bures_wasserstein_barycenter`): it minimises the weighted sum of squared distances. -/
def IsGaussBary {T : Type*} [Fintype T] (e : Eigh D) (m : T → D → ℝ) (C : T → Matrix D D ℝ) (w : T → ℝ) (r : (D → ℝ) × Matrix D D ℝ) : Prop :=
  r.2.PosSemidef ∧ ∀ (x : D → ℝ) (B : Matrix D D ℝ), B.PosSemidef → ∑ t, w t * bwDist e r.1 (m t) r.2 (C t) ^ 2 ≤ ∑ t, w t * bwDist e x (m t) B (C t) ^ 2

theorem IsGaussBary.point {T : Type*} [Fintype T] [DecidableEq T] {e : Eigh D} (he : e.Ok) {m : T → D → ℝ} {C : T → Matrix D D ℝ} (hC : ∀ t, (C t).PosSemidef) {w : T → ℝ}
    {r : (D → ℝ) × Matrix D D ℝ} (h : IsGaussBary e m C w r) {t : T} (hw : w = Pi.single t 1) : r = (m t, C t) := by
  obtain ⟨h1, h2⟩ := h
  have h3 := h2 (m t) (C t) (hC t)
  have hs : ∀ f : T → ℝ, ∑ s, w s * f s = f t := by
    intro f; rw [hw]
    rw [sum_eq_single t]
    · simp
    · intro b _ hb; simp [hb]
    · intro h; exact absurd (mem_univ t) h
  rw [hs, hs] at h3
  have h0 := ((C78_distance_metric e he (m t) (m t) 0 (hC t) (hC t) PosSemidef.zero).2.2.2).2 ⟨rfl, rfl⟩
  rw [h0] at h3
  have h4 : bwDist e r.1 (m t) r.2 (C t) = 0 := by
    have := sq_nonneg (bwDist e r.1 (m t) r.2 (C t))
    exact pow_eq_zero_iff (two_ne_zero) |>.1 (le_antisymm (by simpa using h3) this)
  have h5 := ((C78_distance_metric e he r.1 (m t) 0 h1 (hC t) PosSemidef.zero).2.2.2).1 h4
  exact Prod.ext h5.1 h5.2

/-- Objective of the barycenter problem: weighted sum of the losses to the given mixtures. -/
noncomputable def gmmObj {n : ℕ} {J : S → Type*} [∀ s, Fintype (J s)] (emd : ∀ s, (Fin n → ℝ) → (J s → ℝ) → (Fin n → J s → ℝ) → Fin n → J s → ℝ) (e : Eigh D) (m : ∀ s, J s → D → ℝ)
    (C : ∀ s, J s → Matrix D D ℝ) (w : ∀ s, J s → ℝ) (weights : S → ℝ) (wbar : Fin n → ℝ) (x : Fin n → (D → ℝ) × Matrix D D ℝ) : ℝ :=
  ∑ s, weights s * otLoss (emd s) e (fun i => (x i).1) (m s) (fun i => (x i).2) (C s) wbar (w s)

section

variable {n : ℕ} {J : S → Type*} [∀ s, Fintype (J s)] [∀ s, DecidableEq (J s)]
  {emd : ∀ s, (Fin n → ℝ) → (J s → ℝ) → (Fin n → J s → ℝ) → Fin n → J s → ℝ} (hemd : ∀ s, ExactSolver (emd s)) {e : Eigh D} (he : e.Ok)
  {bw : (S → D → ℝ) → (S → Matrix D D ℝ) → (S → ℝ) → (D → ℝ) × Matrix D D ℝ}
  {m : ∀ s, J s → D → ℝ} {C : ∀ s, J s → Matrix D D ℝ} (hC : ∀ s j, (C s j).PosSemidef) {w : ∀ s, J s → ℝ} (hw : ∀ s, IsMix (w s)) {weights : S → ℝ} (hweights : IsMix weights)
  {wbar : Fin n → ℝ} (hwbar : IsMix wbar) {x : Fin n → (D → ℝ) × Matrix D D ℝ} (hx : ∀ i, (x i).2.PosSemidef)

include hemd he hC hw hweights hwbar hx

theorem gmm_descent (σ : ∀ s, Fin n → J s) (hσ : ∀ s i, otPlan (emd s) e (fun i => (x i).1) (m s) (fun i => (x i).2) (C s) wbar (w s) i = Pi.single (σ s i) (wbar i))
    {y : Fin n → (D → ℝ) × Matrix D D ℝ} (hy : ∀ i, IsGaussBary e (fun s => m s (σ s i)) (fun s => C s (σ s i)) weights (y i)) :
    gmmObj emd e m C w weights wbar y ≤ gmmObj emd e m C w weights wbar x := by
  have hyp : ∀ i, (y i).2.PosSemidef := fun i => (hy i).1
  obtain ⟨P, hP⟩ : ∃ P : ∀ s, Fin n → J s → ℝ, P = fun s => otPlan (emd s) e (fun i => (x i).1) (m s) (fun i => (x i).2) (C s) wbar (w s) := ⟨_, rfl⟩
  have hPs : ∀ s i, P s i = Pi.single (σ s i) (wbar i) := fun s i => by rw [hP]; exact hσ s i
  have hPc : ∀ s, IsCoupling wbar (w s) (P s) := fun s => by rw [hP]; exact (hemd s _ _ _ (hwbar.coupling (hw s))).1
  have hcost : ∀ s (M : Fin n → J s → ℝ), cost M (P s) = ∑ i, wbar i * M i (σ s i) := by
    intro s M
    refine sum_congr rfl fun i _ => ?_
    rw [sum_eq_single (σ s i)]
    · rw [hPs]; simp
    · intro b _ hb; rw [hPs]; simp [hb]
    · intro h; exact absurd (mem_univ _) h
  have h1 : ∀ s, otLoss (emd s) e (fun i => (y i).1) (m s) (fun i => (y i).2) (C s) wbar (w s) ≤ ∑ i, wbar i * bwDist e (y i).1 (m s (σ s i)) (y i).2 (C s (σ s i)) ^ 2 := by
    intro s
    have := (hemd s wbar (w s) (distBures2 e (fun i => (y i).1) (m s) (fun i => (y i).2) (C s)) (hwbar.coupling (hw s))).2 _ (hPc s)
    rw [hcost] at this
    simp only [distBures2_eq e he (fun i => (y i).1) (m s) hyp (hC s)] at this
    refine le_trans (le_of_eq ?_) this
    unfold otLoss cost
    simp only [distBures2_eq e he (fun i => (y i).1) (m s) hyp (hC s)]
  have h2 : ∀ s, otLoss (emd s) e (fun i => (x i).1) (m s) (fun i => (x i).2) (C s) wbar (w s) = ∑ i, wbar i * bwDist e (x i).1 (m s (σ s i)) (x i).2 (C s (σ s i)) ^ 2 := by
    intro s
    have h3 := hcost s (distBures2 e (fun i => (x i).1) (m s) (fun i => (x i).2) (C s))
    simp only [distBures2_eq e he (fun i => (x i).1) (m s) hx (hC s)] at h3
    rw [← h3, hP]
    rfl
  unfold gmmObj
  calc ∑ s, weights s * otLoss (emd s) e (fun i => (y i).1) (m s) (fun i => (y i).2) (C s) wbar (w s)
      ≤ ∑ s, weights s * ∑ i, wbar i * bwDist e (y i).1 (m s (σ s i)) (y i).2 (C s (σ s i)) ^ 2 := sum_le_sum fun s _ => mul_le_mul_of_nonneg_left (h1 s) (hweights.1 s)
    _ = ∑ i, wbar i * ∑ s, weights s * bwDist e (y i).1 (m s (σ s i)) (y i).2 (C s (σ s i)) ^ 2 := by
        simp only [mul_sum]; rw [sum_comm]; exact sum_congr rfl fun i _ => sum_congr rfl fun s _ => by ring
    _ ≤ ∑ i, wbar i * ∑ s, weights s * bwDist e (x i).1 (m s (σ s i)) (x i).2 (C s (σ s i)) ^ 2 := by
        refine sum_le_sum fun i _ => mul_le_mul_of_nonneg_left ?_ (hwbar.1 i)
        exact (hy i).2 _ _ (hx i)
    _ = ∑ s, weights s * ∑ i, wbar i * bwDist e (x i).1 (m s (σ s i)) (x i).2 (C s (σ s i)) ^ 2 := by
        simp only [mul_sum]; rw [sum_comm]; exact sum_congr rfl fun i _ => sum_congr rfl fun s _ => by ring
    _ = ∑ s, weights s * otLoss (emd s) e (fun i => (x i).1) (m s) (fun i => (x i).2) (C s) wbar (w s) := by simp only [h2]

/-- `gmm_barycenter_fixed_point(barycentric_proj_method="euclidean")` with uniform `w_bar`: when the plans to the given mixtures are assignments, an iteration does not increase the objective. -/
theorem C82_euclidean_descent (hu : ∀ i, wbar i = 1 / n) (σ : ∀ s, Fin n → J s)
    (hσ : ∀ s i, otPlan (emd s) e (fun i => (x i).1) (m s) (fun i => (x i).2) (C s) wbar (w s) i = Pi.single (σ s i) (wbar i))
    (hbw : ∀ i, IsGaussBary e (fun s => m s (σ s i)) (fun s => C s (σ s i)) weights (bw (fun s => m s (σ s i)) (fun s => C s (σ s i)) weights)) :
    gmmObj emd e m C w weights wbar (baryStepE bw (fun s => otPlan (emd s) e (fun i => (x i).1) (m s) (fun i => (x i).2) (C s) wbar (w s)) m C weights) ≤ gmmObj emd e m C w weights wbar x := by
  refine gmm_descent hemd he hC hw hweights hwbar hx σ hσ fun i => ?_
  have hn : (n : ℝ) ≠ 0 := by
    rintro h0
    have := Fin.pos i
    simp at h0; omega
  unfold baryStepE
  simp only [hσ]
  have hsel : ∀ s, selEuclid n (Pi.single (σ s i) (wbar i)) (m s) (C s) = (m s (σ s i), C s (σ s i)) := by
    intro s
    unfold selEuclid
    refine Prod.ext ?_ ?_
    · show ∑ j, ((n : ℝ) * (Pi.single (σ s i) (wbar i) : J s → ℝ) j) • m s j = _
      rw [sum_eq_single (σ s i)]
      · simp [hu i, hn]
      · intro b _ hb; simp [hb]
      · intro h; exact absurd (mem_univ _) h
    · show (n : ℝ) • ∑ j, (Pi.single (σ s i) (wbar i) : J s → ℝ) j • C s j = _
      rw [sum_eq_single (σ s i)]
      · rw [smul_smul]; simp [hu i, hn]
      · intro b _ hb; simp [hb]
      · intro h; exact absurd (mem_univ _) h
  simp only [hsel]
  exact hbw i

/-- The same for `barycentric_proj_method="bures"`, for every `w_bar` with positive entries. -/
theorem C82_bures_descent {bwJ : ∀ s, (J s → D → ℝ) → (J s → Matrix D D ℝ) → (J s → ℝ) → (D → ℝ) × Matrix D D ℝ} (hpos : ∀ i, 0 < wbar i)
    (σ : ∀ s, Fin n → J s) (hσ : ∀ s i, otPlan (emd s) e (fun i => (x i).1) (m s) (fun i => (x i).2) (C s) wbar (w s) i = Pi.single (σ s i) (wbar i))
    (hbwJ : ∀ s i, IsGaussBary e (m s) (C s) (Pi.single (σ s i) 1) (bwJ s (m s) (C s) (Pi.single (σ s i) 1)))
    (hbw : ∀ i, IsGaussBary e (fun s => m s (σ s i)) (fun s => C s (σ s i)) weights (bw (fun s => m s (σ s i)) (fun s => C s (σ s i)) weights)) :
    gmmObj emd e m C w weights wbar (baryStepB bwJ bw wbar (fun s => otPlan (emd s) e (fun i => (x i).1) (m s) (fun i => (x i).2) (C s) wbar (w s)) m C weights) ≤
      gmmObj emd e m C w weights wbar x := by
  refine gmm_descent hemd he hC hw hweights hwbar hx σ hσ fun i => ?_
  unfold baryStepB
  simp only [hσ]
  have hsel : ∀ s, bwJ s (m s) (C s) (fun j => (1 / wbar i) * (Pi.single (σ s i) (wbar i) : J s → ℝ) j) = (m s (σ s i), C s (σ s i)) := by
    intro s
    have : (fun j => (1 / wbar i) * (Pi.single (σ s i) (wbar i) : J s → ℝ) j) = Pi.single (σ s i) 1 := by
      ext j
      by_cases hj : j = σ s i
      · subst hj; simp [(hpos i).ne']
      · simp [hj]
    rw [this]
    exact (hbwJ s i).point he (hC s) rfl
  simp only [hsel]
  exact hbw i

end

/-- With a non-uniform `w_bar` the "euclidean" variant multiplies the rows of the plans by `n` instead of dividing them by `w_bar`: starting at the barycenter of a single mixture, one
iteration leaves it. -/
theorem C82_euclidean_refuted : ∃ (wbar : Fin 2 → ℝ) (m : Unit → Fin 1 → Fin 1 → ℝ) (C : Unit → Fin 1 → Matrix (Fin 1) (Fin 1) ℝ) (w : Unit → Fin 1 → ℝ) (x : Fin 2 → (Fin 1 → ℝ) × Matrix (Fin 1) (Fin 1) ℝ),
    IsMix wbar ∧ (∀ s, IsMix (w s)) ∧ (∀ s j, (C s j).PosDef) ∧ (∀ i, (x i).2.PosDef) ∧
    ∀ (e : Eigh (Fin 1)), e.Ok → ∀ (emd : Unit → (Fin 2 → ℝ) → (Fin 1 → ℝ) → (Fin 2 → Fin 1 → ℝ) → Fin 2 → Fin 1 → ℝ), (∀ s, ExactSolver (emd s)) →
      ∀ bw : (Unit → Fin 1 → ℝ) → (Unit → Matrix (Fin 1) (Fin 1) ℝ) → (Unit → ℝ) → (Fin 1 → ℝ) × Matrix (Fin 1) (Fin 1) ℝ, (∀ m C, (∀ t, (C t).PosSemidef) → IsGaussBary e m C (fun _ => 1) (bw m C fun _ => 1)) →
        gmmObj emd e m C w (fun _ => 1) wbar x = 0 ∧
        0 < gmmObj emd e m C w (fun _ => 1) wbar (baryStepE bw (fun s => otPlan (emd s) e (fun i => (x i).1) (m s) (fun i => (x i).2) (C s) wbar (w s)) m C fun _ => 1) := by
  refine ⟨![1 / 4, 3 / 4], fun _ _ _ => 1, fun _ _ => 1, fun _ _ => 1, fun _ => (fun _ => 1, 1), ?_, ?_, fun _ _ => PosDef.one, fun _ => PosDef.one, ?_⟩
  · exact ⟨fun i => by fin_cases i <;> norm_num, by norm_num [Fin.sum_univ_two]⟩
  · exact fun _ => ⟨fun _ => by norm_num, by norm_num⟩
  intro e he emd hemd bw hbw
  have hmix : IsMix (![1 / 4, 3 / 4] : Fin 2 → ℝ) := ⟨fun i => by fin_cases i <;> norm_num, by norm_num [Fin.sum_univ_two]⟩
  have hmix1 : IsMix (fun _ : Fin 1 => (1 : ℝ)) := ⟨fun _ => by norm_num, by norm_num⟩
  have hc : ∀ P : Fin 2 → Fin 1 → ℝ, IsCoupling (![1 / 4, 3 / 4] : Fin 2 → ℝ) (fun _ => 1) P → ∀ i, P i 0 = (![1 / 4, 3 / 4] : Fin 2 → ℝ) i := by
    intro P hP i
    have := hP.row i
    simpa using this
  have hone : IsMix (fun _ : Unit => (1 : ℝ)) := ⟨fun _ => by norm_num, by norm_num⟩
  refine ⟨?_, ?_⟩
  · unfold gmmObj
    simp only [univ_unique, PUnit.default_eq_unit, sum_singleton, one_mul]
    rw [C81_zero (hemd ()) e he (fun _ : Fin 2 => fun _ : Fin 1 => (1 : ℝ)) (fun _ : Fin 1 => fun _ : Fin 1 => (1 : ℝ)) (fun _ => PosSemidef.one) (fun _ => PosSemidef.one) hmix hmix1]
    intro m' C'
    by_cases h : ((fun _ : Fin 1 => (1 : ℝ)) = m') ∧ (1 : Matrix (Fin 1) (Fin 1) ℝ) = C'
    · simp only [h, and_self, filter_true, hmix.2, hmix1.2]
    · simp [h]
  · obtain ⟨P, hPe⟩ : ∃ P, P = otPlan (emd ()) e (fun _ : Fin 2 => fun _ : Fin 1 => (1 : ℝ)) (fun _ : Fin 1 => fun _ : Fin 1 => (1 : ℝ)) (fun _ => (1 : Matrix (Fin 1) (Fin 1) ℝ)) (fun _ => (1 : Matrix (Fin 1) (Fin 1) ℝ))
      (![1 / 4, 3 / 4] : Fin 2 → ℝ) (fun _ : Fin 1 => (1 : ℝ)) := ⟨_, rfl⟩
    have hP := hc P (by rw [hPe]; exact (hemd () _ _ _ (hmix.coupling hmix1)).1)
    have hpt : ∀ i : Fin 2, baryStepE bw (fun _ : Unit => P) (fun _ _ _ => 1) (fun _ _ => (1 : Matrix (Fin 1) (Fin 1) ℝ)) (fun _ => 1) i =
        ((fun _ => 2 * (![1 / 4, 3 / 4] : Fin 2 → ℝ) i), (2 * (![1 / 4, 3 / 4] : Fin 2 → ℝ) i) • (1 : Matrix (Fin 1) (Fin 1) ℝ)) := by
      intro i
      unfold baryStepE
      have hsel : selEuclid 2 (P i) (fun _ _ => (1 : ℝ)) (fun _ => (1 : Matrix (Fin 1) (Fin 1) ℝ)) = ((fun _ => 2 * (![1 / 4, 3 / 4] : Fin 2 → ℝ) i), (2 * (![1 / 4, 3 / 4] : Fin 2 → ℝ) i) • (1 : Matrix (Fin 1) (Fin 1) ℝ)) := by
        unfold selEuclid
        refine Prod.ext ?_ ?_
        · ext d; simp [hP i]
        · simp [hP i, smul_smul]
      simp only [hsel]
      have hp1 : ((2 * (![1 / 4, 3 / 4] : Fin 2 → ℝ) i) • (1 : Matrix (Fin 1) (Fin 1) ℝ)).PosSemidef := PosSemidef.one.smul (by have := hmix.1 i; linarith)
      exact (hbw _ _ fun _ => hp1).point he (t := ()) (fun _ => hp1) (by ext s; simp)
    unfold gmmObj
    simp only [univ_unique, PUnit.default_eq_unit, sum_singleton, one_mul, ← hPe, hpt]
    have hpsd : ∀ i : Fin 2, ((2 * (![1 / 4, 3 / 4] : Fin 2 → ℝ) i) • (1 : Matrix (Fin 1) (Fin 1) ℝ)).PosSemidef := fun i => PosSemidef.one.smul (by have := hmix.1 i; linarith)
    have hz := C81_zero (hemd ()) e he (fun i : Fin 2 => fun _ : Fin 1 => 2 * (![1 / 4, 3 / 4] : Fin 2 → ℝ) i) (fun _ : Fin 1 => fun _ : Fin 1 => (1 : ℝ)) hpsd (fun _ => PosSemidef.one) hmix hmix1
    have hnn := ((hemd () (![1 / 4, 3 / 4] : Fin 2 → ℝ) (fun _ => 1) (distBures2 e (fun i : Fin 2 => fun _ : Fin 1 => 2 * (![1 / 4, 3 / 4] : Fin 2 → ℝ) i) (fun _ : Fin 1 => fun _ : Fin 1 => (1 : ℝ))
      (fun i => (2 * (![1 / 4, 3 / 4] : Fin 2 → ℝ) i) • (1 : Matrix (Fin 1) (Fin 1) ℝ)) (fun _ => 1)) (hmix.coupling hmix1)).isOtValue).nonneg fun i j => le_max_right _ _
    refine lt_of_le_of_ne hnn fun h0 => ?_
    have h := (hz.1 h0.symm) (fun _ => 1) 1
    have e1 : ∀ i : Fin 2, ¬ ((fun _ : Fin 1 => 2 * (![1 / 4, 3 / 4] : Fin 2 → ℝ) i) = fun _ => (1 : ℝ)) := by
      intro i hi
      have := congrFun hi 0
      fin_cases i <;> norm_num at this
    simp only [e1, false_and] at h
    simp at h

theorem sqrtm_one {e : Eigh D} (he : e.Ok) : sqrtm e 1 = 1 := sqrtm_eq he ⟨PosSemidef.one, Matrix.mul_one 1⟩

/-- Gaussians with identity covariance: the barycenter has the weighted mean and the identity covariance. -/
theorem gaussBary_one {e : Eigh D} (he : e.Ok) {T : Type*} [Fintype T] (m : T → D → ℝ) {w : T → ℝ} (hw : IsMix w) : IsGaussBary e m (fun _ => 1) w (baryMean w m, 1) := by
  have hf : fixStep e w (fun _ : T => (1 : Matrix D D ℝ)) 1 = 1 := by
    unfold fixStep
    simp only [sqrtm_one he, Matrix.mul_one, ← sum_smul, hw.2, one_smul]
  exact ⟨PosSemidef.one, fun x B hB => C79_barycenter e he ⟨hw.1, hw.2, fun _ => PosDef.one⟩ m PosDef.one hf x hB⟩

open Classical in
/-- the hypotheses of the descent theorems are met: two mixtures of two Gaussians in the plane and a starting point that differs from both -/
example : ∃ (e : Eigh (Fin 2)) (emd : (Fin 2 → ℝ) → (Fin 2 → ℝ) → (Fin 2 → Fin 2 → ℝ) → Fin 2 → Fin 2 → ℝ) (m : Fin 2 → Fin 2 → Fin 2 → ℝ)
    (bw : (Fin 2 → Fin 2 → ℝ) → (Fin 2 → Matrix (Fin 2) (Fin 2) ℝ) → (Fin 2 → ℝ) → (Fin 2 → ℝ) × Matrix (Fin 2) (Fin 2) ℝ) (x : Fin 2 → (Fin 2 → ℝ) × Matrix (Fin 2) (Fin 2) ℝ),
    e.Ok ∧ ExactSolver emd ∧ (∀ i, (x i).2.PosDef) ∧ (∀ s i, m s i ≠ (x i).1) ∧
    (∀ s i, otPlan emd e (fun i => (x i).1) (m s) (fun i => (x i).2) (fun _ => 1) (fun _ => 1 / 2) (fun _ => 1 / 2) i = Pi.single i (1 / 2)) ∧
    ∀ i, IsGaussBary e (fun s => m s i) (fun _ => 1) (fun _ => 1 / 2) (bw (fun s => m s i) (fun _ => 1) fun _ => 1 / 2) := by
  obtain ⟨e, he⟩ := exists_eigh (D := Fin 2)
  obtain ⟨P, hP⟩ : ∃ P : Fin 2 → Fin 2 → ℝ, P = fun i => Pi.single i (1 / 2) := ⟨_, rfl⟩
  have hmix : IsMix (fun _ : Fin 2 => (1 / 2 : ℝ)) := ⟨fun _ => by norm_num, by norm_num⟩
  refine ⟨e, fun a b M => if IsOptimal a b M P then P else exactEmd a b M, fun s j d => if d = 0 then (j : ℝ) else (s : ℝ), fun m _ w => (baryMean w m, 1),
    fun i => (fun d => if d = 0 then (i : ℝ) else 5, 1), he, ?_, fun i => PosDef.one, ?_, ?_, fun i => gaussBary_one he _ hmix⟩
  · intro a b M h
    simp only
    split
    · assumption
    · exact exactEmd_optimal a b M h
  · intro s i h
    have := congrFun h 1
    fin_cases s <;> norm_num at this
  · intro s i
    obtain ⟨M, hM⟩ : ∃ M, M = distBures2 e (fun i : Fin 2 => fun d : Fin 2 => if d = 0 then ((i : ℕ) : ℝ) else 5) (fun (j : Fin 2) (d : Fin 2) => if d = 0 then ((j : ℕ) : ℝ) else ((s : ℕ) : ℝ)) (fun _ => 1) (fun _ => (1 : Matrix (Fin 2) (Fin 2) ℝ)) := ⟨_, rfl⟩
    have hMij : ∀ i j, M i j = ((i : ℝ) - j) ^ 2 + (5 - s) ^ 2 := by
      intro i j
      rw [hM, distBures2_eq e he _ _ (fun _ => PosSemidef.one) (fun _ => PosSemidef.one), bwDist_sq, sqNorm_eq, (C78_bures_metric e he (A := 1) (B := 1) (C := 1) PosSemidef.one PosSemidef.one PosSemidef.one).2.2.2.2 rfl]
      simp [Fin.sum_univ_two]
    have hopt : IsOptimal (fun _ : Fin 2 => (1 / 2 : ℝ)) (fun _ => 1 / 2) M P := by
      refine ⟨⟨fun i j => ?_, fun i => ?_, fun j => ?_⟩, fun Q hQ => ?_⟩
      · rw [hP]; fin_cases i <;> fin_cases j <;> norm_num [Pi.single_apply]
      · rw [hP]; simp
      · rw [hP]; fin_cases j <;> norm_num [Fin.sum_univ_two, Pi.single_apply]
      · have h1 := hQ.row 0
        have h2 := hQ.row 1
        have h3 := hQ.nonneg 0 1
        have h4 := hQ.nonneg 1 0
        simp only [Fin.sum_univ_two] at h1 h2
        unfold cost
        simp only [Fin.sum_univ_two, hMij, hP]
        norm_num [Pi.single_apply]
        nlinarith [sq_nonneg (5 - (s : ℝ))]
    unfold otPlan
    rw [hM] at hopt
    simp only
    rw [if_pos hopt, hP]

end POT.Props
