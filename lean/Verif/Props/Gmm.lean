import Verif.Lemmas.Gmm
import Verif.Lemmas.Sliced
import Verif.Lemmas.ExactEmd
import Verif.Props.Gaussian

/-! # C81: transport between Gaussian mixtures -/

set_option linter.unusedSectionVars false

namespace POT.Props

open Finset Matrix POT.Spec POT.Bures POT.Gaussian POT.Gmm MeasureTheory

variable {D : Type*} [Fintype D] [DecidableEq D] {I J K : Type*} [Fintype I] [Fintype J] [Fintype K]

theorem pdf_pos (x m : D → ℝ) (C : Matrix D D ℝ) : 0 < pdf x m C := Real.exp_pos _

/-- `gaussian_pdf` is the density of a probability with mean `m` and covariance `C`. -/
theorem C81_density (m : D → ℝ) {C : Matrix D D ℝ} (hC : C.PosDef) :
    (∀ x, 0 < pdf x m C) ∧ ∫ x, pdf x m C = 1 ∧ (∀ d, ∫ x, x d * pdf x m C = m d) ∧ ∀ d d', ∫ x, (x d - m d) * (x d' - m d') * pdf x m C = C d d' :=
  ⟨fun x => pdf_pos x m C, integral_pdf m hC, integral_pdf_one m hC, integral_pdf_two m hC⟩

/-- The map of `bures_wasserstein_mapping` transports the density of the first Gaussian to that of the second one. -/
theorem C81_density_transport (e : Eigh D) (he : e.Ok) (ms mt : D → ℝ) {Cs Ct : Matrix D D ℝ} (hs : Cs.PosDef) (ht : Ct.PosDef) (x : D → ℝ) :
    let r := mapping e ms mt Cs Ct
    0 < r.1.det ∧ pdf (x ᵥ* r.1 + r.2) mt Ct * r.1.det = pdf x ms Cs := by
  obtain ⟨h1, h2, h3, -⟩ := C77_mapping e he ms mt hs ht
  have hA : (mapping e ms mt Cs Ct).1ᵀ = (mapping e ms mt Cs Ct).1 := psd_t h1.posSemidef
  obtain ⟨A, hAe⟩ : ∃ A, A = (mapping e ms mt Cs Ct).1 := ⟨_, rfl⟩
  obtain ⟨b, hbe⟩ : ∃ b, b = (mapping e ms mt Cs Ct).2 := ⟨_, rfl⟩
  simp only [← hAe, ← hbe] at *
  have hd := h1.det_pos
  refine ⟨hd, ?_⟩
  have hu : IsUnit A.det := isUnit_det h1
  rw [hA] at h2
  have e1 : x ᵥ* A + b - mt = A *ᵥ (x - ms) := by
    rw [← h3, ← vecMul_transpose, hA, sub_vecMul]; abel
  have hCt : Ct⁻¹ = A⁻¹ * Cs⁻¹ * A⁻¹ := by
    rw [← h2, Matrix.mul_inv_rev, Matrix.mul_inv_rev, Matrix.mul_assoc]
  have hq : (A *ᵥ (x - ms)) ⬝ᵥ (Ct⁻¹ *ᵥ (A *ᵥ (x - ms))) = (x - ms) ⬝ᵥ (Cs⁻¹ *ᵥ (x - ms)) := by
    rw [mulVec_mulVec, hCt, Matrix.mul_assoc, nonsing_inv_mul _ hu, Matrix.mul_one, ← vecMul_transpose, hA, ← dotProduct_mulVec, mulVec_mulVec, ← Matrix.mul_assoc, mul_nonsing_inv _ hu, Matrix.one_mul]
  rw [pdf_eq _ _ ht, pdf_eq _ _ hs, e1, hq, ← h2, det_mul, det_mul]
  have hcs := hs.det_pos
  rw [show (2 * Real.pi) ^ Fintype.card D * (A.det * Cs.det * A.det) = ((2 * Real.pi) ^ Fintype.card D * Cs.det) * A.det ^ 2 by ring, Real.sqrt_mul (by positivity), Real.sqrt_sq hd.le]
  have : 0 < Real.sqrt ((2 * Real.pi) ^ Fintype.card D * Cs.det) := by positivity
  field_simp

/-- `gmm_pdf` has the mass, the mean and the covariance of the mixture. -/
theorem C81_mixture_density (w : I → ℝ) (m : I → D → ℝ) {C : I → Matrix D D ℝ} (hC : ∀ i, (C i).PosDef) :
    ∫ x, gmmPdf x m C w = ∑ i, w i ∧ ∀ d, ∫ x, x d * gmmPdf x m C w = mixMean w m d := by
  refine ⟨?_, fun d => ?_⟩
  · unfold gmmPdf
    rw [integral_finsetSum _ fun i _ => (integrable_pdf (m i) (hC i)).const_mul _]
    exact sum_congr rfl fun i _ => by rw [integral_const_mul, integral_pdf _ (hC i), mul_one]
  · unfold gmmPdf mixMean
    have h : ∀ x : D → ℝ, x d * ∑ k, w k * pdf x (m k) (C k) = ∑ k, w k * (x d * pdf x (m k) (C k)) := fun x => by
      rw [mul_sum]; exact sum_congr rfl fun k _ => by ring
    simp only [h]
    rw [integral_finsetSum _ fun i _ => (integrable_pdf_one (m i) (hC i) d).const_mul _]
    exact sum_congr rfl fun i _ => by rw [integral_const_mul, integral_pdf_one _ (hC i)]

theorem distBures2_eq (e : Eigh D) (he : e.Ok) (ms : I → D → ℝ) (mt : J → D → ℝ) {Cs : I → Matrix D D ℝ} {Ct : J → Matrix D D ℝ} (hs : ∀ i, (Cs i).PosSemidef)
    (ht : ∀ j, (Ct j).PosSemidef) (i : I) (j : J) : distBures2 e ms mt Cs Ct i j = bwDist e (ms i) (mt j) (Cs i) (Ct j) ^ 2 := by
  have h0 := bw2_nonneg he (hs i) (ht j)
  rw [bwDist_sq, buresDist_sq he (hs i) (ht j), sqNorm_eq]
  unfold distBures2
  unfold bw2 at *
  simp only
  rw [max_eq_left]
  · rfl
  · exact add_nonneg (sum_nonneg fun d _ => sq_nonneg _) h0

/-- The cost between two components is the squared Wasserstein distance of the two Gaussians: the infimum of the mean squared distance over all joint covariances. -/
theorem C81_cost (e : Eigh D) (he : e.Ok) (ms : I → D → ℝ) (mt : J → D → ℝ) {Cs : I → Matrix D D ℝ} {Ct : J → Matrix D D ℝ} (hs : ∀ i, (Cs i).PosSemidef)
    (ht : ∀ j, (Ct j).PosSemidef) (i : I) (j : J) :
    IsGLB {c | ∃ K, IsJointCov (Cs i) (Ct j) K ∧ c = (∑ d, (ms i d - mt j d) ^ 2) + covCost (Cs i) (Ct j) K} (distBures2 e ms mt Cs Ct i j) := by
  rw [distBures2_eq e he ms mt hs ht]
  exact C78_distance e he (ms i) (mt j) (hs i) (ht j)

/-- What is assumed of `emd` (see C01): an optimal plan whenever there is a plan. -/
def ExactSolver (emd : (I → ℝ) → (J → ℝ) → (I → J → ℝ) → I → J → ℝ) : Prop := ∀ a b M, (∃ P, IsCoupling a b P) → IsOptimal a b M (emd a b M)

theorem exactSolver_exists : ∃ emd : (I → ℝ) → (J → ℝ) → (I → J → ℝ) → I → J → ℝ, ExactSolver emd := ⟨exactEmd, fun a b M h => exactEmd_optimal a b M h⟩

/-- weights of a mixture -/
def IsMix (w : I → ℝ) : Prop := (∀ i, 0 ≤ w i) ∧ ∑ i, w i = 1

theorem IsMix.coupling {ws : I → ℝ} {wt : J → ℝ} (hs : IsMix ws) (ht : IsMix wt) : ∃ P, IsCoupling ws wt P := product_coupling ws wt hs.1 ht.1 (hs.2.trans ht.2.symm)

/-- `gmm_ot_plan` couples the component weights and `gmm_ot_loss` is its cost: the least one among all couplings of the components, for the squared Wasserstein distances `c` of the
components. -/
theorem C81_plan_loss {emd : (I → ℝ) → (J → ℝ) → (I → J → ℝ) → I → J → ℝ} (hemd : ExactSolver emd) (e : Eigh D) (he : e.Ok) (ms : I → D → ℝ) (mt : J → D → ℝ)
    {Cs : I → Matrix D D ℝ} {Ct : J → Matrix D D ℝ} (hs : ∀ i, (Cs i).PosSemidef) (ht : ∀ j, (Ct j).PosSemidef) {ws : I → ℝ} {wt : J → ℝ} (hws : IsMix ws) (hwt : IsMix wt)
    (c : I → J → ℝ) (hc : ∀ i j, IsGLB {c | ∃ K, IsJointCov (Cs i) (Ct j) K ∧ c = (∑ d, (ms i d - mt j d) ^ 2) + covCost (Cs i) (Ct j) K} (c i j)) :
    IsOptimal ws wt c (otPlan emd e ms mt Cs Ct ws wt) ∧ otLoss emd e ms mt Cs Ct ws wt = cost c (otPlan emd e ms mt Cs Ct ws wt) := by
  have : c = distBures2 e ms mt Cs Ct := by
    ext i j; exact (hc i j).unique (C81_cost e he ms mt hs ht i j)
  rw [this]
  exact ⟨hemd _ _ _ (hws.coupling hwt), rfl⟩

theorem otLoss_wasserstein {emd : (I → ℝ) → (J → ℝ) → (I → J → ℝ) → I → J → ℝ} (hemd : ExactSolver emd) (e : Eigh D) (he : e.Ok) (ms : I → D → ℝ) (mt : J → D → ℝ)
    {Cs : I → Matrix D D ℝ} {Ct : J → Matrix D D ℝ} (hs : ∀ i, (Cs i).PosSemidef) (ht : ∀ j, (Ct j).PosSemidef) {ws : I → ℝ} {wt : J → ℝ} (hws : IsMix ws) (hwt : IsMix wt) :
    IsWasserstein 2 ws wt (fun i j => bwDist e (ms i) (mt j) (Cs i) (Ct j)) (Real.sqrt (otLoss emd e ms mt Cs Ct ws wt)) := by
  refine ⟨otLoss emd e ms mt Cs Ct ws wt, ?_, by rw [Real.sqrt_eq_rpow]⟩
  have : (fun i j => bwDist e (ms i) (mt j) (Cs i) (Ct j) ^ (2 : ℝ)) = distBures2 e ms mt Cs Ct := by
    ext i j; rw [distBures2_eq e he ms mt hs ht]; norm_cast
  rw [this]
  exact (hemd _ _ _ (hws.coupling hwt)).isOtValue

/-- The square root of `gmm_ot_loss` is a metric on mixtures: nonnegative, symmetric, with the triangle inequality. -/
theorem C81_metric {emd : (I → ℝ) → (J → ℝ) → (I → J → ℝ) → I → J → ℝ} {emd' : (J → ℝ) → (K → ℝ) → (J → K → ℝ) → J → K → ℝ} {emd'' : (I → ℝ) → (K → ℝ) → (I → K → ℝ) → I → K → ℝ}
    {emdT : (J → ℝ) → (I → ℝ) → (J → I → ℝ) → J → I → ℝ} (h1 : ExactSolver emd) (h2 : ExactSolver emd') (h3 : ExactSolver emd'') (h4 : ExactSolver emdT) (e : Eigh D) (he : e.Ok)
    (m₁ : I → D → ℝ) (m₂ : J → D → ℝ) (m₃ : K → D → ℝ) {C₁ : I → Matrix D D ℝ} {C₂ : J → Matrix D D ℝ} {C₃ : K → Matrix D D ℝ} (hC₁ : ∀ i, (C₁ i).PosSemidef)
    (hC₂ : ∀ j, (C₂ j).PosSemidef) (hC₃ : ∀ k, (C₃ k).PosSemidef) {w₁ : I → ℝ} {w₂ : J → ℝ} {w₃ : K → ℝ} (hw₁ : IsMix w₁) (hw₂ : IsMix w₂) (hw₃ : IsMix w₃) :
    0 ≤ otLoss emd e m₁ m₂ C₁ C₂ w₁ w₂ ∧ otLoss emd e m₁ m₂ C₁ C₂ w₁ w₂ = otLoss emdT e m₂ m₁ C₂ C₁ w₂ w₁ ∧
      Real.sqrt (otLoss emd'' e m₁ m₃ C₁ C₃ w₁ w₃) ≤ Real.sqrt (otLoss emd e m₁ m₂ C₁ C₂ w₁ w₂) + Real.sqrt (otLoss emd' e m₂ m₃ C₂ C₃ w₂ w₃) := by
  have hn : ∀ m m' (A B : Matrix D D ℝ), 0 ≤ bwDist e m m' A B := fun m m' A B => Real.sqrt_nonneg _
  refine ⟨?_, ?_, ?_⟩
  · exact ((h1 w₁ w₂ _ (hw₁.coupling hw₂)).isOtValue).nonneg fun i j => le_max_right _ _
  · have a := (h1 w₁ w₂ (distBures2 e m₁ m₂ C₁ C₂) (hw₁.coupling hw₂)).isOtValue
    have b := ((h4 w₂ w₁ (distBures2 e m₂ m₁ C₂ C₁) (hw₂.coupling hw₁)).isOtValue).swap
    have : (fun i j => distBures2 e m₂ m₁ C₂ C₁ j i) = distBures2 e m₁ m₂ C₁ C₂ := by
      ext i j
      rw [distBures2_eq e he m₂ m₁ hC₂ hC₁, distBures2_eq e he m₁ m₂ hC₁ hC₂, (C78_distance_metric e he (m₂ j) (m₁ i) 0 (hC₂ j) (hC₁ i) PosSemidef.zero).2.1]
    rw [this] at b
    exact a.unique b
  · exact wasserstein_triangle (p := 2) (by norm_num) (fun i j => hn _ _ _ _) (fun i j => hn _ _ _ _) (fun i j => hn _ _ _ _)
      (fun i j k => (C78_distance_metric e he (m₁ i) (m₂ j) (m₃ k) (hC₁ i) (hC₂ j) (hC₃ k)).2.2.1)
      (otLoss_wasserstein h1 e he m₁ m₂ hC₁ hC₂ hw₁ hw₂) (otLoss_wasserstein h2 e he m₂ m₃ hC₂ hC₃ hw₂ hw₃) (otLoss_wasserstein h3 e he m₁ m₃ hC₁ hC₃ hw₁ hw₃)

open Classical in
/-- The loss vanishes exactly when the two mixtures give the same total weight to every Gaussian. -/
theorem C81_zero {emd : (I → ℝ) → (J → ℝ) → (I → J → ℝ) → I → J → ℝ} (hemd : ExactSolver emd) (e : Eigh D) (he : e.Ok) (ms : I → D → ℝ) (mt : J → D → ℝ)
    {Cs : I → Matrix D D ℝ} {Ct : J → Matrix D D ℝ} (hs : ∀ i, (Cs i).PosSemidef) (ht : ∀ j, (Ct j).PosSemidef) {ws : I → ℝ} {wt : J → ℝ} (hws : IsMix ws) (hwt : IsMix wt) :
    otLoss emd e ms mt Cs Ct ws wt = 0 ↔ ∀ m C, ∑ i with ms i = m ∧ Cs i = C, ws i = ∑ j with mt j = m ∧ Ct j = C, wt j := by
  have hopt := hemd ws wt (distBures2 e ms mt Cs Ct) (hws.coupling hwt)
  have hz : ∀ i j, distBures2 e ms mt Cs Ct i j = 0 ↔ ms i = mt j ∧ Cs i = Ct j := by
    intro i j
    rw [distBures2_eq e he ms mt hs ht, sq_eq_zero_iff]
    exact (C78_distance_metric e he (ms i) (mt j) 0 (hs i) (ht j) PosSemidef.zero).2.2.2
  have hnn : ∀ i j, 0 ≤ distBures2 e ms mt Cs Ct i j := fun i j => le_max_right _ _
  constructor
  · intro h m C
    obtain ⟨P, hP⟩ : ∃ P, P = emd ws wt (distBures2 e ms mt Cs Ct) := ⟨_, rfl⟩
    rw [← hP] at hopt
    have h0 : ∀ i j, P i j * distBures2 e ms mt Cs Ct i j = 0 := by
      have h' : ∑ i, ∑ j, P i j * distBures2 e ms mt Cs Ct i j = 0 := by rw [hP]; exact h
      intro i j
      have := (sum_eq_zero_iff_of_nonneg fun i _ => sum_nonneg fun j _ => mul_nonneg (hopt.1.nonneg i j) (hnn i j)).1 h' i (mem_univ i)
      exact (sum_eq_zero_iff_of_nonneg fun j _ => mul_nonneg (hopt.1.nonneg i j) (hnn i j)).1 this j (mem_univ j)
    have hsup : ∀ i j, P i j ≠ 0 → ms i = mt j ∧ Cs i = Ct j := fun i j hp => (hz i j).1 ((mul_eq_zero.1 (h0 i j)).resolve_left hp)
    rw [sum_filter, sum_filter]
    have e1 : ∀ i, (if ms i = m ∧ Cs i = C then ws i else 0) = ∑ j, if ms i = m ∧ Cs i = C then P i j else 0 := by
      intro i; split
      · exact (hopt.1.row i).symm
      · simp
    have e2 : ∀ j, (if mt j = m ∧ Ct j = C then wt j else 0) = ∑ i, if mt j = m ∧ Ct j = C then P i j else 0 := by
      intro j; split
      · exact (hopt.1.col j).symm
      · simp
    simp only [e1, e2]
    rw [sum_comm]
    refine sum_congr rfl fun j _ => sum_congr rfl fun i _ => ?_
    by_cases hp : P i j = 0
    · simp [hp]
    · rw [(hsup i j hp).1, (hsup i j hp).2]
  · intro h
    obtain ⟨W, hW⟩ : ∃ W : I → ℝ, W = fun i => ∑ i' with ms i' = ms i ∧ Cs i' = Cs i, ws i' := ⟨_, rfl⟩
    have hW0 : ∀ i, ws i ≤ W i := by
      intro i; rw [hW]
      exact single_le_sum (f := ws) (fun i' _ => hws.1 i') (by simp)
    have hWn : ∀ i, 0 ≤ W i := fun i => (hws.1 i).trans (hW0 i)
    have hWt : ∀ i, W i = ∑ j with mt j = ms i ∧ Ct j = Cs i, wt j := fun i => by rw [hW]; exact h _ _
    have hc : IsCoupling ws wt fun i j => if mt j = ms i ∧ Ct j = Cs i then ws i * wt j / W i else 0 := by
      refine ⟨fun i j => ?_, fun i => ?_, fun j => ?_⟩
      · split
        · exact div_nonneg (mul_nonneg (hws.1 i) (hwt.1 j)) (hWn i)
        · exact le_refl _
      · rw [← sum_filter, ← sum_div, ← mul_sum, ← hWt]
        by_cases h0 : W i = 0
        · have := hW0 i; have := hws.1 i; rw [h0]; simp; linarith
        · field_simp
      · have e1 : ∀ i, (if mt j = ms i ∧ Ct j = Cs i then ws i * wt j / W i else 0) = (if ms i = mt j ∧ Cs i = Ct j then ws i else 0) * (wt j / ∑ i' with ms i' = mt j ∧ Cs i' = Ct j, ws i') := by
          intro i
          by_cases hij : ms i = mt j ∧ Cs i = Ct j
          · rw [if_pos ⟨hij.1.symm, hij.2.symm⟩, if_pos hij, hW]; simp only [hij.1, hij.2]; ring
          · rw [if_neg fun h => hij ⟨h.1.symm, h.2.symm⟩, if_neg hij, zero_mul]
        simp only [e1]
        rw [← sum_mul, ← sum_filter]
        by_cases h0 : ∑ i' with ms i' = mt j ∧ Cs i' = Ct j, ws i' = 0
        · have h1 := h (mt j) (Ct j)
          rw [h0] at h1 ⊢
          have : wt j ≤ ∑ j' with mt j' = mt j ∧ Ct j' = Ct j, wt j' := single_le_sum (f := wt) (fun i' _ => hwt.1 i') (by simp)
          have := hwt.1 j
          simp; linarith
        · field_simp
    have hle := hopt.2 _ hc
    have h0 : cost (distBures2 e ms mt Cs Ct) (fun i j => if mt j = ms i ∧ Ct j = Cs i then ws i * wt j / W i else 0) = 0 := by
      unfold cost
      refine sum_eq_zero fun i _ => sum_eq_zero fun j _ => ?_
      by_cases hij : mt j = ms i ∧ Ct j = Cs i
      · rw [(hz i j).2 ⟨hij.1.symm, hij.2.symm⟩, mul_zero]
      · simp only [if_neg hij, zero_mul]
    rw [h0] at hle
    exact le_antisymm hle ((hopt.isOtValue).nonneg hnn)

theorem joint_sum {P : I → J → ℝ} (hP : ∀ i j, 0 ≤ P i j) {A : I → J → Matrix D D ℝ} {B : I → J → Matrix D D ℝ} {L : I → J → Matrix D D ℝ} (h : ∀ i j, IsJointCov (A i j) (B i j) (L i j)) :
    IsJointCov (∑ i, ∑ j, P i j • A i j) (∑ i, ∑ j, P i j • B i j) (∑ i, ∑ j, P i j • L i j) := by
  have : fromBlocks (∑ i, ∑ j, P i j • A i j) (∑ i, ∑ j, P i j • L i j) (∑ i, ∑ j, P i j • L i j)ᵀ (∑ i, ∑ j, P i j • B i j) =
      ∑ i, ∑ j, P i j • fromBlocks (A i j) (L i j) (L i j)ᵀ (B i j) := by
    ext a b
    rcases a with a | a <;> rcases b with b | b <;> simp [Matrix.sum_apply, transpose_sum]
  unfold IsJointCov
  rw [this]
  exact posSemidef_sum univ fun i _ => posSemidef_sum univ fun j _ => (h i j).smul (hP i j)

theorem joint_add2 {A B L A' B' L' : Matrix D D ℝ} (h : IsJointCov A B L) (h' : IsJointCov A' B' L') : IsJointCov (A + A') (B + B') (L + L') := by
  unfold IsJointCov at *
  rw [transpose_add, ← fromBlocks_add]
  exact h.add h'

/-- The loss dominates the squared distance of the two mixtures seen through their means and covariances; so it is zero only for mixtures with the same first two moments. -/
theorem C81_moment_bound {emd : (I → ℝ) → (J → ℝ) → (I → J → ℝ) → I → J → ℝ} (hemd : ExactSolver emd) (e : Eigh D) (he : e.Ok) (ms : I → D → ℝ) (mt : J → D → ℝ)
    {Cs : I → Matrix D D ℝ} {Ct : J → Matrix D D ℝ} (hs : ∀ i, (Cs i).PosSemidef) (ht : ∀ j, (Ct j).PosSemidef) {ws : I → ℝ} {wt : J → ℝ} (hws : IsMix ws) (hwt : IsMix wt) :
    bwDist e (mixMean ws ms) (mixMean wt mt) (mixCov ws ms Cs) (mixCov wt mt Ct) ^ 2 ≤ otLoss emd e ms mt Cs Ct ws wt := by
  obtain ⟨P, hPe⟩ : ∃ P, P = emd ws wt (distBures2 e ms mt Cs Ct) := ⟨_, rfl⟩
  have hP : IsCoupling ws wt P := by rw [hPe]; exact (hemd _ _ _ (hws.coupling hwt)).1
  have hPs : ∑ i, ∑ j, P i j = 1 := by simp only [hP.row]; exact hws.2
  obtain ⟨u, hu⟩ : ∃ u : I → D → ℝ, u = fun i d => ms i d - mixMean ws ms d := ⟨_, rfl⟩
  obtain ⟨v, hv⟩ : ∃ v : J → D → ℝ, v = fun j d => mt j d - mixMean wt mt d := ⟨_, rfl⟩
  have hjm := joint_of_coupling hP u v
  have hcs : mixCov ws ms Cs = (∑ i, ∑ j, P i j • Cs i) + Matrix.of fun d d' => ∑ i, ws i * u i d * u i d' := by
    ext d d'
    simp only [mixCov, Matrix.add_apply, of_apply, Matrix.sum_apply, Matrix.smul_apply, smul_eq_mul, ← sum_mul, hP.row]
    rw [← sum_add_distrib]
    exact sum_congr rfl fun i _ => by rw [hu]; ring
  have hct : mixCov wt mt Ct = (∑ i, ∑ j, P i j • Ct j) + Matrix.of fun d d' => ∑ j, wt j * v j d * v j d' := by
    rw [sum_comm]
    ext d d'
    simp only [mixCov, Matrix.add_apply, of_apply, Matrix.sum_apply, Matrix.smul_apply, smul_eq_mul, ← sum_mul, hP.col]
    rw [← sum_add_distrib]
    exact sum_congr rfl fun i _ => by rw [hv]; ring
  have hsm : ∀ d, ∑ i, ws i * u i d = 0 := by
    intro d
    simp only [hu, mul_sub, sum_sub_distrib, ← sum_mul, hws.2, one_mul]
    exact sub_self _
  have htm : ∀ d, ∑ j, wt j * v j d = 0 := by
    intro d
    simp only [hv, mul_sub, sum_sub_distrib, ← sum_mul, hwt.2, one_mul]
    exact sub_self _
  have hmean : (∑ d, (mixMean ws ms d - mixMean wt mt d) ^ 2) + ∑ d, ((∑ i, ws i * u i d * u i d) + (∑ j, wt j * v j d * v j d) - 2 * ∑ i, ∑ j, P i j * u i d * v j d) =
      ∑ i, ∑ j, P i j * ∑ d, (ms i d - mt j d) ^ 2 := by
    have e1 : ∑ i, ∑ j, P i j * ∑ d, (ms i d - mt j d) ^ 2 = ∑ d, ∑ i, ∑ j, P i j * (ms i d - mt j d) ^ 2 := by
      simp only [mul_sum]
      rw [sum_comm (s := (univ : Finset D))]
      exact sum_congr rfl fun i _ => sum_comm
    rw [e1, ← sum_add_distrib]
    refine sum_congr rfl fun d _ => ?_
    obtain ⟨δ, hδ⟩ : ∃ δ, δ = mixMean ws ms d - mixMean wt mt d := ⟨_, rfl⟩
    have e2 : ∀ i j, P i j * (ms i d - mt j d) ^ 2 = P i j * δ ^ 2 + P i j * (u i d * u i d) + P i j * (v j d * v j d) - 2 * (P i j * u i d * v j d) + 2 * δ * (P i j * u i d) - 2 * δ * (P i j * v j d) := by
      intro i j; rw [hu, hv, hδ]; ring
    have s1 : ∑ i, ∑ j, P i j * (u i d * u i d) = ∑ i, ws i * u i d * u i d := by
      simp only [← sum_mul, hP.row, mul_assoc]
    have s2 : ∑ i, ∑ j, P i j * (v j d * v j d) = ∑ j, wt j * v j d * v j d := by
      rw [sum_comm]; simp only [← sum_mul, hP.col, mul_assoc]
    have s3 : ∑ i, ∑ j, P i j * u i d = 0 := by simp only [← sum_mul, hP.row]; exact hsm d
    have s4 : ∑ i, ∑ j, P i j * v j d = 0 := by rw [sum_comm]; simp only [← sum_mul, hP.col]; exact htm d
    have s5 : ∑ i, ∑ j, P i j * δ ^ 2 = δ ^ 2 := by simp only [← sum_mul, hPs, one_mul]
    simp only [e2, sum_add_distrib, sum_sub_distrib, ← mul_sum]
    rw [s1, s2, s3, s4, s5, ← hδ]
    ring
  refine le_of_forall_pos_le_add fun ε hε => ?_
  have hK : ∀ i j, ∃ L, IsJointCov (Cs i) (Ct j) L ∧ covCost (Cs i) (Ct j) L < buresDist e (Cs i) (Ct j) ^ 2 + ε := by
    intro i j
    obtain ⟨c, ⟨L, hL, rfl⟩, -, hlt⟩ := (C78_bures e he (hs i) (ht j)).exists_between (lt_add_of_pos_right _ hε)
    exact ⟨L, hL, hlt⟩
  choose L hL hLc using hK
  have hj := joint_add2 (joint_sum hP.nonneg hL) hjm
  rw [← hcs, ← hct] at hj
  have hS : (mixCov ws ms Cs).PosSemidef := hj.submatrix Sum.inl
  have hT : (mixCov wt mt Ct).PosSemidef := hj.submatrix Sum.inr
  have hle := (C78_distance e he (mixMean ws ms) (mixMean wt mt) hS hT).1 ⟨_, hj, rfl⟩
  refine hle.trans ?_
  have hcc : covCost (mixCov ws ms Cs) (mixCov wt mt Ct) ((∑ i, ∑ j, P i j • L i j) + Matrix.of fun d d' => ∑ i, ∑ j, P i j * u i d * v j d') =
      (∑ i, ∑ j, P i j * covCost (Cs i) (Ct j) (L i j)) + ∑ d, ((∑ i, ws i * u i d * u i d) + (∑ j, wt j * v j d * v j d) - 2 * ∑ i, ∑ j, P i j * u i d * v j d) := by
    rw [hcs, hct]
    unfold covCost
    simp only [trace_add, trace_sum, trace_smul, smul_eq_mul]
    simp only [trace, diag_apply, of_apply, mul_add, mul_sub, sum_add_distrib, sum_sub_distrib, ← mul_sum]
    have : ∀ i j, P i j * (2 * ∑ d, L i j d d) = 2 * (P i j * ∑ d, L i j d d) := fun i j => by ring
    simp only [this, ← mul_sum]
    ring
  rw [hcc]
  have hfin : ∑ i, ∑ j, P i j * covCost (Cs i) (Ct j) (L i j) ≤ (∑ i, ∑ j, P i j * buresDist e (Cs i) (Ct j) ^ 2) + ε := by
    have : (∑ i, ∑ j, P i j * buresDist e (Cs i) (Ct j) ^ 2) + ε = ∑ i, ∑ j, P i j * (buresDist e (Cs i) (Ct j) ^ 2 + ε) := by
      simp only [mul_add, sum_add_distrib, ← sum_mul, hPs, one_mul]
    rw [this]
    exact sum_le_sum fun i _ => sum_le_sum fun j _ => mul_le_mul_of_nonneg_left (hLc i j).le (hP.nonneg i j)
  have hloss : otLoss emd e ms mt Cs Ct ws wt = (∑ i, ∑ j, P i j * ∑ d, (ms i d - mt j d) ^ 2) + ∑ i, ∑ j, P i j * buresDist e (Cs i) (Ct j) ^ 2 := by
    unfold otLoss
    simp only [← hPe, distBures2_eq e he ms mt hs ht, bwDist_sq, sqNorm_eq, mul_add, sum_add_distrib, Pi.sub_apply]
  rw [hloss, ← hmean]
  linarith

/-! ## The maps between mixtures -/

theorem compMap_eq (e : Eigh D) (he : e.Ok) (ms mt : D → ℝ) {Cs Ct : Matrix D D ℝ} (hs : Cs.PosDef) (ht : Ct.PosDef) : compMap e ms mt Cs Ct = mapping e ms mt Cs Ct := by
  unfold compMap mapping
  have h : (mapA e Cs Ct)ᵀ = mapA e Cs Ct := psd_t (mapA_psd he hs ht.posSemidef)
  have : ms ᵥ* mapA e Cs Ct = mapA e Cs Ct *ᵥ ms := by rw [← vecMul_transpose, h]
  show (mapA e Cs Ct, mt - mapA e Cs Ct *ᵥ ms) = (mapA e Cs Ct, mt - ms ᵥ* mapA e Cs Ct)
  rw [this]

theorem denom_eq (ms : I → D → ℝ) (Cs : I → Matrix D D ℝ) (ws : I → ℝ) (x : D → ℝ) (i : I) :
    ∑ k, ws k * Real.exp (logpdf x (ms k) (Cs k) - logpdf x (ms i) (Cs i)) = gmmPdf x ms Cs ws / pdf x (ms i) (Cs i) := by
  unfold gmmPdf
  rw [sum_div]
  exact sum_congr rfl fun k _ => by rw [Real.exp_sub]; unfold Gmm.pdf; ring

theorem gmmPdf_pos (ms : I → D → ℝ) (Cs : I → Matrix D D ℝ) {ws : I → ℝ} (hws : IsMix ws) (x : D → ℝ) : 0 < gmmPdf x ms Cs ws := by
  unfold gmmPdf
  refine sum_pos' (fun k _ => mul_nonneg (hws.1 k) (pdf_pos _ _ _).le) ?_
  by_contra hne
  push Not at hne
  have : ∀ k, ws k = 0 := fun k => le_antisymm (by
    by_contra h
    exact absurd (hne k (mem_univ k)) (not_le.2 (mul_pos (not_le.1 h) (pdf_pos _ _ _)))) (hws.1 k)
  have h1 := hws.2
  simp [this] at h1

theorem applyBary_eq (e : Eigh D) (he : e.Ok) {plan : I → J → ℝ} (hp : ∀ i j, 0 ≤ plan i j) (ms : I → D → ℝ) (mt : J → D → ℝ) {Cs : I → Matrix D D ℝ} {Ct : J → Matrix D D ℝ} (hs : ∀ i, (Cs i).PosDef)
    (ht : ∀ j, (Ct j).PosDef) (ws : I → ℝ) (x : D → ℝ) :
    applyBary e plan ms mt Cs Ct ws x = ∑ i, ∑ j, (plan i j * pdf x (ms i) (Cs i) / gmmPdf x ms Cs ws) • (x ᵥ* (mapping e (ms i) (mt j) (Cs i) (Ct j)).1 + (mapping e (ms i) (mt j) (Cs i) (Ct j)).2) := by
  unfold applyBary
  refine sum_congr rfl fun i _ => sum_congr rfl fun j _ => ?_
  split
  · simp only [denom_eq, compMap_eq e he _ _ (hs i) (ht j)]
    rw [smul_smul]
    congr 1
    rw [one_div_div]; ring
  · rename_i h
    rw [le_antisymm (not_lt.1 h) (hp i j)]; simp

/-- `gmm_ot_apply_map(method="bary")` is the conditional mean of the mixture of the Gaussian maps: a convex combination of the maps `T i j` between components, with the posterior weights
`plan i j * g_i(x) / p(x)`; it sends the mean of the source mixture to the mean of the target mixture. -/
theorem C81_bary_map (e : Eigh D) (he : e.Ok) {ws : I → ℝ} {wt : J → ℝ} (hws : IsMix ws) {plan : I → J → ℝ} (hp : IsCoupling ws wt plan) (ms : I → D → ℝ) (mt : J → D → ℝ)
    {Cs : I → Matrix D D ℝ} {Ct : J → Matrix D D ℝ} (hs : ∀ i, (Cs i).PosDef) (ht : ∀ j, (Ct j).PosDef) :
    (∀ x, ∃ r : I → J → ℝ, (∀ i j, r i j * gmmPdf x ms Cs ws = plan i j * pdf x (ms i) (Cs i)) ∧ (∀ i j, 0 ≤ r i j) ∧ ∑ i, ∑ j, r i j = 1 ∧
      applyBary e plan ms mt Cs Ct ws x = ∑ i, ∑ j, r i j • (x ᵥ* (mapping e (ms i) (mt j) (Cs i) (Ct j)).1 + (mapping e (ms i) (mt j) (Cs i) (Ct j)).2)) ∧
    ∀ d, ∫ x, applyBary e plan ms mt Cs Ct ws x d * gmmPdf x ms Cs ws = mixMean wt mt d := by
  refine ⟨fun x => ?_, fun d => ?_⟩
  · have h0 := gmmPdf_pos ms Cs hws x
    refine ⟨fun i j => plan i j * pdf x (ms i) (Cs i) / gmmPdf x ms Cs ws, fun i j => by field_simp, fun i j => div_nonneg (mul_nonneg (hp.nonneg i j) (pdf_pos _ _ _).le) h0.le, ?_,
      applyBary_eq e he hp.nonneg ms mt hs ht ws x⟩
    simp only [← sum_div, ← sum_mul, hp.row]
    exact div_self h0.ne'
  · obtain ⟨A, hA⟩ : ∃ A : I → J → Matrix D D ℝ, A = fun i j => (mapping e (ms i) (mt j) (Cs i) (Ct j)).1 := ⟨_, rfl⟩
    obtain ⟨b, hb⟩ : ∃ b : I → J → D → ℝ, b = fun i j => (mapping e (ms i) (mt j) (Cs i) (Ct j)).2 := ⟨_, rfl⟩
    have hm : ∀ i j, ms i ᵥ* A i j + b i j = mt j := fun i j => by rw [hA, hb]; exact (C77_mapping e he (ms i) (mt j) (hs i) (ht j)).2.2.1
    have e0 : ∀ x, applyBary e plan ms mt Cs Ct ws x = ∑ i, ∑ j, (plan i j * pdf x (ms i) (Cs i) / gmmPdf x ms Cs ws) • (x ᵥ* A i j + b i j) := fun x => by
      rw [hA, hb]; exact applyBary_eq e he hp.nonneg ms mt hs ht ws x
    have e1 : ∀ x, applyBary e plan ms mt Cs Ct ws x d * gmmPdf x ms Cs ws =
        ∑ i, ∑ j, ((∑ k, (plan i j * A i j k d) * (x k * pdf x (ms i) (Cs i))) + (plan i j * b i j d) * pdf x (ms i) (Cs i)) := by
      intro x
      have h0 := gmmPdf_pos ms Cs hws x
      rw [e0 x]
      simp only [Finset.sum_apply, Pi.smul_apply, Pi.add_apply, smul_eq_mul, sum_mul, vecMul, dotProduct]
      refine sum_congr rfl fun i _ => sum_congr rfl fun j _ => ?_
      rw [mul_add, mul_sum, add_mul, sum_mul]
      congr 1
      · exact sum_congr rfl fun k _ => by field_simp
      · field_simp
    have hi : ∀ i j, ∀ k ∈ (univ : Finset D), Integrable fun x : D → ℝ => (plan i j * A i j k d) * (x k * pdf x (ms i) (Cs i)) :=
      fun i j k _ => (integrable_pdf_one (ms i) (hs i) k).const_mul _
    have hi' : ∀ i j, Integrable fun x : D → ℝ => (plan i j * b i j d) * pdf x (ms i) (Cs i) := fun i j => (integrable_pdf (ms i) (hs i)).const_mul _
    have hi2 : ∀ i j, Integrable fun x : D → ℝ => (∑ k, (plan i j * A i j k d) * (x k * pdf x (ms i) (Cs i))) + (plan i j * b i j d) * pdf x (ms i) (Cs i) :=
      fun i j => (integrable_finsetSum _ (hi i j)).add (hi' i j)
    simp only [e1]
    rw [integral_finsetSum _ fun i _ => integrable_finsetSum _ fun j _ => hi2 i j]
    have e2 : ∀ i, ∫ x : D → ℝ, ∑ j, ((∑ k, (plan i j * A i j k d) * (x k * pdf x (ms i) (Cs i))) + (plan i j * b i j d) * pdf x (ms i) (Cs i)) = ∑ j, plan i j * mt j d := by
      intro i
      rw [integral_finsetSum _ fun j _ => hi2 i j]
      refine sum_congr rfl fun j _ => ?_
      rw [integral_add (integrable_finsetSum _ (hi i j)) (hi' i j), integral_finsetSum _ (hi i j), integral_const_mul, integral_pdf _ (hs i)]
      simp only [integral_const_mul, integral_pdf_one _ (hs i)]
      have hmd := congrFun (hm i j) d
      simp only [Pi.add_apply, vecMul, dotProduct] at hmd
      rw [← hmd, mul_add, mul_sum, mul_one]
      congr 1
      exact sum_congr rfl fun k _ => by ring
    simp only [e2]
    rw [sum_comm]
    simp only [← sum_mul, hp.col]
    rfl

theorem sum_flat {ks kt : ℕ} {M : Type*} [AddCommMonoid M] (f : Fin ks → Fin kt → M) : ∑ q : Fin (ks * kt), f q.divNat q.modNat = ∑ i, ∑ j, f i j := by
  rw [← Fintype.sum_prod_type (f := fun p : Fin ks × Fin kt => f p.1 p.2), ← finProdFinEquiv.symm.sum_comp]
  rfl

/-- `gmm_ot_apply_map(method="rand")`: the vector handed to `rng.choice` is a probability vector, an index of positive probability stands for a pair of components that the plan couples,
the output is the image under the Gaussian map between this pair, and its expectation is the output of `method="bary"`. -/
theorem C81_rand_map {ks kt : ℕ} (e : Eigh D) (he : e.Ok) {ws : Fin ks → ℝ} {wt : Fin kt → ℝ} (hws : IsMix ws) {plan : Fin ks → Fin kt → ℝ} (hp : IsCoupling ws wt plan)
    (ms : Fin ks → D → ℝ) (mt : Fin kt → D → ℝ) {Cs : Fin ks → Matrix D D ℝ} {Ct : Fin kt → Matrix D D ℝ} (hs : ∀ i, (Cs i).PosDef) (ht : ∀ j, (Ct j).PosDef) (x : D → ℝ) :
    (∀ q, 0 ≤ randVec plan ms Cs ws x q) ∧ ∑ q, randVec plan ms Cs ws x q = 1 ∧
      (∀ q, 0 < randVec plan ms Cs ws x q → ∃ i j, 0 < plan i j ∧
        applyRand e plan ms mt Cs Ct x q = x ᵥ* (mapping e (ms i) (mt j) (Cs i) (Ct j)).1 + (mapping e (ms i) (mt j) (Cs i) (Ct j)).2) ∧
      ∑ q, randVec plan ms Cs ws x q • applyRand e plan ms mt Cs Ct x q = applyBary e plan ms mt Cs Ct ws x := by
  have h0 := gmmPdf_pos ms Cs hws x
  have hv : ∀ i j, randP plan ms Cs ws x i j = plan i j * pdf x (ms i) (Cs i) / gmmPdf x ms Cs ws := by
    intro i j
    unfold randP
    simp only [denom_eq]
    rw [div_div_eq_mul_div]
  have hnn : ∀ i j, 0 ≤ randP plan ms Cs ws x i j := fun i j => by rw [hv]; exact div_nonneg (mul_nonneg (hp.nonneg i j) (pdf_pos _ _ _).le) h0.le
  have hmap : ∀ q, 0 < plan q.divNat q.modNat → applyRand e plan ms mt Cs Ct x q =
      x ᵥ* (mapping e (ms q.divNat) (mt q.modNat) (Cs q.divNat) (Ct q.modNat)).1 + (mapping e (ms q.divNat) (mt q.modNat) (Cs q.divNat) (Ct q.modNat)).2 := by
    intro q hq
    unfold applyRand randMap
    simp only [hq, if_true, compMap_eq e he _ _ (hs _) (ht _)]
    have h : (mapping e (ms q.divNat) (mt q.modNat) (Cs q.divNat) (Ct q.modNat)).1ᵀ = (mapping e (ms q.divNat) (mt q.modNat) (Cs q.divNat) (Ct q.modNat)).1 :=
      psd_t (C77_mapping e he _ _ (hs _) (ht _)).1.posSemidef
    congr 1
    rw [← vecMul_transpose, h]
  have hpos : ∀ q, 0 < randVec plan ms Cs ws x q → 0 < plan q.divNat q.modNat := by
    intro q hq
    unfold randVec at hq
    rw [hv] at hq
    refine lt_of_le_of_ne (hp.nonneg _ _) fun h => ?_
    rw [← h] at hq; simp at hq
  refine ⟨fun q => hnn _ _, ?_, fun q hq => ⟨_, _, hpos q hq, hmap q (hpos q hq)⟩, ?_⟩
  · unfold randVec
    rw [sum_flat fun i j => randP plan ms Cs ws x i j]
    simp only [hv, ← sum_div, ← sum_mul, hp.row]
    exact div_self h0.ne'
  · rw [applyBary_eq e he hp.nonneg ms mt hs ht ws x]
    rw [← sum_flat fun i j => (plan i j * pdf x (ms i) (Cs i) / gmmPdf x ms Cs ws) • (x ᵥ* (mapping e (ms i) (mt j) (Cs i) (Ct j)).1 + (mapping e (ms i) (mt j) (Cs i) (Ct j)).2)]
    refine sum_congr rfl fun q _ => ?_
    have e1 : randVec plan ms Cs ws x q = plan q.divNat q.modNat * pdf x (ms q.divNat) (Cs q.divNat) / gmmPdf x ms Cs ws := hv _ _
    rw [e1]
    by_cases hq : 0 < plan q.divNat q.modNat
    · rw [hmap q hq]
    · rw [le_antisymm (not_lt.1 hq) (hp.nonneg _ _)]; simp

/-- the hypotheses are met: mixtures of two Gaussians in dimension two -/
example : ∃ (e : Eigh (Fin 2)) (emd : (Fin 2 → ℝ) → (Fin 3 → ℝ) → (Fin 2 → Fin 3 → ℝ) → Fin 2 → Fin 3 → ℝ), e.Ok ∧ ExactSolver emd ∧ IsMix (fun _ : Fin 2 => (1 / 2 : ℝ)) ∧
    IsMix (![1 / 2, 0, 1 / 2] : Fin 3 → ℝ) ∧ ∀ i : Fin 2, ((1 + (i : ℝ)) • (1 : Matrix (Fin 2) (Fin 2) ℝ)).PosDef := by
  obtain ⟨e, he⟩ := exists_eigh (D := Fin 2)
  obtain ⟨emd, hemd⟩ := exactSolver_exists (I := Fin 2) (J := Fin 3)
  refine ⟨e, emd, he, hemd, ⟨fun _ => by norm_num, by norm_num⟩, ⟨fun j => by fin_cases j <;> norm_num, by simp [Fin.sum_univ_three]; norm_num⟩, fun i => PosDef.one.smul (by positivity)⟩

end POT.Props
