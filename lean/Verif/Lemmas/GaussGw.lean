import Verif.Lemmas.Gaussian

/-!
# The Gaussian Gromov-Wasserstein value
-/

set_option linter.unusedSectionVars false

namespace POT.Gaussian

open Finset Matrix POT.Spec POT.Bures

section Rearrange

variable {a b : ℕ → ℝ} {N : ℕ}

/-- Potentials of the sorted assignment. -/
def pot (a b : ℕ → ℝ) (N j : ℕ) : ℝ := ∑ l ∈ Ico j N, a l * (b l - b (l + 1))

theorem pot_succ {j : ℕ} (h : j < N) : pot a b N j = a j * (b j - b (j + 1)) + pot a b N (j + 1) := by
  unfold pot
  rw [sum_eq_sum_Ico_succ_bot h]

theorem pot_top : pot a b N N = 0 := by simp [pot]

theorem pot_nonneg (ha : ∀ l, 0 ≤ a l) (hb : Antitone b) (j : ℕ) : 0 ≤ pot a b N j :=
  sum_nonneg fun l _ => mul_nonneg (ha l) (sub_nonneg.2 (hb (Nat.le_succ l)))

theorem pot_le (ha : Antitone a) (hb : Antitone b) {i : ℕ} (hi : i ≤ N) : ∀ j ≤ N, a i * b j - pot a b N j ≤ a i * b i - pot a b N i := by
  have up : ∀ d, i + d ≤ N → a i * b (i + d) - pot a b N (i + d) ≤ a i * b i - pot a b N i := by
    intro d
    induction d with
    | zero => intro _; exact le_rfl
    | succ d ih =>
      intro hd
      refine le_trans ?_ (ih (by omega))
      rw [pot_succ (j := i + d) (by omega), show i + (d + 1) = i + d + 1 by omega]
      have h1 : 0 ≤ (a i - a (i + d)) * (b (i + d) - b (i + d + 1)) := mul_nonneg (sub_nonneg.2 (ha (by omega))) (sub_nonneg.2 (hb (Nat.le_succ _)))
      nlinarith
  have down : ∀ d, d ≤ i → a i * b (i - d) - pot a b N (i - d) ≤ a i * b i - pot a b N i := by
    intro d
    induction d with
    | zero => intro _; exact le_rfl
    | succ d ih =>
      intro hd
      refine le_trans ?_ (ih (by omega))
      rw [pot_succ (j := i - (d + 1)) (by omega), show i - (d + 1) + 1 = i - d by omega]
      have h1 : 0 ≤ (a (i - (d + 1)) - a i) * (b (i - (d + 1)) - b (i - d)) := mul_nonneg (sub_nonneg.2 (ha (by omega))) (sub_nonneg.2 (hb (by omega)))
      nlinarith
  intro j hj
  rcases le_total i j with h | h
  · have := up (j - i) (by omega)
    rwa [show i + (j - i) = j by omega] at this
  · have := down (i - j) (by omega)
    rwa [show i - (i - j) = j by omega] at this

/-- Rearrangement for doubly substochastic matrices. -/
theorem substochastic_le {n k : ℕ} {a : Fin (n + k) → ℝ} {b : Fin n → ℝ} (ha : Antitone a) (hb : Antitone b) (ha0 : ∀ i, 0 ≤ a i) (hb0 : ∀ j, 0 ≤ b j) {Q : Fin (n + k) → Fin n → ℝ}
    (hQ : ∀ i j, 0 ≤ Q i j) (hr : ∀ i, ∑ j, Q i j ≤ 1) (hc : ∀ j, ∑ i, Q i j ≤ 1) : ∑ i, ∑ j, a i * b j * Q i j ≤ ∑ j : Fin n, a (Fin.castAdd k j) * b j := by
  obtain ⟨A, hA⟩ : ∃ A : ℕ → ℝ, A = fun l => if h : l < n + k then a ⟨l, h⟩ else 0 := ⟨_, rfl⟩
  obtain ⟨B, hB⟩ : ∃ B : ℕ → ℝ, B = fun l => if h : l < n then b ⟨l, h⟩ else 0 := ⟨_, rfl⟩
  have ext_anti : ∀ {N : ℕ} {f : Fin N → ℝ}, Antitone f → (∀ i, 0 ≤ f i) → Antitone fun l : ℕ => if h : l < N then f ⟨l, h⟩ else 0 := by
    intro N f hf hf0 x y hxy
    simp only
    split
    · next h => rw [dif_pos (by omega)]; exact hf hxy
    · split
      · exact hf0 _
      · exact le_rfl
  have hAa : Antitone A := by rw [hA]; exact ext_anti ha ha0
  have hBa : Antitone B := by rw [hB]; exact ext_anti hb hb0
  have hA0 : ∀ l, 0 ≤ A l := by
    intro l; rw [hA]; simp only; split
    exacts [ha0 _, le_rfl]
  have eA : ∀ i : Fin (n + k), A i = a i := fun i => by rw [hA]; simp
  have eB : ∀ j : Fin n, B j = b j := fun j => by rw [hB]; simp
  have hBz : ∀ l, n ≤ l → B l = 0 := fun l hl => by rw [hB]; simp only; rw [dif_neg (by omega)]
  obtain ⟨u, hu⟩ : ∃ u : ℕ → ℝ, u = fun i => A i * B i - pot A B (n + k) i := ⟨_, rfl⟩
  have hu0 : ∀ i : Fin (n + k), 0 ≤ u i := by
    intro i
    have := pot_le (N := n + k) hAa hBa i.2.le (n + k) le_rfl
    rw [pot_top, hBz _ (by omega)] at this
    rw [hu]
    linarith
  have huz : ∀ i, n ≤ i → u i = 0 := by
    intro i hi
    rw [hu]
    simp only [hBz i hi, mul_zero, zero_sub, neg_eq_zero]
    exact sum_eq_zero fun l hl => by
      have := (mem_Ico.1 hl).1
      rw [hBz l (by omega), hBz (l + 1) (by omega)]; ring
  have hdual : ∀ (i : Fin (n + k)) (j : Fin n), a i * b j ≤ u i + pot A B (n + k) j := by
    intro i j
    have := pot_le (N := n + k) hAa hBa i.2.le j (by omega)
    rw [← eA i, ← eB j, hu]
    linarith
  have h1 : ∑ i, ∑ j, a i * b j * Q i j ≤ ∑ i : Fin (n + k), ∑ j : Fin n, (u i + pot A B (n + k) j) * Q i j :=
    sum_le_sum fun i _ => sum_le_sum fun j _ => mul_le_mul_of_nonneg_right (hdual i j) (hQ i j)
  have h2 : ∑ i : Fin (n + k), ∑ j : Fin n, (u i + pot A B (n + k) j) * Q i j = (∑ i : Fin (n + k), u i * ∑ j, Q i j) + ∑ j : Fin n, pot A B (n + k) j * ∑ i, Q i j := by
    simp only [add_mul, sum_add_distrib, mul_sum]
    congr 1
    exact sum_comm
  have h3 : ∑ i : Fin (n + k), u i * ∑ j, Q i j ≤ ∑ i : Fin (n + k), u i := sum_le_sum fun i _ => mul_le_of_le_one_right (hu0 i) (hr i)
  have h4 : ∑ j : Fin n, pot A B (n + k) j * ∑ i, Q i j ≤ ∑ j : Fin n, pot A B (n + k) j := sum_le_sum fun j _ => mul_le_of_le_one_right (pot_nonneg hA0 hBa _) (hc j)
  have h5 : ∑ i : Fin (n + k), u i = ∑ j : Fin n, u j := by
    rw [Fin.sum_univ_add]
    have : ∑ i : Fin k, u (Fin.natAdd n i : Fin (n + k)) = 0 := sum_eq_zero fun i _ => huz _ (by simp)
    rw [this, add_zero]
    rfl
  have h6 : (∑ j : Fin n, u j) + ∑ j : Fin n, pot A B (n + k) j = ∑ j : Fin n, a (Fin.castAdd k j) * b j := by
    rw [← sum_add_distrib]
    refine sum_congr rfl fun j _ => ?_
    rw [hu, ← eB j, ← eA (Fin.castAdd k j)]
    simp
  linarith

end Rearrange

section Joint

variable {D E : Type*} [Fintype D] [DecidableEq D] [Fintype E] [DecidableEq E]

theorem joint_quad {A : Matrix D D ℝ} {B : Matrix E E ℝ} {K : Matrix D E ℝ} (h : IsJointCov A B K) (x : D → ℝ) (y : E → ℝ) :
    0 ≤ x ⬝ᵥ A *ᵥ x + 2 * (x ⬝ᵥ K *ᵥ y) + y ⬝ᵥ B *ᵥ y := by
  have := h.dotProduct_mulVec_nonneg (Sum.elim x y)
  rw [fromBlocks_mulVec, star_trivial, Sum.elim_comp_inl, Sum.elim_comp_inr, sumElim_dotProduct_sumElim, dotProduct_add, dotProduct_add] at this
  have e1 : y ⬝ᵥ Kᵀ *ᵥ x = x ⬝ᵥ K *ᵥ y := by rw [mulVec_transpose, dotProduct_comm, dotProduct_mulVec]
  linarith

variable {a : D → ℝ} {b : E → ℝ} {K : Matrix D E ℝ}

theorem diag_row (h : IsJointCov (diagonal a) (diagonal b) K) (i : D) (y : E → ℝ) : 0 ≤ a i + 2 * (∑ j, K i j * y j) + ∑ j, b j * y j ^ 2 := by
  have := joint_quad h (Pi.single i 1) y
  rw [single_one_dotProduct, single_one_dotProduct, mulVec_single_one, col_apply, diagonal_apply_eq] at this
  refine this.trans (le_of_eq ?_)
  congr 1
  simp only [dotProduct, mulVec_diagonal]
  exact sum_congr rfl fun j _ => by ring

theorem diag_zero (h : IsJointCov (diagonal a) (diagonal b) K) {i : D} {j : E} (hb : b j = 0) : K i j = 0 := by
  by_contra hk
  have := diag_row h i (Pi.single j (-(a i + 1) / (2 * K i j)))
  have e1 : ∑ j', K i j' * (Pi.single j (-(a i + 1) / (2 * K i j)) : E → ℝ) j' = K i j * (-(a i + 1) / (2 * K i j)) := by
    rw [sum_eq_single j (fun j' _ hj => by rw [Pi.single_eq_of_ne hj, mul_zero]) (fun hj => absurd (mem_univ j) hj), Pi.single_eq_same]
  have e2 : ∑ j', b j' * (Pi.single j (-(a i + 1) / (2 * K i j)) : E → ℝ) j' ^ 2 = 0 := by
    refine sum_eq_zero fun j' _ => ?_
    by_cases hj : j' = j
    · subst hj; rw [hb, zero_mul]
    · rw [Pi.single_eq_of_ne hj]; ring
  rw [e1, e2] at this
  have e3 : 2 * (K i j * (-(a i + 1) / (2 * K i j))) = -(a i + 1) := by field_simp
  linarith

theorem diag_row_sum (h : IsJointCov (diagonal a) (diagonal b) K) (i : D) : ∑ j, K i j ^ 2 / b j ≤ a i := by
  have := diag_row h i fun j => -(K i j / b j)
  have e1 : ∑ j, K i j * -(K i j / b j) = -∑ j, K i j ^ 2 / b j := by
    rw [← sum_neg_distrib]; exact sum_congr rfl fun j _ => by ring
  have e2 : ∑ j, b j * (-(K i j / b j)) ^ 2 = ∑ j, K i j ^ 2 / b j := by
    refine sum_congr rfl fun j _ => ?_
    by_cases hb : b j = 0
    · rw [hb]; simp
    · field_simp
  rw [e1, e2] at this
  linarith

theorem diag_nonneg (h : IsJointCov (diagonal a) (diagonal b) K) (i : D) : 0 ≤ a i := by
  have := diag_row h i 0
  simpa using this

/-- The squared Frobenius norm of a cross-covariance of two sorted diagonal covariances. -/
theorem frob_cross_le {n k : ℕ} {a : Fin (n + k) → ℝ} {b : Fin n → ℝ} {K : Matrix (Fin (n + k)) (Fin n) ℝ} (h : IsJointCov (diagonal a) (diagonal b) K) (ha : Antitone a) (hb : Antitone b) :
    ∑ i, ∑ j, K i j ^ 2 ≤ ∑ j : Fin n, a (Fin.castAdd k j) * b j := by
  have h' := joint_swap h
  have ha0 := diag_nonneg h
  have hb0 := diag_nonneg h'
  have hK : ∀ i j, K i j ^ 2 = a i * b j * (K i j ^ 2 / (a i * b j)) := by
    intro i j
    by_cases hz : a i * b j = 0
    · rcases mul_eq_zero.1 hz with hz' | hz'
      · rw [show K i j = Kᵀ j i from rfl, diag_zero h' hz']; simp
      · rw [diag_zero h hz']; simp
    · rw [mul_div_cancel₀ _ hz]
  have hdiv : ∀ (x c : ℝ), 0 ≤ c → x ≤ c → x / c ≤ 1 := by
    intro x c hc hx
    rcases hc.eq_or_lt with rfl | hc'
    · simp
    · exact (div_le_one hc').2 hx
  have := substochastic_le ha hb ha0 hb0 (Q := fun i j => K i j ^ 2 / (a i * b j)) (fun i j => div_nonneg (sq_nonneg _) (mul_nonneg (ha0 i) (hb0 j)))
    (fun i => by
      have e1 : ∑ j, K i j ^ 2 / (a i * b j) = (∑ j, K i j ^ 2 / b j) / a i := by
        rw [sum_div]; exact sum_congr rfl fun j _ => by rw [div_div, mul_comm]
      rw [e1]
      exact hdiv _ _ (ha0 i) (diag_row_sum h i))
    (fun j => by
      have e1 : ∑ i, K i j ^ 2 / (a i * b j) = (∑ i, K i j ^ 2 / a i) / b j := by
        rw [sum_div]; exact sum_congr rfl fun i _ => by rw [div_div]
      rw [e1]
      exact hdiv _ _ (hb0 j) (diag_row_sum h' j))
  refine le_trans (le_of_eq ?_) this
  exact sum_congr rfl fun i _ => sum_congr rfl fun j _ => hK i j

/-- Orthogonal changes of basis of a joint covariance. -/
theorem joint_rotate {A : Matrix D D ℝ} {B : Matrix E E ℝ} {K : Matrix D E ℝ} (h : IsJointCov A B K) (U : Matrix D D ℝ) (V : Matrix E E ℝ) :
    IsJointCov (U * A * Uᵀ) (V * B * Vᵀ) (U * K * Vᵀ) := by
  unfold IsJointCov at *
  have h1 := psd_conj (D := D ⊕ E) h (fromBlocks U 0 0 V)
  have e1 : fromBlocks U 0 0 V * fromBlocks A K Kᵀ B * (fromBlocks U 0 0 V)ᵀ = fromBlocks (U * A * Uᵀ) (U * K * Vᵀ) (U * K * Vᵀ)ᵀ (V * B * Vᵀ) := by
    rw [fromBlocks_transpose, fromBlocks_multiply, fromBlocks_multiply]
    simp [transpose_mul, Matrix.mul_assoc]
  rwa [e1] at h1

theorem sum_sq_trace (K : Matrix D E ℝ) : ∑ i, ∑ j, K i j ^ 2 = trace (K * Kᵀ) := by
  simp only [trace, diag_apply, mul_apply, transpose_apply, pow_two]

theorem sum_sq_rotate (K : Matrix D E ℝ) {U : Matrix D D ℝ} {V : Matrix E E ℝ} (hU : Uᵀ * U = 1) (hV : Vᵀ * V = 1) : ∑ i, ∑ j, (U * K * Vᵀ) i j ^ 2 = ∑ i, ∑ j, K i j ^ 2 := by
  rw [sum_sq_trace, sum_sq_trace, transpose_mul, transpose_mul, transpose_transpose, show U * K * Vᵀ * (V * (Kᵀ * Uᵀ)) = U * (K * ((Vᵀ * V) * (Kᵀ * Uᵀ))) by simp only [Matrix.mul_assoc], hV,
    Matrix.one_mul, trace_mul_comm, show K * (Kᵀ * Uᵀ) * U = K * Kᵀ * (Uᵀ * U) by simp only [Matrix.mul_assoc], hU, Matrix.mul_one]

theorem sum_sq_diag (a : D → ℝ) : ∑ i, ∑ j, (diagonal a) i j ^ 2 = ∑ i, a i ^ 2 := by
  refine sum_congr rfl fun i _ => ?_
  rw [sum_eq_single i (fun j _ hj => by rw [diagonal_apply_ne _ hj.symm]; ring) (fun h => absurd (mem_univ i) h), diagonal_apply_eq]

theorem orth_comm {U : Matrix D D ℝ} (h : Uᵀ * U = 1) : U * Uᵀ = 1 := mul_eq_one_comm.1 h

end Joint

section Value

variable {n k : ℕ} {es : EighDesc (n + k)} {et : EighDesc n} {Cs : Matrix (Fin (n + k)) (Fin (n + k)) ℝ} {Ct : Matrix (Fin n) (Fin n) ℝ}

/-- The number under the root. -/
noncomputable def ggwSq (ds : Fin (n + k) → ℝ) (dt : Fin n → ℝ) : ℝ :=
  4 * ((∑ i, ds i) - ∑ i, dt i) ^ 2 + 8 * (∑ i : Fin n, (ds (Fin.castAdd k i) - dt i) ^ 2) + 8 * ∑ i : Fin k, ds (Fin.natAdd n i) ^ 2

theorem ggwSq_eq (ds : Fin (n + k) → ℝ) (dt : Fin n → ℝ) :
    ggwSq ds dt = 4 * ((∑ i, ds i) - ∑ i, dt i) ^ 2 + 8 * (∑ i, ds i ^ 2) + 8 * (∑ i, dt i ^ 2) - 16 * ∑ i : Fin n, ds (Fin.castAdd k i) * dt i := by
  unfold ggwSq
  rw [Fin.sum_univ_add (f := fun i => ds i ^ 2)]
  have : ∑ i : Fin n, (ds (Fin.castAdd k i) - dt i) ^ 2 = (∑ i : Fin n, ds (Fin.castAdd k i) ^ 2) - 2 * (∑ i : Fin n, ds (Fin.castAdd k i) * dt i) + ∑ i : Fin n, dt i ^ 2 := by
    rw [mul_sum, ← sum_sub_distrib, ← sum_add_distrib]
    exact sum_congr rfl fun i _ => by ring
  rw [this]
  ring

theorem ggwSq_nonneg (ds : Fin (n + k) → ℝ) (dt : Fin n → ℝ) : 0 ≤ ggwSq ds dt := by unfold ggwSq; positivity

theorem desc_diag {n : ℕ} {e : EighDesc n} (he : e.Ok) {C : Matrix (Fin n) (Fin n) ℝ} (hC : Cᵀ = C) : (e.vecs C)ᵀ * C * e.vecs C = diagonal (e.vals C) := by
  obtain ⟨h1, h2, -⟩ := he C hC
  obtain ⟨V, hV⟩ : ∃ V, V = e.vecs C := ⟨_, rfl⟩
  obtain ⟨L, hL⟩ : ∃ L, L = diagonal (e.vals C) := ⟨_, rfl⟩
  rw [← hV] at h1 h2 ⊢
  rw [← hL] at h2 ⊢
  rw [← h2, show Vᵀ * (V * L * Vᵀ) * V = (Vᵀ * V) * L * (Vᵀ * V) by simp only [Matrix.mul_assoc], h1, Matrix.one_mul, Matrix.mul_one]

theorem desc_nonneg {n : ℕ} {e : EighDesc n} (he : e.Ok) {C : Matrix (Fin n) (Fin n) ℝ} (hC : C.PosSemidef) (i : Fin n) : 0 ≤ e.vals C i := by
  have hp := psd_conj hC (e.vecs C)ᵀ
  rw [transpose_transpose, desc_diag he (psd_t hC)] at hp
  exact posSemidef_diagonal_iff.1 hp i

theorem desc_trace {n : ℕ} {e : EighDesc n} (he : e.Ok) {C : Matrix (Fin n) (Fin n) ℝ} (hC : Cᵀ = C) : trace C = ∑ i, e.vals C i := by
  obtain ⟨h1, h2, -⟩ := he C hC
  conv_lhs => rw [← h2]
  rw [trace_mul_comm, ← Matrix.mul_assoc, h1, Matrix.one_mul, trace_diagonal]

theorem desc_sq {n : ℕ} {e : EighDesc n} (he : e.Ok) {C : Matrix (Fin n) (Fin n) ℝ} (hC : Cᵀ = C) : ∑ i, ∑ j, C i j ^ 2 = ∑ i, e.vals C i ^ 2 := by
  obtain ⟨h1, h2, -⟩ := he C hC
  rw [← sum_sq_diag, ← sum_sq_rotate (diagonal (e.vals C)) h1 h1, h2]

theorem ggw_lower (hes : es.Ok) (het : et.Ok) (hs : Cs.PosSemidef) (ht : Ct.PosSemidef) {K : Matrix (Fin (n + k)) (Fin n) ℝ} (hK : IsJointCov Cs Ct K) :
    ggwSq (es.vals Cs) (et.vals Ct) ≤ ggwCost Cs Ct K := by
  obtain ⟨u1, u2, u3⟩ := hes Cs (psd_t hs)
  obtain ⟨v1, v2, v3⟩ := het Ct (psd_t ht)
  have hr := joint_rotate hK (es.vecs Cs)ᵀ (et.vecs Ct)ᵀ
  rw [transpose_transpose, transpose_transpose, desc_diag hes (psd_t hs), desc_diag het (psd_t ht)] at hr
  have h1 := frob_cross_le hr u3 v3
  have h2 := sum_sq_rotate K (U := (es.vecs Cs)ᵀ) (V := (et.vecs Ct)ᵀ) (by rw [transpose_transpose]; exact orth_comm u1) (by rw [transpose_transpose]; exact orth_comm v1)
  rw [transpose_transpose] at h2
  rw [h2] at h1
  rw [ggwSq_eq]
  unfold ggwCost
  rw [desc_trace hes (psd_t hs), desc_trace het (psd_t ht), desc_sq hes (psd_t hs), desc_sq het (psd_t ht)]
  linarith

/-- The rectangular block with `c` on its diagonal. -/
def rectDiag (k : ℕ) {n : ℕ} (c : Fin n → ℝ) : Matrix (Fin (n + k)) (Fin n) ℝ := fun i j => Fin.addCases (fun i' => if i' = j then c i' else 0) (fun _ => 0) i

theorem rectDiag_sq (c : Fin n → ℝ) : ∑ i, ∑ j, rectDiag k c i j ^ 2 = ∑ j, c j ^ 2 := by
  rw [Fin.sum_univ_add]
  simp [rectDiag, Fin.addCases_left, Fin.addCases_right, ite_pow]

theorem diag_mul_rect (a : Fin (n + k) → ℝ) (c : Fin n → ℝ) : diagonal a * rectDiag k c = rectDiag k fun j => a (Fin.castAdd k j) * c j := by
  ext i j
  rw [diagonal_mul]
  refine Fin.addCases (fun i' => ?_) (fun i' => ?_) i
  · simp only [rectDiag, Fin.addCases_left]; split <;> simp
  · simp [rectDiag, Fin.addCases_right]

theorem rect_gram (c c' : Fin n → ℝ) : (rectDiag k c)ᵀ * rectDiag k c' = diagonal fun j => c j * c' j := by
  ext i j
  rw [mul_apply, Fin.sum_univ_add]
  simp only [transpose_apply, rectDiag, Fin.addCases_left, Fin.addCases_right, mul_zero, sum_const_zero, add_zero]
  by_cases hij : i = j
  · subst hij; simp
  · rw [diagonal_apply_ne _ hij]
    refine sum_eq_zero fun l _ => ?_
    by_cases h1 : l = i
    · rw [if_neg (fun h => hij (h1.symm.trans h)), mul_zero]
    · rw [if_neg h1, zero_mul]

theorem ggw_attained (hes : es.Ok) (het : et.Ok) (hs : Cs.PosSemidef) (ht : Ct.PosSemidef) : ∃ K, IsJointCov Cs Ct K ∧ ggwSq (es.vals Cs) (et.vals Ct) = ggwCost Cs Ct K := by
  obtain ⟨u1, u2, u3⟩ := hes Cs (psd_t hs)
  obtain ⟨v1, v2, v3⟩ := het Ct (psd_t ht)
  obtain ⟨R, hR⟩ : ∃ R : Matrix (Fin (n + k)) (Fin (n + k)) ℝ, R = diagonal fun i => Real.sqrt (es.vals Cs i) := ⟨_, rfl⟩
  obtain ⟨Y, hY⟩ : ∃ Y : Matrix (Fin (n + k)) (Fin n) ℝ, Y = rectDiag k fun j => Real.sqrt (et.vals Ct j) := ⟨_, rfl⟩
  have hRR : R * Rᵀ = diagonal (es.vals Cs) := by
    rw [hR, diagonal_transpose, diagonal_mul_diagonal]
    congr 1; funext i; exact Real.mul_self_sqrt (desc_nonneg hes hs i)
  have hYY : Yᵀ * Yᵀᵀ = diagonal (et.vals Ct) := by
    rw [transpose_transpose, hY, rect_gram]
    congr 1; funext i; exact Real.mul_self_sqrt (desc_nonneg het ht i)
  have g := joint_gram R Yᵀ
  rw [hRR, hYY] at g
  have g2 := joint_rotate g (es.vecs Cs) (et.vecs Ct)
  rw [u2, v2] at g2
  refine ⟨_, g2, ?_⟩
  rw [ggwSq_eq]
  unfold ggwCost
  rw [desc_trace hes (psd_t hs), desc_trace het (psd_t ht), desc_sq hes (psd_t hs), desc_sq het (psd_t ht), sum_sq_rotate _ u1 v1, transpose_transpose, hR, hY, diag_mul_rect, rectDiag_sq]
  congr 2
  refine sum_congr rfl fun j _ => ?_
  rw [mul_pow, Real.sq_sqrt (desc_nonneg hes hs _), Real.sq_sqrt (desc_nonneg het ht _)]

theorem ggwBlock_eq (sign : Fin n → ℝ) (ds : Fin (n + k) → ℝ) (dt : Fin n → ℝ) : ggwBlock sign ds dt = rectDiag k fun j => sign j * Real.sqrt (dt j) / Real.sqrt (ds (Fin.castAdd k j)) := rfl

theorem ggw_push (hes : es.Ok) (het : et.Ok) (hs : Cs.PosDef) (ht : Ct.PosSemidef) (sign : Fin n → ℝ) (mus : Fin (n + k) → ℝ) (mt : Fin n → ℝ) :
    let A := (ggwMap es et sign mus mt Cs Ct).1
    Aᵀ * Cs * A = et.vecs Ct * diagonal (fun j => sign j ^ 2 * et.vals Ct j) * (et.vecs Ct)ᵀ := by
  obtain ⟨u1, u2, u3⟩ := hes Cs (psd_t hs.posSemidef)
  have hpos : ∀ i, 0 < es.vals Cs i := by
    intro i
    have hp : (diagonal (es.vals Cs)).PosDef := by
      rw [(PosSemidef.diagonal (desc_nonneg hes hs.posSemidef)).posDef_iff_isUnit, ← desc_diag hes (psd_t hs.posSemidef)]
      refine (IsUnit.mul ?_ hs.isUnit).mul ?_
      · exact IsUnit.of_mul_eq_one _ u1
      · exact IsUnit.of_mul_eq_one _ (orth_comm u1)
    exact posDef_diagonal_iff.1 hp i
  simp only [ggwMap]
  obtain ⟨G, hG⟩ : ∃ G, G = ggwBlock sign (es.vals Cs) (et.vals Ct) := ⟨_, rfl⟩
  rw [← hG, transpose_mul, transpose_mul, transpose_transpose,
    show et.vecs Ct * (Gᵀ * (es.vecs Cs)ᵀ) * Cs * (es.vecs Cs * G * (et.vecs Ct)ᵀ) = et.vecs Ct * (Gᵀ * (((es.vecs Cs)ᵀ * Cs * es.vecs Cs) * G)) * (et.vecs Ct)ᵀ by simp only [Matrix.mul_assoc],
    desc_diag hes (psd_t hs.posSemidef), hG, ggwBlock_eq, diag_mul_rect, rect_gram]
  congr 3
  funext j
  have h1 := Real.mul_self_sqrt (hpos (Fin.castAdd k j)).le
  have h2 := Real.mul_self_sqrt (desc_nonneg het ht j)
  have h3 : Real.sqrt (es.vals Cs (Fin.castAdd k j)) ≠ 0 := (Real.sqrt_pos.2 (hpos _)).ne'
  obtain ⟨r, hr⟩ : ∃ r, r = Real.sqrt (es.vals Cs (Fin.castAdd k j)) := ⟨_, rfl⟩
  obtain ⟨q, hq⟩ : ∃ q, q = Real.sqrt (et.vals Ct j) := ⟨_, rfl⟩
  rw [← hr] at h1 h3 ⊢
  rw [← hq] at h2 ⊢
  rw [← h1, ← h2]
  field_simp

end Value

end POT.Gaussian
