import Verif.Model.Ewca
import Verif.Lemmas.Prw

/-! # Lemmas for entropic Wasserstein component analysis -/

set_option linter.unusedSectionVars false

namespace POT.Ewca

open Finset Matrix Spec POT.Stiefel

variable {n d k : ℕ} {W : Type*}

theorem costM_eq (X : Matrix (Fin n) (Fin d) ℝ) (U : Matrix (Fin d) (Fin k) ℝ) (i j : Fin n) : costM X U i j = reconSq U (X i) (X j) := by
  unfold costM reconSq
  refine sum_congr rfl fun e _ => ?_
  congr 2
  rw [mul_apply]
  refine sum_congr rfl fun c _ => ?_
  rw [transpose_apply, mul_apply, mul_comm]
  congr 1
  exact sum_congr rfl fun _ _ => mul_comm _ _

theorem center_eq (X : Matrix (Fin n) (Fin d) ℝ) (i : Fin n) (e : Fin d) : center X i e = X i e - featMean X e := by
  unfold center featMean
  rw [of_apply, Fintype.card_fin]

theorem costM_split {X : Matrix (Fin n) (Fin d) ℝ} {U : Matrix (Fin d) (Fin k) ℝ} (hU : Uᵀ * U = 1) (i j : Fin n) :
    costM X U i j = X i ⬝ᵥ X i - 2 * ((X * U) i ⬝ᵥ (X * U) j) + (X * U) j ⬝ᵥ (X * U) j := by
  have e : costM X U i j = (X i - U *ᵥ (X * U) j) ⬝ᵥ (X i - U *ᵥ (X * U) j) := by
    unfold costM dotProduct
    refine sum_congr rfl fun e _ => ?_
    have : ((X * U) * Uᵀ) j e = (U *ᵥ (X * U) j) e := by
      rw [mul_apply, mulVec, dotProduct]
      exact sum_congr rfl fun c _ => by rw [transpose_apply, mul_comm]
    rw [this, Pi.sub_apply, sq]
  have h1 : X i ⬝ᵥ (U *ᵥ (X * U) j) = (X * U) i ⬝ᵥ (X * U) j := by rw [dotProduct_mulVec]; rfl
  rw [e, sub_dotProduct, dotProduct_sub, dotProduct_sub, isometry hU, h1, dotProduct_comm (U *ᵥ (X * U) j) (X i), h1]
  ring

theorem trace_gram (Z : Matrix (Fin n) (Fin k) ℝ) (P : Matrix (Fin n) (Fin n) ℝ) : (Zᵀ * P * Z).trace = ∑ i, ∑ j, P i j * (Z i ⬝ᵥ Z j) := by
  rw [trace_mul_comm, ← Matrix.mul_assoc, trace]
  have : ∀ j, (Z * Zᵀ * P).diag j = ∑ i, P i j * (Z i ⬝ᵥ Z j) := by
    intro j
    rw [diag_apply, mul_apply]
    refine sum_congr rfl fun i _ => ?_
    have : (Z * Zᵀ) j i = Z i ⬝ᵥ Z j := by rw [mul_apply, dotProduct]; exact sum_congr rfl fun c _ => by rw [transpose_apply, mul_comm]
    rw [this, mul_comm]
  rw [sum_congr rfl fun j _ => this j, sum_comm]

theorem piSym_symm (P : Matrix (Fin n) (Fin n) ℝ) : (piSym P)ᵀ = piSym P := by
  unfold piSym
  rw [transpose_smul, transpose_add, transpose_transpose, add_comm]

theorem trace_piSym (Z : Matrix (Fin n) (Fin k) ℝ) (P : Matrix (Fin n) (Fin n) ℝ) : (Zᵀ * piSym P * Z).trace = ∑ i, ∑ j, P i j * (Z i ⬝ᵥ Z j) := by
  have h : (Zᵀ * Pᵀ * Z).trace = (Zᵀ * P * Z).trace := by
    rw [← trace_transpose, transpose_mul, transpose_mul, transpose_transpose, transpose_transpose, Matrix.mul_assoc]
  unfold piSym
  rw [Matrix.mul_smul, smul_mul, Matrix.mul_add, Matrix.add_mul, trace_smul, trace_add, h, trace_gram, smul_eq_mul]
  ring

theorem bcdS_symm (X : Matrix (Fin n) (Fin d) ℝ) (P : Matrix (Fin n) (Fin n) ℝ) : (bcdS X P)ᵀ = bcdS X P := by
  unfold bcdS
  rw [transpose_mul, transpose_mul, transpose_transpose, transpose_sub, transpose_smul, transpose_smul, transpose_one, piSym_symm, Matrix.mul_assoc]

/-- **The transported cost is a constant minus a trace.** -/
theorem cost_eq {X : Matrix (Fin n) (Fin d) ℝ} {P : Matrix (Fin n) (Fin n) ℝ} (hcol : ∀ j, ∑ i, P i j = 1 / n) {U : Matrix (Fin d) (Fin k) ℝ} (hU : Uᵀ * U = 1) :
    cost (costM X U) P = (∑ i, (∑ j, P i j) * (X i ⬝ᵥ X i)) - (Uᵀ * bcdS X P * U).trace := by
  obtain ⟨Z, hZ⟩ : ∃ Z, Z = X * U := ⟨_, rfl⟩
  have e1 : Uᵀ * bcdS X P * U = (2 : ℝ) • (Zᵀ * piSym P * Z) - (1 / (n : ℝ)) • (Zᵀ * Z) := by
    have : Uᵀ * bcdS X P * U = Zᵀ * ((2 : ℝ) • piSym P - (1 / (n : ℝ)) • 1) * Z := by
      rw [hZ, transpose_mul]; unfold bcdS; simp only [Matrix.mul_assoc]
    rw [this, Matrix.mul_sub, Matrix.sub_mul, Matrix.mul_smul, Matrix.mul_smul, smul_mul, smul_mul, Matrix.mul_one]
  have e2 : cost (costM X U) P = ∑ i, (∑ j, P i j) * (X i ⬝ᵥ X i) - 2 * (∑ i, ∑ j, P i j * (Z i ⬝ᵥ Z j)) + ∑ j, (∑ i, P i j) * (Z j ⬝ᵥ Z j) := by
    have h2 : ∑ j, (∑ i, P i j) * (Z j ⬝ᵥ Z j) = ∑ i, ∑ j, P i j * (Z j ⬝ᵥ Z j) := by
      rw [sum_comm]; exact sum_congr rfl fun j _ => by rw [sum_mul]
    unfold cost
    rw [h2, mul_sum, ← sum_sub_distrib, ← sum_add_distrib]
    refine sum_congr rfl fun i _ => ?_
    rw [sum_mul, mul_sum, ← sum_sub_distrib, ← sum_add_distrib]
    refine sum_congr rfl fun j _ => ?_
    rw [costM_split hU, ← hZ]; ring
  rw [e1, trace_sub, trace_smul, trace_smul, trace_piSym, trace_self_rows, e2]
  simp only [hcol, smul_eq_mul, mul_sum]
  ring

/-- **Block coordinate descent.**  The top eigenvectors reach the least transported cost over all projections. -/
theorem bcd_best {e : Eigh d} (he : e.Ok) (hk : k ≤ d) {X : Matrix (Fin n) (Fin d) ℝ} {P : Matrix (Fin n) (Fin n) ℝ} (hcol : ∀ j, ∑ i, P i j = 1 / n) :
    (topCols hk (e.vecs (bcdS X P)))ᵀ * topCols hk (e.vecs (bcdS X P)) = 1 ∧ ∀ U : Matrix (Fin d) (Fin k) ℝ, Uᵀ * U = 1 → cost (costM X (topCols hk (e.vecs (bcdS X P)))) P ≤ cost (costM X U) P := by
  obtain ⟨h1, h2, h3⟩ := he _ (bcdS_symm X P)
  have hinj : Function.Injective fun c : Fin k => Fin.rev (Fin.castLE hk c) := fun a b h => Fin.castLE_injective hk (Fin.rev_injective h)
  have hO : (topCols hk (e.vecs (bcdS X P)))ᵀ * topCols hk (e.vecs (bcdS X P)) = 1 := cols_orth h1 hinj
  refine ⟨hO, fun U hU => ?_⟩
  rw [cost_eq hcol hO, cost_eq hcol hU]
  have key : ∃ t, (∀ c : Fin k, t ≤ e.vals (bcdS X P) (Fin.rev (Fin.castLE hk c))) ∧ ∀ i, i ∉ Set.range (fun c : Fin k => Fin.rev (Fin.castLE hk c)) → e.vals (bcdS X P) i ≤ t := by
    rcases Nat.eq_zero_or_pos k with h0 | h0
    · refine ⟨∑ i, |e.vals (bcdS X P) i|, fun c => ?_, fun i _ => ?_⟩
      · exact absurd c.2 (by omega)
      · exact (le_abs_self _).trans (single_le_sum (f := fun i => |e.vals (bcdS X P) i|) (fun _ _ => abs_nonneg _) (mem_univ i))
    · refine ⟨e.vals (bcdS X P) (Fin.rev (Fin.castLE hk ⟨k - 1, by omega⟩)), fun c => h3 ?_, fun i hi => h3 ?_⟩
      · rw [Fin.rev_le_rev, Fin.le_def]
        simp only [Fin.val_castLE]
        omega
      · by_contra hc
        refine hi ⟨⟨d - 1 - i, ?_⟩, ?_⟩
        · rw [Fin.le_def, Fin.val_rev] at hc
          simp only [Fin.val_castLE] at hc
          omega
        · ext
          simp only [Fin.val_rev, Fin.val_castLE]
          omega
  obtain ⟨t, ht1, ht2⟩ := key
  have := ky_fan h1 h2 hinj t ht1 ht2 hU
  unfold topCols
  linarith

/-- least eigenvalue as a bound -/
theorem lambdaPi_le {e : Eigh n} (he : e.Ok) (hn : 0 < n) (P : Matrix (Fin n) (Fin n) ℝ) (y : Fin n → ℝ) : lambdaPi e hn P * (y ⬝ᵥ y) ≤ y ⬝ᵥ (piSym P *ᵥ y) := by
  obtain ⟨h1, h2, h3⟩ := he _ (piSym_symm P)
  have h1' : e.vecs (piSym P) * (e.vecs (piSym P))ᵀ = 1 := mul_eq_one_comm.1 h1
  have e1 : y ⬝ᵥ y = ((e.vecs (piSym P))ᵀ *ᵥ y) ⬝ᵥ ((e.vecs (piSym P))ᵀ *ᵥ y) := by
    rw [quad_eq, transpose_transpose, h1', one_mulVec]
  have e2 : y ⬝ᵥ (piSym P *ᵥ y) = ∑ i, e.vals (piSym P) i * ((e.vecs (piSym P))ᵀ *ᵥ y) i ^ 2 := by
    conv_lhs => rw [h2]
    rw [← mulVec_mulVec, ← mulVec_mulVec, dotProduct_mulVec, ← mulVec_transpose, dotProduct]
    exact sum_congr rfl fun i _ => by rw [mulVec_diagonal]; ring
  rw [e1, e2, dotProduct, mul_sum]
  refine sum_le_sum fun i _ => ?_
  rw [← sq]
  exact mul_le_mul_of_nonneg_right (h3 (Fin.le_def.2 (Nat.zero_le _))) (sq_nonneg _)

/-- the matrix applied by one majorisation-minimisation step, as a shift of `S` -/
theorem mmR_eq (hn : 0 < n) (X : Matrix (Fin n) (Fin d) ℝ) (P : Matrix (Fin n) (Fin n) ℝ) (lp lam : ℝ) (U : Matrix (Fin d) (Fin k) ℝ) :
    mmR X P lp lam U = -((bcdS X P + (if 0 < 1 - 2 * n * lp then (1 - 2 * n * lp) * lam else 0) • 1) * U) := by
  have hn' : (n : ℝ) ≠ 0 := by exact_mod_cast hn.ne'
  have e1 : bcdS X P * U = (2 : ℝ) • (Xᵀ * (piSym P * (X * U))) - (1 / (n : ℝ)) • (Xᵀ * (X * U)) := by
    unfold bcdS
    rw [Matrix.mul_sub, Matrix.sub_mul, Matrix.sub_mul, Matrix.mul_smul, Matrix.mul_smul, Matrix.mul_one, smul_mul, smul_mul, smul_mul, smul_mul]
    simp only [Matrix.mul_assoc]
  have e2 : (1 - 2 * (n : ℝ) * lp) * (1 / (n : ℝ)) = 1 / n - 2 * lp := by field_simp
  unfold mmR
  rw [Matrix.add_mul, e1, smul_mul, Matrix.one_mul]
  dsimp only
  split_ifs
  · rw [smul_sub, smul_smul, smul_smul, e2, sub_smul]; abel
  · rw [smul_smul, e2, sub_smul, zero_smul]; abel

theorem shift_psd {e : Eigh n} (he : e.Ok) (hn : 0 < n) (X : Matrix (Fin n) (Fin d) ℝ) (P : Matrix (Fin n) (Fin n) ℝ) {lam : ℝ} (hlam : ∀ x : Fin d → ℝ, (X *ᵥ x) ⬝ᵥ (X *ᵥ x) ≤ n * (lam * (x ⬝ᵥ x))) :
    (bcdS X P + (if 0 < 1 - 2 * n * lambdaPi e hn P then (1 - 2 * n * lambdaPi e hn P) * lam else 0) • 1).PosSemidef := by
  have hn' : (0 : ℝ) < n := by exact_mod_cast hn
  refine PosSemidef.of_dotProduct_mulVec_nonneg ?_ fun x => ?_
  · rw [IsHermitian, conjTranspose_eq_transpose_of_trivial, transpose_add, bcdS_symm, transpose_smul, transpose_one]
  have e1 : x ⬝ᵥ (bcdS X P *ᵥ x) = 2 * ((X *ᵥ x) ⬝ᵥ (piSym P *ᵥ (X *ᵥ x))) - 1 / n * ((X *ᵥ x) ⬝ᵥ (X *ᵥ x)) := by
    unfold bcdS
    rw [← mulVec_mulVec, ← mulVec_mulVec, dotProduct_mulVec, vecMul_transpose, sub_mulVec, smul_mulVec, smul_mulVec, one_mulVec, dotProduct_sub, dotProduct_smul, dotProduct_smul, smul_eq_mul, smul_eq_mul]
  have h1 := lambdaPi_le he hn P (X *ᵥ x)
  have h2 := hlam x
  have h0 : 0 ≤ (X *ᵥ x) ⬝ᵥ (X *ᵥ x) := sum_nonneg fun _ _ => mul_self_nonneg _
  rw [star_trivial, add_mulVec, dotProduct_add, e1, smul_mulVec, one_mulVec, dotProduct_smul, smul_eq_mul]
  generalize lambdaPi e hn P = lp at *
  generalize (X *ᵥ x) ⬝ᵥ (X *ᵥ x) = q at *
  generalize (X *ᵥ x) ⬝ᵥ (piSym P *ᵥ (X *ᵥ x)) = r at *
  generalize x ⬝ᵥ x = p at *
  have e3 : 2 * r - 1 / n * q = 2 * (r - lp * q) - (1 - 2 * n * lp) * (q / n) := by field_simp; ring
  have h3 : q / n ≤ lam * p := by rw [div_le_iff₀ hn']; linarith
  have h4 : 0 ≤ q / n := by positivity
  rw [e3]
  split_ifs with ha
  · nlinarith
  · nlinarith

/-- **Majorisation-minimisation.**  One step does not raise the transported cost. -/
theorem mm_descent {qr : Matrix (Fin d) (Fin k) ℝ → Matrix (Fin d) (Fin k) ℝ} (hqr : IsQr qr) {e : Eigh n} (he : e.Ok) (hn : 0 < n) {X : Matrix (Fin n) (Fin d) ℝ} {P : Matrix (Fin n) (Fin n) ℝ} (hcol : ∀ j, ∑ i, P i j = 1 / n)
    {lam : ℝ} (hlam : ∀ x : Fin d → ℝ, (X *ᵥ x) ⬝ᵥ (X *ᵥ x) ≤ n * (lam * (x ⬝ᵥ x))) {U : Matrix (Fin d) (Fin k) ℝ} (hU : Uᵀ * U = 1) :
    cost (costM X (qr (mmR X P (lambdaPi e hn P) lam U))) P ≤ cost (costM X U) P := by
  obtain ⟨hQ, T, hT⟩ := hqr (mmR X P (lambdaPi e hn P) lam U)
  rw [cost_eq hcol hQ, cost_eq hcol hU]
  have hR := hT
  rw [mmR_eq hn, neg_eq_iff_eq_neg, ← mmR_eq hn, ← Matrix.mul_neg] at hR
  have h := subspace_iter (shift_psd he hn X P hlam) hU hQ hR
  rw [Matrix.mul_add, Matrix.add_mul, Matrix.mul_smul, smul_mul, Matrix.mul_one, hU, trace_add, Matrix.mul_add, Matrix.add_mul, Matrix.mul_smul, smul_mul, Matrix.mul_one, hQ, trace_add] at h
  linarith

theorem mmLoop_descent {E : Ext n d k W} (hqr : IsQr E.qr) (he : E.eighN.Ok) (hn : 0 < n) {X : Matrix (Fin n) (Fin d) ℝ} {P : Matrix (Fin n) (Fin n) ℝ} (hcol : ∀ j, ∑ i, P i j = 1 / n)
    {lam : Option ℝ} (hlam : ∀ l, lam = some l → ∀ x : Fin d → ℝ, (X *ᵥ x) ⬝ᵥ (X *ᵥ x) ≤ n * (l * (x ⬝ᵥ x))) (t : ℕ) {U U' : Matrix (Fin d) (Fin k) ℝ} (hU : Uᵀ * U = 1)
    (h : mmLoop E X P (lambdaPi E.eighN hn P) lam t U = some U') : U'ᵀ * U' = 1 ∧ cost (costM X U') P ≤ cost (costM X U) P := by
  induction t generalizing U with
  | zero => cases h; exact ⟨hU, le_rfl⟩
  | succ t ih =>
    unfold mmLoop at h
    split_ifs at h with hc
    obtain ⟨h1, h2⟩ := ih (hqr _).1 h
    refine ⟨h1, h2.trans ?_⟩
    cases lam with
    | some l => exact mm_descent hqr he hn hcol (hlam l rfl) hU
    | none =>
      -- the bound is not used when `alpha` is not positive
      have ha : ¬ 0 < 1 - 2 * n * lambdaPi E.eighN hn P := fun ha => hc ⟨rfl, ha⟩
      have e : mmR X P (lambdaPi E.eighN hn P) ((none : Option ℝ).getD 0) U = mmR X P (lambdaPi E.eighN hn P) ((Xᵀ * X).trace / n) U := by
        unfold mmR
        simp only [if_neg ha]
      rw [e]
      refine mm_descent hqr he hn hcol (fun x => ?_) hU
      have hn' : (n : ℝ) ≠ 0 := by exact_mod_cast hn.ne'
      rw [← mul_assoc, mul_div_cancel₀ _ hn', trace_self_rows, sum_mul]
      refine sum_le_sum fun r _ => ?_
      have := sum_mul_sq_le_sq_mul_sq univ (X r) x
      simp only [mulVec, dotProduct] at this ⊢
      simpa only [sq] using this

open Classical in
theorem loop_succ (f : St n d k W → Option (St n d k W)) (thr : ℝ) (t : ℕ) (s : St n d k W) :
    loop f thr (t + 1) s = if ∀ c, s.crit = some c → thr < c then (f s).bind (loop f thr t) else some s := rfl

/-- splitting a run -/
theorem loop_add (f : St n d k W → Option (St n d k W)) (thr : ℝ) (a b : ℕ) (s : St n d k W) : loop f thr (a + b) s = (loop f thr a s).bind (loop f thr b) := by
  induction a generalizing s with
  | zero => rw [Nat.zero_add]; rfl
  | succ a ih =>
    rw [Nat.succ_add, loop_succ, loop_succ]
    split_ifs with h
    · cases hf : f s with
      | none => rfl
      | some s' => simp only [Option.bind_some]; rw [ih]
    · cases b with
      | zero => rfl
      | succ b => rw [Option.bind_some, loop_succ, if_neg h]

end POT.Ewca
