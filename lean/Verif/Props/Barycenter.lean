import Verif.Lemmas.BaryEnergy
import Verif.Lemmas.ExactEmd
import Mathlib.Algebra.Order.Field.Rat
import Mathlib.Tactic.FinCases

/-!
# C68 – C71: the barycenter solvers of `ot.lp`

* C68: the linear program of `barycenter`.
* C69: `free_support_barycenter`.
* C70: `generalized_free_support_barycenter`.
* C71: `NorthWestMMGluing` and `free_support_barycenter_generic_costs`.
-/

set_option linter.unusedSectionVars false

namespace POT.Props

open Finset Spec Bary

variable {K : Type*} [Field K] [LinearOrder K] [IsStrictOrderedRing K]

/-! ### C68 -/

section
variable {N n : ℕ}

/-- **C68.** For histograms of equal mass (the columns of `A`), any solution of the linear program that `ot.lp.barycenter` builds yields a barycenter: the returned vector can be reached from every histogram, and no other
histogram, whatever plans lead to it, has a smaller weighted sum of transport costs.  The cost of the solution is that sum.  Where the coefficient is positive, the corresponding block of the solution is an optimal plan. -/
theorem C68_barycenter_lp (A : Fin (n + 1) → Fin (N + 1) → K) (hA : ∀ s, ∑ k, A k s = ∑ k, A k 0) (M : Fin (n + 1) → Fin (n + 1) → K) (w : Fin (N + 1) → K) (x : LpVar N n → K)
    (hx : IsLpOptimal (lpC M w) lpA (lpB A) x) :
    IsBarycenter (fun s k => A k s) w M (lpOut x) ∧ (∑ v, lpC M w v * x v = ∑ s, w s * cost M fun k l => x (.inl (s, k, l))) ∧
    ∀ s, 0 < w s → IsOptimal (fun k => A k s) (lpOut x) M fun k l => x (.inl (s, k, l)) := by
  have hf := (lp_feasible_iff A hA x).1 hx.1
  have hbest : ∀ (b' : Fin (n + 1) → K) (P' : Fin (N + 1) → Fin (n + 1) → Fin (n + 1) → K), (∀ s, IsCoupling (fun k => A k s) b' (P' s)) →
      ∑ s, w s * cost M (fun k l => x (.inl (s, k, l))) ≤ ∑ s, w s * cost M (P' s) := by
    intro b' P' hP'
    obtain ⟨y, hy⟩ : ∃ y : LpVar N n → K, y = Sum.elim (fun e => P' e.1 e.2.1 e.2.2) b' := ⟨_, rfl⟩
    have hy2 := (lp_feasible_iff A hA y).2 (by rw [hy]; exact hP')
    have := hx.2 y hy2.1 hy2.2
    rw [lpC_eq, lpC_eq] at this
    rw [hy] at this
    exact this
  refine ⟨⟨_, hf, hbest⟩, lpC_eq M w x, fun s hs => ⟨hf s, fun Q hQ => ?_⟩⟩
  have h1 := hbest (lpOut x) (Function.update (fun s k l => x (.inl (s, k, l))) s Q) (fun t => by
    by_cases hts : t = s
    · subst hts; rw [Function.update_self]; exact hQ
    · rw [Function.update_of_ne hts]; exact hf t)
  rw [← add_sum_erase _ _ (mem_univ s), ← add_sum_erase (a := s) (s := univ) (f := fun t => w t * cost M (Function.update (fun s k l => x (.inl (s, k, l))) s Q t)) (mem_univ s), Function.update_self,
    sum_congr rfl fun t ht => by rw [← Function.update_of_ne (ne_of_mem_erase ht) Q (fun s k l => x (.inl (s, k, l)))]] at h1
  exact le_of_mul_le_mul_left (le_of_add_le_add_right h1) hs

/-- **C68**, converse: the linear program excludes no barycenter, and it is feasible for non-negative histograms of equal mass. -/
theorem C68_barycenter_lp_complete (A : Fin (n + 1) → Fin (N + 1) → K) (hA : ∀ s, ∑ k, A k s = ∑ k, A k 0) (M : Fin (n + 1) → Fin (n + 1) → K) (w : Fin (N + 1) → K) :
    (∀ b, IsBarycenter (fun s k => A k s) w M b → ∃ x, IsLpOptimal (lpC M w) lpA (lpB A) x ∧ lpOut x = b) ∧
    ((∀ k s, 0 ≤ A k s) → ∃ x : LpVar N n → K, (∀ v, 0 ≤ x v) ∧ ∀ e, ∑ v, lpA e v * x v = lpB A e) := by
  refine ⟨?_, fun h0 => ?_⟩
  · rintro b ⟨P, hP, hbest⟩
    refine ⟨Sum.elim (fun e => P e.1 e.2.1 e.2.2) b, ⟨(lp_feasible_iff A hA _).2 hP, fun y hy0 hy => ?_⟩, rfl⟩
    rw [lpC_eq, lpC_eq]
    exact hbest (lpOut y) (fun s k l => y (.inl (s, k, l))) ((lp_feasible_iff A hA y).1 ⟨hy0, hy⟩)
  · choose P hP using fun s => product_coupling (fun k => A k s) (fun k => A k 0) (fun k => h0 k s) (fun k => h0 k 0) (hA s)
    exact ⟨Sum.elim (fun e => P e.1 e.2.1 e.2.2) fun k => A k 0, (lp_feasible_iff A hA _).2 hP⟩

/-- a solution of the linear program of the next theorem -/
def badX : LpVar 1 1 → ℚ := Sum.elim (fun e => ![![![1, 0], ![0, 0]], ![![1, 1], ![0, 0]]] e.1 e.2.1 e.2.2) ![1, 0]

/-- Equal masses are needed, and nothing checks them: for two histograms of masses 1 and 2 the linear program is solved without complaint, and no plan leads from the second histogram to the returned one. -/
theorem C68_unequal_masses_accepted : ∃ (A : Fin 2 → Fin 2 → ℚ) (M : Fin 2 → Fin 2 → ℚ) (w : Fin 2 → ℚ) (x : LpVar 1 1 → ℚ), (∀ k s, 0 ≤ A k s) ∧ IsLpOptimal (lpC M w) lpA (lpB A) x ∧
    ¬ ∃ P, IsCoupling (fun k => A k 1) (lpOut x) P := by
  refine ⟨![![1, 2], ![0, 0]], ![![0, 1], ![1, 0]], ![1 / 2, 1 / 2], badX, ?_, ⟨⟨?_, ?_⟩, ?_⟩, ?_⟩
  · intro k s; fin_cases k <;> fin_cases s <;> simp
  · rintro (⟨s, k, l⟩ | l)
    · fin_cases s <;> fin_cases k <;> fin_cases l <;> simp [badX]
    · fin_cases l <;> simp [badX]
  · rintro (⟨s, k⟩ | l | ⟨s, l⟩)
    · rw [lpA_row, Fin.sum_univ_two]
      fin_cases s <;> fin_cases k <;> simp [badX, lpB] <;> norm_num
    · rw [lpA_col0, Fin.sum_univ_two]
      fin_cases l <;> simp [badX, lpB]
    · rw [lpA_col, Fin.sum_univ_two]
      fin_cases s; fin_cases l; simp [badX, lpB]
  · intro y hy0 hy
    have hr := fun s k => hy (.inl (s, k))
    have hc0 := fun l => hy (.inr (.inl l))
    have hc := hy (.inr (.inr (0, 0)))
    simp only [lpA_row, Fin.sum_univ_two] at hr
    simp only [lpA_col0, Fin.sum_univ_two] at hc0
    rw [lpA_col, Fin.sum_univ_two] at hc
    have h1 := hr 0 0
    have h2 := hr 0 1
    have h3 := hr 1 0
    have h4 := hr 1 1
    have h5 := hc0 0
    simp [lpB] at h1 h2 h3 h4 h5 hc
    rw [lpC_eq, lpC_eq, Fin.sum_univ_two, Fin.sum_univ_two]
    simp only [cost, Fin.sum_univ_two]
    simp [badX]
    have g1 := hy0 (.inl (0, 0, 1))
    have g2 := hy0 (.inl (0, 1, 0))
    have g3 := hy0 (.inl (0, 1, 1))
    have g4 := hy0 (.inl (1, 1, 0))
    have g5 := hy0 (.inl (1, 1, 1))
    norm_num at *
    linarith
  · rintro ⟨P, hP⟩
    have h1 : ∑ k : Fin 2, ∑ l, P k l = 2 := by
      rw [Fin.sum_univ_two, hP.row, hP.row]; simp
    rw [sum_comm, Fin.sum_univ_two, hP.col, hP.col] at h1
    simp [lpOut, badX] at h1

/-- a solution for two unit masses at distance one -/
def goodX : LpVar 1 1 → ℚ := Sum.elim (fun e => ![![![1 / 2, 1 / 2], ![0, 0]], ![![0, 0], ![1 / 2, 1 / 2]]] e.1 e.2.1 e.2.2) ![1 / 2, 1 / 2]

theorem goodX_optimal : IsLpOptimal (lpC ![![0, 1], ![1, 0]] ![1 / 2, 1 / 2]) lpA (lpB ![![1, 0], ![0, 1]]) goodX := by
  refine ⟨⟨?_, ?_⟩, ?_⟩
  · rintro (⟨s, k, l⟩ | l)
    · fin_cases s <;> fin_cases k <;> fin_cases l <;> simp [goodX]
    · fin_cases l <;> simp [goodX]
  · rintro (⟨s, k⟩ | l | ⟨s, l⟩)
    · rw [lpA_row, Fin.sum_univ_two]
      fin_cases s <;> fin_cases k <;> simp [goodX, lpB] <;> norm_num
    · rw [lpA_col0, Fin.sum_univ_two]
      fin_cases l <;> simp [goodX, lpB]
    · rw [lpA_col, Fin.sum_univ_two]
      fin_cases s; fin_cases l; simp [goodX, lpB]
  · intro y hy0 hy
    have hr := fun s k => hy (.inl (s, k))
    have hc0 := fun l => hy (.inr (.inl l))
    have hc := hy (.inr (.inr (0, 0)))
    simp only [lpA_row, Fin.sum_univ_two] at hr
    simp only [lpA_col0, Fin.sum_univ_two] at hc0
    rw [lpA_col, Fin.sum_univ_two] at hc
    have h1 := hr 0 0
    have h2 := hr 0 1
    have h3 := hr 1 0
    have h4 := hr 1 1
    have h5 := hc0 0
    have h6 := hc0 1
    simp [lpB] at h1 h2 h3 h4 h5 h6 hc
    rw [lpC_eq, lpC_eq, Fin.sum_univ_two, Fin.sum_univ_two]
    simp only [cost, Fin.sum_univ_two]
    simp [goodX]
    have g2 := hy0 (.inl (0, 1, 0))
    have g3 := hy0 (.inl (0, 1, 1))
    have g4 := hy0 (.inl (1, 0, 0))
    have g5 := hy0 (.inl (1, 0, 1))
    norm_num at *
    linarith

/-- C68 applies: half of each of two distinct unit masses is a barycenter. -/
example : IsBarycenter (fun s k => (![![1, 0], ![0, 1]] : Fin 2 → Fin 2 → ℚ) k s) ![1 / 2, 1 / 2] ![![0, 1], ![1, 0]] ![1 / 2, 1 / 2] :=
  (C68_barycenter_lp (N := 1) (n := 1) _ (by intro s; fin_cases s <;> simp [Fin.sum_univ_two]) _ _ goodX goodX_optimal).1

end

/-! ### C69 -/

section
variable {N k d : ℕ} {n : Fin N → ℕ}

theorem otValue_of_optimal {I J : Type*} [Fintype I] [Fintype J] {a : I → K} {b : J → K} {M P : I → J → K} (h : IsOptimal a b M P) : IsOtValue a b M (cost M P) :=
  ⟨⟨P, h.1, rfl⟩, by rintro _ ⟨Q, hQ, rfl⟩; exact h.2 Q hQ⟩

theorem sqMat_eq (X : Fin k → Fin d → K) {m : ℕ} (Y : Fin m → Fin d → K) : sqMat X Y = fun i j => sqEuclid (X i) (Y j) := rfl

/-- **C69.** `free_support_barycenter` (exact arithmetic, `emd` optimal, positive weights `b`, coefficients on the simplex).  With `E` the weighted sum of squared 2-Wasserstein distances to the targets (as in the objective of the docstring):
* the energy of the returned positions, plus `min b` times the sum of the recorded squared displacements, is at most the energy of the initial positions; in particular it is never larger;
* so the sum of the displacements is at most `E(X_init) / min b`, whatever `numItermax`;
* all recorded displacements but the last exceed `stopThr`; unless `numItermax` of them were recorded, the last is at most `stopThr`;
* that happens if `numItermax * stopThr * min b` exceeds `E(X_init)`. -/
theorem C69_free_support_barycenter (emd : ∀ s : Fin N, (Fin k → K) → (Fin (n s) → K) → (Fin k → Fin (n s) → K) → (Fin k → Fin (n s) → K)) (Y : ∀ s, Fin (n s) → Fin d → K) (a : ∀ s, Fin (n s) → K) (b : Fin k → K)
    (w : Fin N → K) (hemd : ∀ s C, IsOptimal b (a s) C (emd s b (a s) C)) {β : K} (hβ0 : 0 < β) (hβ : ∀ i, β ≤ b i) (hw0 : ∀ s, 0 ≤ w s) (hw : ∑ s, w s = 1) (numItermax : ℕ) (stopThr : K) (Xinit X : Fin k → Fin d → K)
    (disp : List K) (hrun : freeSupport emd Y a b w numItermax stopThr Xinit = (X, disp)) (v0 v1 : Fin N → K) (hv0 : ∀ s, IsOtValue b (a s) (fun i j => sqEuclid (Xinit i) (Y s j)) (v0 s))
    (hv1 : ∀ s, IsOtValue b (a s) (fun i j => sqEuclid (X i) (Y s j)) (v1 s)) :
    ∑ s, w s * v1 s + β * disp.sum ≤ ∑ s, w s * v0 s ∧ disp.sum ≤ (∑ s, w s * v0 s) / β ∧ ∑ s, w s * v1 s ≤ ∑ s, w s * v0 s ∧
    (∀ x ∈ disp, 0 ≤ x) ∧ (∀ x ∈ disp.dropLast, stopThr < x) ∧ disp.length ≤ numItermax ∧ (disp.length < numItermax → ∃ x, disp.getLast? = some x ∧ x ≤ stopThr) ∧
    (0 ≤ stopThr → ∑ s, w s * v0 s < numItermax * stopThr * β → ∃ x, disp.getLast? = some x ∧ x ≤ stopThr) := by
  have hb : ∀ i, 0 < b i := fun i => hβ0.trans_le (hβ i)
  have hE : ∀ (Z : Fin k → Fin d → K) (v : Fin N → K), (∀ s, IsOtValue b (a s) (fun i j => sqEuclid (Z i) (Y s j)) (v s)) → energy emd Y a b w Z = ∑ s, w s * v s := by
    intro Z v hv
    unfold energy
    refine sum_congr rfl fun s _ => ?_
    rw [IsLeast.unique (otValue_of_optimal (hemd s (sqMat Z (Y s)))) (hv s)]
  have h1 := fsbLoop_energy emd Y a b w (fun s X => hemd s _) hb hw0 hw hβ stopThr numItermax (stopThr + 1) Xinit
  have h2 := fsbLoop_list emd Y a b w stopThr numItermax (stopThr + 1) Xinit (lt_add_one _)
  unfold freeSupport at hrun
  rw [hrun] at h1 h2
  simp only at h1 h2
  rw [hE X v1 hv1, hE Xinit v0 hv0] at h1
  have hv1n : 0 ≤ ∑ s, w s * v1 s := by rw [← hE X v1 hv1]; exact energy_nonneg emd Y a b w (fun s X => hemd s _) hw0 X
  have hnn : ∀ x ∈ disp, 0 ≤ x := by
    have : ∀ m dd Z, ∀ x ∈ (fsbLoop emd Y a b w stopThr m dd Z).2, 0 ≤ x := by
      intro m
      induction m with
      | zero => intro dd Z x hx; simp [fsbLoop] at hx
      | succ m ih =>
        intro dd Z x hx
        unfold fsbLoop at hx
        split_ifs at hx with h
        · rcases List.mem_cons.1 hx with rfl | hx
          · exact sum_nonneg fun i _ => sum_nonneg fun c _ => sq_nonneg _
          · exact ih _ _ x hx
        · simp at hx
    have h3 := this numItermax (stopThr + 1) Xinit
    rw [hrun] at h3
    exact h3
  have hsum : 0 ≤ disp.sum := List.sum_nonneg hnn
  have hlast : ∀ (hm : disp.length ≠ numItermax), ∃ x, disp.getLast? = some x ∧ x ≤ stopThr := fun hm => h2.2.1.resolve_left hm
  refine ⟨h1, ?_, ?_, hnn, h2.1, h2.2.2, fun hlt => hlast hlt.ne, fun hs0 hbig => ?_⟩
  · rw [le_div_iff₀ hβ0]; linarith [mul_comm β disp.sum]
  · have := mul_nonneg hβ0.le hsum; linarith
  · by_cases hl : disp.length = numItermax
    · -- all displacements above the threshold would cost too much
      by_contra hc
      have hall : ∀ x ∈ disp, stopThr ≤ x := by
        intro x hx
        rcases List.eq_nil_or_concat disp with rfl | ⟨L, y, rfl⟩
        · simp at hx
        · rw [List.concat_eq_append] at hx hc h2
          have hy : stopThr < y := by
            by_contra hy
            exact hc ⟨y, by simp, not_lt.1 hy⟩
          rcases List.mem_append.1 hx with hx | hx
          · exact (h2.1 x (by simpa using hx)).le
          · simp at hx; rw [hx]; exact hy.le
      have h3 : disp.length • stopThr ≤ disp.sum := List.card_nsmul_le_sum disp stopThr hall
      rw [nsmul_eq_mul, hl] at h3
      have := mul_le_mul_of_nonneg_left h3 hβ0.le
      nlinarith
    · exact hlast hl

/-- the point masses 0 and 4 -/
def exY : ∀ s : Fin 2, Fin 1 → Fin 1 → ℚ := fun s _ _ => ![0, 4] s

/-- C69 applies: two atoms attracted by the point masses at 0 and 4. -/
example (numItermax : ℕ) (X : Fin 2 → Fin 1 → ℚ) (disp : List ℚ) (hrun : freeSupport (fun _ => exactEmd) exY (fun _ _ => 1) (fun _ : Fin 2 => 1 / 2) (fun _ => 1 / 2) numItermax 1 (fun i _ => ![7, 9] i) = (X, disp))
    (v0 v1 : Fin 2 → ℚ) (hv0 : ∀ s, IsOtValue (fun _ : Fin 2 => (1 / 2 : ℚ)) (fun _ : Fin 1 => 1) (fun i j => sqEuclid (fun _ : Fin 1 => ![7, 9] i) (exY s j)) (v0 s))
    (hv1 : ∀ s, IsOtValue (fun _ : Fin 2 => (1 / 2 : ℚ)) (fun _ : Fin 1 => 1) (fun i j => sqEuclid (X i) (exY s j)) (v1 s)) : ∑ s, (1 / 2 : ℚ) * v1 s ≤ ∑ s, 1 / 2 * v0 s :=
  (C69_free_support_barycenter (fun _ => exactEmd) exY (fun _ _ => 1) (fun _ => 1 / 2) (fun _ => 1 / 2)
    (fun s C => exactEmd_optimal _ _ C (product_coupling _ _ (by norm_num) (by norm_num) (by simp))) (β := 1 / 2) (by norm_num) (by norm_num) (by norm_num) (by simp) numItermax 1 _ X disp hrun v0 v1 hv0 hv1).2.2.1

end

/-! ### C70 -/

section
variable {N k d : ℕ} {n : Fin N → ℕ} {D : Fin N → ℕ}

theorem gen_norm (P : ∀ s, Fin (D s) → Fin d → K) (w : Fin N → K) (B : Fin d → Fin d → K) (hB2 : ∀ f g, ∑ e, ∑ e', B e f * genMat P w e e' * B e' g = if f = g then 1 else 0) (z : Fin d → K) :
    ∑ s, w s * ∑ q, (∑ e, P s q e * ∑ f, z f * B e f) ^ 2 = ∑ c, z c ^ 2 := by
  have h0 : ∀ (u : Fin d → K) s, ∑ q, (∑ e, P s q e * u e) ^ 2 = ∑ e, ∑ e', u e * (∑ q, P s q e * P s q e') * u e' := by
    intro u s
    have : ∀ q, (∑ e, P s q e * u e) ^ 2 = ∑ e, ∑ e', u e * (P s q e * P s q e') * u e' := fun q => by
      rw [pow_two, sum_mul_sum]
      exact sum_congr rfl fun e _ => sum_congr rfl fun e' _ => by ring
    simp only [this]
    rw [sum_comm]
    refine sum_congr rfl fun e _ => ?_
    rw [sum_comm]
    refine sum_congr rfl fun e' _ => ?_
    rw [mul_sum, sum_mul]
  have e1 : ∀ u : Fin d → K, ∑ s, w s * ∑ q, (∑ e, P s q e * u e) ^ 2 = ∑ e, ∑ e', u e * genMat P w e e' * u e' := by
    intro u
    have h1 : ∀ s, w s * ∑ q, (∑ e, P s q e * u e) ^ 2 = ∑ e, ∑ e', w s * (u e * (∑ q, P s q e * P s q e') * u e') := fun s => by
      rw [h0, mul_sum]; exact sum_congr rfl fun e _ => mul_sum _ _ _
    simp only [h1]
    unfold genMat
    rw [sum_comm]
    refine sum_congr rfl fun e _ => ?_
    rw [sum_comm]
    refine sum_congr rfl fun e' _ => ?_
    rw [mul_sum, sum_mul]
    exact sum_congr rfl fun s _ => by ring
  rw [e1]
  have e2 : ∀ e e', (∑ f, z f * B e f) * genMat P w e e' * (∑ g, z g * B e' g) = ∑ f, ∑ g, z f * z g * (B e f * genMat P w e e' * B e' g) := by
    intro e e'
    rw [sum_mul, sum_mul_sum]
    exact sum_congr rfl fun f _ => sum_congr rfl fun g _ => by ring
  simp only [e2]
  have e3 : ∀ e, ∑ e', ∑ f, ∑ g, z f * z g * (B e f * genMat P w e e' * B e' g) = ∑ f, ∑ g, z f * z g * ∑ e', B e f * genMat P w e e' * B e' g := by
    intro e
    rw [sum_comm]
    refine sum_congr rfl fun f _ => ?_
    rw [sum_comm]
    exact sum_congr rfl fun g _ => (mul_sum _ _ _).symm
  simp only [e3]
  rw [sum_comm]
  refine sum_congr rfl fun f _ => ?_
  rw [sum_comm]
  simp only [← mul_sum, hB2]
  simp [pow_two]

/-- **C70** (partial). `generalized_free_support_barycenter` with uniform coefficients, `B` a symmetric inverse square root of the matrix `A` of the change of variables, `emd` optimal: the weighted sum of squared 2-Wasserstein
distances between the targets and the projections of the measure is not larger at the returned positions than at the positions `Y_init @ B.T`.

Missing: the claim for other coefficients and for the start `Y_init`; both are false, see `C70_generalized_free_support_refuted`. -/
theorem C70_generalized_free_support_partial (emd : ∀ s : Fin N, (Fin k → K) → (Fin (n s) → K) → (Fin k → Fin (n s) → K) → (Fin k → Fin (n s) → K)) (a : ∀ s, Fin (n s) → K) (b : Fin k → K)
    (hemd : ∀ s C, IsOptimal b (a s) C (emd s b (a s) C)) (hb : ∀ i, 0 < b i) (w : Fin N → K) (hN : N ≠ 0) (hw : ∀ s, w s = 1 / N) (X : ∀ s, Fin (n s) → Fin (D s) → K) (P : ∀ s, Fin (D s) → Fin d → K)
    (B : Fin d → Fin d → K) (hB : ∀ c e, B c e = B e c) (hB2 : ∀ f g, ∑ e, ∑ e', B e f * (∑ s, w s * ∑ q, P s q e * P s q e') * B e' g = if f = g then 1 else 0)
    (numItermax : ℕ) (stopThr : K) (Yinit : Fin k → Fin d → K) (v0 v1 : Fin N → K)
    (hv0 : ∀ s, IsOtValue b (a s) (fun i j => sqEuclid (X s j) (fun q => ∑ c, P s q c * ∑ e, Yinit i e * B c e)) (v0 s))
    (hv1 : ∀ s, IsOtValue b (a s) (fun i j => sqEuclid (X s j) (fun q => ∑ c, P s q c * generalizedFreeSupport emd a b X P B numItermax stopThr Yinit i c)) (v1 s)) :
    ∑ s, w s * v1 s ≤ ∑ s, w s * v0 s := by
  have hw0 : ∀ s, 0 ≤ w s := fun s => by rw [hw]; positivity
  have hNK : (N : K) ≠ 0 := Nat.cast_ne_zero.2 hN
  have hw1 : ∑ s, w s = 1 := by simp only [hw]; simp [hNK]
  have hwu : w = fun _ => 1 / (N : K) := funext hw
  obtain ⟨Z, hZ⟩ : ∃ Z : ∀ s, Fin (n s) → Fin d → K, Z = fun s j c => ∑ e, (∑ q, X s j q * P s q e) * B c e := ⟨_, rfl⟩
  obtain ⟨C0, hC0⟩ : ∃ C0 : K, C0 = ∑ s, w s * ∑ j, a s j * (∑ q, X s j q ^ 2 - ∑ c, Z s j c ^ 2) := ⟨_, rfl⟩
  -- the two objectives differ by a constant
  have hE : ∀ (z : Fin k → Fin d → K) (v : Fin N → K), (∀ s, IsOtValue b (a s) (fun i j => sqEuclid (X s j) (fun q => ∑ c, P s q c * ∑ e, z i e * B c e)) (v s)) → ∑ s, w s * v s = energy emd Z a b w z + C0 := by
    intro z v hv
    obtain ⟨κ, hκ⟩ : ∃ κ : Fin N → K, κ = fun s => ∑ j, a s j * (∑ q, X s j q ^ 2 - ∑ c, Z s j c ^ 2) + ∑ i, b i * (∑ q, (∑ e, P s q e * ∑ f, z i f * B e f) ^ 2 - ∑ c, z i c ^ 2) := ⟨_, rfl⟩
    have hcost : ∀ s T, IsCoupling b (a s) T → cost (fun i j => sqEuclid (X s j) (fun q => ∑ c, P s q c * ∑ e, z i e * B c e)) T = cost (sqMat z (Z s)) T + κ s := by
      intro s T hT
      rw [hκ]
      simp only
      have e1 : ∑ j, a s j * (∑ q, X s j q ^ 2 - ∑ c, Z s j c ^ 2) = ∑ i, ∑ j, T i j * (∑ q, X s j q ^ 2 - ∑ c, Z s j c ^ 2) := by
        rw [sum_comm]
        exact sum_congr rfl fun j _ => by rw [← hT.col j, sum_mul]
      have e2 : ∑ i, b i * (∑ q, (∑ e, P s q e * ∑ f, z i f * B e f) ^ 2 - ∑ c, z i c ^ 2) = ∑ i, ∑ j, T i j * (∑ q, (∑ e, P s q e * ∑ f, z i f * B e f) ^ 2 - ∑ c, z i c ^ 2) :=
        sum_congr rfl fun i _ => by rw [← hT.row i, sum_mul]
      unfold cost
      rw [e1, e2, ← sum_add_distrib, ← sum_add_distrib]
      refine sum_congr rfl fun i _ => ?_
      rw [← sum_add_distrib, ← sum_add_distrib]
      refine sum_congr rfl fun j _ => ?_
      have := gen_point (P s) B (X s j) (z i)
      have hZs : ∀ c, ∑ e, (∑ q, X s j q * P s q e) * B e c = Z s j c := fun c => by
        rw [hZ]; exact sum_congr rfl fun e _ => by rw [hB]
      simp only [hZs] at this
      simp only [sqEuclid, sqMat]
      rw [this]; ring
    have hval : ∀ s, v s = cost (sqMat z (Z s)) (emd s b (a s) (sqMat z (Z s))) + κ s := by
      intro s
      have ho := hemd s (sqMat z (Z s))
      have : IsOptimal b (a s) (fun i j => sqEuclid (X s j) (fun q => ∑ c, P s q c * ∑ e, z i e * B c e)) (emd s b (a s) (sqMat z (Z s))) :=
        ⟨ho.1, fun Q hQ => by rw [hcost s _ ho.1, hcost s _ hQ]; exact add_le_add_left (ho.2 Q hQ) _⟩
      rw [IsLeast.unique (hv s) (otValue_of_optimal this), hcost s _ ho.1]
    have hκs : ∑ s, w s * κ s = C0 := by
      rw [hκ, hC0]
      simp only [mul_add, sum_add_distrib]
      have : ∑ s, w s * ∑ i, b i * (∑ q, (∑ e, P s q e * ∑ f, z i f * B e f) ^ 2 - ∑ c, z i c ^ 2) = 0 := by
        have h0 : ∀ s, w s * ∑ i, b i * (∑ q, (∑ e, P s q e * ∑ f, z i f * B e f) ^ 2 - ∑ c, z i c ^ 2) = ∑ i, w s * (b i * (∑ q, (∑ e, P s q e * ∑ f, z i f * B e f) ^ 2 - ∑ c, z i c ^ 2)) := fun s => mul_sum _ _ _
        simp only [h0]
        rw [sum_comm]
        refine sum_eq_zero fun i _ => ?_
        have h1 := gen_norm P w B hB2 (z i)
        have h2 : ∑ s, w s * (b i * (∑ q, (∑ e, P s q e * ∑ f, z i f * B e f) ^ 2 - ∑ c, z i c ^ 2)) = b i * (∑ s, w s * ∑ q, (∑ e, P s q e * ∑ f, z i f * B e f) ^ 2 - (∑ s, w s) * ∑ c, z i c ^ 2) := by
          rw [sum_mul, ← sum_sub_distrib, mul_sum]
          exact sum_congr rfl fun s _ => by ring
        rw [h2, h1, hw1, one_mul, sub_self, mul_zero]
      rw [this, add_zero]
    unfold energy
    rw [← hκs, ← sum_add_distrib]
    exact sum_congr rfl fun s _ => by rw [hval s]; ring
  obtain ⟨out, hout⟩ : ∃ out, out = (freeSupport emd Z a b w numItermax stopThr Yinit).1 := ⟨_, rfl⟩
  have hgen : ∀ i c, generalizedFreeSupport emd a b X P B numItermax stopThr Yinit i c = ∑ e, out i e * B c e := fun i c => by
    rw [hout, hZ, hwu]; rfl
  simp only [hgen] at hv1
  rw [hE Yinit v0 hv0, hE out v1 hv1, hout]
  refine add_le_add_left ?_ _
  have := fsbLoop_energy emd Z a b w (fun s X => hemd s _) hb hw0 hw1 (β := 0) (fun i => (hb i).le) stopThr numItermax (stopThr + 1) Yinit
  rw [zero_mul, add_zero] at this
  exact this

/-- one point against one point -/
theorem optimal_one (C : Fin 1 → Fin 1 → ℚ) : IsOptimal (fun _ : Fin 1 => (1 : ℚ)) (fun _ : Fin 1 => 1) C (fun _ _ => 1) := by
  refine ⟨⟨fun _ _ => zero_le_one, fun _ => by simp, fun _ => by simp⟩, fun Q hQ => ?_⟩
  have := hQ.row 0
  simp only [Fin.sum_univ_one] at this
  unfold cost
  simp [this]

theorem otValue_one (C : Fin 1 → Fin 1 → ℚ) : IsOtValue (fun _ : Fin 1 => (1 : ℚ)) (fun _ : Fin 1 => 1) C (C 0 0) := by
  have := otValue_of_optimal (optimal_one C)
  unfold cost at this
  simpa using this

/-- **C70, what fails.**  (1) Coefficients: two point masses at 0 and 4 with coefficients 3/4 and 1/4, identity projections.  Started at the barycenter 1, the code moves to 2, and the objective rises from 3 to 4: the given
coefficients are not passed to the inner solver.  (2) Initialisation: with the projection `y ↦ 2 y`, target 2, start 1 (the solution) and no iteration, the code returns 1/2: `Y_init` is not expressed in the variables of the inner solver. -/
theorem C70_generalized_free_support_refuted :
    (∃ (X : ∀ _ : Fin 2, Fin 1 → Fin 1 → ℚ) (P : ∀ _ : Fin 2, Fin 1 → Fin 1 → ℚ) (B : Fin 1 → Fin 1 → ℚ) (w : Fin 2 → ℚ) (Yinit : Fin 1 → Fin 1 → ℚ) (emd : ∀ _ : Fin 2, (Fin 1 → ℚ) → (Fin 1 → ℚ) → (Fin 1 → Fin 1 → ℚ) → Fin 1 → Fin 1 → ℚ)
        (v0 v1 : Fin 2 → ℚ), (∀ s C, IsOptimal (fun _ => 1) (fun _ => 1) C (emd s (fun _ => 1) (fun _ => 1) C)) ∧ (∀ s, 0 ≤ w s) ∧ ∑ s, w s = 1 ∧ (∀ c e, B c e = B e c) ∧
        (∀ f g, ∑ e, ∑ e', B e f * (∑ s, w s * ∑ q, P s q e * P s q e') * B e' g = if f = g then 1 else 0) ∧ (∀ i c, ∑ e, Yinit i e * B c e = Yinit i c) ∧
        (∀ s, IsOtValue (fun _ => 1) (fun _ => 1) (fun i j => sqEuclid (X s j) (fun q => ∑ c, P s q c * Yinit i c)) (v0 s)) ∧
        (∀ s, IsOtValue (fun _ => 1) (fun _ => 1) (fun i j => sqEuclid (X s j) (fun q => ∑ c, P s q c * generalizedFreeSupport emd (fun _ _ => 1) (fun _ => 1) X P B 1 0 Yinit i c)) (v1 s)) ∧
        ∑ s, w s * v0 s < ∑ s, w s * v1 s) ∧
    (∃ (X : ∀ _ : Fin 1, Fin 1 → Fin 1 → ℚ) (P : ∀ _ : Fin 1, Fin 1 → Fin 1 → ℚ) (B : Fin 1 → Fin 1 → ℚ) (Yinit : Fin 1 → Fin 1 → ℚ) (emd : ∀ _ : Fin 1, (Fin 1 → ℚ) → (Fin 1 → ℚ) → (Fin 1 → Fin 1 → ℚ) → Fin 1 → Fin 1 → ℚ)
        (v0 v1 : ℚ), (∀ s C, IsOptimal (fun _ => 1) (fun _ => 1) C (emd s (fun _ => 1) (fun _ => 1) C)) ∧ (∀ f g, ∑ e, ∑ e', B e f * (∑ s, ∑ q, P s q e * P s q e') * B e' g = if f = g then 1 else 0) ∧
        IsOtValue (fun _ => 1) (fun _ => 1) (fun i j => sqEuclid (X 0 j) (fun q => ∑ c, P 0 q c * Yinit i c)) v0 ∧
        IsOtValue (fun _ => 1) (fun _ => 1) (fun i j => sqEuclid (X 0 j) (fun q => ∑ c, P 0 q c * generalizedFreeSupport emd (fun _ _ => 1) (fun _ => 1) X P B 0 0 Yinit i c)) v1 ∧ v0 < v1) := by
  refine ⟨⟨fun s _ _ => ![0, 4] s, fun _ _ _ => 1, fun _ _ => 1, ![3 / 4, 1 / 4], fun _ _ => 1, fun _ _ _ _ _ _ => 1, _, _, fun s C => optimal_one C, ?_, ?_, fun _ _ => rfl, ?_, ?_, fun s => otValue_one _, fun s => otValue_one _, ?_⟩,
    ⟨fun _ _ _ => 2, fun _ _ _ => 2, fun _ _ => 1 / 2, fun _ _ => 1, fun _ _ _ _ _ _ => 1, _, _, fun s C => optimal_one C, ?_, otValue_one _, otValue_one _, ?_⟩⟩
  · intro s; fin_cases s <;> norm_num
  · rw [Fin.sum_univ_two]; norm_num
  · intro f g
    rw [Subsingleton.elim f g]
    simp [Fin.sum_univ_two]; norm_num
  · intro i c; simp
  · simp only [generalizedFreeSupport, freeSupport, fsbLoop, sqEuclid, Fin.sum_univ_two, Fin.sum_univ_one]
    norm_num [fsbStep, Fin.sum_univ_two]
  · intro f g
    rw [Subsingleton.elim f g]
    simp
  · simp only [generalizedFreeSupport, freeSupport, fsbLoop, sqEuclid, Fin.sum_univ_one]
    norm_num

/-- C70 applies: two atoms on the line, one target seen through `y ↦ 2 y`. -/
example (numItermax : ℕ) (Yinit : Fin 2 → Fin 1 → ℚ) (v0 v1 : Fin 1 → ℚ)
    (hv0 : ∀ s : Fin 1, IsOtValue (fun _ : Fin 2 => (1 / 2 : ℚ)) (fun _ : Fin 2 => 1 / 2) (fun i j => sqEuclid (fun _ : Fin 1 => ![2, 6] j) (fun _ => ∑ c : Fin 1, 2 * ∑ e : Fin 1, Yinit i e * (1 / 2))) (v0 s))
    (hv1 : ∀ s : Fin 1, IsOtValue (fun _ : Fin 2 => (1 / 2 : ℚ)) (fun _ : Fin 2 => 1 / 2) (fun i j => sqEuclid (fun _ : Fin 1 => ![2, 6] j)
      (fun _ => ∑ c : Fin 1, 2 * generalizedFreeSupport (N := 1) (n := fun _ => 2) (D := fun _ => 1) (fun _ => exactEmd) (fun _ _ => 1 / 2) (fun _ => 1 / 2) (fun _ j _ => ![2, 6] j) (fun _ _ _ => 2) (fun _ _ => 1 / 2) numItermax 0 Yinit i c)) (v1 s)) :
    ∑ s, 1 * v1 s ≤ ∑ s, 1 * v0 s := by
  refine C70_generalized_free_support_partial (N := 1) (n := fun _ => 2) (D := fun _ => 1) (fun _ => exactEmd) (fun _ _ => 1 / 2) (fun _ => 1 / 2)
    (fun s C => exactEmd_optimal _ _ C (product_coupling _ _ (by norm_num) (by norm_num) (by simp))) (by norm_num) (fun _ => 1) one_ne_zero (by simp) (fun _ j _ => ![2, 6] j) (fun _ _ _ => 2) (fun _ _ => 1 / 2) (fun _ _ => rfl) ?_
    numItermax 0 Yinit v0 v1 hv0 hv1
  intro f g
  rw [Subsingleton.elim f g]
  simp

end

/-! ### C71 -/

section
variable {κ : ℕ} {n : Fin (κ + 1) → ℕ}

theorem wsum_mem {α : Type*} [DecidableEq α] (l : List (α × K)) (hn : (l.map Prod.fst).Nodup) : (∀ e ∈ l, wsum (fun y => y = e.1) l = e.2) ∧ ∀ x, x ∉ l.map Prod.fst → wsum (fun y => y = x) l = 0 := by
  have h0 : ∀ (l : List (α × K)) x, x ∉ l.map Prod.fst → wsum (fun y => y = x) l = 0 := by
    intro l
    induction l with
    | nil => simp
    | cons e l ih =>
      intro x hx
      rw [List.map_cons, List.mem_cons, not_or] at hx
      rw [wsum_cons, if_neg (Ne.symm hx.1), ih x hx.2, add_zero]
  refine ⟨?_, h0 l⟩
  induction l with
  | nil => simp
  | cons e l ih =>
    rw [List.map_cons, List.nodup_cons] at hn
    intro e' he'
    rcases List.mem_cons.1 he' with rfl | he'
    · rw [wsum_cons, if_pos rfl, h0 l _ hn.1, add_zero]
    · rw [wsum_cons, if_neg, ih hn.2 e' he', zero_add]
      intro h
      exact hn.1 (h ▸ List.mem_map_of_mem he')

/-- **C71.** `NorthWestMMGluing` on non-negative plans with the same first marginal: the loops end (each row within `Σ n_k` turns, here any number of allowed turns above that gives the result); the rows of `J` are distinct, the
weights `w` positive; there is a non-negative tensor `γ(i, j_1, …, j_K)` whose sum over `i` is `ρ` (the weight `w[t]` at `J[t]`, zero elsewhere) and whose marginal on `(i, j_k)` is the `k`-th plan; the `k`-th marginal of `ρ` is the
second marginal of the `k`-th plan.  With a positive first marginal the number of rows of `J` is at most the number of positive entries of the plans minus `(K - 1) n`. -/
theorem C71_gluing {r : ℕ} (fuel : ℕ) (hf : ∑ k, n k < fuel) (pi : ∀ k : Fin (κ + 1), Fin r → Fin (n k) → K) (h0 : ∀ k i j, 0 ≤ pi k i j) (ha : ∀ k i, ∑ j, pi k i j = ∑ j, pi 0 i j) :
    ∃ out, glue fuel pi = some out ∧ (out.map Prod.fst).Nodup ∧ (∀ e ∈ out, 0 < e.2) ∧
      (∃ γ : Fin r → (∀ k, Fin (n k)) → K, (∀ i jj, 0 ≤ γ i jj) ∧ (∀ e ∈ out, ∑ i, γ i e.1 = e.2) ∧ (∀ jj, jj ∉ out.map Prod.fst → ∀ i, γ i jj = 0) ∧
        ∀ i k j, ∑ jj ∈ univ.filter (fun jj : ∀ k, Fin (n k) => jj k = j), γ i jj = pi k i j) ∧
      (∀ k j, ((out.filter fun e => e.1 k = j).map Prod.snd).sum = ∑ i, pi k i j) ∧
      ((∀ i, 0 < ∑ j, pi 0 i j) → out.length + κ * r ≤ ∑ k, ∑ i, (univ.filter fun j => 0 < pi k i j).card) := by
  obtain ⟨out, ho, hn, hp, γ, g0, g1, g2⟩ := glue_spec fuel pi h0 ha hf
  obtain ⟨w1, w2⟩ := wsum_mem out hn
  refine ⟨out, ho, hn, hp, ⟨γ, g0, fun e he => by rw [g1, w1 e he], fun jj hjj i => ?_, g2⟩, fun k j => ?_, fun hpos => ?_⟩
  · have h := g1 jj
    rw [w2 jj hjj] at h
    exact (sum_eq_zero_iff_of_nonneg fun i _ => g0 i jj).1 h i (mem_univ i)
  · have e1 : ((out.filter fun e => e.1 k = j).map Prod.snd).sum = wsum (fun jj => jj k = j) out := by
      unfold wsum
      clear ho hn hp g1 w1 w2
      induction out with
      | nil => rfl
      | cons e out ih =>
        by_cases h : e.1 k = j
        · rw [List.filter_cons_of_pos (by simpa using h), List.map_cons, List.sum_cons, ih, List.map_cons, List.sum_cons, if_pos h]
        · rw [List.filter_cons_of_neg (by simpa using h), ih, List.map_cons, List.sum_cons, if_neg h, zero_add]
    rw [e1, ← wsum_fiber (fun jj : ∀ k, Fin (n k) => jj k) j out, ← sum_congr rfl fun jj _ => g1 jj, sum_comm]
    exact sum_congr rfl fun i _ => g2 i k j
  · have := glue_len fuel pi h0 ha hpos out ho
    rw [mul_comm κ r]; exact this

/-- **C71**, size of the support: if the plans are basic solutions (at most `r + n_k - 1` positive entries, as those of the network simplex), the gluing has at most `r + Σ n_k - K` points. -/
theorem C71_gluing_size {r : ℕ} (fuel : ℕ) (hf : ∑ k, n k < fuel) (pi : ∀ k : Fin (κ + 1), Fin r → Fin (n k) → K) (h0 : ∀ k i j, 0 ≤ pi k i j) (ha : ∀ k i, ∑ j, pi k i j = ∑ j, pi 0 i j) (hpos : ∀ i, 0 < ∑ j, pi 0 i j)
    (hbasic : ∀ k, ∑ i, (univ.filter fun j => 0 < pi k i j).card + 1 ≤ r + n k) : ∃ out, glue fuel pi = some out ∧ out.length + (κ + 1) ≤ r + ∑ k, n k := by
  obtain ⟨out, ho, -, -, -, -, hl⟩ := C71_gluing fuel hf pi h0 ha
  refine ⟨out, ho, ?_⟩
  have h1 := hl hpos
  have h2 : ∑ k : Fin (κ + 1), (∑ i, (univ.filter fun j => 0 < pi k i j).card + 1) ≤ ∑ k, (r + n k) := sum_le_sum fun k _ => hbasic k
  rw [sum_add_distrib, sum_add_distrib] at h2
  simp only [sum_const, card_univ, Fintype.card_fin, smul_eq_mul, mul_one, Nat.add_mul] at h2
  omega

/-- C71 applies: two plans from two atoms. -/
example : ∃ out, glue 5 (fun k : Fin 2 => (![![![1 / 2, 0], ![1 / 4, 1 / 4]], ![![1 / 4, 1 / 4], ![0, 1 / 2]]] : Fin 2 → Fin 2 → Fin 2 → ℚ) k) = some out ∧ out.length + 2 ≤ 2 + ∑ _k : Fin 2, 2 :=
  C71_gluing_size (κ := 1) (n := fun _ => 2) 5 (by simp) _ (by decide +kernel) (by decide +kernel) (by decide +kernel) (by decide +kernel)

variable {E : Type*} {Z : Fin (κ + 1) → Type*}

theorem energy_otValue (emd : ∀ m k, (Fin m → K) → (Fin (n k) → K) → (Fin m → Fin (n k) → K) → (Fin m → Fin (n k) → K)) (c : ∀ k, E → Z k → K) (Y : ∀ k, Fin (n k) → Z k) (b : ∀ k, Fin (n k) → K)
    (hemd : ∀ m k (a : Fin m → K) C, (∃ P, IsCoupling a (b k) P) → IsOptimal a (b k) C (emd m k a (b k) C)) (μ : DMeas E K) (v : Fin (κ + 1) → K)
    (hv : ∀ k, IsOtValue μ.wts (b k) (fun i j => c k (μ.pts i) (Y k j)) (v k)) : genericEnergy emd c Y b μ = ∑ k, v k := by
  refine sum_congr rfl fun k _ => ?_
  obtain ⟨P, hP, -⟩ := (hv k).1
  exact IsLeast.unique (otValue_of_optimal (hemd μ.len k μ.wts (costMat c Y μ k) ⟨P, hP⟩)) (hv k)

/-- **C71.** `free_support_barycenter_generic_costs(method="true_fixed_point")`, with or without `clean_measure` (points are merged when equal), `emd` optimal, `ground_bary` an exact minimiser of `x ↦ Σ_k c_k(x, y_k)`, all measures
non-negative of the same mass:
* the returned measure has non-negative weights and the same mass, and its energy `Σ_k OT_{c_k}` is not larger than that of the initial measure;
* `V_list` is non-increasing, starts with the initial energy and ends with the energy of the returned measure; it has at most `numItermax + 1` entries, and exactly so many if the status is "Max iterations reached";
* the status is "Stationary Point" iff the last two entries of `V_list` differ by less than `stopThr`; for non-negative costs this happens if `numItermax * stopThr` exceeds the initial energy. -/
theorem C71_true_fixed_point (emd : ∀ m k, (Fin m → K) → (Fin (n k) → K) → (Fin m → Fin (n k) → K) → (Fin m → Fin (n k) → K)) (c : ∀ k, E → Z k → K) (Y : ∀ k, Fin (n k) → Z k) (b : ∀ k, Fin (n k) → K)
    (hemd : ∀ m k (a : Fin m → K) C, (∃ P, IsCoupling a (b k) P) → IsOptimal a (b k) C (emd m k a (b k) C)) (ground : (∀ k, Z k) → E) (hg : ∀ y x, ∑ k, c k (ground y) (y k) ≤ ∑ k, c k x (y k))
    (near : E → E → Bool) (hnear : ∀ x y, near x y = true ↔ x = y) (cleanMeasure : Bool) (μ : DMeas E K) (hμ0 : ∀ i, 0 ≤ μ.wts i) (hb0 : ∀ k j, 0 ≤ b k j) (hmass : ∀ k, ∑ i, μ.wts i = ∑ j, b k j)
    (numItermax : ℕ) (hit : 0 < numItermax) (stopThr : K) (μ' : DMeas E K) (Vs : List K) (st : Bool)
    (hrun : genericCosts (fixedPointTurn emd c Y b ground near cleanMeasure) (genericEnergy emd c Y b) stopThr numItermax μ = (μ', Vs, st)) (v0 v1 : Fin (κ + 1) → K)
    (hv0 : ∀ k, IsOtValue μ.wts (b k) (fun i j => c k (μ.pts i) (Y k j)) (v0 k)) (hv1 : ∀ k, IsOtValue μ'.wts (b k) (fun i j => c k (μ'.pts i) (Y k j)) (v1 k)) :
    (∀ i, 0 ≤ μ'.wts i) ∧ ∑ i, μ'.wts i = ∑ i, μ.wts i ∧ ∑ k, v1 k ≤ ∑ k, v0 k ∧ Vs.Pairwise (fun x y => y ≤ x) ∧ Vs.head? = some (∑ k, v0 k) ∧ Vs.getLast? = some (∑ k, v1 k) ∧ Vs.length ≤ numItermax + 1 ∧
    (st = false → Vs.length = numItermax + 1) ∧ (st = true ↔ ∃ q x y, Vs = q ++ [x, y] ∧ x - y < stopThr) ∧ ((∀ k x y, 0 ≤ c k x y) → ∑ k, v0 k < numItermax * stopThr → st = true) := by
  have hadm : Admissible b μ := fun k => product_coupling μ.wts (b k) hμ0 (hb0 k) (hmass k)
  have hstep : ∀ μ : DMeas E K, Admissible b μ → Admissible b (fixedPointTurn emd c Y b ground near cleanMeasure μ) ∧ genericEnergy emd c Y b (fixedPointTurn emd c Y b ground near cleanMeasure μ) ≤ genericEnergy emd c Y b μ := by
    intro μ hμ
    obtain ⟨h1, h2, h3⟩ := fixedPoint_spec emd c Y b hemd ground hg μ hμ
    unfold fixedPointTurn
    split_ifs
    · obtain ⟨h4, h5, h6⟩ := cleanMeas_spec emd c Y b hemd near hnear _ h1
      exact ⟨h4, h6.trans h3⟩
    · exact ⟨h1, h3⟩
  unfold genericCosts at hrun
  simp only [Prod.mk.injEq] at hrun
  obtain ⟨r1, r2, r3⟩ := hrun
  rw [if_neg hit.ne'] at r2
  obtain ⟨s1, s2, s3⟩ := genericLoop_spec _ _ (Admissible b) (fun μ hμ => (hstep μ hμ).1) (fun μ hμ => (hstep μ hμ).2) stopThr numItermax μ hadm
  have s4 := genericLoop_len (fixedPointTurn emd c Y b ground near cleanMeasure) (genericEnergy emd c Y b) stopThr numItermax μ
  have s5 := genericLoop_flag (fixedPointTurn emd c Y b ground near cleanMeasure) (genericEnergy emd c Y b) stopThr numItermax μ
  have hV0 := energy_otValue emd c Y b hemd μ v0 hv0
  have hV1 := energy_otValue emd c Y b hemd μ' v1 hv1
  have r2' : genericEnergy emd c Y b μ :: (genericLoop (fixedPointTurn emd c Y b ground near cleanMeasure) (genericEnergy emd c Y b) stopThr numItermax μ (genericEnergy emd c Y b μ)).2.1 = Vs := by rw [← r2]; rfl
  rw [r1] at s1 s3 s5
  rw [r2'] at s2 s3 s5
  rw [r3] at s4 s5
  rw [hV1] at s3 s5
  have hlen : Vs.length = (genericLoop (fixedPointTurn emd c Y b ground near cleanMeasure) (genericEnergy emd c Y b) stopThr numItermax μ (genericEnergy emd c Y b μ)).2.1.length + 1 := by rw [← r2']; rfl
  have hhead : Vs.head? = some (∑ k, v0 k) := by rw [← r2', hV0]; rfl
  obtain ⟨P, hP⟩ := s1 0
  refine ⟨fun i => by rw [← hP.row]; exact sum_nonneg fun j _ => hP.nonneg i j, ?_, ?_, s2, hhead, s3, by omega, fun h => by have := s4.2 h; omega, ?_, fun hc hbig => ?_⟩
  · rw [hmass 0]; simp only [← hP.row, ← hP.col]; exact sum_comm
  · cases Vs with
    | nil => simp at hhead
    | cons x L =>
      simp at hhead
      cases L with
      | nil => simp at s3; rw [← s3, hhead]
      | cons y L =>
        rw [← hhead]
        exact List.rel_of_pairwise_cons s2 (List.mem_of_getLast? (by rw [List.getLast?_cons_cons] at s3; exact s3))
  · rw [s5]
    constructor
    · rintro ⟨q, x, h1, h2⟩; exact ⟨q, x, _, h1, h2⟩
    · rintro ⟨q, x, y, h1, h2⟩
      have hy : y = ∑ k, v1 k := by rw [h1] at s3; simpa using s3
      rw [hy] at h1 h2
      exact ⟨q, x, h1, h2⟩
  · rw [← r3]
    refine genericLoop_stops _ _ (Admissible b) (fun μ hμ => (hstep μ hμ).1) (fun μ hμ => (hstep μ hμ).2) (fun μ hμ => ?_) stopThr numItermax μ hadm (by rw [hV0]; exact hbig)
    exact sum_nonneg fun k _ => sum_nonneg fun i _ => sum_nonneg fun j _ => mul_nonneg ((hemd μ.len k μ.wts (costMat c Y μ k) (hμ k)).1.nonneg i j) (hc _ _ _)

/-- **C71.** `method="L2_barycentric_proj"`, for costs `λ_k ‖x - y‖²`: the energy of the returned measure is not larger than that of the initial one, `V_list` is non-increasing, and the weights are unchanged. -/
theorem C71_l2_projection {d : ℕ} (lam : Fin (κ + 1) → K) (emd : ∀ m k, (Fin m → K) → (Fin (n k) → K) → (Fin m → Fin (n k) → K) → (Fin m → Fin (n k) → K)) (Y : ∀ k, Fin (n k) → Fin d → K) (b : ∀ k, Fin (n k) → K)
    (hemd : ∀ m k (a : Fin m → K) C, (∃ P, IsCoupling a (b k) P) → IsOptimal a (b k) C (emd m k a (b k) C)) (ground : (∀ _ : Fin (κ + 1), Fin d → K) → Fin d → K)
    (hg : ∀ y x, ∑ k, lam k * sqEuclid (ground y) (y k) ≤ ∑ k, lam k * sqEuclid x (y k)) (μ : DMeas (Fin d → K) K) (hμ0 : ∀ i, 0 < μ.wts i) (hb0 : ∀ k j, 0 ≤ b k j) (hmass : ∀ k, ∑ i, μ.wts i = ∑ j, b k j)
    (numItermax : ℕ) (hit : 0 < numItermax) (stopThr : K) (μ' : DMeas (Fin d → K) K) (Vs : List K) (st : Bool)
    (hrun : genericCosts (l2Step emd b (quadCost lam) Y ground) (genericEnergy emd (quadCost lam) Y b) stopThr numItermax μ = (μ', Vs, st)) (v0 v1 : Fin (κ + 1) → K)
    (hv0 : ∀ k, IsOtValue μ.wts (b k) (fun i j => lam k * sqEuclid (μ.pts i) (Y k j)) (v0 k)) (hv1 : ∀ k, IsOtValue μ'.wts (b k) (fun i j => lam k * sqEuclid (μ'.pts i) (Y k j)) (v1 k)) :
    (∃ h : μ'.len = μ.len, ∀ i, μ'.wts i = μ.wts (Fin.cast h i)) ∧ ∑ k, v1 k ≤ ∑ k, v0 k ∧ Vs.Pairwise (fun x y => y ≤ x) ∧ Vs.head? = some (∑ k, v0 k) ∧ Vs.getLast? = some (∑ k, v1 k) := by
  obtain ⟨good, hgood⟩ : ∃ good : DMeas (Fin d → K) K → Prop, good = fun ν => ∃ h : ν.len = μ.len, ∀ i, ν.wts i = μ.wts (Fin.cast h i) := ⟨_, rfl⟩
  have g1 : ∀ ν, good ν → Admissible b ν ∧ ∀ i, 0 < ν.wts i := by
    intro ν hν
    rw [hgood] at hν
    obtain ⟨h, hw⟩ := hν
    have hpos : ∀ i, 0 < ν.wts i := fun i => by rw [hw]; exact hμ0 _
    refine ⟨fun k => product_coupling ν.wts (b k) (fun i => (hpos i).le) (hb0 k) ?_, hpos⟩
    rw [← hmass k, ← Equiv.sum_comp (finCongr h) μ.wts]
    exact sum_congr rfl fun i _ => hw i
  have g2 : ∀ ν, good ν → good (l2Step emd b (quadCost lam) Y ground ν) := by
    intro ν hν
    rw [hgood] at hν ⊢
    exact hν
  have hadm : good μ := by rw [hgood]; exact ⟨rfl, fun i => rfl⟩
  unfold genericCosts at hrun
  simp only [Prod.mk.injEq] at hrun
  obtain ⟨r1, r2, r3⟩ := hrun
  rw [if_neg hit.ne'] at r2
  obtain ⟨s1, s2, s3⟩ := genericLoop_spec _ _ good g2 (fun ν hν => l2Step_spec emd lam Y b hemd ground hg ν (g1 ν hν).1 (g1 ν hν).2) stopThr numItermax μ hadm
  have hV0 := energy_otValue emd (quadCost lam) Y b hemd μ v0 hv0
  have hV1 := energy_otValue emd (quadCost lam) Y b hemd μ' v1 hv1
  have r2' : genericEnergy emd (quadCost lam) Y b μ :: (genericLoop (l2Step emd b (quadCost lam) Y ground) (genericEnergy emd (quadCost lam) Y b) stopThr numItermax μ (genericEnergy emd (quadCost lam) Y b μ)).2.1 = Vs := by rw [← r2]; rfl
  rw [r1] at s1 s3
  rw [r2'] at s2 s3
  rw [hV1] at s3
  have hhead : Vs.head? = some (∑ k, v0 k) := by rw [← r2', hV0]; rfl
  refine ⟨by rw [hgood] at s1; exact s1, ?_, s2, hhead, s3⟩
  cases Vs with
  | nil => simp at hhead
  | cons x L =>
    simp at hhead
    cases L with
    | nil => simp at s3; rw [← s3, hhead]
    | cons y L =>
      rw [← hhead]
      exact List.rel_of_pairwise_cons s2 (List.mem_of_getLast? (by rw [List.getLast?_cons_cons] at s3; exact s3))

/-- **C71.** `_clean_discrete_measure`: every point kept is one of the given points, two of them are never within the tolerance of each other (in the order given), no mass is lost; if only equal points are within the tolerance, the
result has every point of `X` exactly once, with the sum of the weights of that point. -/
theorem C71_clean {m : ℕ} (X : Fin m → E) (a : Fin m → K) (near : E → E → Bool) (hrefl : ∀ x, near x x = true) :
    ((clean (fun i j => near (X i) (X j)) a).map fun e => X e.1).Pairwise (fun x y => near x y = false) ∧ ((clean (fun i j => near (X i) (X j)) a).map Prod.snd).sum = ∑ i, a i ∧
    ((∀ x y, near x y = true → x = y) → ((clean (fun i j => near (X i) (X j)) a).map fun e => X e.1).Nodup ∧ (∀ i, X i ∈ (clean (fun i j => near (X i) (X j)) a).map fun e => X e.1) ∧
      open Classical in ∀ e ∈ clean (fun i j => near (X i) (X j)) a, e.2 = ∑ i ∈ univ.filter (fun i => X i = X e.1), a i) := by
  obtain ⟨L, hL⟩ : ∃ L, L = clean (fun i j => near (X i) (X j)) a := ⟨_, rfl⟩
  refine ⟨?_, ?_, fun hn => ?_⟩
  · obtain ⟨idx, -, -, -, h⟩ := clean_spec a (fun i j => near (X i) (X j)) (R := fun _ _ => True) (fun i => hrefl _) (fun _ _ _ => trivial) (fun _ _ _ _ _ => trivial)
    rw [List.pairwise_map] at h ⊢
    exact h
  · obtain ⟨idx, -, h, -, -⟩ := clean_spec a (fun i j => near (X i) (X j)) (R := fun _ _ => True) (fun i => hrefl _) (fun _ _ _ => trivial) (fun _ _ _ _ _ => trivial)
    rw [← sum_fiberwise univ idx a, ← sum_congr rfl fun t _ => h t]
    exact (Fin.sum_univ_fun_getElem _ Prod.snd).symm
  · obtain ⟨idx, h1, h2, h3, h4⟩ := clean_spec a (fun i j => near (X i) (X j)) (R := fun i j => X i = X j) (fun i => hrefl _) (fun i j h => hn _ _ h) (fun _ _ _ h1 h2 => h1.trans h2)
    rw [← hL] at h4 ⊢
    have hnd : (L.map fun e => X e.1).Nodup := by
      rw [List.pairwise_map] at h4
      unfold List.Nodup
      rw [List.pairwise_map]
      refine h4.imp fun {x y} h hxy => ?_
      rw [hxy, hrefl] at h
      simp at h
    refine ⟨hnd, fun i => ?_, fun e he => ?_⟩
    · rw [hL]
      exact List.mem_map.2 ⟨_, List.get_mem _ (idx i), h1 i⟩
    · subst hL
      obtain ⟨t, rfl⟩ := List.mem_iff_get.1 he
      rw [h2 t]
      refine sum_congr ?_ fun _ _ => rfl
      ext i
      simp only [mem_filter, mem_univ, true_and]
      constructor
      · intro h; rw [← h1 i, h]
      · intro h
        have h5 := h1 i
        rw [h] at h5
        have h6 := (List.nodup_iff_injective_getElem.1 hnd) (a₁ := Fin.cast (by simp) (idx i)) (a₂ := Fin.cast (by simp) t) (by simpa using h5)
        exact Fin.ext (by simpa [Fin.ext_iff] using h6)

/-- C71 applies: `true_fixed_point` for two measures on the line and the squared distance. -/
example (numItermax : ℕ) (hit : 0 < numItermax) (μ' : DMeas ℚ ℚ) (Vs : List ℚ) (st : Bool)
    (hrun : genericCosts (fixedPointTurn (κ := 1) (n := fun _ => 2) (Z := fun _ => ℚ) (fun _ _ => exactEmd) (fun _ x y => (x - y) ^ 2) (fun k j => ![![0, 1], ![4, 6]] k j) (fun _ _ => 1 / 2) (fun y => (y 0 + y 1) / 2) (fun x y => decide (x = y)) true)
      (genericEnergy (κ := 1) (n := fun _ => 2) (Z := fun _ => ℚ) (fun _ _ => exactEmd) (fun _ x y => (x - y) ^ 2) (fun k j => ![![0, 1], ![4, 6]] k j) (fun _ _ => 1 / 2)) 0 numItermax ⟨3, ![7, 8, 9], ![1 / 2, 1 / 4, 1 / 4]⟩ = (μ', Vs, st))
    (v0 v1 : Fin 2 → ℚ) (hv0 : ∀ k, IsOtValue ![1 / 2, 1 / 4, 1 / 4] (fun _ : Fin 2 => 1 / 2) (fun i j => (![7, 8, 9] i - ![![0, 1], ![4, 6]] k j : ℚ) ^ 2) (v0 k))
    (hv1 : ∀ k, IsOtValue μ'.wts (fun _ : Fin 2 => 1 / 2) (fun i j => (μ'.pts i - ![![0, 1], ![4, 6]] k j) ^ 2) (v1 k)) : ∑ k, v1 k ≤ ∑ k, v0 k := by
  refine (C71_true_fixed_point (κ := 1) (n := fun _ => 2) (Z := fun _ => ℚ) (fun _ _ => exactEmd) (fun _ x y => (x - y) ^ 2) (fun k j => ![![0, 1], ![4, 6]] k j) (fun _ _ => 1 / 2) (fun m k a C h => exactEmd_optimal a _ C h)
    (fun y => (y 0 + y 1) / 2) ?_ (fun x y => decide (x = y)) (by simp) true ⟨3, ![7, 8, 9], ![1 / 2, 1 / 4, 1 / 4]⟩ ?_ (by norm_num) ?_ numItermax hit 0 μ' Vs st hrun v0 v1 hv0 hv1).2.2.1
  · intro y x
    change ∑ k : Fin 2, ((y 0 + y 1) / 2 - y k) ^ 2 ≤ ∑ k : Fin 2, (x - y k) ^ 2
    simp only [Fin.sum_univ_two]
    nlinarith [sq_nonneg (x - (y 0 + y 1) / 2)]
  · intro i; change 0 ≤ ![(1 / 2 : ℚ), 1 / 4, 1 / 4] i; fin_cases i <;> simp
  · intro k
    change ∑ i : Fin 3, ![(1 / 2 : ℚ), 1 / 4, 1 / 4] i = _
    simp [Fin.sum_univ_three]; norm_num

/-- C71 applies: the barycentric projection for two measures on the line. -/
example (numItermax : ℕ) (hit : 0 < numItermax) (μ' : DMeas (Fin 1 → ℚ) ℚ) (Vs : List ℚ) (st : Bool)
    (hrun : genericCosts (l2Step (κ := 1) (n := fun _ => 2) (fun _ _ => exactEmd) (fun _ _ => 1 / 2) (quadCost (d := 1) fun _ => 1) (fun k j _ => ![![0, 1], ![4, 6]] k j) (fun y e => (y 0 e + y 1 e) / 2))
      (genericEnergy (κ := 1) (n := fun _ => 2) (fun _ _ => exactEmd) (quadCost (d := 1) fun _ => 1) (fun k j _ => ![![0, 1], ![4, 6]] k j) (fun _ _ => 1 / 2)) 0 numItermax ⟨2, fun i _ => ![7, 8] i, ![1 / 2, 1 / 2]⟩ = (μ', Vs, st))
    (v0 v1 : Fin 2 → ℚ) (hv0 : ∀ k, IsOtValue ![1 / 2, 1 / 2] (fun _ : Fin 2 => 1 / 2) (fun i j => 1 * sqEuclid (fun _ : Fin 1 => (![7, 8] i : ℚ)) (fun _ => ![![0, 1], ![4, 6]] k j)) (v0 k))
    (hv1 : ∀ k, IsOtValue μ'.wts (fun _ : Fin 2 => 1 / 2) (fun i j => 1 * sqEuclid (μ'.pts i) (fun _ => ![![0, 1], ![4, 6]] k j)) (v1 k)) : ∑ k, v1 k ≤ ∑ k, v0 k := by
  refine (C71_l2_projection (κ := 1) (n := fun _ => 2) (d := 1) (fun _ => 1) (fun _ _ => exactEmd) (fun k j _ => ![![0, 1], ![4, 6]] k j) (fun _ _ => 1 / 2) (fun m k a C h => exactEmd_optimal a _ C h)
    (fun y e => (y 0 e + y 1 e) / 2) ?_ ⟨2, fun i _ => ![7, 8] i, ![1 / 2, 1 / 2]⟩ ?_ (by norm_num) ?_ numItermax hit 0 μ' Vs st hrun v0 v1 hv0 hv1).2.1
  · intro y x
    change ∑ k : Fin 2, 1 * sqEuclid (fun e => (y 0 e + y 1 e) / 2) (y k) ≤ ∑ k : Fin 2, 1 * sqEuclid x (y k)
    simp only [Fin.sum_univ_two, sqEuclid, Fin.sum_univ_one]
    nlinarith [sq_nonneg (x 0 - (y 0 0 + y 1 0) / 2)]
  · intro i; change 0 < ![(1 / 2 : ℚ), 1 / 2] i; fin_cases i <;> simp
  · intro k
    change ∑ i : Fin 2, ![(1 / 2 : ℚ), 1 / 2] i = _
    simp [Fin.sum_univ_two]; norm_num

/-- C71 applies: three points, two of them equal. -/
example : ((clean (fun i j => decide ((![5, 3, 5] : Fin 3 → ℚ) i = ![5, 3, 5] j)) ![(1 / 2 : ℚ), 1 / 4, 1 / 4]).map fun e => (![5, 3, 5] : Fin 3 → ℚ) e.1).Nodup :=
  ((C71_clean (![5, 3, 5] : Fin 3 → ℚ) ![(1 / 2 : ℚ), 1 / 4, 1 / 4] (fun x y => decide (x = y)) (by simp)).2.2 (by simp)).1

end

end POT.Props
