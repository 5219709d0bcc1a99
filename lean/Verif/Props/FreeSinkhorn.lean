import Verif.Lemmas.FreeSinkhorn
import Verif.Props.GwEntropic
import Verif.Props.Solve

/-! # C126: `free_support_sinkhorn_barycenter` -/

set_option linter.unusedSectionVars false

namespace POT.Props

open Finset Spec FreeSinkhorn

variable {N k d : ℕ} {n : Fin N → ℕ} {sk : ∀ s : Fin N, (Fin k → Fin (n s) → ℝ) → (Fin k → Fin (n s) → ℝ)} {Y : ∀ s, Fin (n s) → Fin d → ℝ} {b : Fin k → ℝ} {w : Fin N → ℝ} {a : ∀ s, Fin (n s) → ℝ} {reg : ℝ}

private theorem exact_of (hsk : ∀ s, SolvesEntropic b (a s) reg (sk s)) : Exact sk b a reg := fun s M => ⟨(hsk s M).1, fun Q hQ => ((hsk s M).2 Q hQ).1⟩

private theorem value_eq (h : Exact sk b a reg) {v : (Fin k → Fin d → ℝ) → Fin N → ℝ} (hv : ∀ X s, IsEntropicValue b (a s) (fun i j => sqEuclid (X i) (Y s j)) reg (v X s)) (X : Fin k → Fin d → ℝ) : ∑ s, w s * v X s = energy sk Y w reg X := by
  unfold energy
  refine sum_congr rfl fun s _ => ?_
  congr 1
  refine IsLeast.unique (hv X s) ⟨⟨_, (h s _).1, rfl⟩, ?_⟩
  rintro _ ⟨Q, hQ, rfl⟩
  exact (h s (distMat X (Y s))).2 Q hQ

private theorem xlogx {x : ℝ} (hx : 0 ≤ x) : -1 ≤ x * Real.log x := by
  rcases hx.eq_or_lt with rfl | h
  · simp
  · have := Real.one_sub_inv_le_log_of_pos h
    have h2 := mul_le_mul_of_nonneg_left this hx
    rw [mul_sub, mul_one, mul_inv_cancel₀ h.ne'] at h2
    linarith

private theorem energy_lower (h : Exact sk b a reg) (hreg : 0 < reg) (hw0 : ∀ s, 0 ≤ w s) (X : Fin k → Fin d → ℝ) : -(reg * ∑ s, w s * (k * n s)) ≤ energy sk Y w reg X := by
  unfold energy
  rw [mul_sum, ← sum_neg_distrib]
  refine sum_le_sum fun s _ => ?_
  have h1 : 0 ≤ cost (distMat X (Y s)) (sk s (distMat X (Y s))) := sum_nonneg fun i _ => sum_nonneg fun j _ => mul_nonneg ((h s _).1.nonneg i j) (sum_nonneg fun c _ => sq_nonneg _)
  have h2 : -((k : ℝ) * n s) ≤ ∑ i, ∑ j, sk s (distMat X (Y s)) i j * Real.log (sk s (distMat X (Y s)) i j) := by
    calc -((k : ℝ) * n s) = ∑ _i : Fin k, ∑ _j : Fin (n s), (-1 : ℝ) := by simp
      _ ≤ _ := sum_le_sum fun i _ => sum_le_sum fun j _ => xlogx ((h s _).1.nonneg i j)
  have h3 : -(reg * (k * n s)) ≤ entropicObjective (distMat X (Y s)) reg (sk s (distMat X (Y s))) := by
    unfold entropicObjective
    nlinarith [mul_le_mul_of_nonneg_left h2 hreg.le]
  nlinarith [mul_le_mul_of_nonneg_left h3 (hw0 s)]

/-- **Descent and termination.**  Let `v X s` be the entropic transport value between the measure with positions `X` and weights `b` and the input measure `s`.  Then

* the weighted sum of the values at the returned positions, plus `min b` times the sum of the logged squared displacements, is at most the one at `X_init`;
* every logged displacement but the last exceeds `stopThr`; there are at most `numItermax`; if there are fewer, the last is at most `stopThr`;
* this happens as soon as `numItermax` is large enough, for any positive `stopThr`. -/
theorem C126_descent (hsk : ∀ s, SolvesEntropic b (a s) reg (sk s)) (hreg : 0 < reg) {β : ℝ} (hβ0 : 0 < β) (hβ : ∀ i, β ≤ b i) (hw0 : ∀ s, 0 ≤ w s) (hw : ∑ s, w s = 1) (numItermax : ℕ) (stopThr : ℝ) (Xinit X : Fin k → Fin d → ℝ) (disp : List ℝ)
    (hrun : run sk Y b w numItermax stopThr Xinit = (X, disp)) {v : (Fin k → Fin d → ℝ) → Fin N → ℝ} (hv : ∀ X s, IsEntropicValue b (a s) (fun i j => sqEuclid (X i) (Y s j)) reg (v X s)) :
    ∑ s, w s * v X s + β * disp.sum ≤ ∑ s, w s * v Xinit s ∧ ∑ s, w s * v X s ≤ ∑ s, w s * v Xinit s ∧
    (∀ x ∈ disp, 0 ≤ x) ∧ (∀ x ∈ disp.dropLast, stopThr < x) ∧ disp.length ≤ numItermax ∧ (disp.length < numItermax → ∃ x, disp.getLast? = some x ∧ x ≤ stopThr) ∧
    (0 ≤ stopThr → ∑ s, w s * v Xinit s + reg * ∑ s, w s * (k * n s) < numItermax * stopThr * β → ∃ x, disp.getLast? = some x ∧ x ≤ stopThr) := by
  have hE := exact_of hsk
  have h1 := loop_energy (Y := Y) hE hβ0 hβ hw0 hw stopThr numItermax (stopThr + 1) Xinit
  obtain ⟨h2, h3, h4, h5⟩ := loop_list (sk := sk) (Y := Y) (b := b) (w := w) stopThr numItermax (stopThr + 1) Xinit
  unfold run at hrun
  rw [hrun] at h1 h2 h3 h4 h5
  rw [value_eq hE hv, value_eq hE hv]
  dsimp only at h1 h2 h3 h4 h5
  have hs : 0 ≤ disp.sum := List.sum_nonneg h2
  refine ⟨h1, by nlinarith, h2, h3, h4, h5 (lt_add_one _), fun ht hN => ?_⟩
  rcases h4.lt_or_eq with hlt | heq
  · exact h5 (lt_add_one _) hlt
  · have hlow := energy_lower (Y := Y) (w := w) hE hreg hw0 X
    rcases disp.eq_nil_or_concat with rfl | ⟨L, x, rfl⟩
    · simp only [List.length_nil] at heq
      rw [← heq] at hN
      have := energy_lower (Y := Y) (w := w) hE hreg hw0 Xinit
      simp at hN
      linarith
    · refine ⟨x, by simp, ?_⟩
      by_contra hx
      push Not at hx
      have hall : ∀ y ∈ L ++ [x], stopThr ≤ y := by
        intro y hy
        rcases List.mem_append.1 hy with hy | hy
        · exact (h3 y (by simpa using hy)).le
        · rw [List.mem_singleton.1 hy]; exact hx.le
      have hsum := List.card_nsmul_le_sum (L ++ [x]) stopThr hall
      rw [List.concat_eq_append] at heq h1 hs
      rw [heq, nsmul_eq_mul] at hsum
      have := mul_le_mul_of_nonneg_left hsum hβ0.le
      nlinarith

/-- **The step is a gradient step.**  The weighted sum of the entropic values is differentiable along every line through `X`, with gradient `2 b_i (X_i - T(X)_i)`, where `T(X)` are the positions after one iteration: the positions that an
iteration leaves unchanged are exactly the critical points of the objective. -/
theorem C126_gradient (hsk : ∀ s, SolvesEntropic b (a s) reg (sk s)) (hreg : 0 < reg) (hb : ∀ i, 0 < b i) (hb1 : ∑ i, b i = 1) (hw0 : ∀ s, 0 ≤ w s) (hw : ∑ s, w s = 1) {v : (Fin k → Fin d → ℝ) → Fin N → ℝ}
    (hv : ∀ X s, IsEntropicValue b (a s) (fun i j => sqEuclid (X i) (Y s j)) reg (v X s)) (X : Fin k → Fin d → ℝ) {stopThr : ℝ} :
    (∀ D : Fin k → Fin d → ℝ, HasDerivAt (fun t : ℝ => ∑ s, w s * v (fun i c => X i c + t * D i c) s) (2 * ∑ i, b i * ∑ c, (X i c - (run sk Y b w 1 stopThr X).1 i c) * D i c) 0) ∧
    ((run sk Y b w 1 stopThr X).1 = X ↔ ∀ D : Fin k → Fin d → ℝ, HasDerivAt (fun t : ℝ => ∑ s, w s * v (fun i c => X i c + t * D i c) s) 0 0) := by
  have hE := exact_of hsk
  have h1 : (run sk Y b w 1 stopThr X).1 = step sk Y b w X := by
    unfold run
    rw [loop_succ, if_pos (by linarith)]
    rfl
  have hd : ∀ D : Fin k → Fin d → ℝ, HasDerivAt (fun t : ℝ => ∑ s, w s * v (fun i c => X i c + t * D i c) s) (2 * ∑ i, b i * ∑ c, (X i c - step sk Y b w X i c) * D i c) 0 := by
    intro D
    have := energy_deriv (Y := Y) hE hreg hb hb1 hw0 hw X D
    simpa only [value_eq hE hv] using this
  rw [h1]
  refine ⟨hd, fun he D => ?_, fun hcrit => ?_⟩
  · have := hd D
    rw [he] at this
    simpa using this
  · have e := (hd fun i c => X i c - step sk Y b w X i c).unique (hcrit _)
    have h0 : ∑ i, b i * ∑ c, (X i c - step sk Y b w X i c) * (X i c - step sk Y b w X i c) = 0 := by linarith
    rw [sum_eq_zero_iff_of_nonneg (fun i _ => mul_nonneg (hb i).le (sum_nonneg fun c _ => mul_self_nonneg _))] at h0
    funext i c
    have h2 := (mul_eq_zero.mp (h0 i (mem_univ i))).resolve_left (hb i).ne'
    rw [sum_eq_zero_iff_of_nonneg (fun c _ => mul_self_nonneg _)] at h2
    have := mul_self_eq_zero.mp (h2 c (mem_univ c))
    linarith

/-- **What is returned**: one step from positions `Z`, where the gradient of the objective is `2 b_i (Z_i - X_i)`, and the last logged value is the sum of the squares of `Z_i - X_i`; it is at most `stopThr` if the loop ended before
`numItermax`. -/
theorem C126_returned (hsk : ∀ s, SolvesEntropic b (a s) reg (sk s)) (hreg : 0 < reg) (hb : ∀ i, 0 < b i) (hb1 : ∑ i, b i = 1) (hw0 : ∀ s, 0 ≤ w s) (hw : ∑ s, w s = 1) {v : (Fin k → Fin d → ℝ) → Fin N → ℝ}
    (hv : ∀ X s, IsEntropicValue b (a s) (fun i j => sqEuclid (X i) (Y s j)) reg (v X s)) (numItermax : ℕ) (stopThr : ℝ) (Xinit X : Fin k → Fin d → ℝ) (disp : List ℝ) (hrun : run sk Y b w (numItermax + 1) stopThr Xinit = (X, disp)) :
    ∃ Z : Fin k → Fin d → ℝ, disp.getLast? = some (∑ i, sqEuclid (X i) (Z i)) ∧ (disp.length < numItermax + 1 → ∑ i, sqEuclid (X i) (Z i) ≤ stopThr) ∧
      ∀ D : Fin k → Fin d → ℝ, HasDerivAt (fun t : ℝ => ∑ s, w s * v (fun i c => Z i c + t * D i c) s) (2 * ∑ i, b i * ∑ c, (Z i c - X i c) * D i c) 0 := by
  have hE := exact_of hsk
  obtain ⟨Z, h1, h2⟩ := loop_last (sk := sk) (Y := Y) (b := b) (w := w) stopThr numItermax (stopThr + 1) Xinit (lt_add_one _)
  obtain ⟨-, -, -, h5⟩ := loop_list (sk := sk) (Y := Y) (b := b) (w := w) stopThr (numItermax + 1) (stopThr + 1) Xinit
  unfold run at hrun
  rw [hrun] at h1 h2 h5
  dsimp only at h1 h2 h5
  have e : displacement Z (step sk Y b w Z) = ∑ i, sqEuclid (X i) (Z i) := by rw [h1]; rfl
  rw [e] at h2
  refine ⟨Z, h2, fun hl => ?_, fun D => ?_⟩
  · obtain ⟨x, hx, hx'⟩ := h5 (lt_add_one _) hl
    rw [h2] at hx
    rwa [Option.some.inj hx]
  · rw [h1]
    have := energy_deriv (Y := Y) hE hreg hb hb1 hw0 hw Z D
    simpa only [value_eq hE hv] using this

/-- **Convex hull.**  For every inner solver that returns nonnegative plans with first marginal `b` (so also a Sinkhorn loop stopped early), the returned positions are in the convex hull of the input positions after at least one iteration. -/
theorem C126_hull (hrow : ∀ s M, (∀ i j, 0 ≤ sk s M i j) ∧ ∀ i, ∑ j, sk s M i j = b i) (hb : ∀ i, 0 < b i) (hw0 : ∀ s, 0 ≤ w s) (hw : ∑ s, w s = 1) (numItermax : ℕ) (stopThr : ℝ) (Xinit : Fin k → Fin d → ℝ) (i : Fin k) :
    (run sk Y b w (numItermax + 1) stopThr Xinit).1 i ∈ convexHull ℝ {y | ∃ s j, y = Y s j} := by
  obtain ⟨Z, h1, -⟩ := loop_last (sk := sk) (Y := Y) (b := b) (w := w) stopThr numItermax (stopThr + 1) Xinit (lt_add_one _)
  unfold run
  rw [h1]
  exact step_hull hrow hb hw0 hw Z i

/-- **Not a barycenter for the Sinkhorn divergence** (as the documentation says): for one input measure, uniform on `1` and `-1`, that measure itself minimises the divergence, but it is not kept by the iteration, for any `reg`. -/
theorem C126_divergence_refuted {reg : ℝ} (hreg : 0 < reg) (sk : ∀ _ : Fin 1, (Fin 2 → Fin 2 → ℝ) → (Fin 2 → Fin 2 → ℝ)) (hsk : ∀ s, SolvesEntropic (fun _ => 1 / 2) (fun _ => 1 / 2) reg (sk s)) (numItermax : ℕ) (stopThr : ℝ) :
    (run (n := fun _ => 2) sk (fun _ j (_ : Fin 1) => if j = 0 then 1 else -1) (fun _ => 1 / 2) (fun _ => 1) (numItermax + 1) stopThr (fun i _ => if i = 0 then 1 else -1)).1 ≠ fun i _ => if i = 0 then 1 else -1 := by
  intro he
  obtain ⟨Z, h1, -⟩ := loop_last (n := fun _ => 2) (sk := sk) (Y := fun _ j (_ : Fin 1) => if j = 0 then 1 else -1) (b := fun _ => 1 / 2) (w := fun _ => 1) stopThr numItermax (stopThr + 1) (fun i _ => if i = 0 then 1 else -1) (lt_add_one _)
  unfold run at he
  rw [h1] at he
  have hopt := hsk 0 (distMat Z fun j (_ : Fin 1) => if j = 0 then 1 else -1)
  have h0 := congrFun (congrFun he 0) 0
  have hr := hopt.1.row 0
  have hp := (POT.GwEntropic.form_of_optimal (fun _ => by norm_num) (fun _ => by norm_num) rfl hreg hopt).1 0 1
  simp [step, Fin.sum_univ_two] at h0 hr
  linarith

/-- The hypotheses can be met: an exact solver and the values exist for all data. -/
example (hk : 0 < k) (hn : ∀ s, 0 < n s) (Y : ∀ s, Fin (n s) → Fin d → ℝ) (hreg : 0 < reg) : ∃ (sk : ∀ s : Fin N, (Fin k → Fin (n s) → ℝ) → (Fin k → Fin (n s) → ℝ)) (v : (Fin k → Fin d → ℝ) → Fin N → ℝ),
    (∀ s, SolvesEntropic (fun _ => 1 / (k : ℝ)) (fun _ => 1 / (n s : ℝ)) reg (sk s)) ∧ ∀ X s, IsEntropicValue (fun _ : Fin k => 1 / (k : ℝ)) (fun _ : Fin (n s) => 1 / (n s : ℝ)) (fun i j => sqEuclid (X i) (Y s j)) reg (v X s) := by
  have h : ∀ s : Fin N, ∃ sk : (Fin k → Fin (n s) → ℝ) → (Fin k → Fin (n s) → ℝ), SolvesEntropic (fun _ => 1 / (k : ℝ)) (fun _ => 1 / (n s : ℝ)) reg sk := by
    intro s
    have : Nonempty (Fin k) := ⟨⟨0, hk⟩⟩
    have : Nonempty (Fin (n s)) := ⟨⟨0, hn s⟩⟩
    have h1 : (0 : ℝ) < k := by exact_mod_cast hk
    have h2 : (0 : ℝ) < n s := by exact_mod_cast hn s
    exact exists_solver (fun _ => by positivity) (fun _ => by positivity) (by simp [h1.ne', h2.ne']) hreg
  choose sk hsk using h
  refine ⟨sk, fun X s => entropicObjective (fun i j => sqEuclid (X i) (Y s j)) reg (sk s fun i j => sqEuclid (X i) (Y s j)), hsk, fun X s => ⟨⟨_, (hsk s _).1, rfl⟩, ?_⟩⟩
  rintro _ ⟨Q, hQ, rfl⟩
  exact ((hsk s _).2 Q hQ).1

/-! ## C86: the reported gradient is a derivative -/

section
open Solve Filter Topology

/-- **C86, cost gradient.**  The cost gradients reported by `solve` with entropic regularisation converge to the derivative of the entropic value with respect to the costs, along every direction `D`. -/
theorem C86_entropy_gradient {n m : ℕ} [NeZero n] [NeZero m] (e : Ext n m) (M : Fin n → Fin m → ℝ) {a : Fin n → ℝ} {b : Fin m → ℝ} {reg : ℝ} (hreg : 0 < reg) (ha : ∀ i, 0 < a i) (hb : ∀ j, 0 < b j)
    (hS : ∑ i, a i = ∑ j, b j) (c : Option (Fin n → Fin m → ℝ)) (ut : UnbArg) (pi : Option (Fin n → Fin m → ℝ)) (pot : Option ((Fin n → ℝ) × (Fin m → ℝ))) :
    ∃ (r : ℕ → OTResult n m) (gM : ℕ → Fin n → Fin m → ℝ) (ga : ℕ → Fin n → ℝ) (gb : ℕ → Fin m → ℝ),
      (∀ N, solve e M (some a) (some b) (some reg) c .entropy none ut (some (N + 1)) pi pot (some 0) .envelope = .ok (r N) ∧ (r N).gradients = some (gM N, ga N, gb N)) ∧
      ∀ (D : Fin n → Fin m → ℝ) (V : ℝ → ℝ), (∀ t, IsEntropicValue a b (fun i j => M i j + t * D i j) reg (V t)) → ∃ l, Tendsto (fun N => ∑ i, ∑ j, gM N i j * D i j) atTop (𝓝 l) ∧ HasDerivAt V l 0 := by
  obtain ⟨r, gM, ga, gb, P, h1, hP, h3, -, -⟩ := C86_entropy e M hreg ha hb hS c ut pi pot
  refine ⟨r, gM, ga, gb, h1, fun D V hV => ⟨∑ i, ∑ j, P i j * D i j, tendsto_finsetSum _ fun i _ => tendsto_finsetSum _ fun j _ => (h3 i j).mul_const _, ?_⟩⟩
  have hpos : 0 < ∑ i, a i := by
    exact sum_pos (fun i _ => ha i) univ_nonempty
  set B := ∑ i, ∑ j, |D i j|
  have hB : ∀ i j, |D i j| ≤ B := fun i j => (single_le_sum (f := fun j => |D i j|) (fun _ _ => abs_nonneg _) (mem_univ j)).trans (single_le_sum (f := fun i => ∑ j, |D i j|) (fun _ _ => sum_nonneg fun _ _ => abs_nonneg _) (mem_univ i))
  refine hasDerivAt_of_sq (C := (∑ i, a i) * B ^ 2 / (2 * reg)) fun t _ => ?_
  obtain ⟨⟨Q, hQ, hQv⟩, hQm⟩ := hV t
  have e0 : V 0 = entropicObjective M reg P := by
    have h0 := hV 0
    simp only [zero_mul, add_zero] at h0
    refine h0.unique ⟨⟨P, hP.1, rfl⟩, ?_⟩
    rintro _ ⟨R, hR, rfl⟩
    exact hP.2 R hR
  obtain ⟨hl, hu⟩ := entropic_value_sub (M' := fun i j => M i j + t * D i j) (P' := Q) (δ := |t| * B) hreg rfl hpos hP.1 (fun R hR => hP.2 R hR) hQ (fun R hR => by rw [← hQv]; exact hQm ⟨R, hR, rfl⟩)
    (fun i j => by rw [add_sub_cancel_left, abs_mul]; exact mul_le_mul_of_nonneg_left (hB i j) (abs_nonneg t))
  have ec : cost (fun i j => (M i j + t * D i j) - M i j) P = t * ∑ i, ∑ j, P i j * D i j := by
    unfold cost
    simp only [add_sub_cancel_left, mul_sum]
    exact sum_congr rfl fun i _ => sum_congr rfl fun j _ => by ring
  rw [← hQv, ← e0, ec] at hl hu
  have et : (|t| * B) ^ 2 = B ^ 2 * t ^ 2 := by rw [mul_pow, sq_abs]; ring
  rw [et] at hl
  have e2 : (∑ i, a i) * (B ^ 2 * t ^ 2) / (2 * reg) = (∑ i, a i) * B ^ 2 / (2 * reg) * t ^ 2 := by ring
  rw [e2] at hl
  have : 0 ≤ (∑ i, a i) * B ^ 2 / (2 * reg) * t ^ 2 := by positivity
  rw [abs_le]
  constructor <;> linarith

end

end POT.Props
