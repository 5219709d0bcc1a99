import Verif.Spec.FreeSinkhorn
import Verif.Model.FreeSinkhorn
import Verif.Lemmas.Barycenter
import Verif.Lemmas.GwPartialEntropic
import Mathlib.Analysis.Convex.Combination

/-! # The entropic value as a function of the costs, and the free support step -/

set_option linter.unusedSectionVars false

namespace POT

open Finset Spec

section value
variable {I J : Type*} [Fintype I] [Fintype J]

/-- Growth of the entropic objective away from its minimiser, balanced case. -/
theorem coupling_growth {a : I → ℝ} {b : J → ℝ} {reg m : ℝ} {M P Q : I → J → ℝ} (hreg : 0 ≤ reg) (ha : ∑ i, a i = m) (hP : IsCoupling a b P) (hmin : ∀ Q, IsCoupling a b Q → entropicObjective M reg P ≤ entropicObjective M reg Q) (hQ : IsCoupling a b Q) :
    reg * l1dist Q P ^ 2 ≤ 2 * m * (entropicObjective M reg Q - entropicObjective M reg P) := by
  have hmass : ∀ R, IsCoupling a b R → ∑ i, ∑ j, R i j = m := fun R hR => by rw [← ha]; exact sum_congr rfl fun i _ => hR.row i
  have hb : ∑ j, b j = m := by
    rw [← hmass P hP, sum_comm]; exact sum_congr rfl fun j _ => (hP.col j).symm
  have hto : ∀ R, IsCoupling a b R → IsPartialOf a b m R := fun R hR => ⟨hR.nonneg, fun i => (hR.row i).le, fun j => (hR.col j).le, hmass R hR⟩
  refine POT.GwPartialEntropic.entropic_growth hreg (hto P hP) (fun H hH => hmin H ?_) (hto Q hQ)
  refine ⟨hH.nonneg, fun i => ?_, fun j => ?_⟩
  · have h := (sum_eq_sum_iff_of_le (fun i _ => hH.row i)).mp (hH.mass.trans ha.symm)
    exact h i (mem_univ i)
  · have h := (sum_eq_sum_iff_of_le (fun j _ => hH.col j)).mp ((sum_comm.trans hH.mass).trans hb.symm)
    exact h j (mem_univ j)

theorem cost_sub (M M' P : I → J → ℝ) : cost (fun i j => M' i j - M i j) P = cost M' P - cost M P := by
  unfold cost
  rw [← sum_sub_distrib]
  refine sum_congr rfl fun i _ => ?_
  rw [← sum_sub_distrib]
  exact sum_congr rfl fun j _ => by ring

/-- The entropic value is differentiable in the costs with gradient the optimal plan: a two-sided bound of second order. -/
theorem entropic_value_sub {a : I → ℝ} {b : J → ℝ} {reg m δ : ℝ} {M M' P P' : I → J → ℝ} (hreg : 0 < reg) (ha : ∑ i, a i = m) (hm : 0 < m) (hP : IsCoupling a b P)
    (hmin : ∀ Q, IsCoupling a b Q → entropicObjective M reg P ≤ entropicObjective M reg Q) (hP' : IsCoupling a b P') (hmin' : ∀ Q, IsCoupling a b Q → entropicObjective M' reg P' ≤ entropicObjective M' reg Q)
    (hδ : ∀ i j, |M' i j - M i j| ≤ δ) :
    cost (fun i j => M' i j - M i j) P - m * δ ^ 2 / (2 * reg) ≤ entropicObjective M' reg P' - entropicObjective M reg P ∧
    entropicObjective M' reg P' - entropicObjective M reg P ≤ cost (fun i j => M' i j - M i j) P := by
  constructor
  · have hg := coupling_growth hreg.le ha hP hmin hP'
    have h1 : -(δ * l1dist P' P) ≤ cost (fun i j => M' i j - M i j) P' - cost (fun i j => M' i j - M i j) P := by
      unfold cost l1dist
      rw [← sum_sub_distrib, mul_sum, ← sum_neg_distrib]
      refine sum_le_sum fun i _ => ?_
      rw [← sum_sub_distrib, mul_sum, ← sum_neg_distrib]
      refine sum_le_sum fun j _ => ?_
      rw [← sub_mul]
      have := neg_abs_le ((P' i j - P i j) * (M' i j - M i j))
      rw [abs_mul] at this
      nlinarith [mul_le_mul_of_nonneg_left (hδ i j) (abs_nonneg (P' i j - P i j))]
    rw [cost_sub, cost_sub] at h1
    rw [cost_sub]
    unfold entropicObjective at hg ⊢
    set l := l1dist P' P
    have hm2 : 0 < 2 * reg := by linarith
    rw [sub_le_iff_le_add, ← sub_le_iff_le_add', le_div_iff₀ hm2]
    nlinarith [sq_nonneg (reg * l - m * δ), mul_pos hm hreg]
  · have := hmin' P hP
    rw [cost_sub]
    unfold entropicObjective at this ⊢
    linarith

/-- A function with a second order expansion at 0 has a derivative there. -/
theorem hasDerivAt_of_sq {f : ℝ → ℝ} {c C : ℝ} (h : ∀ t, |t| ≤ 1 → |f t - f 0 - t * c| ≤ C * t ^ 2) : HasDerivAt f c 0 := by
  rw [hasDerivAt_iff_isLittleO_nhds_zero]
  have h1 : (fun t : ℝ => f (0 + t) - f 0 - t • c) =O[nhds 0] fun t : ℝ => t ^ 2 := by
    refine Asymptotics.IsBigO.of_bound C ?_
    filter_upwards [Metric.ball_mem_nhds (0 : ℝ) one_pos] with t ht
    rw [Metric.mem_ball, dist_zero_right, Real.norm_eq_abs] at ht
    simp only [zero_add, smul_eq_mul, Real.norm_eq_abs, abs_of_nonneg (sq_nonneg t)]
    exact h t ht.le
  refine h1.trans_isLittleO ?_
  simpa using (Asymptotics.isLittleO_pow_id (𝕜 := ℝ) (n := 2) (by norm_num))

end value

namespace FreeSinkhorn

variable {N k d : ℕ} {n : Fin N → ℕ} {sk : ∀ s : Fin N, (Fin k → Fin (n s) → ℝ) → (Fin k → Fin (n s) → ℝ)} {Y : ∀ s, Fin (n s) → Fin d → ℝ} {b : Fin k → ℝ} {w : Fin N → ℝ} {a : ∀ s, Fin (n s) → ℝ} {reg : ℝ}

/-- the sum of the entropic values, with the plans of the solver -/
noncomputable def energy (sk : ∀ s : Fin N, (Fin k → Fin (n s) → ℝ) → (Fin k → Fin (n s) → ℝ)) (Y : ∀ s, Fin (n s) → Fin d → ℝ) (w : Fin N → ℝ) (reg : ℝ) (X : Fin k → Fin d → ℝ) : ℝ :=
  ∑ s, w s * entropicObjective (distMat X (Y s)) reg (sk s (distMat X (Y s)))

/-- The solver returns minimisers. -/
def Exact (sk : ∀ s : Fin N, (Fin k → Fin (n s) → ℝ) → (Fin k → Fin (n s) → ℝ)) (b : Fin k → ℝ) (a : ∀ s, Fin (n s) → ℝ) (reg : ℝ) : Prop :=
  ∀ s M, IsCoupling b (a s) (sk s M) ∧ ∀ Q, IsCoupling b (a s) Q → entropicObjective M reg (sk s M) ≤ entropicObjective M reg Q

theorem step_energy (h : Exact sk b a reg) (hb : ∀ i, 0 < b i) (hw0 : ∀ s, 0 ≤ w s) (hw : ∑ s, w s = 1) (X : Fin k → Fin d → ℝ) :
    energy sk Y w reg (step sk Y b w X) + ∑ i, b i * ∑ c, (step sk Y b w X i c - X i c) ^ 2 ≤ energy sk Y w reg X := by
  have e := Bary.mean_identity w hw (fun s => sk s (distMat X (Y s))) Y b (fun i => (hb i).ne') (fun s i => (h s _).1.row i) X (step sk Y b w X) (fun i c => rfl)
  have h1 : energy sk Y w reg (step sk Y b w X) ≤ ∑ s, w s * entropicObjective (distMat (step sk Y b w X) (Y s)) reg (sk s (distMat X (Y s))) :=
    sum_le_sum fun s _ => mul_le_mul_of_nonneg_left ((h s _).2 _ (h s _).1) (hw0 s)
  have h2 : ∀ Z : Fin k → Fin d → ℝ, ∑ s, w s * entropicObjective (distMat Z (Y s)) reg (sk s (distMat X (Y s))) = ∑ s, w s * cost (Bary.sqMat Z (Y s)) (sk s (distMat X (Y s))) + ∑ s, w s * (reg * ∑ i, ∑ j, sk s (distMat X (Y s)) i j * Real.log (sk s (distMat X (Y s)) i j)) := by
    intro Z
    rw [← sum_add_distrib]
    exact sum_congr rfl fun s _ => by rw [← mul_add]; rfl
  have h3 : energy sk Y w reg X = ∑ s, w s * entropicObjective (distMat X (Y s)) reg (sk s (distMat X (Y s))) := rfl
  rw [h2] at h1 h3
  linarith

theorem loop_succ (stopThr : ℝ) (m : ℕ) (disp : ℝ) (X : Fin k → Fin d → ℝ) : loop sk Y b w stopThr (m + 1) disp X =
    if disp > stopThr then ((loop sk Y b w stopThr m (displacement X (step sk Y b w X)) (step sk Y b w X)).1, displacement X (step sk Y b w X) :: (loop sk Y b w stopThr m (displacement X (step sk Y b w X)) (step sk Y b w X)).2) else (X, []) := by
  rw [loop]

theorem loop_energy (h : Exact sk b a reg) {β : ℝ} (hβ0 : 0 < β) (hβ : ∀ i, β ≤ b i) (hw0 : ∀ s, 0 ≤ w s) (hw : ∑ s, w s = 1) (stopThr : ℝ) (m : ℕ) (disp : ℝ) (X : Fin k → Fin d → ℝ) :
    energy sk Y w reg (loop sk Y b w stopThr m disp X).1 + β * (loop sk Y b w stopThr m disp X).2.sum ≤ energy sk Y w reg X := by
  induction m generalizing disp X with
  | zero => simp [loop]
  | succ m ih =>
    rw [loop_succ]
    split_ifs
    · simp only [List.sum_cons]
      have h1 := ih (displacement X (step sk Y b w X)) (step sk Y b w X)
      have h2 := step_energy (Y := Y) h (fun i => hβ0.trans_le (hβ i)) hw0 hw X
      have h3 : β * displacement X (step sk Y b w X) ≤ ∑ i, b i * ∑ c, (step sk Y b w X i c - X i c) ^ 2 := by
        unfold displacement
        rw [mul_sum]
        exact sum_le_sum fun i _ => mul_le_mul_of_nonneg_right (hβ i) (sum_nonneg fun c _ => sq_nonneg _)
      linarith
    · simp

theorem loop_list (stopThr : ℝ) (m : ℕ) (disp : ℝ) (X : Fin k → Fin d → ℝ) :
    (∀ x ∈ (loop sk Y b w stopThr m disp X).2, 0 ≤ x) ∧ (∀ x ∈ (loop sk Y b w stopThr m disp X).2.dropLast, stopThr < x) ∧ (loop sk Y b w stopThr m disp X).2.length ≤ m ∧
    (stopThr < disp → (loop sk Y b w stopThr m disp X).2.length < m → ∃ x, (loop sk Y b w stopThr m disp X).2.getLast? = some x ∧ x ≤ stopThr) := by
  induction m generalizing disp X with
  | zero => simp [loop]
  | succ m ih =>
    rw [loop_succ]
    have hX : 0 ≤ displacement X (step sk Y b w X) := sum_nonneg fun i _ => sum_nonneg fun c _ => sq_nonneg _
    obtain ⟨i1, i2, i3, i4⟩ := ih (displacement X (step sk Y b w X)) (step sk Y b w X)
    split_ifs with h
    · have hstop : ¬ stopThr < displacement X (step sk Y b w X) → (loop sk Y b w stopThr m (displacement X (step sk Y b w X)) (step sk Y b w X)).2 = [] := by
        intro hn
        cases m with
        | zero => rfl
        | succ m => rw [loop_succ, if_neg hn]
      generalize displacement X (step sk Y b w X) = D at *
      generalize (loop sk Y b w stopThr m D (step sk Y b w X)).2 = L at *
      refine ⟨fun x hx => ?_, fun x hx => ?_, by simpa using i3, fun _ hl => ?_⟩
      · rcases List.mem_cons.1 hx with rfl | hx
        · exact hX
        · exact i1 x hx
      · cases L with
        | nil => simp at hx
        | cons y L =>
          rw [List.dropLast_cons_cons] at hx
          rcases List.mem_cons.1 hx with rfl | hx
          · by_contra hn
            have := hstop hn
            simp at this
          · exact i2 x hx
      · by_cases hD : stopThr < D
        · obtain ⟨x, hx, hx'⟩ := i4 hD (by simpa using hl)
          refine ⟨x, ?_, hx'⟩
          cases L with
          | nil => simp at hx
          | cons y L => rw [List.getLast?_cons_cons]; exact hx
        · refine ⟨D, ?_, not_lt.1 hD⟩
          rw [hstop hD]
          rfl
    · simp only [List.not_mem_nil, false_imp_iff, implies_true, List.dropLast_nil, List.length_nil, true_and]
      exact ⟨Nat.zero_le _, fun h' => absurd h' h⟩

/-- the last iteration -/
theorem loop_last (stopThr : ℝ) (m : ℕ) (disp : ℝ) (X : Fin k → Fin d → ℝ) (hd : stopThr < disp) :
    ∃ Z, (loop sk Y b w stopThr (m + 1) disp X).1 = step sk Y b w Z ∧ (loop sk Y b w stopThr (m + 1) disp X).2.getLast? = some (displacement Z (step sk Y b w Z)) := by
  induction m generalizing disp X with
  | zero =>
    rw [loop_succ, if_pos hd]
    exact ⟨X, rfl, rfl⟩
  | succ m ih =>
    rw [loop_succ, if_pos hd]
    by_cases h : stopThr < displacement X (step sk Y b w X)
    · obtain ⟨Z, h1, h2⟩ := ih (displacement X (step sk Y b w X)) (step sk Y b w X) h
      refine ⟨Z, h1, ?_⟩
      dsimp only
      generalize (loop sk Y b w stopThr (m + 1) (displacement X (step sk Y b w X)) (step sk Y b w X)).2 = L at *
      cases L with
      | nil => simp at h2
      | cons y L => rw [List.getLast?_cons_cons]; exact h2
    · rw [loop_succ, if_neg h]
      exact ⟨X, rfl, rfl⟩

/-- the step pulls every point to a mean of the data -/
theorem step_hull (hrow : ∀ s M, (∀ i j, 0 ≤ sk s M i j) ∧ ∀ i, ∑ j, sk s M i j = b i) (hb : ∀ i, 0 < b i) (hw0 : ∀ s, 0 ≤ w s) (hw : ∑ s, w s = 1) (X : Fin k → Fin d → ℝ) (i : Fin k) :
    step sk Y b w X i ∈ convexHull ℝ {y | ∃ s j, y = Y s j} := by
  have e : step sk Y b w X i = ∑ x : (s : Fin N) × Fin (n s), (w x.1 * 1 / b i * sk x.1 (distMat X (Y x.1)) i x.2) • Y x.1 x.2 := by
    funext c
    rw [Finset.sum_apply, Fintype.sum_sigma]
    simp only [Pi.smul_apply, smul_eq_mul, step, mul_sum, mul_assoc]
  rw [e]
  refine (convex_convexHull ℝ _).sum_mem (fun x _ => ?_) ?_ (fun x _ => subset_convexHull ℝ _ ⟨x.1, x.2, rfl⟩)
  · exact mul_nonneg (div_nonneg (mul_nonneg (hw0 _) zero_le_one) (hb i).le) ((hrow _ _).1 _ _)
  · rw [Fintype.sum_sigma]
    simp only [← mul_sum, (hrow _ _).2]
    refine Eq.trans (sum_congr rfl fun s _ => ?_) hw
    have := (hb i).ne'
    field_simp

/-- derivative of the energy along a line -/
theorem energy_deriv (h : Exact sk b a reg) (hreg : 0 < reg) (hb : ∀ i, 0 < b i) (hb1 : ∑ i, b i = 1) (hw0 : ∀ s, 0 ≤ w s) (hw : ∑ s, w s = 1) (X D : Fin k → Fin d → ℝ) :
    HasDerivAt (fun t : ℝ => energy sk Y w reg fun i c => X i c + t * D i c) (2 * ∑ i, b i * ∑ c, (X i c - step sk Y b w X i c) * D i c) 0 := by
  set G : ∀ s, Fin k → Fin (n s) → ℝ := fun s i j => 2 * ∑ c, (X i c - Y s j c) * D i c with hG
  set H : Fin k → ℝ := fun i => ∑ c, D i c ^ 2 with hH
  have hH0 : ∀ i, 0 ≤ H i := fun i => sum_nonneg fun c _ => sq_nonneg _
  set B : ℝ := ∑ s, ∑ i, ∑ j, (|G s i j| + H i) with hB
  have hle : ∀ s i j, |G s i j| + H i ≤ B := by
    intro s i j
    have n0 : ∀ s i j, 0 ≤ |G s i j| + H i := fun s i j => add_nonneg (abs_nonneg _) (hH0 i)
    refine le_trans ?_ (single_le_sum (f := fun s => ∑ i, ∑ j, (|G s i j| + H i)) (fun s _ => sum_nonneg fun i _ => sum_nonneg fun j _ => n0 s i j) (mem_univ s))
    refine le_trans ?_ (single_le_sum (f := fun i => ∑ j, (|G s i j| + H i)) (fun i _ => sum_nonneg fun j _ => n0 s i j) (mem_univ i))
    exact single_le_sum (f := fun j => |G s i j| + H i) (fun j _ => n0 s i j) (mem_univ j)
  have hM : ∀ (t : ℝ) s i j, distMat (fun i c => X i c + t * D i c) (Y s) i j - distMat X (Y s) i j = t * G s i j + t ^ 2 * H i := by
    intro t s i j
    simp only [distMat, hG, hH, mul_sum]
    rw [← sum_sub_distrib, ← sum_add_distrib]
    exact sum_congr rfl fun c _ => by ring
  have hc : ∀ (t : ℝ) s (P : Fin k → Fin (n s) → ℝ), cost (fun i j => distMat (fun i c => X i c + t * D i c) (Y s) i j - distMat X (Y s) i j) P = t * cost (G s) P + t ^ 2 * cost (fun i _ => H i) P := by
    intro t s P
    simp only [hM, cost, mul_sum]
    rw [← sum_add_distrib]
    refine sum_congr rfl fun i _ => ?_
    rw [← sum_add_distrib]
    exact sum_congr rfl fun j _ => by ring
  have e0 : (fun i c => X i c + (0 : ℝ) * D i c) = X := by funext i c; ring
  have hlin : ∑ s, w s * cost (G s) (sk s (distMat X (Y s))) = 2 * ∑ i, b i * ∑ c, (X i c - step sk Y b w X i c) * D i c := by
    have h1 : ∀ s, cost (G s) (sk s (distMat X (Y s))) = 2 * ∑ i, ∑ c, (b i * X i c - ∑ j, sk s (distMat X (Y s)) i j * Y s j c) * D i c := by
      intro s
      unfold cost
      rw [mul_sum]
      refine sum_congr rfl fun i _ => ?_
      have : ∀ c, (b i * X i c - ∑ j, sk s (distMat X (Y s)) i j * Y s j c) * D i c = ∑ j, sk s (distMat X (Y s)) i j * ((X i c - Y s j c) * D i c) := by
        intro c
        rw [← (h s (distMat X (Y s))).1.row i, sum_mul, ← sum_sub_distrib, sum_mul]
        exact sum_congr rfl fun j _ => by ring
      simp only [this]
      rw [sum_comm, mul_sum]
      refine sum_congr rfl fun j _ => ?_
      rw [hG, ← mul_sum]
      ring
    simp only [h1]
    have h2 : ∀ s, w s * (2 * ∑ i, ∑ c, (b i * X i c - ∑ j, sk s (distMat X (Y s)) i j * Y s j c) * D i c) = 2 * ∑ i, ∑ c, w s * ((b i * X i c - ∑ j, sk s (distMat X (Y s)) i j * Y s j c) * D i c) := by
      intro s
      simp only [← mul_sum]
      ring
    simp only [h2]
    rw [← mul_sum, sum_comm]
    congr 1
    refine sum_congr rfl fun i _ => ?_
    rw [sum_comm, mul_sum]
    refine sum_congr rfl fun c _ => ?_
    have h3 : b i * step sk Y b w X i c = ∑ s, w s * ∑ j, sk s (distMat X (Y s)) i j * Y s j c := by
      unfold step
      rw [mul_sum]
      refine sum_congr rfl fun s _ => ?_
      have := (hb i).ne'
      field_simp
    have h4 : ∑ s, w s * ((b i * X i c - ∑ j, sk s (distMat X (Y s)) i j * Y s j c) * D i c) = (b i * X i c - b i * step sk Y b w X i c) * D i c := by
      rw [h3, sub_mul, sum_mul]
      have : b i * X i c * D i c = ∑ s, w s * (b i * X i c * D i c) := by rw [← sum_mul, hw, one_mul]
      rw [this, ← sum_sub_distrib]
      exact sum_congr rfl fun s _ => by ring
    rw [h4]
    ring
  refine hasDerivAt_of_sq (C := ∑ s, w s * cost (fun i _ => H i) (sk s (distMat X (Y s))) + B ^ 2 / (2 * reg)) fun t ht => ?_
  beta_reduce
  rw [e0, ← hlin]
  have key : ∀ s, |entropicObjective (distMat (fun i c => X i c + t * D i c) (Y s)) reg (sk s (distMat (fun i c => X i c + t * D i c) (Y s))) - entropicObjective (distMat X (Y s)) reg (sk s (distMat X (Y s))) - t * cost (G s) (sk s (distMat X (Y s)))| ≤
      (cost (fun i _ => H i) (sk s (distMat X (Y s))) + B ^ 2 / (2 * reg)) * t ^ 2 := by
    intro s
    have hδ : ∀ i j, |distMat (fun i c => X i c + t * D i c) (Y s) i j - distMat X (Y s) i j| ≤ |t| * B := by
      intro i j
      rw [hM]
      refine (abs_add_le _ _).trans ?_
      rw [abs_mul, abs_of_nonneg (mul_nonneg (sq_nonneg t) (hH0 i))]
      have h1 : t ^ 2 ≤ |t| := by rw [← sq_abs]; nlinarith [abs_nonneg t]
      have h2 := mul_le_mul_of_nonneg_left (hle s i j) (abs_nonneg t)
      nlinarith [mul_le_mul_of_nonneg_right h1 (hH0 i)]
    obtain ⟨u1, u2⟩ := entropic_value_sub hreg hb1 one_pos (h s (distMat X (Y s))).1 (h s (distMat X (Y s))).2 (h s (distMat (fun i c => X i c + t * D i c) (Y s))).1 (h s (distMat (fun i c => X i c + t * D i c) (Y s))).2 hδ
    rw [hc, mul_pow, sq_abs] at u1
    rw [hc] at u2
    have hpos : 0 ≤ cost (fun i _ => H i) (sk s (distMat X (Y s))) := sum_nonneg fun i _ => sum_nonneg fun j _ => mul_nonneg ((h s _).1.nonneg i j) (hH0 i)
    have hq : 0 ≤ B ^ 2 / (2 * reg) * t ^ 2 := by positivity
    have e1 : 1 * (t ^ 2 * B ^ 2) / (2 * reg) = B ^ 2 / (2 * reg) * t ^ 2 := by ring
    rw [e1] at u1
    rw [abs_le]
    constructor
    · nlinarith [mul_nonneg hpos (sq_nonneg t)]
    · nlinarith
  have e2 : energy sk Y w reg (fun i c => X i c + t * D i c) - energy sk Y w reg X - t * ∑ s, w s * cost (G s) (sk s (distMat X (Y s))) =
      ∑ s, w s * (entropicObjective (distMat (fun i c => X i c + t * D i c) (Y s)) reg (sk s (distMat (fun i c => X i c + t * D i c) (Y s))) - entropicObjective (distMat X (Y s)) reg (sk s (distMat X (Y s))) - t * cost (G s) (sk s (distMat X (Y s)))) := by
    unfold energy
    rw [mul_sum, ← sum_sub_distrib, ← sum_sub_distrib]
    exact sum_congr rfl fun s _ => by ring
  rw [e2]
  refine (abs_sum_le_sum_abs _ _).trans ?_
  have e3 : (∑ s, w s * cost (fun i _ => H i) (sk s (distMat X (Y s))) + B ^ 2 / (2 * reg)) * t ^ 2 = ∑ s, w s * ((cost (fun i _ => H i) (sk s (distMat X (Y s))) + B ^ 2 / (2 * reg)) * t ^ 2) := by
    generalize B ^ 2 / (2 * reg) = q
    have : (∑ s, w s * cost (fun i _ => H i) (sk s (distMat X (Y s))) + q) = ∑ s, w s * (cost (fun i _ => H i) (sk s (distMat X (Y s))) + q) := by
      simp only [mul_add, sum_add_distrib, ← sum_mul, hw, one_mul]
    rw [this, sum_mul]
    exact sum_congr rfl fun s _ => by ring
  rw [e3]
  refine sum_le_sum fun s _ => ?_
  rw [abs_mul, abs_of_nonneg (hw0 s)]
  exact mul_le_mul_of_nonneg_left (key s) (hw0 s)

end FreeSinkhorn

end POT
