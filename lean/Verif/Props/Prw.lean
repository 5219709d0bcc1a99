import Verif.Lemmas.Prw

/-! # C122: projection robust Wasserstein distance (ot/dr.py 286-423) -/

set_option linter.unusedSectionVars false

namespace POT.Props

open Finset Matrix POT.Spec POT.Sinkhorn POT.Prw

variable {I J D K : Type*} [Fintype I] [Fintype J] [Fintype D] [Fintype K] [DecidableEq I] [DecidableEq J] [DecidableEq D] [DecidableEq K] [Nonempty I] [Nonempty J]
variable {qr : Matrix D K ℝ → Matrix D K ℝ} {X : Matrix I D ℝ} {Y : Matrix J D ℝ} {a : I → ℝ} {b : J → ℝ} {tau reg stopThr : ℝ} {U0 : Matrix D K ℝ} {maxiter : ℕ}

/-- what holds of the state in every iteration -/
private def Inv (s : Prw.St I J D K) : Prop := Pos s.uv ∧ IsStiefel s.U

private theorem inv_step (hqr : IsQr qr) (ha : ∀ i, 0 < a i) (hb : ∀ j, 0 < b j) {s : Prw.St I J D K} (hs : Inv s) : Inv (Prw.step qr X Y a b tau reg s) :=
  ⟨knoppStep_pos (fun i j => kernel_pos _ _ i j) ha hb hs.1, (hqr _).1⟩

private theorem inv_iter (hqr : IsQr qr) (ha : ∀ i, 0 < a i) (hb : ∀ j, 0 < b j) (hU : IsStiefel U0) (t : ℕ) : Inv ((Prw.step qr X Y a b tau reg)^[t] (Prw.init U0 : Prw.St I J D K)) := by
  induction t with
  | zero =>
    have hI : (0 : ℝ) < Fintype.card I := by exact_mod_cast Fintype.card_pos
    have hJ : (0 : ℝ) < Fintype.card J := by exact_mod_cast Fintype.card_pos
    exact ⟨⟨fun _ => div_pos one_pos hI, fun _ => div_pos one_pos hJ⟩, hU⟩
  | succ t ih => rw [Function.iterate_succ_apply']; exact inv_step hqr ha hb ih

/-- The facts about one iteration from which everything below follows. -/
private theorem step_facts (hqr : IsQr qr) (ha : ∀ i, 0 < a i) (hb : ∀ j, 0 < b j) (hreg : 0 < reg) {s : Prw.St I J D K} (hs : Inv s) {P : Matrix I J ℝ} (hP : (Prw.step qr X Y a b tau reg s).pi = some P) :
    (∀ i j, 0 < P i j) ∧ (∀ i, ∑ j, P i j = a i) ∧ IsEntropicOptimal a (fun j => ∑ i, P i j) (fun i j => projSq s.U (X i) (Y j)) reg P ∧
    (Prw.step qr X Y a b tau reg s).U = qr (s.U + (2 * tau / reg) • (dispMatrix P X Y * s.U - s.U * (s.Uᵀ * dispMatrix P X Y * s.U))) ∧
    (Prw.step qr X Y a b tau reg s).err = max (2 * frob (dispMatrix P X Y * s.U - s.U * (s.Uᵀ * dispMatrix P X Y * s.U))) (∑ j, |∑ i, P i j - b j|) := by
  have hKp := fun i j => kernel_pos (projCost X Y s.U) reg i j
  have hsp := knoppStep_pos hKp ha hb hs.1
  have e : P = plan (kernel (projCost X Y s.U) reg) (knoppStep a b (kernel (projCost X Y s.U) reg) s.uv) := by
    have : some P = some (of (plan (kernel (projCost X Y s.U) reg) (knoppStep a b (kernel (projCost X Y s.U) reg) s.uv))) := hP.symm
    exact Option.some.inj this
  have hpos : ∀ i j, 0 < P i j := fun i j => by rw [e]; exact plan_pos hKp hsp i j
  have hrow : ∀ i, ∑ j, P i j = a i := fun i => by
    rw [e]; exact knoppStep_rows hKp (weights_of_pos hb) (good_of_pos hs.1.1) i
  have hv := vpi_eq (X := X) (Y := Y) hrow
  have hx : xi reg (vpi X Y a P) s.U = (2 / reg) • comp (dispMatrix P X Y) s.U := by rw [hv]; exact xi_eq (disp_symm P X Y) _
  refine ⟨hpos, hrow, ?_, ?_, ?_⟩
  · refine optimal_of_form hreg (x := fun i => Real.log ((knoppStep a b (kernel (projCost X Y s.U) reg) s.uv).u i)) (y := fun j => Real.log ((knoppStep a b (kernel (projCost X Y s.U) reg) s.uv).v j)) ⟨fun i j => (hpos i j).le, hrow, fun j => rfl⟩ hpos fun i j => ?_
    rw [← projCost_eq, e]
    exact log_plan hsp i j
  · have : (Prw.step qr X Y a b tau reg s).U = qr (s.U + tau • xi reg (vpi X Y a P) s.U) := by rw [e]; rfl
    rw [this, hx, smul_smul]
    congr 3
    ring
  · have : (Prw.step qr X Y a b tau reg s).err = max (reg * frob (xi reg (vpi X Y a P) s.U)) (∑ j, |∑ i, P i j - b j|) := by rw [e]; rfl
    rw [this, hx, frob_smul _ (by positivity)]
    congr 1
    rw [← mul_assoc, mul_div_cancel₀ _ hreg.ne']
    rfl

private theorem result_state (h : prw qr X Y a b tau U0 reg stopThr maxiter = some (P, U)) :
    ∃ t < maxiter, ((Prw.step qr X Y a b tau reg)^[t + 1] (Prw.init U0)).pi = some P ∧ ((Prw.step qr X Y a b tau reg)^[t + 1] (Prw.init U0)).U = U ∧
      (t + 1 < maxiter → ((Prw.step qr X Y a b tau reg)^[t + 1] (Prw.init U0)).err ≤ stopThr) := by
  unfold prw at h
  split_ifs at h with hk
  obtain ⟨t, ht, e, h1, -⟩ := loop_end (Prw.step qr X Y a b tau reg) stopThr maxiter (Prw.init U0)
  simp only [e] at h
  cases t with
  | zero => simp [Prw.init] at h
  | succ t =>
    obtain ⟨P', hP', hh⟩ := Option.map_eq_some_iff.1 h
    have h3 := Prod.mk.inj hh
    exact ⟨t, ht, by rw [← h3.1]; exact hP', h3.2, h1⟩

/-- **What `projection_robust_wasserstein` returns.**  The returned projection has orthonormal columns.  The plan is positive with row sums exactly `a`, and is the unique entropic optimum between `a` and its own column sums for the
costs of the data projected on `W`, the projection of the previous iteration.  The returned projection is the QR retraction of the step from `W` along the tangent component of the gradient of the projected transport cost, and when the
stepsize times that cost is at most `reg`, the transport cost projected on the returned `U` is at least the one projected on `W`. -/
theorem C122_prw_result (hqr : IsQr qr) (ha : ∀ i, 0 < a i) (hb : ∀ j, 0 < b j) (hreg : 0 < reg) (hU : IsStiefel U0) {P : Matrix I J ℝ} {U : Matrix D K ℝ}
    (h : prw qr X Y a b tau U0 reg stopThr maxiter = some (P, U)) :
    IsStiefel U ∧ (∀ i j, 0 < P i j) ∧ (∀ i, ∑ j, P i j = a i) ∧
    ∃ W : Matrix D K ℝ, IsStiefel W ∧ IsEntropicOptimal a (fun j => ∑ i, P i j) (fun i j => projSq W (X i) (Y j)) reg P ∧
      U = qr (W + (2 * tau / reg) • (dispMatrix P X Y * W - W * (Wᵀ * dispMatrix P X Y * W))) ∧
      (0 ≤ tau → tau * cost (fun i j => projSq W (X i) (Y j)) P ≤ reg → cost (fun i j => projSq W (X i) (Y j)) P ≤ cost (fun i j => projSq U (X i) (Y j)) P) := by
  obtain ⟨t, -, hP, hUe, -⟩ := result_state h
  have hi := inv_iter (X := X) (Y := Y) (tau := tau) (reg := reg) hqr ha hb hU t
  rw [Function.iterate_succ_apply'] at hP hUe
  obtain ⟨f1, f2, f3, f4, -⟩ := step_facts hqr ha hb hreg hi hP
  rw [hUe] at f4
  refine ⟨by rw [f4]; exact (hqr _).1, f1, f2, _, hi.2, f3, f4, fun htau hle => ?_⟩
  obtain ⟨T, hT⟩ := (hqr (((Prw.step qr X Y a b tau reg)^[t] (Prw.init U0)).U + (2 * tau / reg) • (dispMatrix P X Y * ((Prw.step qr X Y a b tau reg)^[t] (Prw.init U0)).U
    - ((Prw.step qr X Y a b tau reg)^[t] (Prw.init U0)).U * (((Prw.step qr X Y a b tau reg)^[t] (Prw.init U0)).Uᵀ * dispMatrix P X Y * ((Prw.step qr X Y a b tau reg)^[t] (Prw.init U0)).U)))).2
  rw [← f4] at hT
  have := retract_ascent (disp_psd (fun i j => (f1 i j).le) X Y) (s := 2 * tau / reg) hi.2 (U := U) (by rw [f4]; exact (hqr _).1) (by positivity) ?_ hT
  · rwa [disp_trace P X Y, disp_trace P X Y] at this
  · rw [disp_trace P X Y, div_mul_eq_mul_div, div_le_iff₀ hreg]
    linarith

/-- **Stop by the test.**  If the result is not the one of running all `maxiter` iterations without a test, the column sums of the plan are within `stopThr` of `b` in 1-norm and the plan's displacement matrix maps the span of the
projection `W` used for the plan to itself up to `stopThr / 2`. -/
theorem C122_prw_stop (hqr : IsQr qr) (ha : ∀ i, 0 < a i) (hb : ∀ j, 0 < b j) (hreg : 0 < reg) (hU : IsStiefel U0) {P : Matrix I J ℝ} {U : Matrix D K ℝ}
    (h : prw qr X Y a b tau U0 reg stopThr maxiter = some (P, U)) (hfull : prw qr X Y a b tau U0 reg stopThr maxiter ≠ prw qr X Y a b tau U0 reg (-1) maxiter) :
    (∑ j, |∑ i, P i j - b j| ≤ stopThr) ∧ ∃ W : Matrix D K ℝ, IsStiefel W ∧ IsEntropicOptimal a (fun j => ∑ i, P i j) (fun i j => projSq W (X i) (Y j)) reg P ∧
      2 * frob (dispMatrix P X Y * W - W * (Wᵀ * dispMatrix P X Y * W)) ≤ stopThr := by
  obtain ⟨t, ht, hP, hUe, hstop⟩ := result_state h
  have hi := inv_iter (X := X) (Y := Y) (tau := tau) (reg := reg) hqr ha hb hU t
  rw [Function.iterate_succ_apply'] at hP hUe hstop
  obtain ⟨f1, f2, f3, f4, f5⟩ := step_facts hqr ha hb hreg hi hP
  have hlt : t + 1 < maxiter := by
    by_contra hc
    have he : t + 1 = maxiter := by omega
    refine hfull (h.trans ?_)
    unfold prw
    have hk : Fintype.card K < Fintype.card D := by
      by_contra hk
      unfold prw at h
      rw [if_neg hk] at h
      cases h
    rw [if_pos hk]
    obtain ⟨t', ht', e', h1, -⟩ := loop_end (Prw.step qr X Y a b tau reg) (-1) maxiter (Prw.init U0)
    have hte : t' = maxiter := by
      by_contra hne
      have h2 := h1 (lt_of_le_of_ne ht' hne)
      cases t' with
      | zero => simp only [Function.iterate_zero, id_eq, Prw.init] at h2; norm_num at h2
      | succ t' =>
        rw [Function.iterate_succ_apply'] at h2
        have h3 : (0 : ℝ) ≤ (Prw.step qr X Y a b tau reg ((Prw.step qr X Y a b tau reg)^[t'] (Prw.init U0))).err :=
          le_max_of_le_right (sum_nonneg fun _ _ => abs_nonneg _)
        linarith
    rw [hte, ← he, Function.iterate_succ_apply'] at e'
    rw [← he]
    simp only [e', hP, hUe, Option.map_some]
  have hle := hstop hlt
  rw [f5] at hle
  exact ⟨(le_max_right _ _).trans hle, _, hi.2, f3, (le_max_left _ _).trans hle⟩

/-- **When it raises.**  The call returns exactly when the subspace is smaller than the space, at least one iteration is allowed and `stopThr` is below the initial error `1`. -/
theorem C122_prw_returns : (prw qr X Y a b tau U0 reg stopThr maxiter).isSome ↔ Fintype.card K < Fintype.card D ∧ 0 < maxiter ∧ stopThr < 1 := by
  constructor
  · intro h
    obtain ⟨⟨P, U⟩, h⟩ := Option.isSome_iff_exists.1 h
    have hk : Fintype.card K < Fintype.card D := by
      by_contra hk
      unfold prw at h
      rw [if_neg hk] at h
      cases h
    refine ⟨hk, ?_, ?_⟩
    · obtain ⟨t, ht, -⟩ := result_state h
      omega
    · by_contra hc
      unfold prw at h
      rw [if_pos hk] at h
      cases maxiter with
      | zero => simp [Prw.loop, Prw.init] at h
      | succ n =>
        have : Prw.loop (Prw.step qr X Y a b tau reg) stopThr (n + 1) (Prw.init U0) = Prw.init U0 := by
          unfold Prw.loop
          exact if_neg (by simpa [Prw.init] using hc)
        simp only [this] at h
        simp [Prw.init] at h
  · rintro ⟨hk, hm, hs⟩
    unfold prw
    rw [if_pos hk]
    obtain ⟨t, ht, e, h1, -⟩ := loop_end (Prw.step qr X Y a b tau reg) stopThr maxiter (Prw.init U0)
    simp only [e, Option.isSome_map]
    cases t with
    | zero =>
      have := h1 hm
      simp only [Function.iterate_zero, id_eq, Prw.init] at this
      linarith
    | succ t => rw [Function.iterate_succ_apply']; rfl

/-- QR of a single column -/
noncomputable def qrOne (A : Matrix (Fin 2) (Fin 1) ℝ) : Matrix (Fin 2) (Fin 1) ℝ :=
  if A 0 0 ^ 2 + A 1 0 ^ 2 = 0 then !![1; 0] else (1 / Real.sqrt (A 0 0 ^ 2 + A 1 0 ^ 2)) • A

theorem qrOne_ok : IsQr qrOne := by
  intro A
  unfold qrOne IsStiefel
  split_ifs with h
  · have h0 : A 0 0 = 0 := by nlinarith [sq_nonneg (A 0 0), sq_nonneg (A 1 0)]
    have h1 : A 1 0 = 0 := by nlinarith [sq_nonneg (A 0 0), sq_nonneg (A 1 0)]
    refine ⟨?_, 0, ?_⟩
    · ext i j; fin_cases i; fin_cases j; simp [mul_apply, Fin.sum_univ_two]
    · ext i j; fin_cases i <;> fin_cases j <;> simp [h0, h1]
  · have hp : 0 < A 0 0 ^ 2 + A 1 0 ^ 2 := lt_of_le_of_ne (by positivity) (Ne.symm h)
    have hs := Real.sqrt_pos.2 hp
    have hss := Real.mul_self_sqrt hp.le
    refine ⟨?_, of fun _ _ => Real.sqrt (A 0 0 ^ 2 + A 1 0 ^ 2), ?_⟩
    · ext i j
      fin_cases i; fin_cases j
      simp only [mul_apply, Fin.sum_univ_two, transpose_apply, Matrix.smul_apply, smul_eq_mul, Fin.zero_eta, one_apply_eq, Fin.isValue]
      field_simp
      nlinarith
    · ext i j
      fin_cases j
      simp only [mul_apply, univ_unique, sum_singleton, Matrix.smul_apply, smul_eq_mul, of_apply, Fin.zero_eta, Fin.isValue, Fin.default_eq_zero]
      field_simp

/-- **Refuted: the returned plan goes with the returned projection.**  Whatever the QR routine, on four points of the plane the plan returned after one iteration is not the entropic optimum, between its own marginals, for the costs
projected on the returned `U`: it belongs to the projection before the last update. -/
theorem C122_prw_pair_refuted (qr : Matrix (Fin 2) (Fin 1) ℝ → Matrix (Fin 2) (Fin 1) ℝ) (hqr : IsQr qr) :
    ∃ (X Y : Matrix (Fin 2) (Fin 2) ℝ) (U0 : Matrix (Fin 2) (Fin 1) ℝ), IsStiefel U0 ∧ ∃ P U, prw qr X Y (fun _ => 1 / 2) (fun _ => 1 / 2) 2 U0 1 0 1 = some (P, U) ∧
      ¬ IsEntropicOptimal (fun i => ∑ j, P i j) (fun j => ∑ i, P i j) (fun i j => projSq U (X i) (Y j)) 1 P := by
  refine ⟨!![0, 0; 1, 0], !![0, 0; 0, 1], !![1; 0], ?_, ?_⟩
  · unfold IsStiefel; ext i j; fin_cases i; fin_cases j; simp [mul_apply, Fin.sum_univ_two]
  obtain ⟨⟨P, U⟩, h⟩ := Option.isSome_iff_exists.1 ((C122_prw_returns (qr := qr) (X := !![0, 0; 1, 0]) (Y := !![0, 0; 0, 1]) (a := fun _ : Fin 2 => (1 / 2 : ℝ)) (b := fun _ : Fin 2 => (1 / 2 : ℝ)) (tau := 2)
    (U0 := !![1; 0]) (reg := 1) (stopThr := 0) (maxiter := 1)).2 ⟨by simp, by norm_num, by norm_num⟩)
  refine ⟨P, U, h, ?_⟩
  obtain ⟨t, ht, hP, hU, -⟩ := result_state h
  obtain rfl : t = 0 := by omega
  simp only [zero_add, Function.iterate_one] at hP hU
  have hi : Inv (Prw.init !![1; 0] : Prw.St (Fin 2) (Fin 2) (Fin 2) (Fin 1)) :=
    ⟨⟨fun _ => by simp [Prw.init], fun _ => by simp [Prw.init]⟩, by unfold IsStiefel Prw.init; ext i j; fin_cases i; fin_cases j; simp [mul_apply, Fin.sum_univ_two]⟩
  have hP' : P = of fun _ _ => (1 / 4 : ℝ) := by
    have := Option.some.inj hP
    rw [← this]
    ext i j
    fin_cases i <;> fin_cases j <;> simp [plan, knoppStep, kernel, ktu, kpv, projCost_eq, projSq, Prw.init, Fin.sum_univ_two] <;> field_simp <;> norm_num
  obtain ⟨-, -, -, f4, -⟩ := step_facts hqr (fun _ => by norm_num) (fun _ => by norm_num) one_pos hi hP
  rw [hU, hP'] at f4
  obtain ⟨h1, T, hT⟩ := hqr (!![1; -1] : Matrix (Fin 2) (Fin 1) ℝ)
  have f6 : U = qr !![1; -1] := by
    rw [f4]
    congr 1
    ext i j
    fin_cases j
    fin_cases i <;> simp [Prw.init, dispMatrix, mul_apply, Fin.sum_univ_two, Matrix.vecMul, dotProduct] <;> norm_num
  rw [← f6] at h1 hT
  have e0 := congrFun (congrFun hT 0) 0
  have e1 := congrFun (congrFun hT 1) 0
  have en := congrFun (congrFun h1 0) 0
  simp [mul_apply, Fin.sum_univ_two] at e0 e1 en
  intro hopt
  obtain ⟨R, hR, hRp, ⟨x, y, hform⟩, -⟩ := exists_limit (a := fun i => ∑ j, P i j) (b := fun j => ∑ i, P i j) (K := kernel (fun i j => projSq U ((!![0, 0; 1, 0] : Matrix (Fin 2) (Fin 2) ℝ) i) ((!![0, 0; 0, 1] : Matrix (Fin 2) (Fin 2) ℝ) j)) 1)
    (fun i j => kernel_pos _ _ i j) (fun i => by rw [hP']; simp) (fun j => by rw [hP']; simp) (by rw [sum_comm]) (s := ⟨fun _ => 1, fun _ => 1⟩) ⟨fun _ => one_pos, fun _ => one_pos⟩
  have hRo : IsEntropicOptimal (fun i => ∑ j, P i j) (fun j => ∑ i, P i j) (fun i j => projSq U ((!![0, 0; 1, 0] : Matrix (Fin 2) (Fin 2) ℝ) i) ((!![0, 0; 0, 1] : Matrix (Fin 2) (Fin 2) ℝ) j)) 1 R :=
    optimal_of_form one_pos (x := x) (y := y) hR hRp fun i j => by rw [hform, log_kernel, sub_eq_add_neg]
  have hPR : P = R := by
    have := (hRo.2 P hopt.1).2 (hopt.2 R hR).1
    exact this
  have g : ∀ i j, Real.log (P i j) = x i + y j - projSq U ((!![0, 0; 1, 0] : Matrix (Fin 2) (Fin 2) ℝ) i) ((!![0, 0; 0, 1] : Matrix (Fin 2) (Fin 2) ℝ) j) := fun i j => by
    rw [hPR, hform, log_kernel, div_one, sub_eq_add_neg]
  have g00 := g 0 0
  have g01 := g 0 1
  have g10 := g 1 0
  have g11 := g 1 1
  rw [hP'] at g00 g01 g10 g11
  simp [projSq, Fin.sum_univ_two] at g00 g01 g10 g11
  have hz : U 0 0 * U 1 0 = 0 := by nlinarith
  rcases mul_eq_zero.1 hz with hz | hz
  · rw [hz] at e0; simp at e0
  · rw [hz] at e1; simp at e1

/-- the hypotheses of the theorems above hold: a call that returns -/
example : ∃ P U, prw qrOne !![0, 0; 1, 0] !![0, 0; 0, 1] (fun _ : Fin 2 => (1 / 2 : ℝ)) (fun _ : Fin 2 => 1 / 2) 2 !![1; 0] 1 0 1 = some (P, U) := by
  obtain ⟨⟨P, U⟩, h⟩ := Option.isSome_iff_exists.1 ((C122_prw_returns (qr := qrOne) (X := !![0, 0; 1, 0]) (Y := !![0, 0; 0, 1]) (a := fun _ : Fin 2 => (1 / 2 : ℝ)) (b := fun _ : Fin 2 => (1 / 2 : ℝ)) (tau := 2)
    (U0 := !![1; 0]) (reg := 1) (stopThr := 0) (maxiter := 1)).2 ⟨by simp, by norm_num, by norm_num⟩)
  exact ⟨P, U, h⟩

example : IsQr qrOne ∧ IsStiefel (!![1; 0] : Matrix (Fin 2) (Fin 1) ℝ) := by
  refine ⟨qrOne_ok, ?_⟩
  unfold IsStiefel; ext i j; fin_cases i; fin_cases j; simp [mul_apply, Fin.sum_univ_two]

end POT.Props
