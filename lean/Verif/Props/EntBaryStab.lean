import Verif.Props.EntBary

/-! # C83: non-uniform weights, and absorption in `barycenter_stabilized` -/

set_option linter.unusedSectionVars false

namespace POT.Props

open Finset Spec Sinkhorn EntBary Filter Topology

variable {I S : Type*} [Fintype I] [Fintype S] [Nonempty I] [Nonempty S]

/-! ### what `barycenter_sinkhorn` computes with other weights -/

/-- Logarithm of the ratio of the uniform and the weighted geometric means of the columns of the first `UKv`. -/
noncomputable def tilt (M : I → I → ℝ) (reg : ℝ) (A : I → S → ℝ) (w : S → ℝ) (j : I) : ℝ :=
  let U := fun s => ∑ l, Real.exp (-M j l / reg) * (A l s / ∑ i, Real.exp (-M i l / reg))
  (∑ s, Real.log (U s)) / Fintype.card S - ∑ s, w s * Real.log (U s)

theorem tilt_eq {M : I → I → ℝ} {reg : ℝ} {A : I → S → ℝ} (hA : IsHists A) {w : S → ℝ} (hw : ∑ s, w s = 1) (j : I) :
    tilt M reg A w j = ∑ s, w s * Real.log (initU (kernel M reg) A j s) := by
  have e : ∀ i j, Real.exp (-M i j / reg) = kernel M reg i j := fun i j => by unfold kernel; rw [neg_div, div_neg]
  simp_rw [log_initU hA, mul_sub]
  rw [sum_sub_distrib, ← sum_mul, hw, one_mul]
  unfold tilt dotK
  simp_rw [e]

/-- `barycenter(method="sinkhorn")` with arbitrary positive weights converges to the entropic barycenter for the cost `M i j - reg * tilt j`; the tilt is zero for uniform weights. -/
theorem C83_sinkhorn_tilted {M : I → I → ℝ} {reg : ℝ} (hreg : 0 < reg) {A : I → S → ℝ} (hA : IsHists A) {w : S → ℝ} (hw : IsWeights w) :
    (∃ q P, IsEntropicBarycenter (fun s i => A i s) w (fun i j => M i j - reg * tilt M reg A w j) reg q P ∧ ∀ j, Tendsto (fun n => barycenterSinkhorn M reg A w 0 n j) atTop (𝓝 (q j))) ∧
    (w = uniform → tilt M reg A w = 0) := by
  constructor
  · have hK : kernel (fun i j => M i j - reg * tilt M reg A w j) reg = fun i j => kernel M reg i j * Real.exp (tilt M reg A w j) := by
      funext i j
      unfold kernel
      rw [← Real.exp_add]
      congr 1
      field_simp
      ring
    have hd : ∀ u u' : I → S → ℝ, (∀ j s, u' j s = u j s * Real.exp (-tilt M reg A w j)) → ∀ i s, dotK (kernel (fun i j => M i j - reg * tilt M reg A w j) reg) u' i s = dotK (kernel M reg) u i s := by
      intro u u' h i s
      unfold dotK
      refine sum_congr rfl fun j _ => ?_
      rw [hK, h, Real.exp_neg]
      have := (Real.exp_pos (tilt M reg A w j)).ne'
      field_simp
    have hv : ∀ u u' : I → S → ℝ, (∀ j s, u' j s = u j s * Real.exp (-tilt M reg A w j)) → ukv (kernel (fun i j => M i j - reg * tilt M reg A w j) reg) A u' = ukv (kernel M reg) A u := by
      intro u u' h
      funext j s
      unfold ukv dotKT
      rw [mul_sum, mul_sum]
      refine sum_congr rfl fun i _ => ?_
      simp only [hd u u' h]
      simp only [h, hK, Real.exp_neg]
      have := (Real.exp_pos (tilt M reg A w j)).ne'
      field_simp
    obtain ⟨x0, hx0⟩ : ∃ x0 : State I S, x0 = { u := fun j s => initU (kernel M reg) A j s * Real.exp (-tilt M reg A w j), UKv := fun _ _ => 1 } := ⟨_, rfl⟩
    obtain ⟨q, P, h1, h2⟩ := runFrom_converges (M := fun i j => M i j - reg * tilt M reg A w j) hreg hA hw (x := x0) (fun j s => by rw [hx0]; exact mul_pos (initU_pos hA j s) (Real.exp_pos _))
      (fun j => by
        rw [hx0]
        have e : ∀ s, w s * Real.log (initU (kernel M reg) A j s * Real.exp (-tilt M reg A w j)) = w s * Real.log (initU (kernel M reg) A j s) - w s * tilt M reg A w j := fun s => by
          rw [Real.log_mul (initU_pos hA j s).ne' (Real.exp_pos _).ne', Real.log_exp]
          ring
        simp only
        rw [sum_congr rfl fun s _ => e s, sum_sub_distrib, ← sum_mul, hw.2, one_mul, tilt_eq hA hw.2, sub_self])
    refine ⟨q, P, h1, fun j => (h2 j).congr' ?_⟩
    filter_upwards [eventually_gt_atTop 0] with n hn
    have h := loop_sim (step := step (kernel M reg) A w) (step' := step (kernel (fun i j => M i j - reg * tilt M reg A w j) reg) A w) (bad := fun _ => False) (bad' := fun _ => False)
      (stop := fun ii _ x => ii % 10 = 1 ∧ stdErr x.UKv < 0) (stop' := fun ii _ x => ii % 10 = 1 ∧ stdErr x.UKv < 0)
      (R := fun x y => ∀ j s, y.u j s = x.u j s * Real.exp (-tilt M reg A w j)) (R' := fun x y => (∀ j s, y.u j s = x.u j s * Real.exp (-tilt M reg A w j)) ∧ y.UKv = x.UKv)
      (fun x y h => ⟨fun j s => by
        have e1 : (step (kernel (fun i j => M i j - reg * tilt M reg A w j) reg) A w y).u = newU w y.u (ukv (kernel (fun i j => M i j - reg * tilt M reg A w j) reg) A y.u) := rfl
        have e2 : (step (kernel M reg) A w x).u = newU w x.u (ukv (kernel M reg) A x.u) := rfl
        rw [e1, e2, hv _ _ h]
        unfold newU
        rw [h]
        ring, hv _ _ h⟩) (fun x y h => h.1) (fun x y _ => Iff.rfl)
      (fun ii x y h => by
        have e : (step (kernel (fun i j => M i j - reg * tilt M reg A w j) reg) A w y).UKv = (step (kernel M reg) A w x).UKv := hv _ _ h
        rw [e]) n 0 { u := initU (kernel M reg) A, UKv := dotK (kernel M reg) fun j s => A j s / ∑ i, kernel M reg i j } x0 (fun j s => by rw [hx0])
    have h3 := (h.2.2.2 hn id).2
    unfold barycenterSinkhorn EntBary.run runFrom
    rw [h3]
  · intro hu
    funext j
    rw [tilt_eq hA hw.2, hu]
    exact initU_bal hA j

/-! ### two Dirac masses -/

/-- identity matrix: the histograms are the two Dirac masses -/
def diracs : Fin 2 → Fin 2 → ℝ := fun i s => if i = s then 1 else 0

theorem diracs_hists : IsHists diracs := by
  refine ⟨fun i s => by unfold diracs; split <;> norm_num, fun s => by unfold diracs; simp⟩

/-- weights 3/4 and 1/4 -/
noncomputable def wts : Fin 2 → ℝ := ![3 / 4, 1 / 4]

theorem wts_weights : IsWeights wts := by
  refine ⟨fun s => by fin_cases s <;> simp [wts], by simp [wts, Fin.sum_univ_two]; norm_num⟩

/-- kernel with entries 1 and 1/16 -/
noncomputable def kern : Fin 2 → Fin 2 → ℝ := ![![1, 1 / 16], ![1 / 16, 1]]

/-- its cost matrix -/
noncomputable def dcost : Fin 2 → Fin 2 → ℝ := ![![0, Real.log 16], ![Real.log 16, 0]]

theorem kernel_dcost : kernel dcost 1 = kern := by
  have h : Real.exp (-Real.log 16) = 1 / 16 := by rw [Real.exp_neg, Real.exp_log (by norm_num)]; norm_num
  funext i j
  fin_cases i <;> fin_cases j <;> simp [kernel, dcost, kern, div_neg, h]

theorem geoBar_two {X : Fin 2 → Fin 2 → ℝ} {j : Fin 2} {z : ℝ} (h0 : 0 < X j 0) (h1 : 0 < X j 1) (hz : 0 < z) (h : X j 0 ^ 3 * X j 1 = z ^ 4) : geometricBar wts X j = z := by
  unfold geometricBar
  have e : ∑ s, Real.log (X j s) * wts s = Real.log z := by
    rw [Fin.sum_univ_two]
    have h2 := congrArg Real.log h
    rw [Real.log_mul (by positivity) h1.ne', Real.log_pow, Real.log_pow] at h2
    simp only [wts, Matrix.cons_val_zero, Matrix.cons_val_one]
    push_cast at h2
    linarith
  rw [e, Real.exp_log hz]

/-- scalings of the true barycenter -/
noncomputable def dscal : Fin 2 → Fin 2 → ℝ := ![![1 / 2, 8], ![2, 1 / 8]]

theorem ukv_diracs (K u : Fin 2 → Fin 2 → ℝ) (j s : Fin 2) : ukv K diracs u j s = u j s * (K s j * (1 / (K s 0 * u 0 s + K s 1 * u 1 s))) := by
  unfold ukv dotKT dotK diracs
  simp_rw [Fin.sum_univ_two]
  fin_cases s <;> simp

/-- The entropic barycenter of the two Dirac masses with weights 3/4 and 1/4 is (4/5, 1/5). -/
theorem diracs_bary : IsEntropicBarycenter (fun s i => diracs i s) wts dcost 1 ![4 / 5, 1 / 5] (fun s => planU (kernel dcost 1) diracs dscal s) := by
  refine bary_of_fixed one_pos diracs_hists wts_weights (fun j s => by fin_cases j <;> fin_cases s <;> simp [dscal]) (fun j => ?_) fun j s => ?_
  · have l8 : Real.log 8 = 3 * Real.log 2 := by rw [show (8 : ℝ) = 2 ^ 3 by norm_num, Real.log_pow]; norm_num
    fin_cases j <;> simp [dscal, wts, Fin.sum_univ_two, l8] <;> ring
  · rw [ukv_diracs, kernel_dcost]
    fin_cases j <;> fin_cases s <;> simp [dscal, kern] <;> norm_num

/-- `barycenter(method="sinkhorn")` initialises its scalings with the unweighted geometric mean. With weights 3/4, 1/4 it returns (1/2, 1/2) for every tolerance and every number of iterations, although the
barycenter is (4/5, 1/5). -/
theorem C83_sinkhorn_weights_refuted : ∃ (M : Fin 2 → Fin 2 → ℝ) (A : Fin 2 → Fin 2 → ℝ) (w q : Fin 2 → ℝ) (P : Fin 2 → Fin 2 → Fin 2 → ℝ),
    IsHists A ∧ IsWeights w ∧ IsEntropicBarycenter (fun s i => A i s) w M 1 q P ∧
    ∀ thr n, 0 < n → barycenterSinkhorn M 1 A w thr n = ![1 / 2, 1 / 2] ∧ q ≠ ![1 / 2, 1 / 2] := by
  refine ⟨dcost, diracs, wts, _, _, diracs_hists, wts_weights, diracs_bary, fun thr n hn => ⟨?_, fun h => ?_⟩⟩
  swap
  · have := congrFun h 0
    norm_num at this
  have hi : initU (kernel dcost 1) diracs = ![![1 / 4, 4], ![4, 1 / 4]] := by
    rw [kernel_dcost]
    have e : ∀ i s, dotK kern (fun j s => diracs j s / ∑ i, kern i j) i s = kern i s * (16 / 17) := by
      intro i s
      unfold dotK diracs
      fin_cases i <;> fin_cases s <;> simp [Fin.sum_univ_two, kern] <;> norm_num
    have g : ∀ i, geometricMean (dotK kern fun j s => diracs j s / ∑ i, kern i j) i = 4 / 17 := by
      intro i
      unfold geometricMean
      simp_rw [e]
      have h2 : (∑ s, Real.log (kern i s * (16 / 17))) / (Fintype.card (Fin 2) : ℝ) = Real.log (4 / 17) := by
        rw [Fin.sum_univ_two, ← Real.log_mul (by fin_cases i <;> simp [kern]) (by fin_cases i <;> simp [kern])]
        have h3 : kern i 0 * (16 / 17) * (kern i 1 * (16 / 17)) = (4 / 17) ^ 2 := by fin_cases i <;> simp [kern] <;> norm_num
        rw [h3, Real.log_pow]
        simp
      rw [h2, Real.exp_log (by norm_num)]
    funext i s
    unfold initU
    simp only [g, e]
    fin_cases i <;> fin_cases s <;> simp [kern] <;> norm_num
  have hU : ukv (kernel dcost 1) diracs ![![1 / 4, 4], ![4, 1 / 4]] = fun _ _ => 1 / 2 := by
    funext j s
    rw [ukv_diracs, kernel_dcost]
    fin_cases j <;> fin_cases s <;> simp [kern] <;> norm_num
  have hg : geometricBar wts (fun _ _ => 1 / 2 : Fin 2 → Fin 2 → ℝ) = ![1 / 2, 1 / 2] := by
    funext j
    have e : (![1 / 2, 1 / 2] : Fin 2 → ℝ) j = 1 / 2 := by fin_cases j <;> simp
    rw [e]
    exact geoBar_two (by norm_num) (by norm_num) (by norm_num) (by norm_num)
  have hs : upd (kernel dcost 1) diracs wts ![![1 / 4, 4], ![4, 1 / 4]] = ![![1 / 4, 4], ![4, 1 / 4]] := by
    unfold upd newU
    rw [hU, hg]
    funext j s
    fin_cases j <;> fin_cases s <;> simp
  obtain ⟨k, -, h1, -, -, h3, h4, h5⟩ := loop_spec (step := step (kernel dcost 1) diracs wts) (bad := fun _ => False) (stop := fun ii _ x => ii % 10 = 1 ∧ stdErr x.UKv < thr) n 0
    { u := initU (kernel dcost 1) diracs, UKv := dotK (kernel dcost 1) fun j s => diracs j s / ∑ i, kernel dcost 1 i j }
  have hk : ∃ l, k = l + 1 := by
    cases hE : (loop (step (kernel dcost 1) diracs wts) (fun _ => False) (fun ii _ x => ii % 10 = 1 ∧ stdErr x.UKv < thr) n 0
      { u := initU (kernel dcost 1) diracs, UKv := dotK (kernel dcost 1) fun j s => diracs j s / ∑ i, kernel dcost 1 i j }).exit with
    | exhausted => exact ⟨n - 1, by rw [h3 hE]; omega⟩
    | converged => exact ⟨_, (h4 hE).choose_spec.1⟩
    | numerical => exact absurd (h5 hE).2 id
  obtain ⟨l, rfl⟩ := hk
  have e : barycenterSinkhorn dcost 1 diracs wts thr n = geometricBar wts (ukv (kernel dcost 1) diracs ((upd (kernel dcost 1) diracs wts)^[l] (initU (kernel dcost 1) diracs))) := by
    unfold barycenterSinkhorn EntBary.run
    simp only
    rw [h1, step_ukv]
  rw [e, hi, Function.iterate_fixed hs, hU, hg]

/-! ### `barycenter_stabilized` -/

theorem stabErr_nonneg {X : Type*} [Fintype X] [Nonempty X] (f : X → ℝ) : 0 ≤ univ.sup' univ_nonempty fun p : X => |f p| :=
  (abs_nonneg (f (Classical.arbitrary X))).trans (le_sup' (fun p : X => |f p|) (mem_univ _))

theorem stabStep_no {M : I → I → ℝ} {reg : ℝ} {A : I → S → ℝ} {w : S → ℝ} {tau : ℝ} {x : StabState I S} (h : ¬ (stabStep M reg A w tau x).absorbing) :
    (stabStep M reg A w tau x).K = x.K ∧ (stabStep M reg A w tau x).q = geometricBar w (dotKT x.K fun i s => A i s / dotK x.K x.v i s) ∧
    (stabStep M reg A w tau x).v = fun j s => geometricBar w (dotKT x.K fun i s => A i s / dotK x.K x.v i s) j / dotKT x.K (fun i s => A i s / dotK x.K x.v i s) j s := by
  unfold EntBary.stabStep at h ⊢
  simp only at h ⊢
  split at h
  · exact absurd trivial h
  · rename_i hc
    rw [if_neg hc]
    exact ⟨rfl, rfl, rfl⟩

theorem stabErr_step {M : I → I → ℝ} {reg : ℝ} {A : I → S → ℝ} {w : S → ℝ} {tau : ℝ} {x : StabState I S} : 0 ≤ (stabStep M reg A w tau x).err := by
  unfold EntBary.stabStep
  simp only
  split
  · exact stabErr_nonneg (X := I × S) _
  · exact stabErr_nonneg (X := I × S) _

theorem stab_bal {K : I → I → ℝ} {A : I → S → ℝ} {w : S → ℝ} {u : I → S → ℝ} (h : Ok K A w) (hu : ∀ j s, 0 < u j s) (hb : Bal w u) :
    geometricBar w (dotKT K fun i s => A i s / dotK K u i s) = bar K A w u ∧
    (fun j s => geometricBar w (dotKT K fun i s => A i s / dotK K u i s) j / dotKT K (fun i s => A i s / dotK K u i s) j s) = upd K A w u := by
  have h1 : geometricBar w (dotKT K fun i s => A i s / dotK K u i s) = bar K A w u := by
    funext j
    unfold bar geometricBar
    congr 1
    have e : ∀ s, Real.log (ukv K A u j s) * w s = w s * Real.log (u j s) + Real.log (dotKT K (fun i s => A i s / dotK K u i s) j s) * w s := fun s => by
      unfold ukv
      rw [Real.log_mul (hu j s).ne' (dotKT_pos h hu j s).ne']
      ring
    rw [sum_congr rfl fun s _ => e s, sum_add_distrib, hb j, zero_add]
  refine ⟨h1, ?_⟩
  rw [h1]
  funext j s
  have e : upd K A w u j s = u j s * bar K A w u j / (u j s * dotKT K (fun i s => A i s / dotK K u i s) j s) := rfl
  rw [e]
  have := (hu j s).ne'
  have := (dotKT_pos h hu j s).ne'
  field_simp

/-- `barycenter(method="sinkhorn_stabilized")`, any positive weights: as long as no iteration absorbs, the results converge to the entropic barycenter. -/
theorem C83_stabilized_converges {M : I → I → ℝ} {reg : ℝ} (hreg : 0 < reg) {A : I → S → ℝ} (hA : IsHists A) {w : S → ℝ} (hw : IsWeights w) {tau : ℝ}
    (hno : ∀ k, ¬ ((stabStep M reg A w tau)^[k + 1] (stabInit M reg)).absorbing) :
    ∃ q P, IsEntropicBarycenter (fun s i => A i s) w M reg q P ∧ ∀ j, Tendsto (fun n => (stabRun M reg A w tau 0 n).s.q j) atTop (𝓝 (q j)) := by
  have h := ok_kernel (M := M) (reg := reg) hA hw
  have hI : (0 : ℝ) < Fintype.card I := by exact_mod_cast Fintype.card_pos
  obtain ⟨q, P, h1, h2⟩ := runFrom_converges (M := M) hreg hA hw (x := { u := fun _ _ => 1, UKv := fun _ _ => 1 }) (fun _ _ => one_pos) (one_bal w)
  refine ⟨q, P, h1, fun j => (h2 j).congr' ?_⟩
  have p1 : ∀ (j : I) (s : S), (0 : ℝ) < (fun _ _ => 1 : I → S → ℝ) j s := fun _ _ => one_pos
  have key : ∀ k, ((stabStep M reg A w tau)^[k + 1] (stabInit M reg)).K = kernel M reg ∧
      ((stabStep M reg A w tau)^[k + 1] (stabInit M reg)).v = (upd (kernel M reg) A w)^[k + 1] (fun _ _ => 1) := by
    intro k
    induction k with
    | zero =>
      obtain ⟨e1, -, e3⟩ := stabStep_no (hno 0)
      refine ⟨e1, ?_⟩
      have e4 : ((stabStep M reg A w tau)^[0 + 1] (stabInit M reg)) = stabStep M reg A w tau (stabInit M reg) := rfl
      rw [e4, show (upd (kernel M reg) A w)^[0 + 1] (fun _ _ => 1) = upd (kernel M reg) A w (fun _ _ => 1) from rfl, ← (stab_bal h p1 (one_bal w)).2]
      rw [e3]
      have d1 : ∀ i s, dotK (kernel M reg) (stabInit (S := S) M reg).v i s = dotK (kernel M reg) (fun _ _ => 1 : I → S → ℝ) i s / Fintype.card I := fun i s => by
        unfold dotK EntBary.stabInit
        simp only
        rw [sum_div]
        exact sum_congr rfl fun j _ => by ring
      have d2 : ∀ j s, dotKT (stabInit (S := S) M reg).K (fun i s => A i s / dotK (stabInit (S := S) M reg).K (stabInit (S := S) M reg).v i s) j s
          = Fintype.card I * dotKT (kernel M reg) (fun i s => A i s / dotK (kernel M reg) (fun _ _ => 1 : I → S → ℝ) i s) j s := fun j s => by
        unfold dotKT
        rw [mul_sum]
        refine sum_congr rfl fun i _ => ?_
        have e6 : (stabInit (S := S) M reg).K = kernel M reg := rfl
        simp only [e6, d1]
        have := (dotK_pos h.kpos p1 i s).ne'
        field_simp
      funext j s
      have d3 : geometricBar w (dotKT (stabInit (S := S) M reg).K fun i s => A i s / dotK (stabInit (S := S) M reg).K (stabInit (S := S) M reg).v i s) j
          = Fintype.card I * geometricBar w (dotKT (kernel M reg) fun i s => A i s / dotK (kernel M reg) (fun _ _ => 1 : I → S → ℝ) i s) j := by
        unfold geometricBar
        simp_rw [d2]
        rw [← Real.exp_log hI, ← Real.exp_add, Real.exp_log hI]
        congr 1
        have d4 : ∀ s, Real.log (Fintype.card I * dotKT (kernel M reg) (fun i s => A i s / dotK (kernel M reg) (fun _ _ => 1 : I → S → ℝ) i s) j s) * w s
            = w s * Real.log (Fintype.card I) + Real.log (dotKT (kernel M reg) (fun i s => A i s / dotK (kernel M reg) (fun _ _ => 1 : I → S → ℝ) i s) j s) * w s := fun s => by
          rw [Real.log_mul hI.ne' (dotKT_pos h p1 j s).ne']
          ring
        rw [sum_congr rfl fun s _ => d4 s, sum_add_distrib, ← sum_mul, hw.2, one_mul]
      rw [d3, d2]
      exact mul_div_mul_left _ _ hI.ne'
    | succ k ih =>
      have hk := hno (k + 1)
      rw [Function.iterate_succ_apply'] at hk
      obtain ⟨e1, -, e3⟩ := stabStep_no hk
      rw [Function.iterate_succ_apply']
      rw [ih.1] at e1 e3
      refine ⟨e1, ?_⟩
      rw [e3, ih.2, (stab_bal h (iter_pos h p1 (k + 1)) (iter_bal h p1 (one_bal w) (k + 1))).2, ← Function.iterate_succ_apply' (upd (kernel M reg) A w)]
  have hq : ∀ k, ((stabStep M reg A w tau)^[k + 2] (stabInit M reg)).q = bar (kernel M reg) A w ((upd (kernel M reg) A w)^[k + 1] (fun _ _ => 1)) := by
    intro k
    have hk := hno (k + 1)
    rw [Function.iterate_succ_apply'] at hk ⊢
    rw [(stabStep_no hk).2.1, (key k).1, (key k).2, (stab_bal h (iter_pos h p1 (k + 1)) (iter_bal h p1 (one_bal w) (k + 1))).1]
  filter_upwards [eventually_gt_atTop 1] with n hn
  obtain ⟨k, rfl⟩ : ∃ k, n = k + 2 := ⟨n - 2, by omega⟩
  have hr : (stabRun M reg A w tau 0 (k + 2)).s = (stabStep M reg A w tau)^[k + 2] (stabInit M reg) := by
    obtain ⟨m, -, f1, -, -, f3, f4, f5⟩ := loop_spec (step := stabStep M reg A w tau) (bad := fun _ => False) (stop := fun ii _ x => ((ii % 10 = 0 ∧ ¬ x.absorbing) ∨ ii = 0) ∧ x.err < 0) (k + 2) 0
      (stabInit M reg)
    unfold stabRun
    rw [f1]
    cases hE : (loop (stabStep M reg A w tau) (fun _ => False) (fun ii _ x => ((ii % 10 = 0 ∧ ¬ x.absorbing) ∨ ii = 0) ∧ x.err < 0) (k + 2) 0 (stabInit M reg)).exit with
    | exhausted => rw [f3 hE]
    | converged =>
      obtain ⟨l, -, -, h6⟩ := f4 hE
      rw [Function.iterate_succ_apply'] at h6
      exact absurd h6.2 (not_lt.2 stabErr_step)
    | numerical => exact absurd (f5 hE).2 id
  rw [hr, hq, runFrom_zero, step_ukv]
  rfl

theorem stabStep_abs {M : I → I → ℝ} {reg : ℝ} {A : I → S → ℝ} {w : S → ℝ} {tau : ℝ} {x : StabState I S} {u T v : I → S → ℝ} {q : I → ℝ} (hu : (fun i s => A i s / dotK x.K x.v i s) = u)
    (hT : dotKT x.K u = T) (hq : geometricBar w T = q) (hv : (fun j s => q j / T j s) = v) (hc : (∃ i s, tau < u i s) ∨ (∃ i s, tau < v i s)) {K : I → I → ℝ}
    (hK : (fun i j => Real.exp ((x.alpha i + reg * Real.log (maxHist u i) + (x.beta j + reg * Real.log (maxHist v j)) - M i j) / reg)) = K) :
    (stabStep M reg A w tau x).K = K ∧ (stabStep M reg A w tau x).v = (fun _ _ => 1) ∧
    (stabStep M reg A w tau x).err = univ.sup' univ_nonempty fun p : I × S => |u p.1 p.2 * dotK K (fun _ _ => 1) p.1 p.2 - A p.1 p.2| := by
  subst hK hv hq hT hu
  unfold EntBary.stabStep
  simp only
  rw [if_pos hc]
  exact ⟨rfl, rfl, rfl⟩

theorem stabStep_nabs {M : I → I → ℝ} {reg : ℝ} {A : I → S → ℝ} {w : S → ℝ} {tau : ℝ} {x : StabState I S} {u T v : I → S → ℝ} {q : I → ℝ} (hu : (fun i s => A i s / dotK x.K x.v i s) = u)
    (hT : dotKT x.K u = T) (hq : geometricBar w T = q) (hv : (fun j s => q j / T j s) = v) (hc : ¬ ((∃ i s, tau < u i s) ∨ (∃ i s, tau < v i s))) :
    (stabStep M reg A w tau x).K = x.K ∧ (stabStep M reg A w tau x).v = v ∧ (stabStep M reg A w tau x).q = q ∧ ¬ (stabStep M reg A w tau x).absorbing := by
  subst hv hq hT hu
  unfold EntBary.stabStep
  simp only
  rw [if_neg hc]
  exact ⟨rfl, rfl, rfl, id⟩

/-- An absorption moves the part of the scalings that all histograms share into the kernel, but the common part of `v` may not be absorbed: it changes the problem. Two Dirac masses with weights 3/4, 1/4 and
`tau = 5`: the barycenter is (4/5, 1/5), but for all tolerances up to 1 and all iteration limits from 3 on the result is (16/17, 1/17). -/
theorem C83_absorption_refuted : ∃ (M : Fin 2 → Fin 2 → ℝ) (A : Fin 2 → Fin 2 → ℝ) (w q : Fin 2 → ℝ) (P : Fin 2 → Fin 2 → Fin 2 → ℝ) (tau : ℝ),
    IsHists A ∧ IsWeights w ∧ IsEntropicBarycenter (fun s i => A i s) w M 1 q P ∧ 1 < tau ∧
    ∀ thr n, thr ≤ 1 → 3 ≤ n → (stabRun M 1 A w tau thr n).s.q = ![16 / 17, 1 / 17] ∧ q ≠ ![16 / 17, 1 / 17] := by
  refine ⟨dcost, diracs, wts, _, _, 5, diracs_hists, wts_weights, diracs_bary, by norm_num, fun thr n ht hn => ⟨?_, fun h => ?_⟩⟩
  swap
  · have := congrFun h 0
    norm_num at this
  obtain ⟨z, hz, hz4⟩ : ∃ z : ℝ, 0 < z ∧ z ^ 4 = 4 / (5 * 65 ^ 3) := by
    refine ⟨Real.sqrt (Real.sqrt (4 / (5 * 65 ^ 3))), by positivity, ?_⟩
    have e : ∀ y : ℝ, y ^ 4 = (y ^ 2) ^ 2 := fun y => by ring
    rw [e, Real.sq_sqrt (by positivity), Real.sq_sqrt (by positivity)]
  have hz1 : z < 1 / 20 := lt_of_pow_lt_pow_left₀ 4 (by norm_num) (by rw [hz4]; norm_num)
  have hz2 : 1 / 25 < z := lt_of_pow_lt_pow_left₀ 4 hz.le (by rw [hz4]; norm_num)
  have dot2 : ∀ (K v : Fin 2 → Fin 2 → ℝ) (i s : Fin 2), dotK K v i s = K i 0 * v 0 s + K i 1 * v 1 s := fun K v i s => by unfold dotK; rw [Fin.sum_univ_two]
  have dotT2 : ∀ (K v : Fin 2 → Fin 2 → ℝ) (i s : Fin 2), dotKT K v i s = K 0 i * v 0 s + K 1 i * v 1 s := fun K v i s => by unfold dotKT; rw [Fin.sum_univ_two]
  obtain ⟨K1, hK1⟩ : ∃ K1 : Fin 2 → Fin 2 → ℝ, K1 = ![![256 / 17, 4 / 17], ![16 / 17, 64 / 17]] := ⟨_, rfl⟩
  obtain ⟨V2, hV2⟩ : ∃ V2 : Fin 2 → Fin 2 → ℝ, V2 = ![![65 * z / 4, 80 * z], ![65 * z, 5 * z / 4]] := ⟨_, rfl⟩
  -- first iteration
  have s1 : (stabStep dcost 1 diracs wts 5 (stabInit dcost 1)).K = K1 ∧ (stabStep dcost 1 diracs wts 5 (stabInit dcost 1)).v = (fun _ _ => 1) ∧ 1 ≤ (stabStep dcost 1 diracs wts 5 (stabInit dcost 1)).err := by
    have hu : (fun i s => diracs i s / dotK (stabInit (S := Fin 2) dcost 1).K (stabInit (S := Fin 2) dcost 1).v i s) = ![![32 / 17, 0], ![0, 32 / 17]] := by
      have e : (stabInit (S := Fin 2) dcost 1).K = kern := kernel_dcost
      have e2 : (stabInit (S := Fin 2) dcost 1).v = fun _ _ => 1 / 2 := by unfold EntBary.stabInit; simp
      rw [e, e2]
      funext i s
      rw [dot2]
      fin_cases i <;> fin_cases s <;> simp [diracs, kern] <;> norm_num
    have hKtu : dotKT (stabInit (S := Fin 2) dcost 1).K ![![32 / 17, 0], ![0, 32 / 17]] = ![![32 / 17, 2 / 17], ![2 / 17, 32 / 17]] := by
      have e : (stabInit (S := Fin 2) dcost 1).K = kern := kernel_dcost
      rw [e]
      funext i s
      rw [dotT2]
      fin_cases i <;> fin_cases s <;> simp [kern] <;> norm_num
    have hq : geometricBar wts ![![32 / 17, 2 / 17], ![2 / 17, 32 / 17]] = ![16 / 17, 4 / 17] := by
      funext j
      fin_cases j
      · exact geoBar_two (by norm_num) (by norm_num) (by norm_num) (by norm_num)
      · exact geoBar_two (by norm_num) (by norm_num) (by norm_num) (by norm_num)
    have hv : (fun j s => (![16 / 17, 4 / 17] : Fin 2 → ℝ) j / (![![32 / 17, 2 / 17], ![2 / 17, 32 / 17]] : Fin 2 → Fin 2 → ℝ) j s) = ![![1 / 2, 8], ![2, 1 / 8]] := by
      funext j s
      fin_cases j <;> fin_cases s <;> norm_num
    have mu : maxHist (![![32 / 17, 0], ![0, 32 / 17]] : Fin 2 → Fin 2 → ℝ) = fun _ => 32 / 17 := by
      funext i
      unfold maxHist
      refine le_antisymm (sup'_le _ _ fun s _ => ?_) ?_
      · fin_cases i <;> fin_cases s <;> norm_num
      · refine le_trans (le_of_eq ?_) (le_sup' (fun s => (![![32 / 17, 0], ![0, 32 / 17]] : Fin 2 → Fin 2 → ℝ) i s) (mem_univ i))
        fin_cases i <;> norm_num
    have mv : maxHist (![![1 / 2, 8], ![2, 1 / 8]] : Fin 2 → Fin 2 → ℝ) = ![8, 2] := by
      funext i
      unfold maxHist
      refine le_antisymm (sup'_le _ _ fun s _ => ?_) ?_
      · fin_cases i <;> fin_cases s <;> norm_num
      · fin_cases i
        · exact le_trans (le_of_eq (by norm_num)) (le_sup' (fun s => (![![1 / 2, 8], ![2, 1 / 8]] : Fin 2 → Fin 2 → ℝ) 0 s) (mem_univ 1))
        · exact le_trans (le_of_eq (by norm_num)) (le_sup' (fun s => (![![1 / 2, 8], ![2, 1 / 8]] : Fin 2 → Fin 2 → ℝ) 1 s) (mem_univ 0))
    have habs : (∃ i s, (5 : ℝ) < (![![32 / 17, 0], ![0, 32 / 17]] : Fin 2 → Fin 2 → ℝ) i s) ∨ ∃ i s, (5 : ℝ) < (![![1 / 2, 8], ![2, 1 / 8]] : Fin 2 → Fin 2 → ℝ) i s := Or.inr ⟨0, 1, by norm_num⟩
    have hK : (fun i j => Real.exp (((stabInit (S := Fin 2) dcost 1).alpha i + 1 * Real.log (32 / 17) + ((stabInit (S := Fin 2) dcost 1).beta j + 1 * Real.log ((![8, 2] : Fin 2 → ℝ) j)) - dcost i j) / 1)) = K1 := by
      rw [hK1]
      funext i j
      have e1 : (stabInit (S := Fin 2) dcost 1).alpha i = 0 := rfl
      have e2 : (stabInit (S := Fin 2) dcost 1).beta j = 0 := rfl
      rw [e1, e2, zero_add, zero_add, div_one, one_mul, one_mul, Real.exp_sub, Real.exp_add, Real.exp_log (by norm_num)]
      fin_cases i <;> fin_cases j <;> simp [dcost, Real.exp_log] <;> norm_num
    have hK' := hK
    rw [← mv] at hK'
    obtain ⟨r1, r2, r3⟩ := stabStep_abs (M := dcost) (reg := 1) (K := K1) hu hKtu hq hv habs (by rw [mu]; exact hK')
    refine ⟨r1, r2, ?_⟩
    rw [r3]
    refine le_trans ?_ (le_sup' (fun p : Fin 2 × Fin 2 => |(![![32 / 17, 0], ![0, 32 / 17]] : Fin 2 → Fin 2 → ℝ) p.1 p.2 * dotK K1 (fun _ _ => 1) p.1 p.2 - diracs p.1 p.2|) (mem_univ (0, 0)))
    rw [dot2, hK1]
    simp [diracs]
    rw [le_abs]
    norm_num
  -- later iterations, with `v = 1` or `v = V2`
  have later : ∀ (x : StabState (Fin 2) (Fin 2)) (U T : Fin 2 → Fin 2 → ℝ) (q : Fin 2 → ℝ), x.K = K1 → (fun i s => diracs i s / dotK K1 x.v i s) = U → dotKT K1 U = T → geometricBar wts T = q →
      (fun j s => q j / T j s) = V2 → (∀ i s, U i s ≤ 5) →
      (stabStep dcost 1 diracs wts 5 x).K = K1 ∧ (stabStep dcost 1 diracs wts 5 x).v = V2 ∧ (stabStep dcost 1 diracs wts 5 x).q = q := by
    intro x U T q h1 h2 h3 h4 h5 h6
    have hno : ¬ ((∃ i s, (5 : ℝ) < U i s) ∨ ∃ i s, (5 : ℝ) < V2 i s) := by
      rintro (⟨i, s, h⟩ | ⟨i, s, h⟩)
      · exact absurd h (not_lt.2 (h6 i s))
      · revert h
        rw [hV2, imp_false, not_lt]
        fin_cases i <;> fin_cases s <;> simp <;> linarith
    obtain ⟨r1, r2, r3, -⟩ := stabStep_nabs (M := dcost) (reg := 1) (by rw [h1]; exact h2) (by rw [h1]; exact h3) h4 h5 hno
    exact ⟨r1.trans h1, r2, r3⟩
  have s2 : ∀ x : StabState (Fin 2) (Fin 2), x.K = K1 → x.v = (fun _ _ => 1) → (stabStep dcost 1 diracs wts 5 x).K = K1 ∧ (stabStep dcost 1 diracs wts 5 x).v = V2 := by
    intro x h1 h2
    have := later x ![![17 / 260, 0], ![0, 17 / 80]] ![![64 / 65, 1 / 5], ![1 / 65, 4 / 5]] ![16 * z, z] h1
      (by rw [h2]; funext i s; rw [dot2, hK1]; fin_cases i <;> fin_cases s <;> simp [diracs] <;> norm_num)
      (by funext i s; rw [dotT2, hK1]; fin_cases i <;> fin_cases s <;> simp <;> norm_num)
      (by
        funext j
        fin_cases j
        · refine geoBar_two (by norm_num) (by norm_num) (by simpa using hz) ?_
          simp only [Fin.zero_eta, Matrix.cons_val_zero, Matrix.cons_val_one]
          rw [mul_pow, hz4]; norm_num
        · refine geoBar_two (by norm_num) (by norm_num) (by simpa using hz) ?_
          simp only [Fin.mk_one, Matrix.cons_val_zero, Matrix.cons_val_one]
          rw [hz4]; norm_num)
      (by rw [hV2]; funext i s; fin_cases i <;> fin_cases s <;> simp <;> ring)
      (by intro i s; fin_cases i <;> fin_cases s <;> norm_num)
    exact ⟨this.1, this.2.1⟩
  have s3 : ∀ x : StabState (Fin 2) (Fin 2), x.K = K1 → x.v = V2 →
      (stabStep dcost 1 diracs wts 5 x).K = K1 ∧ (stabStep dcost 1 diracs wts 5 x).v = V2 ∧ (stabStep dcost 1 diracs wts 5 x).q = ![16 / 17, 1 / 17] := by
    intro x h1 h2
    refine later x ![![1 / (260 * z), 0], ![0, 1 / (80 * z)]] ![![64 / (1105 * z), 1 / (85 * z)], ![1 / (1105 * z), 4 / (85 * z)]] ![16 / 17, 1 / 17] h1 ?_ ?_ ?_ ?_ ?_
    · rw [h2, hV2]
      funext i s
      rw [dot2, hK1]
      fin_cases i <;> fin_cases s <;> simp [diracs] <;> field_simp <;> ring
    · funext i s
      rw [dotT2, hK1]
      fin_cases i <;> fin_cases s <;> simp <;> field_simp <;> norm_num
    · have z3 : z ^ 3 * z = 4 / (5 * 65 ^ 3) := by rw [← hz4]; ring
      funext j
      fin_cases j
      · refine geoBar_two (by simp; positivity) (by simp; positivity) (by norm_num) ?_
        simp only [Fin.zero_eta, Matrix.cons_val_zero, Matrix.cons_val_one]
        have : (64 / (1105 * z)) ^ 3 * (1 / (85 * z)) = 64 ^ 3 / (1105 ^ 3 * 85 * (z ^ 3 * z)) := by field_simp
        rw [this, z3]; norm_num
      · refine geoBar_two (by simp; positivity) (by simp; positivity) (by norm_num) ?_
        simp only [Fin.mk_one, Matrix.cons_val_zero, Matrix.cons_val_one]
        have : (1 / (1105 * z)) ^ 3 * (4 / (85 * z)) = 4 / (1105 ^ 3 * 85 * (z ^ 3 * z)) := by field_simp
        rw [this, z3]; norm_num
    · rw [hV2]
      funext i s
      fin_cases i <;> fin_cases s <;> simp <;> field_simp <;> norm_num
    · intro i s
      have i1 : 1 / (260 * z) ≤ 5 := by rw [div_le_iff₀ (by positivity)]; linarith
      have i2 : 1 / (80 * z) ≤ 5 := by rw [div_le_iff₀ (by positivity)]; linarith
      fin_cases i <;> fin_cases s
      · exact i1
      · simp
      · simp
      · exact i2
  have inv : ∀ k, ((stabStep dcost 1 diracs wts 5)^[k + 2] (stabInit dcost 1)).K = K1 ∧ ((stabStep dcost 1 diracs wts 5)^[k + 2] (stabInit dcost 1)).v = V2 := by
    intro k
    induction k with
    | zero => exact s2 _ s1.1 s1.2.1
    | succ k ih =>
      rw [Function.iterate_succ_apply']
      exact ⟨(s3 _ ih.1 ih.2).1, (s3 _ ih.1 ih.2).2.1⟩
  have hq : ∀ k, ((stabStep dcost 1 diracs wts 5)^[k + 3] (stabInit dcost 1)).q = ![16 / 17, 1 / 17] := by
    intro k
    rw [Function.iterate_succ_apply']
    exact (s3 _ (inv k).1 (inv k).2).2.2
  obtain ⟨m, -, f1, -, -, f3, f4, f5⟩ := loop_spec (step := stabStep dcost 1 diracs wts 5) (bad := fun _ => False) (stop := fun ii _ x => ((ii % 10 = 0 ∧ ¬ x.absorbing) ∨ ii = 0) ∧ x.err < thr) n 0
    (stabInit dcost 1)
  have hm : 3 ≤ m := by
    cases hE : (loop (stabStep dcost 1 diracs wts 5) (fun _ => False) (fun ii _ x => ((ii % 10 = 0 ∧ ¬ x.absorbing) ∨ ii = 0) ∧ x.err < thr) n 0 (stabInit dcost 1)).exit with
    | exhausted => rw [f3 hE]; exact hn
    | converged =>
      obtain ⟨l, rfl, -, h6, h7⟩ := f4 hE
      rcases Nat.eq_zero_or_pos l with rfl | hl
      · exact absurd h7 (not_lt.2 (ht.trans s1.2.2))
      · have : l % 10 = 0 := by
          rcases h6 with h6 | h6
          · simpa using h6.1
          · omega
        omega
    | numerical => exact absurd (f5 hE).2 id
  obtain ⟨k, rfl⟩ : ∃ k, m = k + 3 := ⟨m - 3, by omega⟩
  unfold stabRun
  rw [f1]
  exact hq k

/-- the hypotheses of the convergence theorems are met: the two Dirac masses, with weights 3/4 and 1/4 and a threshold that is never exceeded, and positive histograms for the log-domain solver -/
example : IsHists diracs ∧ IsWeights wts ∧ (∀ k, ¬ ((stabStep dcost 1 diracs wts 100)^[k + 1] (stabInit dcost 1)).absorbing) ∧
    IsHists (fun i s : Fin 2 => (![![1 / 4, 1 / 2], ![3 / 4, 1 / 2]] : Fin 2 → Fin 2 → ℝ) i s + 0) ∧ ∀ i s : Fin 2, 0 < (![![1 / 4, 1 / 2], ![3 / 4, 1 / 2]] : Fin 2 → Fin 2 → ℝ) i s + 0 := by
  have dot2 : ∀ (K v : Fin 2 → Fin 2 → ℝ) (i s : Fin 2), dotK K v i s = K i 0 * v 0 s + K i 1 * v 1 s := fun K v i s => by unfold dotK; rw [Fin.sum_univ_two]
  have dotT2 : ∀ (K v : Fin 2 → Fin 2 → ℝ) (i s : Fin 2), dotKT K v i s = K 0 i * v 0 s + K 1 i * v 1 s := fun K v i s => by unfold dotKT; rw [Fin.sum_univ_two]
  have gen : ∀ (x : StabState (Fin 2) (Fin 2)) (c d : ℝ), x.K = kern → 0 < c → c < 100 → (fun i s => diracs i s / dotK kern x.v i s) = ![![c, 0], ![0, c]] →
      (stabStep dcost 1 diracs wts 100 x).K = kern ∧ (stabStep dcost 1 diracs wts 100 x).v = dscal ∧ ¬ (stabStep dcost 1 diracs wts 100 x).absorbing := by
    intro x c d h1 hc hc2 h2
    have h3 : dotKT kern ![![c, 0], ![0, c]] = ![![c, c / 16], ![c / 16, c]] := by
      funext i s
      rw [dotT2]
      fin_cases i <;> fin_cases s <;> simp [kern] <;> ring
    have h4 : geometricBar wts ![![c, c / 16], ![c / 16, c]] = ![c / 2, c / 8] := by
      funext j
      fin_cases j
      · exact geoBar_two (by simpa using hc) (by simpa using hc) (by simpa using hc) (by simp; ring)
      · exact geoBar_two (by simpa using hc) (by simpa using hc) (by simpa using hc) (by simp; ring)
    have h5 : (fun j s => (![c / 2, c / 8] : Fin 2 → ℝ) j / (![![c, c / 16], ![c / 16, c]] : Fin 2 → Fin 2 → ℝ) j s) = dscal := by
      funext i s
      fin_cases i <;> fin_cases s <;> simp [dscal] <;> field_simp <;> norm_num
    have hno : ¬ ((∃ i s, (100 : ℝ) < (![![c, 0], ![0, c]] : Fin 2 → Fin 2 → ℝ) i s) ∨ ∃ i s, (100 : ℝ) < dscal i s) := by
      rintro (⟨i, s, h⟩ | ⟨i, s, h⟩)
      · revert h
        rw [imp_false, not_lt]
        fin_cases i <;> fin_cases s <;> simp <;> linarith
      · revert h
        rw [imp_false, not_lt]
        fin_cases i <;> fin_cases s <;> simp [dscal] <;> norm_num
    obtain ⟨r1, r2, -, r4⟩ := stabStep_nabs (M := dcost) (reg := 1) (by rw [h1]; exact h2) (by rw [h1]; exact h3) h4 h5 hno
    exact ⟨r1.trans h1, r2, r4⟩
  refine ⟨diracs_hists, wts_weights, ?_, ⟨fun i s => ?_, fun s => ?_⟩, fun i s => ?_⟩
  · have inv : ∀ k, ((stabStep dcost 1 diracs wts 100)^[k + 1] (stabInit dcost 1)).K = kern ∧ ((stabStep dcost 1 diracs wts 100)^[k + 1] (stabInit dcost 1)).v = dscal ∧
        ¬ ((stabStep dcost 1 diracs wts 100)^[k + 1] (stabInit dcost 1)).absorbing := by
      intro k
      induction k with
      | zero =>
        refine gen (stabInit dcost 1) (32 / 17) 0 kernel_dcost (by norm_num) (by norm_num) ?_
        have e2 : (stabInit (S := Fin 2) dcost 1).v = fun _ _ => 1 / 2 := by unfold EntBary.stabInit; simp
        rw [e2]
        funext i s
        rw [dot2]
        fin_cases i <;> fin_cases s <;> simp [diracs, kern] <;> norm_num
      | succ k ih =>
        rw [Function.iterate_succ_apply']
        refine gen _ (8 / 5) 0 ih.1 (by norm_num) (by norm_num) ?_
        rw [ih.2.1]
        funext i s
        rw [dot2]
        fin_cases i <;> fin_cases s <;> simp [diracs, kern, dscal] <;> norm_num
    exact fun k => (inv k).2.2
  · fin_cases i <;> fin_cases s <;> norm_num
  · fin_cases s <;> norm_num [Fin.sum_univ_two]
  · fin_cases i <;> fin_cases s <;> norm_num

end POT.Props
