import Verif.Lemmas.Conv
import Verif.Props.Debiased

/-! # C102, C103: convolutional barycenters of images (`ot.bregman.convolutional_barycenter2d`, `convolutional_barycenter2d_debiased`) -/

set_option linter.unusedSectionVars false

namespace POT.Props

open Finset Spec Sinkhorn EntBary Conv Filter Topology

section Acc

variable {I S : Type*} [Fintype I] [Fintype S] [Nonempty I] [Nonempty S]

/-- accuracy of a scaling that passes the test -/
theorem scaling_accuracy {M : I → I → ℝ} {reg c : ℝ} (hreg : 0 < reg) (hc : Spread (kernel M reg) c) {A : I → S → ℝ} (hA : IsHists A) {w : S → ℝ} (hw : IsWeights w)
    {u : I → S → ℝ} (hu : ∀ j s, 0 < u j s) (hb : Bal w u) (ho : Osc u (2 * c)) {thr : ℝ} (ht : stdErr (ukv (kernel M reg) A u) < thr)
    {q : I → ℝ} {P : S → I → I → ℝ} (hq : IsEntropicBarycenter (fun s i => A i s) w M reg q P) :
    ∑ j, |EntBary.bar (kernel M reg) A w u j - q j| ≤ 2 * Real.sqrt (Fintype.card S) * thr + 2 * Real.sqrt (4 * c * (2 * Real.sqrt (Fintype.card S) * thr)) := by
  have h := ok_kernel (M := M) (reg := reg) hA hw
  obtain ⟨u', hu', hb', ho', he⟩ := exists_fixed h hc
  rw [(bary_unique (bary_of_fixed hreg hA hw hu' hb' he) hq).1]
  have h2 := bar_dist h hu hb ho hu' hb' ho' he
  have h3 : spreadErr (kernel M reg) A w u ≤ 2 * Real.sqrt (Fintype.card S) * thr := (spread_le_std h hu).trans (mul_le_mul_of_nonneg_left ht.le (by positivity))
  have hc0 := spread_nonneg h.kpos hc
  refine h2.trans (add_le_add h3 (mul_le_mul_of_nonneg_left (Real.sqrt_le_sqrt (mul_le_mul_of_nonneg_left h3 (by linarith))) (by norm_num)))

/-- convergence of the scalings -/
theorem scaling_converges {M : I → I → ℝ} {reg : ℝ} (hreg : 0 < reg) {A : I → S → ℝ} (hA : IsHists A) {w : S → ℝ} (hw : IsWeights w) {u : I → S → ℝ} (hu : ∀ j s, 0 < u j s) (hb : Bal w u) :
    ∃ q P, IsEntropicBarycenter (fun s i => A i s) w M reg q P ∧ ∀ j, Tendsto (fun n => EntBary.bar (kernel M reg) A w ((upd (kernel M reg) A w)^[n] u) j) atTop (𝓝 (q j)) := by
  obtain ⟨q, P, h1, h2⟩ := runFrom_converges (M := M) hreg hA hw (x := { u := u, UKv := fun _ _ => 1 }) hu hb
  refine ⟨q, P, h1, fun j => ?_⟩
  have := (tendsto_add_atTop_iff_nat (f := fun n => geometricBar w (runFrom (kernel M reg) A w 0 n { u := u, UKv := fun _ _ => 1 }).s.UKv j) 1).2 (h2 j)
  refine this.congr fun n => ?_
  rw [runFrom_zero, step_ukv]
  rfl

end Acc

variable {S : Type*} [Fintype S] [Nonempty S] {w h : ℕ} [NeZero w] [NeZero h]

theorem hists_of_images {A : S → Fin w → Fin h → ℝ} (hA : IsImages A) : IsHists (fl A) := ⟨fun p s => (hA s).1 p, fun s => (hA s).2⟩

theorem weights_of {wt : S → ℝ} (hw : IsPosWeights wt) : IsWeights wt := hw

theorem pixel_spread {reg : ℝ} (hreg : 0 < reg) : Spread (kernel (pixelCost : Fin w × Fin h → Fin w × Fin h → ℝ) reg) (2 / reg) := by
  have := kernel_spread (M := (pixelCost : Fin w × Fin h → Fin w × Fin h → ℝ)) (m₀ := 0) (m₁ := 2) hreg pixelCost_nonneg pixelCost_le
  rwa [sub_zero] at this

/-- **C102.** The two one-dimensional convolutions are the product with the full Gibbs kernel of the squared distances of the pixels in the unit square, also in the log domain. -/
theorem C102_convolution (reg : ℝ) (imgs : S → Fin w → Fin h → ℝ) (k : S) (i : Fin w) (l : Fin h) :
    convol reg imgs k i l = ∑ q : Fin w × Fin h, Real.exp (-pixelCost (i, l) q / reg) * imgs k q.1 q.2 ∧
    Real.exp (logConvol reg (imgs k) i l) = ∑ q : Fin w × Fin h, Real.exp (-pixelCost (i, l) q / reg) * Real.exp (imgs k q.1 q.2) := by
  constructor
  · rw [convol_eq]
    refine sum_congr rfl fun q _ => ?_
    unfold kernel
    rw [div_neg, ← neg_div]
  · rw [logConvol_eq]
    unfold logsumexp
    rw [Real.exp_log (sum_pos (fun q _ => Real.exp_pos _) univ_nonempty)]
    exact sum_congr rfl fun q _ => Real.exp_add _ _

/-! ### `method="sinkhorn"` -/

theorem conv_run_zero (reg : ℝ) (A : S → Fin w → Fin h → ℝ) (wt : S → ℝ) (n : ℕ) : (Conv.run 0 reg A wt 0 n).s = (Conv.step 0 reg A wt)^[n] (Conv.init reg) := by
  obtain ⟨k, -, h1, -, -, h3, h4, h5⟩ := loop_spec (step := Conv.step 0 reg A wt) (bad := fun _ => False) (stop := fun ii _ x => ii % 10 = 9 ∧ stdSum (fun k i l => x.V k i l * x.KU k i l) < 0) n 0
    (Conv.init reg)
  unfold Conv.run
  rw [h1]
  cases hE : (loop (Conv.step 0 reg A wt) (fun _ => False) (fun ii _ x => ii % 10 = 9 ∧ stdSum (fun k i l => x.V k i l * x.KU k i l) < 0) n 0 (Conv.init reg)).exit with
  | exhausted => rw [h3 hE]
  | converged =>
    obtain ⟨l, -, -, h6⟩ := h4 hE
    have := h6.2
    rw [stdSum_eq] at this
    exact absurd this (not_lt.2 (stdErr_nonneg _))
  | numerical => exact absurd (h5 hE).2 id

/-- barycenter and tested quantity after `n + 2` iterations -/
theorem conv_iter {reg : ℝ} {A : S → Fin w → Fin h → ℝ} (hA : IsImages A) {wt : S → ℝ} (hw : IsPosWeights wt) (n : ℕ) :
    (∀ p : Fin w × Fin h, ((Conv.step 0 reg A wt)^[n + 2] (Conv.init reg)).bar p.1 p.2
      = EntBary.bar (kernel pixelCost reg) (fl A) wt ((upd (kernel pixelCost reg) (fl A) wt)^[n] (nxt (kernel pixelCost reg) (fl A) wt (nv (Conv.init reg)))) p) ∧
    stdSum (fun k i l => ((Conv.step 0 reg A wt)^[n + 2] (Conv.init reg)).V k i l * ((Conv.step 0 reg A wt)^[n + 2] (Conv.init reg)).KU k i l)
      = stdErr (ukv (kernel pixelCost reg) (fl A) ((upd (kernel pixelCost reg) (fl A) wt)^[n] (nxt (kernel pixelCost reg) (fl A) wt (nv (Conv.init reg))))) := by
  have hO := ok_kernel (M := pixelCost) (reg := reg) (hists_of_images hA) (weights_of hw)
  have e : nv ((Conv.step 0 reg A wt)^[n + 1] (Conv.init reg)) = (upd (kernel pixelCost reg) (fl A) wt)^[n] (nxt (kernel pixelCost reg) (fl A) wt (nv (Conv.init reg))) := by
    rw [iter_nv, iter_nxt hO init_pos]
  rw [Function.iterate_succ_apply']
  refine ⟨fun p => ?_, ?_⟩
  · rw [step_bar, e, bar_eq hO]
    · exact iter_pos hO (nxt_pos hO init_pos) n
    · exact iter_bal hO (nxt_pos hO init_pos) (nxt_bal hO init_pos) n
  · rw [stdSum_eq, step_VKU, e]

/-- **C102.** `convolutional_barycenter2d(method="sinkhorn", stabThr=0)`: for all images and positive weights the results converge, as `numItermax` grows, to the entropic barycenter of the images for the
squared distances of the pixels. -/
theorem C102_converges {reg : ℝ} (hreg : 0 < reg) {A : S → Fin w → Fin h → ℝ} (hA : IsImages A) {wt : S → ℝ} (hw : IsPosWeights wt) :
    ∃ q P, IsEntropicBarycenter (fun s => pixels (A s)) wt pixelCost reg q P ∧ ∀ i l, Tendsto (fun n => barycenter2d 0 reg A wt 0 n i l) atTop (𝓝 (q (i, l))) := by
  have hO := ok_kernel (M := pixelCost) (reg := reg) (hists_of_images hA) (weights_of hw)
  obtain ⟨q, P, h1, h2⟩ := scaling_converges (M := pixelCost) hreg (hists_of_images hA) (weights_of hw) (nxt_pos hO init_pos) (nxt_bal hO (init_pos (reg := reg)))
  refine ⟨q, P, h1, fun i l => ?_⟩
  rw [← tendsto_add_atTop_iff_nat 2]
  refine (h2 (i, l)).congr fun n => ?_
  unfold barycenter2d
  rw [conv_run_zero]
  exact ((conv_iter hA hw n).1 (i, l)).symm

/-- **C102.** The test is met after an explicit number of iterations, whatever the images. -/
theorem C102_stops {reg : ℝ} (hreg : 0 < reg) {A : S → Fin w → Fin h → ℝ} (hA : IsImages A) {wt : S → ℝ} (hw : IsPosWeights wt) {m : ℝ} (hm : 0 < m) (hmw : ∀ s, m ≤ wt s) {thr : ℝ} (hthr : 0 < thr) (T : ℕ)
    (hT : 4 * (Real.log (w * h) + 8 / reg) < T * (Fintype.card S * m ^ 2 * thr ^ 2)) {n : ℕ} (hn : 10 * T ≤ n) : (Conv.run 0 reg A wt thr n).exit = .converged := by
  have hO := ok_kernel (M := pixelCost) (reg := reg) (hists_of_images hA) (weights_of hw)
  obtain ⟨t, ht, he⟩ := some_check_at hO (nxt_pos hO (init_pos (reg := reg))) (nxt_bal hO init_pos) (pixel_spread hreg) (nxt_osc hO init_pos (pixel_spread hreg)) hm hmw hthr 8 (by norm_num) T (by
    rw [Fintype.card_prod, Fintype.card_fin, Fintype.card_fin]
    push_cast
    rw [show 4 * (2 / reg) = 8 / reg by ring]
    exact hT)
  refine loop_stops n 0 _ (fun _ => id) (10 * t + 9) (by omega) ⟨by omega, ?_⟩
  rw [show 10 * t + 9 + 1 = 10 * t + 8 + 2 by omega, (conv_iter hA hw _).2]
  exact he

/-- **C102.** A result accepted by the test is close to the barycenter. -/
theorem C102_accuracy {reg : ℝ} (hreg : 0 < reg) {A : S → Fin w → Fin h → ℝ} (hA : IsImages A) {wt : S → ℝ} (hw : IsPosWeights wt) {thr : ℝ} {n : ℕ}
    (hx : (Conv.run 0 reg A wt thr n).exit = .converged) {q : Fin w × Fin h → ℝ} {P : S → Fin w × Fin h → Fin w × Fin h → ℝ}
    (hq : IsEntropicBarycenter (fun s => pixels (A s)) wt pixelCost reg q P) :
    ∑ i, ∑ l, |barycenter2d 0 reg A wt thr n i l - q (i, l)| ≤ 2 * Real.sqrt (Fintype.card S) * thr + 2 * Real.sqrt (8 / reg * (2 * Real.sqrt (Fintype.card S) * thr)) := by
  have hO := ok_kernel (M := pixelCost) (reg := reg) (hists_of_images hA) (weights_of hw)
  obtain ⟨k, -, e1, -, -, -, e4, -⟩ := loop_spec (step := Conv.step 0 reg A wt) (bad := fun _ => False)
    (stop := fun ii _ x => ii % 10 = 9 ∧ stdSum (fun k i l => x.V k i l * x.KU k i l) < thr) n 0 (Conv.init reg)
  obtain ⟨l, rfl, -, e5, e6⟩ := e4 hx
  obtain ⟨l, rfl⟩ : ∃ l', l = l' + 1 := ⟨l - 1, by omega⟩
  rw [(conv_iter hA hw l).2] at e6
  have h1 := scaling_accuracy hreg (pixel_spread hreg) (hists_of_images hA) (weights_of hw) (iter_pos hO (nxt_pos hO init_pos) l) (iter_bal hO (nxt_pos hO init_pos) (nxt_bal hO init_pos) l)
    (iter_osc hO (nxt_pos hO init_pos) (nxt_bal hO init_pos) (pixel_spread hreg) (nxt_osc hO init_pos (pixel_spread hreg)) l) e6 hq
  rw [show 4 * (2 / reg) = 8 / reg by ring, Fintype.sum_prod_type] at h1
  refine le_trans (le_of_eq ?_) h1
  refine sum_congr rfl fun i _ => sum_congr rfl fun j _ => ?_
  rw [← (conv_iter hA hw l).1 (i, j), ← e1]
  rfl

/-! ### `method="sinkhorn_log"` -/

/-- the log domain loop is the one of `barycenter(method="sinkhorn_log")` on the pixel grid, for the normalised images -/
theorem conv_log_iter {reg δ : ℝ} (hδ : 0 ≤ δ) {A : S → Fin w → Fin h → ℝ} (hA : IsImages A) (hpos : ∀ s i l, 0 < A s i l + δ) {wt : S → ℝ} (hw : IsPosWeights wt) (n : ℕ) :
    (∀ p : Fin w × Fin h, Real.exp (((Conv.logStep δ reg A wt)^[n + 1] Conv.logInit).bar p.1 p.2)
      = (1 + w * h * δ) * EntBary.bar (kernel pixelCost reg) (fun p s => (A s p.1 p.2 + δ) / (1 + w * h * δ)) wt ((upd (kernel pixelCost reg) (fun p s => (A s p.1 p.2 + δ) / (1 + w * h * δ)) wt)^[n] fun _ _ => 1) p) ∧
    stdSum (fun k i l => Real.exp (((Conv.logStep δ reg A wt)^[n + 1] Conv.logInit).GKU k i l))
      = (1 + w * h * δ) * stdErr (ukv (kernel pixelCost reg) (fun p s => (A s p.1 p.2 + δ) / (1 + w * h * δ)) ((upd (kernel pixelCost reg) (fun p s => (A s p.1 p.2 + δ) / (1 + w * h * δ)) wt)^[n] fun _ _ => 1)) := by
  obtain ⟨lam, hlam⟩ : ∃ lam : ℝ, lam = 1 + w * h * δ := ⟨_, rfl⟩
  have hl : 0 < lam := by rw [hlam]; positivity
  rw [← hlam]
  obtain ⟨B, hB⟩ : ∃ B : Fin w × Fin h → S → ℝ, B = fun p s => (A s p.1 p.2 + δ) / lam := ⟨_, rfl⟩
  rw [← hB]
  have hBp : ∀ p s, 0 < B p s := fun p s => by rw [hB]; exact div_pos (hpos _ _ _) hl
  have hAB : ∀ p s, fl A p s + δ = lam * B p s := fun p s => by rw [hB]; unfold fl; field_simp
  have hflat : ∀ n, flatLog ((Conv.logStep δ reg A wt)^[n] Conv.logInit) = (EntBary.logStep δ pixelCost reg (fl A) wt)^[n] { G := fun _ _ => 0, KU := fun _ _ => 0, bar := fun _ => 0, GKU := fun _ _ => 0 } := by
    intro n
    induction n with
    | zero => rfl
    | succ n ih => rw [Function.iterate_succ_apply', Function.iterate_succ_apply', flat_step, ih]
  obtain ⟨z0, hz0⟩ : ∃ z0 : EntBary.LogState (Fin w × Fin h) S, z0 = { G := fun _ _ => 0, KU := fun _ _ => 0, bar := fun _ => 0, GKU := fun _ _ => 0 } := ⟨_, rfl⟩
  have hG : ∀ n, ((EntBary.logStep δ pixelCost reg (fl A) wt)^[n] z0).G = ((EntBary.logStep 0 pixelCost reg B wt)^[n] z0).G := by
    intro n
    induction n with
    | zero => rfl
    | succ n ih =>
      rw [Function.iterate_succ_apply', Function.iterate_succ_apply']
      exact (scale_step hl hBp hAB hw.2 ih).1
  have hS : ScaleRel (Real.log lam) ((EntBary.logStep δ pixelCost reg (fl A) wt)^[n + 1] z0) ((EntBary.logStep 0 pixelCost reg B wt)^[n + 1] z0) := by
    rw [Function.iterate_succ_apply', Function.iterate_succ_apply']
    exact scale_step hl hBp hAB hw.2 (hG n)
  have hrel : ∀ n, LogRel wt ((EntBary.step (kernel pixelCost reg) (fun p s => B p s + 0) wt)^[n] { u := fun _ _ => 1, UKv := fun _ _ => 1 }) ((EntBary.logStep 0 pixelCost reg B wt)^[n] z0) := by
    intro n
    induction n with
    | zero => exact ⟨fun j s => by simp [hz0], fun j => by simp [hz0]⟩
    | succ n ih =>
      rw [Function.iterate_succ_apply', Function.iterate_succ_apply']
      exact (log_step (fun p s => by rw [add_zero]; exact hBp p s) hw.2 ih).1
  have hrel' := log_step (M := pixelCost) (reg := reg) (ε := 0) (A := B) (fun p s => by rw [add_zero]; exact hBp p s) hw.2 (hrel n)
  rw [← Function.iterate_succ_apply' (EntBary.step (kernel pixelCost reg) (fun p s => B p s + 0) wt), ← Function.iterate_succ_apply' (EntBary.logStep 0 pixelCost reg B wt)] at hrel'
  obtain ⟨-, r2, r3⟩ := hrel'
  rw [step_ukv] at r2 r3
  simp only [add_zero] at r2 r3
  have hf := hflat (n + 1)
  rw [← hz0] at hf
  constructor
  · intro p
    have e1 : ((Conv.logStep δ reg A wt)^[n + 1] Conv.logInit).bar p.1 p.2 = (flatLog ((Conv.logStep δ reg A wt)^[n + 1] Conv.logInit)).bar p := rfl
    rw [e1, hf, hS.2.2.1]
    simp only
    rw [Real.exp_add, Real.exp_log hl, ← r3 p, mul_comm]
    rfl
  · rw [stdSum_eq, ← stdErr_smul hl]
    congr 1
    funext p s
    have e1 : fl (fun k i l => Real.exp (((Conv.logStep δ reg A wt)^[n + 1] Conv.logInit).GKU k i l)) p s = Real.exp ((flatLog ((Conv.logStep δ reg A wt)^[n + 1] Conv.logInit)).GKU p s) := rfl
    rw [e1, hf, hS.2.2.2]
    simp only
    rw [Real.exp_add, Real.exp_log hl, ← r2 p s, mul_comm]

theorem guarded_hists {δ : ℝ} (hδ : 0 ≤ δ) {A : S → Fin w → Fin h → ℝ} (hA : IsImages A) : IsHists (fun (p : Fin w × Fin h) s => (A s p.1 p.2 + δ) / (1 + w * h * δ)) := by
  have hl : (0 : ℝ) < 1 + w * h * δ := by positivity
  refine ⟨fun p s => div_nonneg (add_nonneg ((hA s).1 p) hδ) hl.le, fun s => ?_⟩
  have h1 := (hA s).2
  unfold pixels at h1
  rw [← sum_div, sum_add_distrib, h1, sum_const, card_univ, Fintype.card_prod, Fintype.card_fin, Fintype.card_fin, nsmul_eq_mul]
  push_cast
  exact div_self hl.ne'

theorem conv_logRun_zero (δ reg : ℝ) (A : S → Fin w → Fin h → ℝ) (wt : S → ℝ) (n : ℕ) : (Conv.logRun δ reg A wt 0 n).s = (Conv.logStep δ reg A wt)^[n] Conv.logInit := by
  obtain ⟨k, -, h1, -, -, h3, h4, h5⟩ := loop_spec (step := Conv.logStep δ reg A wt) (bad := fun _ => False) (stop := fun ii _ x => ii % 10 = 9 ∧ stdSum (fun k i l => Real.exp (x.GKU k i l)) < 0) n 0 Conv.logInit
  unfold Conv.logRun
  rw [h1]
  cases hE : (loop (Conv.logStep δ reg A wt) (fun _ => False) (fun ii _ x => ii % 10 = 9 ∧ stdSum (fun k i l => Real.exp (x.GKU k i l)) < 0) n 0 Conv.logInit).exit with
  | exhausted => rw [h3 hE]
  | converged =>
    obtain ⟨l, -, -, h6⟩ := h4 hE
    have := h6.2
    rw [stdSum_eq] at this
    exact absurd this (not_lt.2 (stdErr_nonneg _))
  | numerical => exact absurd (h5 hE).2 id

/-- **C102.** `convolutional_barycenter2d(method="sinkhorn_log")` with any guard `stabThr`: the guard adds `δ` to every pixel; the results converge to the entropic barycenter of the images obtained so,
normalised to mass one, times their mass `1 + w h δ`. -/
theorem C102_log_converges {reg δ : ℝ} (hreg : 0 < reg) (hδ : 0 ≤ δ) {A : S → Fin w → Fin h → ℝ} (hA : IsImages A) (hpos : ∀ s i l, 0 < A s i l + δ) {wt : S → ℝ} (hw : IsPosWeights wt) :
    ∃ q P, IsEntropicBarycenter (fun s p => (A s p.1 p.2 + δ) / (1 + w * h * δ)) wt pixelCost reg q P ∧ ∀ i l, Tendsto (fun n => barycenter2dLog δ reg A wt 0 n i l) atTop (𝓝 ((1 + w * h * δ) * q (i, l))) := by
  obtain ⟨q, P, h1, h2⟩ := scaling_converges (M := pixelCost) hreg (guarded_hists hδ hA) (weights_of hw) (u := fun _ _ => 1) (fun _ _ => one_pos) (one_bal wt)
  refine ⟨q, P, h1, fun i l => ?_⟩
  rw [← tendsto_add_atTop_iff_nat 1]
  refine ((h2 (i, l)).const_mul (1 + w * h * δ)).congr fun n => ?_
  unfold barycenter2dLog
  rw [conv_logRun_zero]
  exact ((conv_log_iter hδ hA hpos hw n).1 (i, l)).symm

theorem C102_log_stops {reg δ : ℝ} (hreg : 0 < reg) (hδ : 0 ≤ δ) {A : S → Fin w → Fin h → ℝ} (hA : IsImages A) (hpos : ∀ s i l, 0 < A s i l + δ) {wt : S → ℝ} (hw : IsPosWeights wt) {m : ℝ} (hm : 0 < m)
    (hmw : ∀ s, m ≤ wt s) {thr : ℝ} (hthr : 0 < thr) (T : ℕ) (hT : 4 * (Real.log (w * h) + 8 / reg) < T * (Fintype.card S * m ^ 2 * (thr / (1 + w * h * δ)) ^ 2)) {n : ℕ} (hn : 10 * T ≤ n) :
    (Conv.logRun δ reg A wt thr n).exit = .converged := by
  have hl : (0 : ℝ) < 1 + w * h * δ := by positivity
  have hO := ok_kernel (M := pixelCost) (reg := reg) (guarded_hists hδ hA) (weights_of hw)
  have hc := pixel_spread (w := w) (h := h) hreg
  obtain ⟨t, ht, he⟩ := some_check_at hO (u := fun _ _ => 1) (fun _ _ => one_pos) (one_bal wt) hc (one_osc (spread_nonneg hO.kpos hc)) hm hmw (div_pos hthr hl) 9 (by norm_num) T (by
    rw [Fintype.card_prod, Fintype.card_fin, Fintype.card_fin]
    push_cast
    rw [show 4 * (2 / reg) = 8 / reg by ring]
    exact hT)
  refine loop_stops n 0 _ (fun _ => id) (10 * t + 9) (by omega) ⟨by omega, ?_⟩
  rw [(conv_log_iter hδ hA hpos hw _).2]
  rw [lt_div_iff₀ hl, mul_comm] at he
  exact he

theorem C102_log_accuracy {reg δ : ℝ} (hreg : 0 < reg) (hδ : 0 ≤ δ) {A : S → Fin w → Fin h → ℝ} (hA : IsImages A) (hpos : ∀ s i l, 0 < A s i l + δ) {wt : S → ℝ} (hw : IsPosWeights wt) {thr : ℝ} {n : ℕ}
    (hx : (Conv.logRun δ reg A wt thr n).exit = .converged) {q : Fin w × Fin h → ℝ} {P : S → Fin w × Fin h → Fin w × Fin h → ℝ}
    (hq : IsEntropicBarycenter (fun s p => (A s p.1 p.2 + δ) / (1 + w * h * δ)) wt pixelCost reg q P) :
    ∑ i, ∑ l, |barycenter2dLog δ reg A wt thr n i l - (1 + w * h * δ) * q (i, l)|
      ≤ (1 + w * h * δ) * (2 * Real.sqrt (Fintype.card S) * (thr / (1 + w * h * δ)) + 2 * Real.sqrt (8 / reg * (2 * Real.sqrt (Fintype.card S) * (thr / (1 + w * h * δ))))) := by
  have hl : (0 : ℝ) < 1 + w * h * δ := by positivity
  have hO := ok_kernel (M := pixelCost) (reg := reg) (guarded_hists hδ hA) (weights_of hw)
  have hc := pixel_spread (w := w) (h := h) hreg
  obtain ⟨k, -, e1, -, -, -, e4, -⟩ := loop_spec (step := Conv.logStep δ reg A wt) (bad := fun _ => False)
    (stop := fun ii _ x => ii % 10 = 9 ∧ stdSum (fun k i l => Real.exp (x.GKU k i l)) < thr) n 0 Conv.logInit
  obtain ⟨l, rfl, -, e5, e6⟩ := e4 hx
  rw [(conv_log_iter hδ hA hpos hw l).2, mul_comm, ← lt_div_iff₀ hl] at e6
  have h1 := scaling_accuracy hreg hc (guarded_hists hδ hA) (weights_of hw) (iter_pos hO (u := fun _ _ => 1) (fun _ _ => one_pos) l) (iter_bal hO (fun _ _ => one_pos) (one_bal wt) l)
    (iter_osc hO (fun _ _ => one_pos) (one_bal wt) hc (one_osc (spread_nonneg hO.kpos hc)) l) e6 hq
  rw [show 4 * (2 / reg) = 8 / reg by ring, Fintype.sum_prod_type] at h1
  refine le_trans (le_of_eq ?_) (mul_le_mul_of_nonneg_left h1 hl.le)
  rw [mul_sum]
  refine sum_congr rfl fun i _ => ?_
  rw [mul_sum]
  refine sum_congr rfl fun j _ => ?_
  rw [← abs_of_pos hl, ← abs_mul, abs_of_pos hl, mul_sub, ← (conv_log_iter hδ hA hpos hw l).1 (i, j), ← e1]
  rfl

/-! ### debiased barycenters -/

/-- **C103.** The Gaussian kernel on the pixel grid is positive definite, for every image size. -/
theorem C103_kernel_pd {reg : ℝ} (hreg : 0 < reg) : KernelPD (pixelCost : Fin w × Fin h → Fin w × Fin h → ℝ) reg := by
  intro z hz
  obtain ⟨h1, h2⟩ := grid_form hreg z
  exact lt_of_le_of_ne h1 fun h0 => hz (h2 h0.symm)

theorem pixel_psd {reg : ℝ} (hreg : 0 < reg) : KernelPSD (pixelCost : Fin w × Fin h → Fin w × Fin h → ℝ) reg := fun z => (grid_form hreg z).1

/-- the scaling computed first in the next iteration -/
noncomputable def debNv (x : Conv.DebState S w h) : Fin w × Fin h → S → ℝ := fun p s => x.bar p.1 p.2 / x.KU s p.1 p.2

theorem deb_KU (δ reg : ℝ) (A : S → Fin w → Fin h → ℝ) (wt : S → ℝ) (x : Conv.DebState S w h) : fl (Conv.debStep δ reg A wt x).KU = TT (kernel pixelCost reg) (fl A) (debNv x) := by
  have e : (Conv.debStep δ reg A wt x).KU = convol reg fun k i l => A k i l / convol reg (fun k i l => x.bar i l / x.KU k i l) k i l := rfl
  rw [e, fl_convol']
  unfold TT
  congr 1
  funext p s
  have e2 := congrFun (congrFun (fl_convol reg (fun k i l => x.bar i l / x.KU k i l)) p) s
  unfold fl at e2 ⊢
  dsimp only at e2 ⊢
  rw [e2]
  rfl

theorem debC_log {reg : ℝ} {bar c : Fin w → Fin h → ℝ} (hb : ∀ i l, 0 < bar i l) (hc : ∀ i l, 0 < c i l) :
    (∀ i l, 0 < debC reg bar c i l) ∧ ∀ p : Fin w × Fin h, Real.log (debC reg bar c p.1 p.2)
      = Debiased.H (kernel pixelCost reg) (fun p => Real.log (bar p.1 p.2)) (fun p => Real.log (c p.1 p.2)) p := by
  have hK : ∀ i l, convol reg (fun _ : Unit => c) () i l = ∑ q : Fin w × Fin h, kernel pixelCost reg (i, l) q * c q.1 q.2 := fun i l => convol_eq reg (fun _ : Unit => c) () i l
  have hKp : ∀ i l, 0 < convol reg (fun _ : Unit => c) () i l := fun i l => by
    rw [hK]
    exact sum_pos (fun q _ => mul_pos (Real.exp_pos _) (hc _ _)) univ_nonempty
  refine ⟨fun i l => Real.sqrt_pos.2 (div_pos (mul_pos (hc _ _) (hb _ _)) (hKp _ _)), fun p => ?_⟩
  unfold debC
  rw [Real.log_sqrt (div_pos (mul_pos (hc _ _) (hb _ _)) (hKp _ _)).le, Real.log_div (mul_pos (hc _ _) (hb _ _)).ne' (hKp _ _).ne', Real.log_mul (hc _ _).ne' (hb _ _).ne', hK]
  unfold Debiased.H Debiased.L
  simp only [Real.exp_log (hc _ _)]

theorem debC_iter {reg : ℝ} {bar c : Fin w → Fin h → ℝ} (hb : ∀ i l, 0 < bar i l) (hc : ∀ i l, 0 < c i l) (n : ℕ) :
    (∀ i l, 0 < (debC reg bar)^[n] c i l) ∧ (fun p : Fin w × Fin h => Real.log ((debC reg bar)^[n] c p.1 p.2))
      = (Debiased.H (kernel pixelCost reg) (fun p => Real.log (bar p.1 p.2)))^[n] fun p => Real.log (c p.1 p.2) := by
  induction n with
  | zero => exact ⟨hc, rfl⟩
  | succ n ih =>
    rw [Function.iterate_succ_apply', Function.iterate_succ_apply', ← ih.2]
    have := debC_log (reg := reg) hb ih.1
    exact ⟨this.1, funext this.2⟩

theorem V_TT (reg : ℝ) {A : S → Fin w → Fin h → ℝ} {v : Fin w × Fin h → S → ℝ} (hv : ∀ p s, 0 < v p s) (p : Fin w × Fin h) (s : S) :
    Debiased.V (kernel pixelCost reg) (fun i => fl A i s) (fun i => Real.log (v i s)) p = Real.log (TT (kernel pixelCost reg) (fl A) v p s) := by
  unfold Debiased.V TT dotKT dotK
  simp only [Real.exp_log (hv _ s)]

/-- one iteration in logarithms -/
theorem conv_deb_log {reg : ℝ} {A : S → Fin w → Fin h → ℝ} (hA : IsImages A) {wt : S → ℝ} (hw : IsPosWeights wt) {x : Conv.DebState S w h} (hx : (∀ p s, 0 < debNv x p s) ∧ ∀ i l, 0 < x.c i l) :
    ((∀ p s, 0 < debNv (Conv.debStep 0 reg A wt x) p s) ∧ ∀ i l, 0 < (Conv.debStep 0 reg A wt x).c i l) ∧
    (∀ p : Fin w × Fin h, Real.log ((Conv.debStep 0 reg A wt x).bar p.1 p.2)
      = Real.log (x.c p.1 p.2) + ∑ s, wt s * Debiased.V (kernel pixelCost reg) (fun i => fl A i s) (fun i => Real.log (debNv x i s)) p) ∧
    (∀ p s, Real.log (debNv (Conv.debStep 0 reg A wt x) p s)
      = Real.log ((Conv.debStep 0 reg A wt x).bar p.1 p.2) - Debiased.V (kernel pixelCost reg) (fun i => fl A i s) (fun i => Real.log (debNv x i s)) p) ∧
    ((fun p : Fin w × Fin h => Real.log ((Conv.debStep 0 reg A wt x).c p.1 p.2))
      = (Debiased.H (kernel pixelCost reg) fun p => Real.log ((Conv.debStep 0 reg A wt x).bar p.1 p.2))^[10] fun p => Real.log (x.c p.1 p.2)) ∧
    ∀ p s, fl (fun k i l => (Conv.debStep 0 reg A wt x).V k i l * (Conv.debStep 0 reg A wt x).KU k i l) p s
      = Real.exp (Real.log (debNv x p s) + Debiased.V (kernel pixelCost reg) (fun i => fl A i s) (fun i => Real.log (debNv x i s)) p) := by
  have hO := ok_kernel (M := pixelCost) (reg := reg) (hists_of_images hA) (weights_of hw)
  have hT : ∀ p s, 0 < TT (kernel pixelCost reg) (fl A) (debNv x) p s := fun p s => TT_pos hO hx.1 p s
  have hbar : ∀ p : Fin w × Fin h, (Conv.debStep 0 reg A wt x).bar p.1 p.2 = x.c p.1 p.2 * Real.exp (∑ s, wt s * Real.log (TT (kernel pixelCost reg) (fl A) (debNv x) p s)) := by
    intro p
    have e : (Conv.debStep 0 reg A wt x).bar p.1 p.2 = x.c p.1 p.2 * Real.exp (∑ k, wt k * Real.log (fl (Conv.debStep 0 reg A wt x).KU p k + 0)) := rfl
    rw [e, deb_KU]
    simp only [add_zero]
  have hbp : ∀ i l, 0 < (Conv.debStep 0 reg A wt x).bar i l := fun i l => by
    rw [hbar (i, l)]
    exact mul_pos (hx.2 _ _) (Real.exp_pos _)
  have hnv : ∀ p s, debNv (Conv.debStep 0 reg A wt x) p s = (Conv.debStep 0 reg A wt x).bar p.1 p.2 / TT (kernel pixelCost reg) (fl A) (debNv x) p s := by
    intro p s
    have e : debNv (Conv.debStep 0 reg A wt x) p s = (Conv.debStep 0 reg A wt x).bar p.1 p.2 / fl (Conv.debStep 0 reg A wt x).KU p s := rfl
    rw [e, deb_KU]
  have hc := debC_iter (reg := reg) hbp hx.2 10
  refine ⟨⟨fun p s => by rw [hnv]; exact div_pos (hbp _ _) (hT p s), hc.1⟩, fun p => ?_, fun p s => ?_, hc.2, fun p s => ?_⟩
  · rw [hbar, Real.log_mul (hx.2 _ _).ne' (Real.exp_pos _).ne', Real.log_exp]
    simp only [V_TT reg hx.1]
  · rw [hnv, Real.log_div (hbp _ _).ne' (hT p s).ne', V_TT reg hx.1]
  · have e : fl (fun k i l => (Conv.debStep 0 reg A wt x).V k i l * (Conv.debStep 0 reg A wt x).KU k i l) p s = debNv x p s * fl (Conv.debStep 0 reg A wt x).KU p s := rfl
    rw [e, deb_KU, V_TT reg hx.1, Real.exp_add, Real.exp_log (hx.1 p s), Real.exp_log (hT p s)]

theorem conv_debRun_zero (reg : ℝ) (A : S → Fin w → Fin h → ℝ) (wt : S → ℝ) (n : ℕ) : (Conv.debRun 0 reg A wt 0 n).s = (Conv.debStep 0 reg A wt)^[n] (Conv.debInit reg) := by
  obtain ⟨k, -, h1, -, -, h3, h4, h5⟩ := loop_spec (step := Conv.debStep 0 reg A wt) (bad := fun _ => False)
    (stop := fun ii _ x => ii % 10 = 9 ∧ stdSum (fun k i l => x.V k i l * x.KU k i l) < 0 ∧ 20 < ii) n 0 (Conv.debInit reg)
  unfold Conv.debRun
  rw [h1]
  cases hE : (loop (Conv.debStep 0 reg A wt) (fun _ => False) (fun ii _ x => ii % 10 = 9 ∧ stdSum (fun k i l => x.V k i l * x.KU k i l) < 0 ∧ 20 < ii) n 0 (Conv.debInit reg)).exit with
  | exhausted => rw [h3 hE]
  | converged =>
    obtain ⟨l, -, -, h6⟩ := h4 hE
    have := h6.2.1
    rw [stdSum_eq] at this
    exact absurd this (not_lt.2 (stdErr_nonneg _))
  | numerical => exact absurd (h5 hE).2 id

/-- `stdErr` of matrices whose columns have the same limit -/
theorem stdErr_limit {I S : Type*} [Fintype I] [Fintype S] [Nonempty S] {X : ℕ → I → S → ℝ} {b : I → ℝ} (hX : ∀ j s, Tendsto (fun t => X t j s) atTop (𝓝 (b j))) : Tendsto (fun t => stdErr (X t)) atTop (𝓝 0) := by
  have hS : (Fintype.card S : ℝ) ≠ 0 := by exact_mod_cast Fintype.card_ne_zero
  have h1 : Tendsto (fun t => stdErr (X t)) atTop (𝓝 (stdErr fun j (_ : S) => b j)) := by
    unfold stdErr
    refine tendsto_finsetSum _ fun j _ => (Real.continuous_sqrt.tendsto _).comp ((tendsto_finsetSum _ fun k _ => ?_).div_const _)
    exact ((hX j k).sub ((tendsto_finsetSum _ fun r _ => hX j r).div_const _)).pow 2
  have e : (stdErr fun j (_ : S) => b j) = 0 := by
    unfold stdErr
    refine sum_eq_zero fun j _ => ?_
    have : ∑ _r : S, b j = Fintype.card S * b j := by rw [sum_const, card_univ, nsmul_eq_mul]
    rw [this, mul_div_cancel_left₀ _ hS]
    simp
  rwa [e] at h1

/-- **C103.** `convolutional_barycenter2d_debiased(method="sinkhorn", stabThr=0)` for images with more than one column (or a single pixel): positive limits of the results minimise the weighted sum of the
Sinkhorn divergences to the images, there is no other minimiser, and with any tolerance the run ends by its test. -/
theorem C103_debiased {reg : ℝ} (hreg : 0 < reg) (hh : h ≠ 1 ∨ w = 1) {A : S → Fin w → Fin h → ℝ} (hA : IsImages A) {wt : S → ℝ} (hw : IsPosWeights wt) :
    (∀ n, (debiased2d 0 reg A wt 0 n).isSome) ∧
    ∀ b : Fin w × Fin h → ℝ, (∀ p, 0 < b p) → (∀ i l, Tendsto (fun n => ((debiased2d 0 reg A wt 0 n).getD fun _ _ => 0) i l) atTop (𝓝 (b (i, l)))) →
      IsDebiasedBarycenter (fun s => pixels (A s)) wt pixelCost reg b ∧ (∀ q, IsDebiasedBarycenter (fun s => pixels (A s)) wt pixelCost reg q → q = b) ∧
      ∀ thr > 0, ∃ N, ∀ n ≥ N, (Conv.debRun 0 reg A wt thr n).exit = .converged := by
  have hshape : debCShape w h = some [w, h] := by
    have hw0 : w ≠ 0 := NeZero.ne w
    have hh0 : h ≠ 0 := NeZero.ne h
    unfold debCShape broadcast squeeze
    rcases hh with hh | hh
    · by_cases hw1 : w = 1
      · subst hw1; simp [broadcastRev, hh]
      · simp [broadcastRev, hh, hw1]
    · subst hh
      by_cases hh1 : h = 1
      · subst hh1; simp [broadcastRev]
      · simp [broadcastRev, hh1]
  have hrun : ∀ n, debiased2d 0 reg A wt 0 n = some (Conv.debRun 0 reg A wt 0 n).s.bar := fun n => by
    unfold debiased2d
    rw [if_pos (Or.inr hshape)]
  refine ⟨fun n => by rw [hrun]; rfl, fun b hb hlim => ?_⟩
  have hO := ok_kernel (M := pixelCost) (reg := reg) (hists_of_images hA) (weights_of hw)
  obtain ⟨X, hX⟩ : ∃ X : ℕ → Conv.DebState S w h, X = fun t => (Conv.debStep 0 reg A wt)^[t] (Conv.debInit reg) := ⟨_, rfl⟩
  have hstep : ∀ t, X (t + 1) = Conv.debStep 0 reg A wt (X t) := fun t => by rw [hX]; exact Function.iterate_succ_apply' _ _ _
  have hpos : ∀ t, (∀ p s, 0 < debNv (X t) p s) ∧ ∀ i l, 0 < (X t).c i l := by
    intro t
    induction t with
    | zero =>
      rw [hX]
      refine ⟨fun p s => ?_, fun _ _ => one_pos⟩
      have e : debNv ((Conv.debStep 0 reg A wt)^[0] (Conv.debInit reg)) p s = (1 / ((w : ℝ) * h)) / convol reg (fun (_ : S) _ _ => 1) s p.1 p.2 := rfl
      rw [e, convol_eq]
      have hw0 : (0 : ℝ) < w := by exact_mod_cast Nat.pos_of_ne_zero (NeZero.ne w)
      have hh0 : (0 : ℝ) < h := by exact_mod_cast Nat.pos_of_ne_zero (NeZero.ne h)
      exact div_pos (by positivity) (sum_pos (fun q _ => mul_pos (Real.exp_pos _) one_pos) univ_nonempty)
    | succ t ih => rw [hstep]; exact (conv_deb_log hA hw ih).1
  have hl : ∀ p : Fin w × Fin h, Tendsto (fun t => Real.log ((X t).bar p.1 p.2)) atTop (𝓝 (Real.log (b p))) := fun p => by
    refine ((hlim p.1 p.2).log (hb p).ne').congr fun n => ?_
    rw [hrun, Option.getD_some, conv_debRun_zero, hX]
  obtain ⟨hb1, u, d, hu, hd, f1, f2, f3, f4⟩ := Debiased.limit_fixed hO (kernel_symm reg) (pixel_spread hreg) (n := 10) (by norm_num) (G := fun t p s => Real.log (debNv (X t) p s))
    (x := fun t p => Real.log ((X t).c p.1 p.2)) (β := fun t p => Real.log ((X t).bar p.1 p.2))
    (fun t p => by simp only [hstep]; exact (conv_deb_log hA hw (hpos t)).2.1 p) (fun t p s => by simp only [hstep]; exact (conv_deb_log hA hw (hpos t)).2.2.1 p s)
    (fun t => by simp only [hstep]; exact (conv_deb_log hA hw (hpos t)).2.2.2.1) hb hl
  obtain ⟨g1, g2⟩ := deb_of_fixed pixelCost_symm hreg (pixel_psd hreg) (hists_of_images hA) (weights_of hw) hu hb hb1 hd f1 f2 f3
  refine ⟨g1, g2 (C103_kernel_pd hreg), fun thr hthr => ?_⟩
  have herr : Tendsto (fun t => stdSum fun k i l => (X (t + 1)).V k i l * (X (t + 1)).KU k i l) atTop (𝓝 0) := by
    simp only [stdSum_eq]
    refine stdErr_limit (b := b) fun p s => ?_
    have := (Real.continuous_exp.tendsto _).comp (f4 p s)
    rw [Real.exp_log (hb p)] at this
    refine this.congr fun t => ?_
    rw [hstep, (conv_deb_log hA hw (hpos t)).2.2.2.2]
    rfl
  obtain ⟨T, hT⟩ := (Metric.tendsto_atTop.1 herr) thr hthr
  refine ⟨10 * (T + 3) + 10, fun n hn => ?_⟩
  unfold Conv.debRun
  refine loop_stops n 0 _ (fun _ => id) (10 * (T + 3) + 9) (by omega) ⟨by omega, ?_, by omega⟩
  have := hT (10 * (T + 3) + 9) (by omega)
  rw [Real.dist_eq, sub_zero, hX] at this
  exact lt_of_le_of_lt (le_abs_self _) this

/-- **C103 is false of images with a single column**: the correction term is broadcast to a square array, and the result does not have the shape of the images. -/
theorem C103_single_column_refuted {w : ℕ} (hw : 2 ≤ w) {S : Type*} [Fintype S] (δ reg : ℝ) (A : S → Fin w → Fin 1 → ℝ) (wt : S → ℝ) (thr : ℝ) {n : ℕ} (hn : 2 ≤ n) :
    debCShape w 1 = some [w, w] ∧ debiased2d δ reg A wt thr n = none := by
  have h1 : w ≠ 1 := by omega
  have h2 : debCShape w 1 = some [w, w] := by
    unfold debCShape broadcast squeeze
    simp [broadcastRev, h1, Ne.symm h1]
  refine ⟨h2, ?_⟩
  unfold debiased2d
  rw [if_neg]
  rintro (h3 | h3)
  · omega
  · rw [h2] at h3
    simp only [Option.some.injEq, List.cons.injEq] at h3
    omega

theorem conv_debLogRun_zero (δ reg : ℝ) (A : S → Fin w → Fin h → ℝ) (wt : S → ℝ) (n : ℕ) : (Conv.debLogRun δ reg A wt 0 n).s = (Conv.debLogStep δ reg A wt)^[n] Conv.debLogInit := by
  obtain ⟨k, -, h1, -, -, h3, h4, h5⟩ := loop_spec (step := Conv.debLogStep δ reg A wt) (bad := fun _ => False)
    (stop := fun ii _ x => ii % 10 = 9 ∧ stdSum (fun k i l => Real.exp (x.GKU k i l)) < 0 ∧ 20 < ii) n 0 Conv.debLogInit
  unfold Conv.debLogRun
  rw [h1]
  cases hE : (loop (Conv.debLogStep δ reg A wt) (fun _ => False) (fun ii _ x => ii % 10 = 9 ∧ stdSum (fun k i l => Real.exp (x.GKU k i l)) < 0 ∧ 20 < ii) n 0 Conv.debLogInit).exit with
  | exhausted => rw [h3 hE]
  | converged =>
    obtain ⟨l, -, -, h6⟩ := h4 hE
    have := h6.2.1
    rw [stdSum_eq] at this
    exact absurd this (not_lt.2 (stdErr_nonneg _))
  | numerical => exact absurd (h5 hE).2 id

/-- one iteration in the log domain -/
theorem conv_debLog {reg δ : ℝ} {A : S → Fin w → Fin h → ℝ} (hpos : ∀ s i l, 0 < A s i l + δ) (wt : S → ℝ) (x : Conv.DebLogState S w h) :
    (∀ p : Fin w × Fin h, (Conv.debLogStep δ reg A wt x).bar p.1 p.2
      = x.c p.1 p.2 + ∑ s, wt s * Debiased.V (kernel pixelCost reg) (fun i => A s i.1 i.2 + δ) (fun i => fl x.G i s) p) ∧
    (∀ (p : Fin w × Fin h) s, fl (Conv.debLogStep δ reg A wt x).G p s
      = (Conv.debLogStep δ reg A wt x).bar p.1 p.2 - Debiased.V (kernel pixelCost reg) (fun i => A s i.1 i.2 + δ) (fun i => fl x.G i s) p) ∧
    ((fun p : Fin w × Fin h => (Conv.debLogStep δ reg A wt x).c p.1 p.2)
      = (Debiased.H (kernel pixelCost reg) fun p => (Conv.debLogStep δ reg A wt x).bar p.1 p.2)^[10] fun p => x.c p.1 p.2) ∧
    ∀ (p : Fin w × Fin h) s, fl (Conv.debLogStep δ reg A wt x).GKU p s = fl x.G p s + Debiased.V (kernel pixelCost reg) (fun i => A s i.1 i.2 + δ) (fun i => fl x.G i s) p := by
  have hk : ∀ (p q : Fin w × Fin h) (z : ℝ), Real.exp (-pixelCost p q / reg + z) = kernel pixelCost reg p q * Real.exp z := fun p q z => by
    rw [Real.exp_add]; unfold kernel; rw [neg_div, div_neg]
  have hlc : ∀ (img : Fin w → Fin h → ℝ) i l, logConvol reg img i l = Real.log (∑ q : Fin w × Fin h, kernel pixelCost reg (i, l) q * Real.exp (img q.1 q.2)) := by
    intro img i l
    rw [logConvol_eq]
    unfold logsumexp
    simp only [hk]
  have hV : ∀ s i l, logConvol reg (fun i l => Real.log (A s i l + δ) - logConvol reg (x.G s) i l) i l = Debiased.V (kernel pixelCost reg) (fun i => A s i.1 i.2 + δ) (fun i => fl x.G i s) (i, l) := by
    intro s i l
    rw [hlc]
    unfold Debiased.V
    congr 1
    refine sum_congr rfl fun q _ => ?_
    rw [kernel_symm, Real.exp_sub, Real.exp_log (hpos _ _ _), hlc, Real.exp_log (sum_pos (fun q' _ => mul_pos (kernel_pos _ _ _ _) (Real.exp_pos _)) univ_nonempty)]
    rfl
  have hC : ∀ (bar : Fin w → Fin h → ℝ) (n : ℕ) (c : Fin w → Fin h → ℝ), (fun p : Fin w × Fin h => (Conv.debLogC reg bar)^[n] c p.1 p.2) = (Debiased.H (kernel pixelCost reg) fun p => bar p.1 p.2)^[n] fun p => c p.1 p.2 := by
    intro bar n c
    induction n with
    | zero => rfl
    | succ n ih =>
      rw [Function.iterate_succ_apply' (Debiased.H (kernel pixelCost reg) fun p => bar p.1 p.2), ← ih]
      funext p
      rw [Function.iterate_succ_apply']
      unfold Conv.debLogC Debiased.H Debiased.L
      rw [hlc]
      norm_num
      ring
  refine ⟨fun p => ?_, fun p s => ?_, hC _ 10 x.c, fun p s => ?_⟩
  · have e : (Conv.debLogStep δ reg A wt x).bar p.1 p.2 = (∑ s, wt s * logConvol reg (fun i l => Real.log (A s i l + δ) - logConvol reg (x.G s) i l) p.1 p.2) + x.c p.1 p.2 := rfl
    rw [e]
    simp only [hV]
    ring
  · have e : fl (Conv.debLogStep δ reg A wt x).G p s = (Conv.debLogStep δ reg A wt x).bar p.1 p.2 - logConvol reg (fun i l => Real.log (A s i l + δ) - logConvol reg (x.G s) i l) p.1 p.2 := rfl
    rw [e, hV]
  · have e : fl (Conv.debLogStep δ reg A wt x).GKU p s = fl x.G p s + logConvol reg (fun i l => Real.log (A s i l + δ) - logConvol reg (x.G s) i l) p.1 p.2 := rfl
    rw [e, hV]

/-- **C103.** `convolutional_barycenter2d_debiased(method="sinkhorn_log")`, for all image shapes: as `C103_debiased`, for the guarded images (which must sum to one). -/
theorem C103_debiased_log {reg δ : ℝ} (hreg : 0 < reg) {A : S → Fin w → Fin h → ℝ} (hpos : ∀ s i l, 0 < A s i l + δ) (hA : IsImages fun s i l => A s i l + δ) {wt : S → ℝ} (hw : IsPosWeights wt)
    {b : Fin w × Fin h → ℝ} (hb : ∀ p, 0 < b p) (hlim : ∀ i l, Tendsto (fun n => debiased2dLog δ reg A wt 0 n i l) atTop (𝓝 (b (i, l)))) :
    IsDebiasedBarycenter (fun s p => A s p.1 p.2 + δ) wt pixelCost reg b ∧ (∀ q, IsDebiasedBarycenter (fun s p => A s p.1 p.2 + δ) wt pixelCost reg q → q = b) ∧
    ∀ thr > 0, ∃ N, ∀ n ≥ N, (Conv.debLogRun δ reg A wt thr n).exit = .converged := by
  have hO := ok_kernel (M := pixelCost) (reg := reg) (hists_of_images hA) (weights_of hw)
  obtain ⟨X, hX⟩ : ∃ X : ℕ → Conv.DebLogState S w h, X = fun t => (Conv.debLogStep δ reg A wt)^[t] Conv.debLogInit := ⟨_, rfl⟩
  have hstep : ∀ t, X (t + 1) = Conv.debLogStep δ reg A wt (X t) := fun t => by rw [hX]; exact Function.iterate_succ_apply' _ _ _
  have hl : ∀ p : Fin w × Fin h, Tendsto (fun t => (X t).bar p.1 p.2) atTop (𝓝 (Real.log (b p))) := fun p => by
    refine ((hlim p.1 p.2).log (hb p).ne').congr fun n => ?_
    unfold debiased2dLog
    rw [conv_debLogRun_zero, hX, Real.log_exp]
  obtain ⟨hb1, u, d, hu, hd, f1, f2, f3, f4⟩ := Debiased.limit_fixed hO (kernel_symm reg) (pixel_spread hreg) (n := 10) (by norm_num) (G := fun t => fl (X t).G)
    (x := fun t p => (X t).c p.1 p.2) (β := fun t p => (X t).bar p.1 p.2)
    (fun t p => by simp only [hstep]; exact (conv_debLog hpos wt (X t)).1 p) (fun t p s => by simp only [hstep]; exact (conv_debLog hpos wt (X t)).2.1 p s)
    (fun t => by simp only [hstep]; exact (conv_debLog hpos wt (X t)).2.2.1) hb hl
  obtain ⟨g1, g2⟩ := deb_of_fixed pixelCost_symm hreg (pixel_psd hreg) (hists_of_images hA) (weights_of hw) hu hb hb1 hd f1 f2 f3
  refine ⟨g1, g2 (C103_kernel_pd hreg), fun thr hthr => ?_⟩
  have herr : Tendsto (fun t => stdSum fun k i l => Real.exp ((X (t + 1)).GKU k i l)) atTop (𝓝 0) := by
    simp only [stdSum_eq]
    refine stdErr_limit (b := b) fun p s => ?_
    have := (Real.continuous_exp.tendsto _).comp (f4 p s)
    rw [Real.exp_log (hb p)] at this
    refine this.congr fun t => ?_
    have e : fl (fun k i l => Real.exp ((X (t + 1)).GKU k i l)) p s = Real.exp (fl (X (t + 1)).GKU p s) := rfl
    rw [e, hstep, (conv_debLog hpos wt (X t)).2.2.2]
    rfl
  obtain ⟨T, hT⟩ := (Metric.tendsto_atTop.1 herr) thr hthr
  refine ⟨10 * (T + 3) + 10, fun n hn => ?_⟩
  unfold Conv.debLogRun
  refine loop_stops n 0 _ (fun _ => id) (10 * (T + 3) + 9) (by omega) ⟨by omega, ?_, by omega⟩
  have := hT (10 * (T + 3) + 9) (by omega)
  rw [Real.dist_eq, sub_zero, hX] at this
  exact lt_of_le_of_lt (le_abs_self _) this

/-! ### the hypotheses are met -/

/-- scale of the scalings and of the correction term, for two pixels and uniform images -/
noncomputable def convRec (κ : ℝ) (p : ℝ × ℝ) : ℝ × ℝ := (p.2, Real.sqrt (p.2 / (2 * κ * p.1)))

theorem convRec_pos {κ : ℝ} (hκ : 0 < κ) {p : ℝ × ℝ} (hp : 0 < p.1 ∧ 0 < p.2) : ∀ t, 0 < ((convRec κ)^[t] p).1 ∧ 0 < ((convRec κ)^[t] p).2 := by
  intro t
  induction t with
  | zero => exact hp
  | succ t ih =>
    rw [Function.iterate_succ_apply']
    have := ih.1
    have := ih.2
    exact ⟨ih.2, Real.sqrt_pos.2 (by positivity)⟩

theorem convRec_tendsto {κ : ℝ} (hκ : 0 < κ) {p : ℝ × ℝ} (hp : 0 < p.1 ∧ 0 < p.2) :
    Tendsto (fun t => ((convRec κ)^[t] p).2 / (2 * ((convRec κ)^[t] p).1)) atTop (𝓝 (1 / 2)) := by
  have pos := convRec_pos hκ hp
  obtain ⟨L, hL⟩ : ∃ L, L = Real.log (1 / (2 * κ)) := ⟨_, rfl⟩
  obtain ⟨Q, hQ⟩ : ∃ Q : ℕ → ℝ, Q = fun t => (Real.log ((convRec κ)^[t] p).2 - L / 2) ^ 2
      - (Real.log ((convRec κ)^[t] p).2 - L / 2) * (Real.log ((convRec κ)^[t] p).1 - L / 2) / 2 + (Real.log ((convRec κ)^[t] p).1 - L / 2) ^ 2 / 2 := ⟨_, rfl⟩
  have hQs : ∀ t, Q (t + 1) = Q t / 2 := by
    intro t
    rw [hQ]
    simp only
    rw [Function.iterate_succ_apply']
    obtain ⟨p1, p2⟩ := pos t
    have e1 : Real.log (convRec κ ((convRec κ)^[t] p)).2 = (L + Real.log ((convRec κ)^[t] p).2 - Real.log ((convRec κ)^[t] p).1) / 2 := by
      change Real.log (Real.sqrt (((convRec κ)^[t] p).2 / (2 * κ * ((convRec κ)^[t] p).1))) = _
      rw [Real.log_sqrt (by positivity), show ((convRec κ)^[t] p).2 / (2 * κ * ((convRec κ)^[t] p).1) = 1 / (2 * κ) * ((convRec κ)^[t] p).2 / ((convRec κ)^[t] p).1 by ring,
        Real.log_div (by positivity) p1.ne', Real.log_mul (by positivity) p2.ne', hL]
    rw [e1, show (convRec κ ((convRec κ)^[t] p)).1 = ((convRec κ)^[t] p).2 from rfl]
    ring
  have hQt : Tendsto Q atTop (𝓝 0) := by
    have e : ∀ t, Q t = (1 / 2) ^ t * Q 0 := by
      intro t
      induction t with
      | zero => simp
      | succ t ih => rw [hQs, ih, pow_succ]; ring
    have := (tendsto_pow_atTop_nhds_zero_of_lt_one (r := (1 / 2 : ℝ)) (by norm_num) (by norm_num)).mul_const (Q 0)
    rw [zero_mul] at this
    exact this.congr fun t => (e t).symm
  have h4 : Tendsto (fun t => Real.sqrt (4 * Q t)) atTop (𝓝 0) := by
    have := (Real.continuous_sqrt.tendsto _).comp (hQt.const_mul 4)
    rw [mul_zero, Real.sqrt_zero] at this
    exact this
  have h5 : Tendsto (fun t => Real.log ((convRec κ)^[t] p).2 - Real.log ((convRec κ)^[t] p).1) atTop (𝓝 0) := by
    refine squeeze_zero_norm (fun t => ?_) h4
    rw [Real.norm_eq_abs]
    refine Real.abs_le_sqrt ?_
    rw [hQ]
    simp only
    nlinarith [sq_nonneg (Real.log ((convRec κ)^[t] p).2 - L / 2), sq_nonneg (Real.log ((convRec κ)^[t] p).1 - L / 2)]
  have h6 := ((Real.continuous_exp.tendsto _).comp h5).div_const 2
  rw [Real.exp_zero] at h6
  refine h6.congr fun t => ?_
  obtain ⟨p1, p2⟩ := pos t
  simp only [Function.comp]
  rw [Real.exp_sub, Real.exp_log p1, Real.exp_log p2]
  ring

/-- two images of two pixels -/
noncomputable def twoPixels : Fin 2 → Fin 1 → Fin 2 → ℝ := fun _ _ _ => 1 / 2

theorem twoPixels_images : IsImages twoPixels := fun s => ⟨fun p => by unfold pixels twoPixels; norm_num, by
  unfold pixels twoPixels
  rw [Fintype.sum_prod_type]
  simp⟩

theorem twoPixels_weights : IsPosWeights (uniformW : Fin 2 → ℝ) := ⟨fun s => by unfold uniformW; norm_num, by unfold uniformW; norm_num⟩

theorem convol_two (reg : ℝ) {S : Type*} [Fintype S] (a : ℝ) : convol (w := 1) (h := 2) reg (fun (_ : S) _ _ => a) = fun _ _ _ => (1 + Real.exp (-1 / reg)) * a := by
  funext k i l
  unfold convol axisLog linspace01
  fin_cases i
  fin_cases l <;> simp [Fin.sum_univ_two] <;> norm_num <;> ring

/-- **C103** applies: for two pixels, uniform images and any `reg > 0` the results converge to the uniform image. -/
theorem C103_example {reg : ℝ} : ∀ (i : Fin 1) (l : Fin 2), Tendsto (fun n => ((debiased2d 0 reg twoPixels uniformW 0 n).getD fun _ _ => 0) i l) atTop (𝓝 (1 / 2)) := by
  intro i l
  obtain ⟨κ, hκ'⟩ : ∃ κ, κ = 1 + Real.exp (-1 / reg) := ⟨_, rfl⟩
  have hκ : 0 < κ := by rw [hκ']; have := Real.exp_pos (-1 / reg); linarith
  have hconv : ∀ {T : Type} [Fintype T] (a : ℝ), convol (w := 1) (h := 2) reg (fun (_ : T) _ _ => a) = fun _ _ _ => κ * a := fun a => by rw [hκ']; exact convol_two reg a
  have key : ∀ t, ∃ d k : ℝ, 0 < k ∧ ((convRec κ)^[t] (1 / 2 / κ, 1)).1 = d / k ∧ ((Conv.debStep 0 reg twoPixels uniformW)^[t] (Conv.debInit reg)).bar = (fun _ _ => d) ∧
      ((Conv.debStep 0 reg twoPixels uniformW)^[t] (Conv.debInit reg)).KU = (fun _ _ _ => k) ∧
      ((Conv.debStep 0 reg twoPixels uniformW)^[t] (Conv.debInit reg)).c = fun _ _ => ((convRec κ)^[t] (1 / 2 / κ, 1)).2 := by
    intro t
    have pos := convRec_pos hκ (p := (1 / 2 / κ, 1)) ⟨by positivity, one_pos⟩
    induction t with
    | zero =>
      refine ⟨1 / 2, κ, hκ, rfl, ?_, ?_, rfl⟩
      · funext i l
        change 1 / (((1 : ℕ) : ℝ) * ((2 : ℕ) : ℝ)) = 1 / 2
        norm_num
      · change convol reg (fun (_ : Fin 2) _ _ => 1) = _
        rw [hconv, mul_one]
    | succ t ih =>
      obtain ⟨d, k, hk, h1, h2, h3, h4⟩ := ih
      obtain ⟨p1, p2⟩ := pos t
      obtain ⟨x, hx⟩ : ∃ x, x = (Conv.debStep 0 reg twoPixels uniformW)^[t] (Conv.debInit reg) := ⟨_, rfl⟩
      rw [← hx] at h2 h3 h4
      obtain ⟨P, hP⟩ : ∃ P, P = (convRec κ)^[t] (1 / 2 / κ, 1) := ⟨_, rfl⟩
      rw [← hP] at h1 h4 p1 p2
      have hKU : (Conv.debStep 0 reg twoPixels uniformW x).KU = fun _ _ _ => 1 / (2 * P.1) := by
        change convol reg (fun k i l => twoPixels k i l / convol reg (fun k i l => x.bar i l / x.KU k i l) k i l) = _
        rw [h2, h3, hconv, ← h1]
        have e : (fun (k : Fin 2) (i : Fin 1) (l : Fin 2) => twoPixels k i l / (κ * P.1)) = fun _ _ _ => 1 / 2 / (κ * P.1) := rfl
        rw [e, hconv]
        funext _ _ _
        field_simp
      have hbar : (Conv.debStep 0 reg twoPixels uniformW x).bar = fun _ _ => P.2 / (2 * P.1) := by
        funext i l
        change x.c i l * Real.exp (∑ k, uniformW k * Real.log ((Conv.debStep 0 reg twoPixels uniformW x).KU k i l + 0)) = _
        rw [h4, hKU]
        simp only [add_zero]
        rw [← sum_mul, twoPixels_weights.2, one_mul, Real.exp_log (by positivity)]
        ring
      have hC : ∀ c : ℝ, 0 < c → debC reg (fun (_ : Fin 1) (_ : Fin 2) => P.2 / (2 * P.1)) (fun _ _ => c) = fun _ _ => (convRec κ P).2 := by
        intro c hc
        funext i l
        unfold debC
        rw [hconv]
        change Real.sqrt _ = Real.sqrt _
        congr 1
        field_simp
      have hCn : ∀ (n : ℕ) (c : ℝ), 0 < c → (debC reg (fun (_ : Fin 1) (_ : Fin 2) => P.2 / (2 * P.1)))^[n + 1] (fun _ _ => c) = fun _ _ => (convRec κ P).2 := by
        intro n
        induction n with
        | zero => intro c hc; exact hC c hc
        | succ n ih =>
          intro c hc
          rw [Function.iterate_succ_apply, hC c hc]
          exact ih _ (Real.sqrt_pos.2 (by positivity))
      refine ⟨P.2 / (2 * P.1), 1 / (2 * P.1), by positivity, ?_, ?_, ?_, ?_⟩
      · rw [Function.iterate_succ_apply', ← hP]
        change P.2 = _
        field_simp
      · rw [Function.iterate_succ_apply', ← hx, hbar]
      · rw [Function.iterate_succ_apply', ← hx, hKU]
      · rw [Function.iterate_succ_apply', Function.iterate_succ_apply', ← hx, ← hP]
        change (debC reg (Conv.debStep 0 reg twoPixels uniformW x).bar)^[10] x.c = _
        rw [hbar, h4]
        exact hCn 9 _ p2
  rw [← tendsto_add_atTop_iff_nat 1]
  refine (convRec_tendsto hκ (p := (1 / 2 / κ, 1)) ⟨by positivity, one_pos⟩).congr fun n => ?_
  have e : debiased2d 0 reg twoPixels uniformW 0 (n + 1) = some (Conv.debRun 0 reg twoPixels uniformW 0 (n + 1)).s.bar := by
    unfold debiased2d
    rw [if_pos (Or.inr (by decide))]
  rw [e, Option.getD_some, conv_debRun_zero, Function.iterate_succ_apply']
  obtain ⟨d, k, hk, h1, h2, h3, h4⟩ := key n
  obtain ⟨x, hx⟩ : ∃ x, x = (Conv.debStep 0 reg twoPixels uniformW)^[n] (Conv.debInit reg) := ⟨_, rfl⟩
  obtain ⟨P, hP⟩ : ∃ P, P = (convRec κ)^[n] (1 / 2 / κ, 1) := ⟨_, rfl⟩
  have pp := convRec_pos hκ (p := (1 / 2 / κ, 1)) ⟨by positivity, one_pos⟩ n
  rw [← hx] at h2 h3 h4 ⊢
  rw [← hP] at h1 h4 pp ⊢
  obtain ⟨p1, p2⟩ := pp
  change _ = x.c i l * Real.exp (∑ k, uniformW k * Real.log (convol reg (fun k i l => twoPixels k i l / convol reg (fun k i l => x.bar i l / x.KU k i l) k i l) k i l + 0))
  rw [h2, h3, hconv, ← h1]
  have e2 : (fun (k : Fin 2) (i : Fin 1) (l : Fin 2) => twoPixels k i l / (κ * P.1)) = fun _ _ _ => 1 / 2 / (κ * P.1) := rfl
  rw [e2, hconv, h4]
  simp only [add_zero]
  rw [← sum_mul, twoPixels_weights.2, one_mul, Real.exp_log (by positivity)]
  field_simp

example : IsDebiasedBarycenter (fun s => pixels (twoPixels s)) uniformW pixelCost 1 fun _ => 1 / 2 :=
  ((C103_debiased one_pos (Or.inl (by norm_num)) twoPixels_images twoPixels_weights).2 (fun _ => 1 / 2) (fun _ => by norm_num) C103_example).1

example := C102_converges (reg := 1) one_pos twoPixels_images twoPixels_weights

example := C102_log_converges (reg := 1) (δ := 1 / 10) one_pos (by norm_num) twoPixels_images (fun _ _ _ => by unfold twoPixels; norm_num) twoPixels_weights

end POT.Props
