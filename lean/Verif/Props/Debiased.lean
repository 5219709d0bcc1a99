import Verif.Props.EntBaryStab
import Verif.Lemmas.DebiasedLim

/-! # C84: debiased barycenters (`ot.bregman.barycenter_debiased`) -/

set_option linter.unusedSectionVars false

namespace POT.Props

open Finset Spec Sinkhorn EntBary Debiased Scaling Filter Topology

variable {I S : Type*} [Fintype I] [Fintype S] [Nonempty I] [Nonempty S]

/-- the kernel `exp(-M / reg)` is positive semidefinite -/
def KernelPSD (M : I → I → ℝ) (reg : ℝ) : Prop := ∀ z : I → ℝ, 0 ≤ ∑ i, ∑ j, z i * Real.exp (-(M i j) / reg) * z j

/-- the kernel `exp(-M / reg)` is positive definite -/
def KernelPD (M : I → I → ℝ) (reg : ℝ) : Prop := ∀ z : I → ℝ, z ≠ 0 → 0 < ∑ i, ∑ j, z i * Real.exp (-(M i j) / reg) * z j

theorem quad_kernel (M : I → I → ℝ) (reg : ℝ) (z : I → ℝ) : quad (kernel M reg) z z = ∑ i, ∑ j, z i * Real.exp (-(M i j) / reg) * z j := by
  unfold quad kernel
  refine sum_congr rfl fun i _ => ?_
  rw [mul_sum]
  exact sum_congr rfl fun j _ => by rw [neg_div, ← div_neg]; ring

/-- fixed points are debiased barycenters, with a quadratic gap -/
theorem deb_of_fixed {M : I → I → ℝ} (hM : ∀ i j, M i j = M j i) {reg : ℝ} (hreg : 0 < reg) (hpsd : KernelPSD M reg) {A : I → S → ℝ} (hA : IsHists A) {w : S → ℝ} (hw : IsWeights w)
    {u : I → S → ℝ} (hu : ∀ j s, 0 < u j s) {b c : I → ℝ} (hb : ∀ j, 0 < b j) (hb1 : ∑ j, b j = 1) (hc : ∀ j, 0 < c j) (he : ∀ j s, ukv (kernel M reg) A u j s = b j)
    (hcb : ∀ j, c j * ∑ i, kernel M reg j i * c i = b j) (hlog : ∀ j, ∑ s, w s * Real.log (u j s) = Real.log (c j)) :
    IsDebiasedBarycenter (fun s i => A i s) w M reg b ∧ (KernelPD M reg → ∀ q, IsDebiasedBarycenter (fun s i => A i s) w M reg q → q = b) := by
  have h := ok_kernel (M := M) (reg := reg) hA hw
  have hs : ∀ i j, kernel M reg i j = kernel M reg j i := fun i j => by unfold kernel; rw [hM]
  have hKp : ∀ i j, 0 < kernel M reg i j := fun i j => Real.exp_pos _
  have hplan : ∀ s, planU (kernel M reg) A u s = fun i j => (A i s / dotK (kernel M reg) u i s) * kernel M reg i j * u j s := fun s => rfl
  have hcp : ∀ s, IsCoupling (fun i => A i s) b (planU (kernel M reg) A u s) := fun s =>
    ⟨plan_nonneg h hu s, fun i => plan_row h hu i s, fun j => by rw [plan_col, he]⟩
  have hopt : ∀ s, IsEntropicOptimal (fun i => A i s) b M reg (planU (kernel M reg) A u s) ∧
      obj1 (kernel M reg) (planU (kernel M reg) A u s) = rowVal (kernel M reg) A u s + ∑ j, b j * Real.log (u j s) := by
    intro s
    have := optimal_form hreg (f := fun i => A i s / dotK (kernel M reg) u i s) (g := fun j => u j s) (fun i => div_nonneg (h.anon i s) (dotK_pos h.kpos hu i s).le) (fun j => (hu j s).le) (hcp s)
    exact this
  have crow : ∀ i, ∑ j, c i * kernel M reg i j * c j = b i := fun i => by
    rw [← hcb i, mul_sum]; exact sum_congr rfl fun j _ => by ring
  have hcc : IsCoupling b b fun i j => c i * kernel M reg i j * c j :=
    ⟨fun i j => mul_nonneg (mul_nonneg (hc i).le (hKp i j).le) (hc j).le, crow, fun j => by
      rw [← crow j]; exact sum_congr rfl fun i _ => by rw [hs i j]; ring⟩
  obtain ⟨ob, eb⟩ := optimal_form hreg (fun i => (hc i).le) (fun i => (hc i).le) hcc
  have hself : ∀ s, ∃ y, IsEntropicCost (fun i => A i s) (fun i => A i s) M reg y := fun s => by
    obtain ⟨d, -, -, h3⟩ := self_cost hM hreg (b := fun i => A i s) (fun i => h.anon i s) (h.mass s)
    exact ⟨_, h3⟩
  choose y hy using hself
  -- the value at `b`
  obtain ⟨R, hR⟩ : ∃ R, R = ∑ s, w s * rowVal (kernel M reg) A u s := ⟨_, rfl⟩
  have hcost_unique : ∀ (p q : I → ℝ) (x x' : ℝ), IsEntropicCost p q M reg x → IsEntropicCost p q M reg x' → x = x' := by
    rintro p q x x' ⟨P, hP, rfl⟩ ⟨P', hP', rfl⟩
    exact le_antisymm ((hP.2 P' hP'.1).1) ((hP'.2 P hP.1).1)
  obtain ⟨v, hv⟩ : ∃ v : S → ℝ, v = fun s => reg * (rowVal (kernel M reg) A u s + ∑ j, b j * Real.log (u j s)) - (y s + reg * (2 * ∑ j, b j * Real.log (c j))) / 2 := ⟨_, rfl⟩
  have hvd : ∀ s, IsSinkhornDivergence (fun i => A i s) b M reg (v s) := fun s =>
    ⟨_, _, _, ⟨_, (hopt s).1, rfl⟩, hy s, ⟨_, ob, rfl⟩, by rw [hv, entObj_eq hreg, entObj_eq hreg, (hopt s).2, eb]; simp only; ring⟩
  have hlogsum : ∑ s, w s * ∑ j, b j * Real.log (u j s) = ∑ j, b j * Real.log (c j) := by
    simp_rw [mul_sum]
    rw [sum_comm]
    refine sum_congr rfl fun j _ => ?_
    rw [← hlog, mul_sum]
    exact sum_congr rfl fun s _ => by ring
  have hvsum : ∑ s, w s * v s = reg * R - (∑ s, w s * y s) / 2 := by
    have e : ∀ s, w s * v s = reg * (w s * rowVal (kernel M reg) A u s) + reg * (w s * ∑ j, b j * Real.log (u j s)) - (w s * y s) / 2 - w s * (reg * ∑ j, b j * Real.log (c j)) := fun s => by
      rw [hv]; ring
    simp_rw [e, sum_sub_distrib, sum_add_distrib]
    rw [← mul_sum, ← mul_sum, ← sum_div, ← sum_mul, hw.2, hlogsum, hR]
    ring
  -- every other histogram
  have other : ∀ (q : I → ℝ) (v' : S → ℝ), IsHistogram q → (∀ s, IsSinkhornDivergence (fun i => A i s) q M reg (v' s)) →
      ∃ d : I → ℝ, (∀ i, d i * ∑ j, kernel M reg i j * d j = q i) ∧ ∑ s, w s * v s + reg * (quad (kernel M reg) (fun i => d i - c i) (fun i => d i - c i) / 2) ≤ ∑ s, w s * v' s := by
    intro q v' hq hv'
    obtain ⟨d, d0, d1, d2⟩ := self_cost hM hreg hq.1 hq.2
    refine ⟨d, d1, ?_⟩
    have hP : ∀ s, ∃ P, IsCoupling (fun i => A i s) q P ∧ v' s = reg * obj1 (kernel M reg) P - (y s + reg * (2 * ∑ i, q i * Real.log (d i))) / 2 := by
      intro s
      obtain ⟨x1, y1, z1, ⟨P, hP, rfl⟩, hy1, hz1, e⟩ := hv' s
      refine ⟨P, hP.1, ?_⟩
      rw [e, entObj_eq hreg, hcost_unique _ _ _ _ hy1 (hy s), hcost_unique _ _ _ _ hz1 d2]
    choose P hP1 hP2 using hP
    have key := static h hs hu hb hb1 hc he hcb hlog hq.1 hq.2 d0 d1 hP1
    have e : ∑ s, w s * v' s = reg * (∑ s, w s * obj1 (kernel M reg) (P s) - ∑ j, q j * Real.log (d j)) - (∑ s, w s * y s) / 2 := by
      have e : ∀ s, w s * v' s = reg * (w s * obj1 (kernel M reg) (P s)) - (w s * y s) / 2 - w s * (reg * ∑ j, q j * Real.log (d j)) := fun s => by rw [hP2]; ring
      simp_rw [e, sum_sub_distrib]
      rw [← mul_sum, ← sum_div, ← sum_mul, hw.2]
      ring
    rw [e, hvsum, hR]
    have := mul_le_mul_of_nonneg_left key hreg.le
    linarith
  have hqpsd : ∀ z : I → ℝ, 0 ≤ quad (kernel M reg) z z := fun z => by rw [quad_kernel]; exact hpsd z
  refine ⟨⟨⟨fun j => (hb j).le, hb1⟩, v, hvd, fun q v' hq hv' => ?_⟩, fun hpd q hq => ?_⟩
  · obtain ⟨d, -, hd⟩ := other q v' hq hv'
    have := mul_nonneg hreg.le (div_nonneg (hqpsd fun i => d i - c i) zero_le_two)
    linarith
  · obtain ⟨hq1, v', hq2, hq3⟩ := hq
    obtain ⟨d, d1, hd⟩ := other q v' hq1 hq2
    have h2 := hq3 b v ⟨fun j => (hb j).le, hb1⟩ hvd
    have h3 : (fun i => d i - c i) = 0 := by
      by_contra hne
      have := hpd _ hne
      rw [← quad_kernel] at this
      have := mul_pos hreg (half_pos this)
      linarith
    have h4 : d = c := funext fun i => sub_eq_zero.1 (congrFun h3 i)
    funext i
    rw [← d1, ← hcb, h4]

/-! ### `method="sinkhorn"` -/

theorem debRun_zero (M : I → I → ℝ) (reg : ℝ) (A : I → S → ℝ) (w : S → ℝ) (n : ℕ) :
    (debRun M reg A w 0 n).s = (debStep (kernel M reg) A w)^[n] { u := initU (kernel M reg) A, c := fun _ => 1, bar := fun _ => 1, bold := fun _ => 1 } := by
  obtain ⟨k, -, h1, -, -, h3, h4, h5⟩ := loop_spec (step := debStep (kernel M reg) A w) (bad := fun _ => False) (stop := fun ii _ x => ii % 10 = 9 ∧ debErr x < 0 ∧ 20 < ii) n 0
    { u := initU (kernel M reg) A, c := fun _ => 1, bar := fun _ => 1, bold := fun _ => 1 }
  unfold debRun
  rw [h1]
  cases hE : (loop (debStep (kernel M reg) A w) (fun _ => False) (fun ii _ x => ii % 10 = 9 ∧ debErr x < 0 ∧ 20 < ii) n 0
    { u := initU (kernel M reg) A, c := fun _ => 1, bar := fun _ => 1, bold := fun _ => 1 }).exit with
  | exhausted => rw [h3 hE]
  | converged =>
    obtain ⟨l, -, -, h6⟩ := h4 hE
    refine absurd h6.2.1 (not_lt.2 (div_nonneg ?_ (le_max_of_le_right zero_le_one)))
    exact (abs_nonneg _).trans (le_sup' (fun i => |((debStep (kernel M reg) A w)^[l + 1] { u := initU (kernel M reg) A, c := fun _ => 1, bar := fun _ => 1, bold := fun _ => 1 }).bar i
      - ((debStep (kernel M reg) A w)^[l + 1] { u := initU (kernel M reg) A, c := fun _ => 1, bar := fun _ => 1, bold := fun _ => 1 }).bold i|) (mem_univ (Classical.arbitrary I)))
  | numerical => exact absurd (h5 hE).2 id

/-- one iteration in the log domain -/
theorem debStep_log {K : I → I → ℝ} {A : I → S → ℝ} {w : S → ℝ} (h : Ok K A w) (hs : ∀ i j, K i j = K j i) {x : DebState I S} (hu : ∀ i s, 0 < x.u i s) (hc : ∀ i, 0 < x.c i) :
    (∀ i s, 0 < (debStep K A w x).u i s) ∧ (∀ i, 0 < (debStep K A w x).c i) ∧ (∀ i, 0 < (debStep K A w x).bar i) ∧
    (∀ j, Real.log ((debStep K A w x).bar j) = Real.log (x.c j) + ∑ s, w s * V K (fun i => A i s) (fun i => Real.log (x.u i s)) j) ∧
    (∀ j s, Real.log ((debStep K A w x).u j s) = Real.log ((debStep K A w x).bar j) - V K (fun i => A i s) (fun i => Real.log (x.u i s)) j) ∧
    ∀ j, Real.log ((debStep K A w x).c j) = H K (fun i => Real.log ((debStep K A w x).bar i)) (fun i => Real.log (x.c i)) j := by
  have hV : ∀ j s, dotK K (fun i s => A i s / dotK K x.u i s) j s = Real.exp (V K (fun i => A i s) (fun i => Real.log (x.u i s)) j) := by
    intro j s
    rw [exp_V h.kpos (fun i => h.anon i s) (h.mass s)]
    unfold dotK
    refine sum_congr rfl fun i _ => ?_
    rw [hs j i]
    simp only [Real.exp_log (hu _ s)]
  have hUp : ∀ j s, 0 < dotK K (fun i s => A i s / dotK K x.u i s) j s := fun j s => by rw [hV]; exact Real.exp_pos _
  have eb : ∀ j, (debStep K A w x).bar j = x.c j * Real.exp (∑ s, w s * V K (fun i => A i s) (fun i => Real.log (x.u i s)) j) := by
    intro j
    have e : (debStep K A w x).bar j = x.c j * Real.exp (∑ s, Real.log (dotK K (fun i s => A i s / dotK K x.u i s) j s) * w s) := rfl
    rw [e]
    congr 2
    exact sum_congr rfl fun s _ => by rw [hV, Real.log_exp, mul_comm]
  have eu : ∀ j s, (debStep K A w x).u j s = (debStep K A w x).bar j / dotK K (fun i s => A i s / dotK K x.u i s) j s := fun j s => rfl
  have ec : ∀ j, (debStep K A w x).c j = Real.sqrt (x.c j * (debStep K A w x).bar j / ∑ i, K j i * x.c i) := fun j => rfl
  have bp : ∀ i, 0 < (debStep K A w x).bar i := fun i => by rw [eb]; exact mul_pos (hc i) (Real.exp_pos _)
  have Kc : ∀ j, 0 < ∑ i, K j i * x.c i := fun j => sum_pos (fun i _ => mul_pos (h.kpos j i) (hc i)) univ_nonempty
  refine ⟨fun i s => by rw [eu]; exact div_pos (bp i) (hUp i s), fun i => by rw [ec]; exact Real.sqrt_pos.2 (div_pos (mul_pos (hc i) (bp i)) (Kc i)), bp, fun j => ?_, fun j s => ?_, fun j => ?_⟩
  · rw [eb, Real.log_mul (hc j).ne' (Real.exp_pos _).ne', Real.log_exp]
  · rw [eu, Real.log_div (bp j).ne' (hUp j s).ne', hV, Real.log_exp]
  · rw [ec, Real.log_sqrt (div_pos (mul_pos (hc j) (bp j)) (Kc j)).le, Real.log_div (mul_pos (hc j) (bp j)).ne' (Kc j).ne', Real.log_mul (hc j).ne' (bp j).ne']
    unfold H L
    simp only [Real.exp_log (hc _)]

/-- **C84.** `barycenter_debiased(method="sinkhorn")` for a symmetric cost with positive semidefinite kernel: whenever the results converge to a positive limit as the number of iterations grows, the
limit minimises the weighted sum of the Sinkhorn divergences among all histograms. If the kernel is positive definite there is no other minimiser. -/
theorem C84_debiased_limit {M : I → I → ℝ} (hM : ∀ i j, M i j = M j i) {reg : ℝ} (hreg : 0 < reg) (hpsd : KernelPSD M reg) {A : I → S → ℝ} (hA : IsHists A) {w : S → ℝ} (hw : IsWeights w)
    {b : I → ℝ} (hb : ∀ j, 0 < b j) (hlim : ∀ j, Tendsto (fun n => barycenterDebiased M reg A w 0 n j) atTop (𝓝 (b j))) :
    IsDebiasedBarycenter (fun s i => A i s) w M reg b ∧ (KernelPD M reg → ∀ q, IsDebiasedBarycenter (fun s i => A i s) w M reg q → q = b) := by
  have h := ok_kernel (M := M) (reg := reg) hA hw
  have hs : ∀ i j, kernel M reg i j = kernel M reg j i := fun i j => by unfold kernel; rw [hM]
  obtain ⟨m₀, m₁, h0, h1⟩ := exists_bounds M
  have hc := kernel_spread hreg h0 h1
  obtain ⟨X, hX⟩ : ∃ X : ℕ → DebState I S, X = fun t => (debStep (kernel M reg) A w)^[t] { u := initU (kernel M reg) A, c := fun _ => 1, bar := fun _ => 1, bold := fun _ => 1 } := ⟨_, rfl⟩
  have hstep : ∀ t, X (t + 1) = debStep (kernel M reg) A w (X t) := fun t => by rw [hX]; exact Function.iterate_succ_apply' _ _ _
  have hpos : ∀ t, (∀ i s, 0 < (X t).u i s) ∧ ∀ i, 0 < (X t).c i := by
    intro t
    induction t with
    | zero => rw [hX]; exact ⟨initU_pos hA, fun _ => one_pos⟩
    | succ t ih =>
      rw [hstep]
      have := debStep_log h hs ih.1 ih.2
      exact ⟨this.1, this.2.1⟩
  have hl : ∀ j, Tendsto (fun t => Real.log ((X t).bar j)) atTop (𝓝 (Real.log (b j))) := fun j => by
    refine ((hlim j).log (hb j).ne').congr fun n => ?_
    unfold barycenterDebiased
    rw [debRun_zero, hX]
  obtain ⟨hb1, u, d, hu, hd, f1, f2, f3, -⟩ := limit_fixed h hs hc one_pos (G := fun t j s => Real.log ((X t).u j s)) (x := fun t j => Real.log ((X t).c j)) (β := fun t j => Real.log ((X t).bar j))
    (fun t j => by simp only [hstep]; exact (debStep_log h hs (hpos t).1 (hpos t).2).2.2.2.1 j) (fun t j s => by simp only [hstep]; exact (debStep_log h hs (hpos t).1 (hpos t).2).2.2.2.2.1 j s)
    (fun t => by funext j; simp only [hstep, Function.iterate_one]; exact (debStep_log h hs (hpos t).1 (hpos t).2).2.2.2.2.2 j) hb hl
  exact deb_of_fixed hM hreg hpsd hA hw hu hb hb1 hd f1 f2 f3

/-- **C84.** If the results converge, the stopping test is met: for every tolerance there is a number of iterations from which on the run ends by the test. -/
theorem C84_debiased_stops {M : I → I → ℝ} {reg : ℝ} {A : I → S → ℝ} {w : S → ℝ} {b : I → ℝ} (hlim : ∀ j, Tendsto (fun n => barycenterDebiased M reg A w 0 n j) atTop (𝓝 (b j)))
    {thr : ℝ} (hthr : 0 < thr) : ∃ N, ∀ n ≥ N, (debRun M reg A w thr n).exit = .converged := by
  obtain ⟨x0, hx0⟩ : ∃ x0 : DebState I S, x0 = { u := initU (kernel M reg) A, c := fun _ => 1, bar := fun _ => 1, bold := fun _ => 1 } := ⟨_, rfl⟩
  have e : ∀ n, barycenterDebiased M reg A w 0 n = ((debStep (kernel M reg) A w)^[n] x0).bar := fun n => by
    unfold barycenterDebiased; rw [debRun_zero, hx0]
  have hd : ∀ i, ∃ N, ∀ t ≥ N, |barycenterDebiased M reg A w 0 (t + 1) i - barycenterDebiased M reg A w 0 t i| < thr := by
    intro i
    have := ((hlim i).comp (tendsto_add_atTop_nat 1)).sub (hlim i)
    rw [sub_self] at this
    obtain ⟨N, hN⟩ := (Metric.tendsto_atTop.1 this) thr hthr
    exact ⟨N, fun t ht => by have := hN t ht; rwa [Real.dist_eq, sub_zero] at this⟩
  choose N hN using hd
  obtain ⟨T, hT⟩ : ∃ T, T = univ.sup' univ_nonempty N := ⟨_, rfl⟩
  refine ⟨10 * (T + 3) + 10, fun n hn => ?_⟩
  unfold debRun
  simp only
  rw [← hx0]
  refine loop_stops n 0 x0 (fun _ => id) (10 * (T + 3) + 9) (by omega) ⟨by omega, ?_, by omega⟩
  have e2 : ((debStep (kernel M reg) A w)^[10 * (T + 3) + 9 + 1] x0).bold = ((debStep (kernel M reg) A w)^[10 * (T + 3) + 9] x0).bar := by
    rw [Function.iterate_succ_apply']; rfl
  unfold debErr
  rw [e2, ← e, ← e, div_lt_iff₀ (lt_of_lt_of_le one_pos (le_max_right _ _)), sup'_lt_iff]
  intro i _
  have h1 := hN i (10 * (T + 3) + 9) (by have : N i ≤ T := hT ▸ le_sup' N (mem_univ i); omega)
  refine h1.trans_le (le_mul_of_one_le_right hthr.le (le_max_right _ _))

/-! ### `method="sinkhorn_log"` -/

theorem debLogRun_zero (ε : ℝ) (M : I → I → ℝ) (reg : ℝ) (A : I → S → ℝ) (w : S → ℝ) (n : ℕ) :
    (debLogRun ε M reg A w 0 n).s = (debLogStep ε M reg A w)^[n] { G := fun _ _ => 0, c := fun _ => 0, bar := fun _ => 0, GKU := fun _ _ => 0 } := by
  obtain ⟨k, -, h1, -, -, h3, h4, h5⟩ := loop_spec (step := debLogStep ε M reg A w) (bad := fun _ => False) (stop := fun ii _ x => ii % 10 = 1 ∧ stdErr (fun j k => Real.exp (x.GKU j k)) < 0 ∧ 20 < ii) n 0
    { G := fun _ _ => 0, c := fun _ => 0, bar := fun _ => 0, GKU := fun _ _ => 0 }
  unfold debLogRun
  rw [h1]
  cases hE : (loop (debLogStep ε M reg A w) (fun _ => False) (fun ii _ x => ii % 10 = 1 ∧ stdErr (fun j k => Real.exp (x.GKU j k)) < 0 ∧ 20 < ii) n 0
    { G := fun _ _ => 0, c := fun _ => 0, bar := fun _ => 0, GKU := fun _ _ => 0 }).exit with
  | exhausted => rw [h3 hE]
  | converged =>
    obtain ⟨l, -, -, h6⟩ := h4 hE
    exact absurd h6.2.1 (not_lt.2 (stdErr_nonneg _))
  | numerical => exact absurd (h5 hE).2 id

theorem debLog_maps {M : I → I → ℝ} (hM : ∀ i j, M i j = M j i) {reg ε : ℝ} {A : I → S → ℝ} (hA : ∀ i s, 0 < A i s + ε) (w : S → ℝ) (x : DebLogState I S) :
    (∀ j, (debLogStep ε M reg A w x).bar j = x.c j + ∑ s, w s * V (kernel M reg) (fun i => A i s + ε) (fun i => x.G i s) j) ∧
    (∀ j s, (debLogStep ε M reg A w x).G j s = (debLogStep ε M reg A w x).bar j - V (kernel M reg) (fun i => A i s + ε) (fun i => x.G i s) j) ∧
    (debLogStep ε M reg A w x).c = (H (kernel M reg) (debLogStep ε M reg A w x).bar)^[10] x.c ∧
    ∀ j s, (debLogStep ε M reg A w x).GKU j s = x.G j s + V (kernel M reg) (fun i => A i s + ε) (fun i => x.G i s) j := by
  have hk : ∀ i j (z : ℝ), Real.exp (-M i j / reg + z) = kernel M reg i j * Real.exp z := fun i j z => by
    rw [Real.exp_add]; unfold kernel; rw [neg_div, div_neg]
  have hf : ∀ i s, Real.exp (logF ε M reg A x.G i s) = (A i s + ε) / ∑ j, kernel M reg i j * Real.exp (x.G j s) := by
    intro i s
    unfold logF logsumexp
    simp only [hk]
    rw [Real.exp_sub, Real.exp_log (hA i s), Real.exp_log (Kexp_pos (kernel_pos M reg) (fun j => x.G j s) i)]
  have hV : ∀ j s, (logsumexp fun i => -M i j / reg + logF ε M reg A x.G i s) = V (kernel M reg) (fun i => A i s + ε) (fun i => x.G i s) j := by
    intro j s
    unfold logsumexp V
    simp only [hk, hf]
  have hH : ∀ bar c : I → ℝ, debLogC M reg bar c = H (kernel M reg) bar c := by
    intro bar c
    funext j
    unfold debLogC H L logsumexp
    simp only [hk]
    have e : ∀ i, kernel M reg i j = kernel M reg j i := fun i => by unfold kernel; rw [hM]
    simp only [e]
    norm_num
    ring
  refine ⟨fun j => ?_, fun j s => ?_, ?_, fun j s => ?_⟩
  · have e : (debLogStep ε M reg A w x).bar j = (∑ k, w k * logsumexp fun i => -M i j / reg + logF ε M reg A x.G i k) + x.c j := rfl
    rw [e]
    simp only [hV]
    ring
  · have e : (debLogStep ε M reg A w x).G j s = (debLogStep ε M reg A w x).bar j - logsumexp fun i => -M i j / reg + logF ε M reg A x.G i s := rfl
    rw [e, hV]
  · have e : (debLogStep ε M reg A w x).c = (debLogC M reg (debLogStep ε M reg A w x).bar)^[10] x.c := rfl
    rw [e, show debLogC M reg (debLogStep ε M reg A w x).bar = H (kernel M reg) (debLogStep ε M reg A w x).bar from funext fun c => hH _ c]
  · have e : (debLogStep ε M reg A w x).GKU j s = x.G j s + logsumexp fun i => -M i j / reg + logF ε M reg A x.G i s := rfl
    rw [e, hV]

/-- **C84.** `barycenter_debiased(method="sinkhorn_log")`: positive limits of the results minimise the weighted sum of the Sinkhorn divergences to the (guarded) histograms, and for every tolerance a
convergent run ends by its stopping test. -/
theorem C84_debiased_log_limit {M : I → I → ℝ} (hM : ∀ i j, M i j = M j i) {reg ε : ℝ} (hreg : 0 < reg) (hpsd : KernelPSD M reg) {A : I → S → ℝ} (hpos : ∀ i s, 0 < A i s + ε)
    (hA : IsHists fun i s => A i s + ε) {w : S → ℝ} (hw : IsWeights w) {b : I → ℝ} (hb : ∀ j, 0 < b j) (hlim : ∀ j, Tendsto (fun n => barycenterDebiasedLog ε M reg A w 0 n j) atTop (𝓝 (b j))) :
    IsDebiasedBarycenter (fun s i => A i s + ε) w M reg b ∧ (KernelPD M reg → ∀ q, IsDebiasedBarycenter (fun s i => A i s + ε) w M reg q → q = b) ∧
    ∀ thr > 0, ∃ N, ∀ n ≥ N, (debLogRun ε M reg A w thr n).exit = .converged := by
  have h := ok_kernel (M := M) (reg := reg) hA hw
  have hs : ∀ i j, kernel M reg i j = kernel M reg j i := fun i j => by unfold kernel; rw [hM]
  obtain ⟨m₀, m₁, h0, h1⟩ := exists_bounds M
  have hc := kernel_spread hreg h0 h1
  obtain ⟨x0, hx0⟩ : ∃ x0 : DebLogState I S, x0 = { G := fun _ _ => 0, c := fun _ => 0, bar := fun _ => 0, GKU := fun _ _ => 0 } := ⟨_, rfl⟩
  obtain ⟨X, hX⟩ : ∃ X : ℕ → DebLogState I S, X = fun t => (debLogStep ε M reg A w)^[t] x0 := ⟨_, rfl⟩
  have hstep : ∀ t, X (t + 1) = debLogStep ε M reg A w (X t) := fun t => by rw [hX]; exact Function.iterate_succ_apply' _ _ _
  have hl : ∀ j, Tendsto (fun t => (X t).bar j) atTop (𝓝 (Real.log (b j))) := fun j => by
    refine ((hlim j).log (hb j).ne').congr fun n => ?_
    unfold barycenterDebiasedLog
    rw [debLogRun_zero, hX, Real.log_exp, hx0]
  obtain ⟨hb1, u, d, hu, hd, f1, f2, f3, f4⟩ := limit_fixed h hs hc (n := 10) (by norm_num) (G := fun t => (X t).G) (x := fun t => (X t).c) (β := fun t => (X t).bar)
    (fun t j => by rw [hstep]; exact (debLog_maps hM hpos w (X t)).1 j) (fun t j s => by rw [hstep]; exact (debLog_maps hM hpos w (X t)).2.1 j s)
    (fun t => by rw [hstep]; exact (debLog_maps hM hpos w (X t)).2.2.1) hb hl
  obtain ⟨g1, g2⟩ := deb_of_fixed hM hreg hpsd hA hw hu hb hb1 hd f1 f2 f3
  refine ⟨g1, g2, fun thr hthr => ?_⟩
  have herr : Tendsto (fun t => stdErr fun j k => Real.exp ((X (t + 1)).GKU j k)) atTop (𝓝 0) := by
    have hg : ∀ j k, Tendsto (fun t => Real.exp ((X (t + 1)).GKU j k)) atTop (𝓝 (b j)) := fun j k => by
      have := (Real.continuous_exp.tendsto _).comp (f4 j k)
      rw [Real.exp_log (hb j)] at this
      refine this.congr fun t => ?_
      rw [hstep, (debLog_maps hM hpos w (X t)).2.2.2]; rfl
    have hS : (Fintype.card S : ℝ) ≠ 0 := by exact_mod_cast Fintype.card_ne_zero
    have : Tendsto (fun t => stdErr fun j k => Real.exp ((X (t + 1)).GKU j k)) atTop (𝓝 (stdErr fun j (_ : S) => b j)) := by
      unfold stdErr
      refine tendsto_finsetSum _ fun j _ => (Real.continuous_sqrt.tendsto _).comp ((tendsto_finsetSum _ fun k _ => ?_).div_const _)
      exact ((hg j k).sub ((tendsto_finsetSum _ fun r _ => hg j r).div_const _)).pow 2
    have e : (stdErr fun j (_ : S) => b j) = 0 := by
      unfold stdErr
      refine sum_eq_zero fun j _ => ?_
      have : ∑ _r : S, b j = Fintype.card S * b j := by rw [sum_const, card_univ, nsmul_eq_mul]
      rw [this, mul_div_cancel_left₀ _ hS]
      simp
    rwa [e] at this
  obtain ⟨T, hT⟩ := (Metric.tendsto_atTop.1 herr) thr hthr
  refine ⟨10 * (T + 3) + 2, fun n hn => ?_⟩
  unfold debLogRun
  rw [← hx0]
  refine loop_stops n 0 x0 (fun _ => id) (10 * (T + 3) + 1) (by omega) ⟨by omega, ?_, by omega⟩
  have := hT (10 * (T + 3) + 1) (by omega)
  rw [Real.dist_eq, sub_zero, abs_of_nonneg (stdErr_nonneg _), hX] at this
  exact this

/-! ### the hypotheses are met -/

theorem dcost_pd : KernelPD dcost 1 := by
  intro z hz
  have e : ∑ i, ∑ j, z i * Real.exp (-(dcost i j) / 1) * z j = quad kern z z := by rw [← kernel_dcost, quad_kernel]
  have e2 : quad kern z z = (z 0 + z 1 / 16) ^ 2 + 255 / 256 * z 1 ^ 2 := by
    unfold quad
    simp [Fin.sum_univ_two, kern]
    ring
  rw [e, e2]
  by_contra h
  push Not at h
  have h1 : z 1 = 0 := by nlinarith [sq_nonneg (z 0 + z 1 / 16), sq_nonneg (z 1)]
  have h0 : z 0 = 0 := by rw [h1] at h; nlinarith [sq_nonneg (z 0)]
  exact hz (funext fun i => by fin_cases i <;> simp [h0, h1])

/-- the recursion of the two Dirac masses: the scale of `u` and the constant value of `c` -/
noncomputable def debRec (p : ℝ × ℝ) : ℝ × ℝ := (p.2, Real.sqrt (8 * p.2 / (17 * p.1)))

theorem debRec_pos : ∀ t, 0 < (debRec^[t] (1, 1)).1 ∧ 0 < (debRec^[t] (1, 1)).2 := by
  intro t
  induction t with
  | zero => exact ⟨one_pos, one_pos⟩
  | succ t ih =>
    rw [Function.iterate_succ_apply']
    have := ih.1
    have := ih.2
    exact ⟨ih.2, Real.sqrt_pos.2 (by positivity)⟩

theorem debRec_tendsto : Tendsto (fun t => Real.log (debRec^[t] (1, 1)).2 - Real.log (debRec^[t] (1, 1)).1) atTop (𝓝 0) := by
  have pos := debRec_pos
  obtain ⟨Q, hQ⟩ : ∃ Q : ℕ → ℝ, Q = fun t => (Real.log (debRec^[t] (1, 1)).2 - Real.log (8 / 17) / 2) ^ 2
      - (Real.log (debRec^[t] (1, 1)).2 - Real.log (8 / 17) / 2) * (Real.log (debRec^[t] (1, 1)).1 - Real.log (8 / 17) / 2) / 2
      + (Real.log (debRec^[t] (1, 1)).1 - Real.log (8 / 17) / 2) ^ 2 / 2 := ⟨_, rfl⟩
  have hQs : ∀ t, Q (t + 1) = Q t / 2 := by
    intro t
    rw [hQ]
    simp only
    rw [Function.iterate_succ_apply']
    obtain ⟨p1, p2⟩ := pos t
    have e1 : Real.log (debRec (debRec^[t] (1, 1))).2 = (Real.log (8 / 17) + Real.log (debRec^[t] (1, 1)).2 - Real.log (debRec^[t] (1, 1)).1) / 2 := by
      change Real.log (Real.sqrt (8 * (debRec^[t] (1, 1)).2 / (17 * (debRec^[t] (1, 1)).1))) = _
      rw [Real.log_sqrt (by positivity), show 8 * (debRec^[t] (1, 1)).2 / (17 * (debRec^[t] (1, 1)).1) = 8 / 17 * (debRec^[t] (1, 1)).2 / (debRec^[t] (1, 1)).1 by ring,
        Real.log_div (by positivity) p1.ne', Real.log_mul (by norm_num) p2.ne']
    rw [e1, show (debRec (debRec^[t] (1, 1))).1 = (debRec^[t] (1, 1)).2 from rfl]
    ring
  have hQt : Tendsto Q atTop (𝓝 0) := by
    have e : ∀ t, Q t = (1 / 2) ^ t * Q 0 := by
      intro t
      induction t with
      | zero => simp
      | succ t ih => rw [hQs, ih, pow_succ]; ring
    have := (tendsto_pow_atTop_nhds_zero_of_lt_one (r := (1 / 2 : ℝ)) (by norm_num) (by norm_num)).mul_const (Q 0)
    rw [zero_mul] at this
    exact this.congr fun t => (e t).symm
  have h4 : Tendsto (fun t => Real.sqrt (4 * Q t)) atTop (𝓝 0) := by
    have := (Real.continuous_sqrt.tendsto _).comp (hQt.const_mul 4)
    rw [mul_zero, Real.sqrt_zero] at this
    exact this
  refine squeeze_zero_norm (fun t => ?_) h4
  rw [Real.norm_eq_abs]
  refine Real.abs_le_sqrt ?_
  rw [hQ]
  simp only
  nlinarith [sq_nonneg (Real.log (debRec^[t] (1, 1)).2 - Real.log (8 / 17) / 2), sq_nonneg (Real.log (debRec^[t] (1, 1)).1 - Real.log (8 / 17) / 2)]


theorem debStep_diracs {p : ℝ × ℝ} (h1 : 0 < p.1) (h2 : 0 < p.2) {x : DebState (Fin 2) (Fin 2)} (hu : x.u = ![![p.1 / 4, 4 * p.1], ![4 * p.1, p.1 / 4]]) (hc : x.c = fun _ => p.2) :
    (debStep kern diracs uniform x).u = ![![p.2 / 4, 4 * p.2], ![4 * p.2, p.2 / 4]] ∧ (debStep kern diracs uniform x).c = (fun _ => (debRec p).2) ∧ (debStep kern diracs uniform x).bar = fun _ => p.2 / (2 * p.1) := by
  have dot2 : ∀ (K v : Fin 2 → Fin 2 → ℝ) (i s : Fin 2), dotK K v i s = K i 0 * v 0 s + K i 1 * v 1 s := fun K v i s => by unfold dotK; rw [Fin.sum_univ_two]
  have hd : (fun i s => diracs i s / dotK kern x.u i s) = ![![2 / p.1, 0], ![0, 2 / p.1]] := by
    rw [hu]
    funext i s
    rw [dot2]
    fin_cases i <;> fin_cases s <;> simp [diracs, kern] <;> field_simp <;> ring
  have hU : dotK kern (fun i s => diracs i s / dotK kern x.u i s) = ![![2 / p.1, 1 / (8 * p.1)], ![1 / (8 * p.1), 2 / p.1]] := by
    rw [hd]
    funext i s
    rw [dot2]
    fin_cases i <;> fin_cases s <;> simp [kern] <;> field_simp <;> norm_num
  have hg : ∀ a b : ℝ, 0 < a → 0 < b → Real.exp (Real.log a * (1 / 2) + Real.log b * (1 / 2)) = Real.sqrt (a * b) := fun a b ha hb => by
    rw [Real.sqrt_eq_rpow, Real.rpow_def_of_pos (mul_pos ha hb), Real.log_mul ha.ne' hb.ne']
    congr 1; ring
  have hs : Real.sqrt (2 / p.1 * (1 / (8 * p.1))) = 1 / (2 * p.1) := by
    rw [show 2 / p.1 * (1 / (8 * p.1)) = (1 / (2 * p.1)) ^ 2 by field_simp; norm_num, Real.sqrt_sq (by positivity)]
  have hG : geometricBar uniform (dotK kern (fun i s => diracs i s / dotK kern x.u i s)) = fun _ => 1 / (2 * p.1) := by
    rw [hU]
    funext i
    unfold geometricBar uniform
    rw [Fin.sum_univ_two]
    simp only [Fintype.card_fin, Nat.cast_ofNat]
    fin_cases i
    · simp only [Fin.zero_eta, Matrix.cons_val_zero, Matrix.cons_val_one]
      rw [hg _ _ (by positivity) (by positivity), hs]
    · simp only [Fin.mk_one, Matrix.cons_val_zero, Matrix.cons_val_one]
      rw [hg _ _ (by positivity) (by positivity), mul_comm, hs]
  have hb : (debStep kern diracs uniform x).bar = fun _ => p.2 / (2 * p.1) := by
    have e : (debStep kern diracs uniform x).bar = fun i => x.c i * geometricBar uniform (dotK kern (fun i s => diracs i s / dotK kern x.u i s)) i := rfl
    rw [e, hG, hc]
    funext i
    ring
  refine ⟨?_, ?_, hb⟩
  · have e : (debStep kern diracs uniform x).u = fun i s => (debStep kern diracs uniform x).bar i / dotK kern (fun i s => diracs i s / dotK kern x.u i s) i s := rfl
    rw [e, hb, hU]
    funext i s
    fin_cases i <;> fin_cases s <;> simp <;> field_simp <;> norm_num
  · have e : (debStep kern diracs uniform x).c = fun i => Real.sqrt (x.c i * (debStep kern diracs uniform x).bar i / ∑ j, kern i j * x.c j) := rfl
    rw [e, hb, hc]
    funext i
    unfold debRec
    simp only
    congr 1
    rw [← sum_mul]
    have : ∑ j, kern i j = 17 / 16 := by rw [Fin.sum_univ_two]; fin_cases i <;> simp [kern] <;> norm_num
    rw [this]
    field_simp
    norm_num

/-- The hypotheses of C84 are met by two Dirac masses with equal weights: the kernel is positive definite and the results converge to the uniform histogram. -/
theorem C84_example : IsHists diracs ∧ IsWeights (uniform : Fin 2 → ℝ) ∧ KernelPD dcost 1 ∧ ∀ j, Tendsto (fun n => barycenterDebiased dcost 1 diracs uniform 0 n j) atTop (𝓝 (1 / 2)) := by
  refine ⟨diracs_hists, uniform_weights, dcost_pd, fun j => ?_⟩
  have pos := debRec_pos
  have init : initU kern diracs = ![![(1 : ℝ) / 4, 4 * 1], ![4 * 1, 1 / 4]] := by
    have hk : ∀ j, ∑ i, kern i j = 17 / 16 := fun j => by rw [Fin.sum_univ_two]; fin_cases j <;> simp [kern] <;> norm_num
    have hU : dotK kern (fun j s => diracs j s / ∑ i, kern i j) = ![![16 / 17, 1 / 17], ![1 / 17, 16 / 17]] := by
      funext i s
      unfold dotK
      simp only [hk]
      rw [Fin.sum_univ_two]
      fin_cases i <;> fin_cases s <;> simp [diracs, kern] <;> norm_num
    have hg : ∀ i, geometricMean (![![16 / 17, 1 / 17], ![1 / 17, 16 / 17]] : Fin 2 → Fin 2 → ℝ) i = 4 / 17 := by
      have e : Real.exp ((Real.log (16 / 17) + Real.log (1 / 17)) / 2) = 4 / 17 := by
        rw [← Real.log_mul (by norm_num) (by norm_num), show (16 / 17 * (1 / 17) : ℝ) = (4 / 17) ^ 2 by norm_num, Real.log_pow, Nat.cast_ofNat, mul_div_cancel_left₀ _ two_ne_zero, Real.exp_log (by norm_num)]
      intro i
      unfold geometricMean
      rw [Fin.sum_univ_two]
      fin_cases i
      · exact e
      · rw [← e]; simp only [Fintype.card_fin, Nat.cast_ofNat]; congr 2; simp; ring
    unfold initU
    simp only [hU, hg]
    funext i s
    fin_cases i <;> fin_cases s <;> norm_num
  have hst : ∀ t, ((debStep (kernel dcost 1) diracs uniform)^[t] { u := initU (kernel dcost 1) diracs, c := fun _ => 1, bar := fun _ => 1, bold := fun _ => 1 }).u
        = ![![(debRec^[t] (1, 1)).1 / 4, 4 * (debRec^[t] (1, 1)).1], ![4 * (debRec^[t] (1, 1)).1, (debRec^[t] (1, 1)).1 / 4]] ∧
      ((debStep (kernel dcost 1) diracs uniform)^[t] { u := initU (kernel dcost 1) diracs, c := fun _ => 1, bar := fun _ => 1, bold := fun _ => 1 }).c = fun _ => (debRec^[t] (1, 1)).2 := by
    intro t
    rw [kernel_dcost]
    induction t with
    | zero => exact ⟨init, rfl⟩
    | succ t ih =>
      rw [Function.iterate_succ_apply', Function.iterate_succ_apply']
      have := debStep_diracs (pos t).1 (pos t).2 ih.1 ih.2
      exact ⟨this.1, this.2.1⟩
  have hbar : ∀ t, barycenterDebiased dcost 1 diracs uniform 0 (t + 1) j = 1 / 2 * Real.exp (Real.log (debRec^[t] (1, 1)).2 - Real.log (debRec^[t] (1, 1)).1) := by
    intro t
    unfold barycenterDebiased
    rw [debRun_zero, Function.iterate_succ_apply']
    have h := hst t
    rw [kernel_dcost] at h ⊢
    rw [(debStep_diracs (pos t).1 (pos t).2 h.1 h.2).2.2, Real.exp_sub, Real.exp_log (pos t).1, Real.exp_log (pos t).2]
    have := (pos t).1.ne'
    field_simp
  have hz := debRec_tendsto
  rw [← tendsto_add_atTop_iff_nat 1]
  simp_rw [hbar]
  have := ((Real.continuous_exp.tendsto _).comp hz).const_mul (1 / 2)
  rw [Real.exp_zero, mul_one] at this
  exact this

theorem debLogC_diracs (b c : ℝ) : debLogC dcost 1 (fun _ => b) (fun _ => c) = fun _ => (b - Real.log (17 / 16)) / 2 := by
  funext j
  unfold debLogC
  have e : ∀ i, Real.exp (-dcost i j / 1 + c) = kern i j * Real.exp c := fun i => by rw [Real.exp_add, ← kernel_dcost]; simp [kernel, div_neg]
  unfold logsumexp
  simp only [e]
  rw [← sum_mul, show ∑ i, kern i j = 17 / 16 by rw [Fin.sum_univ_two]; fin_cases j <;> simp [kern] <;> norm_num, Real.log_mul (by norm_num) (Real.exp_pos _).ne', Real.log_exp]
  ring

theorem debLogStep_diracs {p : ℝ × ℝ} (h1 : 0 < p.1) (h2 : 0 < p.2) {x : DebLogState (Fin 2) (Fin 2)} (hG : x.G = fun _ _ => Real.log p.1) (hc : x.c = fun _ => Real.log p.2) :
    (debLogStep 0 dcost 1 (fun _ _ => 1 / 2) uniform x).G = (fun _ _ => Real.log (debRec p).1) ∧ (debLogStep 0 dcost 1 (fun _ _ => 1 / 2) uniform x).c = (fun _ => Real.log (debRec p).2) ∧
    (debLogStep 0 dcost 1 (fun _ _ => 1 / 2) uniform x).bar = fun _ => Real.log (1 / 2) + (Real.log p.2 - Real.log p.1) := by
  have hk : ∀ (i : Fin 2) (c : ℝ), logsumexp (fun j => -dcost i j / 1 + c) = Real.log (17 / 16) + c := by
    intro i c
    have e : ∀ j, Real.exp (-dcost i j / 1 + c) = kern i j * Real.exp c := fun j => by rw [Real.exp_add, ← kernel_dcost]; simp [kernel, div_neg]
    unfold logsumexp
    simp only [e]
    rw [← sum_mul, show ∑ j, kern i j = 17 / 16 by rw [Fin.sum_univ_two]; fin_cases i <;> simp [kern] <;> norm_num, Real.log_mul (by norm_num) (Real.exp_pos _).ne', Real.log_exp]
  have hk' : ∀ (j : Fin 2) (c : ℝ), logsumexp (fun i => -dcost i j / 1 + c) = Real.log (17 / 16) + c := by
    intro j c
    have e : (fun i => -dcost i j / 1 + c) = fun i => -dcost j i / 1 + c := by
      funext i; fin_cases i <;> fin_cases j <;> rfl
    rw [e, hk]
  have hf : logF 0 dcost 1 (fun _ _ => (1 / 2 : ℝ)) x.G = fun _ (_ : Fin 2) => Real.log (1 / 2) - (Real.log (17 / 16) + Real.log p.1) := by
    funext i s
    unfold logF
    rw [hG]
    simp only [hk, add_zero]
  have hKU : (fun (j k : Fin 2) => logsumexp fun i => -dcost i j / 1 + logF 0 dcost 1 (fun _ _ => (1 / 2 : ℝ)) x.G i k) = fun _ _ => Real.log (1 / 2) - Real.log p.1 := by
    rw [hf]
    funext j s
    simp only [hk']
    ring
  have hbar : (debLogStep 0 dcost 1 (fun _ _ => 1 / 2) uniform x).bar = fun _ => Real.log (1 / 2) + (Real.log p.2 - Real.log p.1) := by
    have e : (debLogStep 0 dcost 1 (fun _ _ => 1 / 2) uniform x).bar = fun j => (∑ k, uniform k * (fun (j k : Fin 2) => logsumexp fun i => -dcost i j / 1 + logF 0 dcost 1 (fun _ _ => (1 / 2 : ℝ)) x.G i k) j k) + x.c j := rfl
    rw [e, hKU, hc]
    funext j
    simp only
    rw [Fin.sum_univ_two]
    simp [uniform]
    ring
  refine ⟨?_, ?_, hbar⟩
  · have e : (debLogStep 0 dcost 1 (fun _ _ => 1 / 2) uniform x).G = fun j k => (debLogStep 0 dcost 1 (fun _ _ => 1 / 2) uniform x).bar j - (fun (j k : Fin 2) => logsumexp fun i => -dcost i j / 1 + logF 0 dcost 1 (fun _ _ => (1 / 2 : ℝ)) x.G i k) j k := rfl
    rw [e, hKU, hbar]
    funext j k
    unfold debRec
    simp only
    ring
  · have e : (debLogStep 0 dcost 1 (fun _ _ => 1 / 2) uniform x).c = (debLogC dcost 1 (debLogStep 0 dcost 1 (fun _ _ => 1 / 2) uniform x).bar)^[10] x.c := rfl
    have hs : ∀ n (c : ℝ), (debLogC dcost 1 (fun _ => Real.log (1 / 2) + (Real.log p.2 - Real.log p.1)))^[n + 1] (fun _ => c) = fun _ => (Real.log (1 / 2) + (Real.log p.2 - Real.log p.1) - Real.log (17 / 16)) / 2 := by
      intro n
      induction n with
      | zero => intro c; exact debLogC_diracs _ _
      | succ n ih => intro c; rw [Function.iterate_succ_apply, debLogC_diracs]; exact ih _
    rw [e, hbar, hc, hs 9]
    funext j
    unfold debRec
    simp only
    rw [Real.log_sqrt (by positivity), ← Real.log_div h2.ne' h1.ne', ← Real.log_mul (by norm_num) (by positivity), ← Real.log_div (by positivity) (by norm_num)]
    congr 2
    field_simp
    norm_num

/-- The hypotheses of the version in log domain are met by two uniform histograms (with guard 0). -/
theorem C84_log_example : (∀ i s : Fin 2, 0 < (fun _ _ => (1 / 2 : ℝ)) i s + (0 : ℝ)) ∧ (IsHists fun i s : Fin 2 => (fun _ _ => (1 / 2 : ℝ)) i s + (0 : ℝ)) ∧ ∀ j, Tendsto (fun n => barycenterDebiasedLog 0 dcost 1 (fun (_ _ : Fin 2) => 1 / 2) uniform 0 n j) atTop (𝓝 (1 / 2)) := by
  refine ⟨fun _ _ => by norm_num, ⟨fun _ _ => by norm_num, fun _ => by norm_num [Fin.sum_univ_two]⟩, fun j => ?_⟩
  have hst : ∀ t, ((debLogStep 0 dcost 1 (fun _ _ => 1 / 2) uniform)^[t] { G := fun _ _ => 0, c := fun _ => 0, bar := fun _ => 0, GKU := fun _ _ => 0 } : DebLogState (Fin 2) (Fin 2)).G = (fun _ _ => Real.log (debRec^[t] (1, 1)).1) ∧
      ((debLogStep 0 dcost 1 (fun _ _ => 1 / 2) uniform)^[t] { G := fun _ _ => 0, c := fun _ => 0, bar := fun _ => 0, GKU := fun _ _ => 0 } : DebLogState (Fin 2) (Fin 2)).c = fun _ => Real.log (debRec^[t] (1, 1)).2 := by
    intro t
    induction t with
    | zero => simp
    | succ t ih =>
      rw [Function.iterate_succ_apply', Function.iterate_succ_apply']
      have := debLogStep_diracs (debRec_pos t).1 (debRec_pos t).2 ih.1 ih.2
      exact ⟨this.1, this.2.1⟩
  rw [← tendsto_add_atTop_iff_nat 1]
  have hbar : ∀ t, barycenterDebiasedLog 0 dcost 1 (fun (_ _ : Fin 2) => 1 / 2) uniform 0 (t + 1) j = 1 / 2 * Real.exp (Real.log (debRec^[t] (1, 1)).2 - Real.log (debRec^[t] (1, 1)).1) := by
    intro t
    unfold barycenterDebiasedLog
    rw [debLogRun_zero, Function.iterate_succ_apply', (debLogStep_diracs (debRec_pos t).1 (debRec_pos t).2 (hst t).1 (hst t).2).2.2, Real.exp_add, Real.exp_log (by norm_num)]
  simp_rw [hbar]
  have := ((Real.continuous_exp.tendsto _).comp debRec_tendsto).const_mul (1 / 2)
  rw [Real.exp_zero, mul_one] at this
  exact this

end POT.Props
