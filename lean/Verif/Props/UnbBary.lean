import Verif.Lemmas.UnbBary
import Verif.Lemmas.SinkhornLoop
import Mathlib.Tactic.NormNum

/-!
# C98: barycenters of unbalanced entropic transport

`barycenter_unbalanced_sinkhorn` and `barycenter_unbalanced_stabilized`. Specification: `Verif/Spec/UnbBary.lean`.
-/

set_option linter.unusedSectionVars false

namespace POT.Props

open Finset Spec Sinkhorn Unbalanced UnbBary Filter Topology

variable {I J H : Type*} [Fintype I] [Fintype J] [Fintype H] [Nonempty J] [Nonempty H]

/-- The inputs of the theorems below: non-negative histograms (columns of `A`), none of them zero, and positive weights of sum one. -/
structure UnbBaryInput (A : I → H → ℝ) (w : H → ℝ) : Prop where
  nonneg : ∀ i h, 0 ≤ A i h
  mass : ∀ h, ∃ i, 0 < A i h
  pos : ∀ h, 0 < w h
  one : ∑ h, w h = 1

theorem UnbBaryInput.good {A : I → H → ℝ} {w : H → ℝ} (hi : UnbBaryInput A w) (M : I → J → ℝ) {reg ρ : ℝ} (hreg : 0 < reg) (hρ : 0 < ρ) : Good A w (kern M reg) (fiB reg ρ) :=
  ⟨fun _ _ => Real.exp_pos _, hi.nonneg, hi.mass, hi.pos, (fi_prop hreg hρ).1, (fi_prop hreg hρ).2.1⟩

/-- The transport plans of a state, one for each histogram: `diag(u_h) exp(-M / reg) diag(v_h)`. -/
noncomputable def statePlans (M : I → J → ℝ) (reg : ℝ) (s : StB I J H) : H → I → J → ℝ := fun h i j => s.u i h * Real.exp (-M i j / reg) * s.v j h

/-- C98: the default weights are uniform, positive and of sum one. -/
theorem C98_default_weights : (∀ h : H, 0 < weightsOf (none : Option (H → ℝ)) h) ∧ (∑ h : H, weightsOf (none : Option (H → ℝ)) h = 1) ∧
    ∀ h h' : H, weightsOf (none : Option (H → ℝ)) h = weightsOf (none : Option (H → ℝ)) h' := by
  have hc : (0 : ℝ) < Fintype.card H := Nat.cast_pos.2 Fintype.card_pos
  refine ⟨fun h => by simp [weightsOf, hc], ?_, fun h h' => rfl⟩
  simp only [weightsOf, Option.getD_none, sum_const, card_univ, nsmul_eq_mul]
  field_simp

/-- C98: after every iteration from positive scalings the barycenter is the weighted mean of the second marginals of the plans of that iteration. -/
theorem C98_mean {A : I → H → ℝ} {w : H → ℝ} (hi : UnbBaryInput A w) (M : I → J → ℝ) {reg ρ : ℝ} (hreg : 0 < reg) (hρ : 0 < ρ) (s : StB I J H) (hv : ∀ j h, 0 < s.v j h) (j : J) :
    (stepB A w (kern M reg) (fiB reg ρ) s).q j = ∑ h, w h * ∑ i, statePlans M reg (stepB A w (kern M reg) (fiB reg ρ) s) h i j := by
  have g := hi.good M hreg hρ
  rw [stepB_eq]
  rw [show (StB.q { u := updU A (kern M reg) (fiB reg ρ) s.v, v := next A w (kern M reg) (fiB reg ρ) s.v, q := baryQ A w (kern M reg) (fiB reg ρ) s.v } : J → ℝ) j
    = baryQ A w (kern M reg) (fiB reg ρ) s.v j from rfl, ← next_kap g hv j]
  refine sum_congr rfl fun h _ => ?_
  congr 1
  unfold statePlans kap ktuB kern
  simp only
  rw [sum_mul]
  exact sum_congr rfl fun i _ => by ring

/-- C98: a state with positive `v` that an iteration leaves unchanged carries the barycenter: its `q`, with its plans, is the only minimiser of the weighted sum of the unbalanced entropic objectives over
all barycenters and all plans. -/
theorem C98_fixed_optimal {A : I → H → ℝ} {w : H → ℝ} (hi : UnbBaryInput A w) (M : I → J → ℝ) {reg ρ : ℝ} (hreg : 0 < reg) (hρ : 0 < ρ) (s : StB I J H) (hv : ∀ j h, 0 < s.v j h)
    (hfix : stepB A w (kern M reg) (fiB reg ρ) s = s) : IsUnbBary A w M reg ρ s.q (statePlans M reg s) := by
  have g := hi.good M hreg hρ
  rw [stepB_eq] at hfix
  have h1 : updU A (kern M reg) (fiB reg ρ) s.v = s.u := congrArg StB.u hfix
  have h2 : next A w (kern M reg) (fiB reg ρ) s.v = s.v := congrArg StB.v hfix
  have h3 : baryQ A w (kern M reg) (fiB reg ρ) s.v = s.q := congrArg StB.q hfix
  have := fixed_bary hreg hρ g hi.one hv h2
  rw [h3] at this
  have e : planB A (kern M reg) (fiB reg ρ) s.v = statePlans M reg s := by
    unfold planB statePlans
    rw [h1]; rfl
  rwa [e] at this

theorem iter_v (A : I → H → ℝ) (w : H → ℝ) (K : I → J → ℝ) (f : ℝ) (s : StB I J H) (n : ℕ) : ((stepB A w K f)^[n] s).v = (next A w K f)^[n] s.v := by
  induction n with
  | zero => rfl
  | succ n ih => rw [Function.iterate_succ_apply', Function.iterate_succ_apply', stepB_eq, ← ih]

theorem iter_pos {A : I → H → ℝ} {w : H → ℝ} {K : I → J → ℝ} {f : ℝ} (g : Good A w K f) {v : J → H → ℝ} (hv : ∀ j h, 0 < v j h) (n : ℕ) : ∀ j h, 0 < (next A w K f)^[n] v j h := by
  induction n with
  | zero => exact hv
  | succ n ih => rw [Function.iterate_succ_apply']; exact next_pos g ih

/-- C98: the barycenter exists, it is positive everywhere, and the iterations started from any positive scalings converge to it; the plans of the iterations converge to the optimal plans. -/
theorem C98_converges {A : I → H → ℝ} {w : H → ℝ} (hi : UnbBaryInput A w) (M : I → J → ℝ) {reg ρ : ℝ} (hreg : 0 < reg) (hρ : 0 < ρ) :
    ∃ (q : J → ℝ) (P : H → I → J → ℝ), IsUnbBary A w M reg ρ q P ∧ (∀ j, 0 < q j) ∧ ∀ s : StB I J H, (∀ j h, 0 < s.v j h) →
      (∀ j, Tendsto (fun n => ((stepB A w (kern M reg) (fiB reg ρ))^[n] s).q j) atTop (𝓝 (q j))) ∧
      ∀ h i j, Tendsto (fun n => statePlans M reg ((stepB A w (kern M reg) (fiB reg ρ))^[n] s) h i j) atTop (𝓝 (P h i j)) := by
  have g := hi.good M hreg hρ
  obtain ⟨t, ht, hfix⟩ := (next_tendsto g (v := fun _ _ => 1) fun _ _ => one_pos).1
  refine ⟨_, _, fixed_bary hreg hρ g hi.one ht hfix, q_pos g ht, fun s hs => ?_⟩
  have hlim := (next_tendsto g hs).2 t fun y hy hfy => fixed_unique hreg hρ g hi.one ht hfix hy hfy
  refine ⟨fun j => ?_, fun h i j => ?_⟩
  · refine (tendsto_add_atTop_iff_nat 1).1 (((q_cont g ht j).tendsto.comp hlim).congr fun n => ?_)
    simp only [Function.comp]
    rw [Function.iterate_succ_apply', stepB_eq, iter_v]
  · refine (tendsto_add_atTop_iff_nat 1).1 ?_
    have h1 := (u_cont g ht i h).tendsto.comp hlim
    have h2 : Tendsto (fun n => (next A w (kern M reg) (fiB reg ρ))^[n + 1] s.v j h) atTop (𝓝 (t j h)) :=
      tendsto_pi_nhds.1 (tendsto_pi_nhds.1 ((tendsto_add_atTop_iff_nat 1).2 hlim) j) h
    refine ((h1.mul_const (Real.exp (-M i j / reg))).mul h2).congr fun n => ?_
    simp only [Function.comp]
    unfold statePlans
    rw [Function.iterate_succ_apply' (stepB A w (kern M reg) (fiB reg ρ)), stepB_eq, iter_v, Function.iterate_succ_apply']

theorem not_badB {A : I → H → ℝ} {w : H → ℝ} {K : I → J → ℝ} {f : ℝ} (g : Good A w K f) (s : StB I J H) (hv : ∀ j h, 0 < s.v j h) : ¬ badB A K f s := by
  rintro (⟨i, h, e⟩ | ⟨j, h, e⟩)
  · exact (kv_pos g hv i h).ne' e
  · exact (kap_pos g hv j h).ne' e

/-- C98: `barycenter_unbalanced_sinkhorn` meets no numerical exit; it returns the barycenter of one of its iterations, namely the last one unless the stopping test succeeded; that test succeeds, after more
than eleven iterations, whenever the threshold is positive and the iteration limit is large; and with a threshold that the test never meets the results converge to the barycenter as the limit grows. -/
theorem C98_solver {A : I → H → ℝ} (M : I → J → ℝ) {reg ρ : ℝ} (hreg : 0 < reg) (hρ : 0 < ρ) (w : Option (H → ℝ)) (hi : UnbBaryInput A (weightsOf w)) :
    (∀ n thr, (barycenterUnb A M reg ρ w n thr).exit ≠ .numerical) ∧
    (∀ n thr, ∃ k ≤ n, (barycenterUnb A M reg ρ w n thr).s = (stepB A (weightsOf w) (kern M reg) (fiB reg ρ))^[k] startB ∧
      ((barycenterUnb A M reg ρ w n thr).exit = .exhausted → k = n) ∧ ((barycenterUnb A M reg ρ w n thr).exit = .converged → 12 ≤ k)) ∧
    (∀ thr > 0, ∃ N, ∀ n ≥ N, (barycenterUnb A M reg ρ w n thr).exit = .converged) ∧
    ∃ q P, IsUnbBary A (weightsOf w) M reg ρ q P ∧ (∀ thr ≤ 0, ∀ j, Tendsto (fun n => (barycenterUnb A M reg ρ w n thr).s.q j) atTop (𝓝 (q j))) ∧
      ∀ j, Tendsto (fun n => ((stepB A (weightsOf w) (kern M reg) (fiB reg ρ))^[n] startB).q j) atTop (𝓝 (q j)) := by
  have g := hi.good M hreg hρ
  have hnb : ∀ l, ¬ badB A (kern M reg) (fiB reg ρ) ((stepB A (weightsOf w) (kern M reg) (fiB reg ρ))^[l] startB) := fun l =>
    not_badB g _ (by rw [iter_v]; exact iter_pos g (fun _ _ => one_pos) l)
  obtain ⟨q, P, hopt, _, hconv⟩ := C98_converges hi M hreg hρ
  have hq := (hconv startB fun _ _ => one_pos).1
  have hspec := fun n thr => loop_spec (step := stepB A (weightsOf w) (kern M reg) (fiB reg ρ)) (bad := badB A (kern M reg) (fiB reg ρ)) (stop := stopB thr) n 0 startB
  have hnum : ∀ n thr, (barycenterUnb A M reg ρ w n thr).exit ≠ .numerical := fun n thr he => by
    obtain ⟨k, _, _, _, _, _, _, h⟩ := hspec n thr
    exact hnb k (h he).2
  refine ⟨hnum, fun n thr => ?_, fun thr hthr => ?_, q, P, hopt, fun thr hthr j => ?_, hq⟩
  · obtain ⟨k, hk, h1, _, _, h2, h3, _⟩ := hspec n thr
    refine ⟨k, hk, h1, h2, fun he => ?_⟩
    obtain ⟨l, hl, _, hst⟩ := h3 he
    have := hst.2
    omega
  · have := relErr_tendsto hq
    obtain ⟨N, hN⟩ := (this.eventually (gt_mem_nhds hthr)).exists_forall_of_atTop
    refine ⟨max N 11 + 1, fun n hn => ?_⟩
    refine loop_stops n 0 startB hnb (max N 11) (by omega) ⟨hN _ (le_max_left _ _), ?_⟩
    have := le_max_right N 11
    omega
  · refine (hq j).congr fun n => ?_
    obtain ⟨k, _, h1, _, _, h2, h3, _⟩ := hspec n thr
    have hex : (barycenterUnb A M reg ρ w n thr).exit = .exhausted := by
      cases he : (barycenterUnb A M reg ρ w n thr).exit with
      | exhausted => rfl
      | numerical => exact absurd he (hnum n thr)
      | converged =>
        obtain ⟨l, _, _, hst⟩ := h3 he
        have := relErr_nonneg ((stepB A (weightsOf w) (kern M reg) (fiB reg ρ))^[l] startB).q ((stepB A (weightsOf w) (kern M reg) (fiB reg ρ))^[l + 1] startB).q
        exact absurd hst.1 (by push Not; linarith)
    have hk := h2 hex
    subst hk
    rw [← h1]; rfl

/-! ## The stabilised solver, with the guard `1e-16` taken as `0` -/

/-- The scalings that a state of the stabilised loop stands for: `v e^{beta / reg}`. -/
noncomputable def effV (reg : ℝ) (s : StS I J H) : J → H → ℝ := fun j h => s.v j h * Real.exp (s.β j / reg)

/-- the plain state with these scalings -/
noncomputable def effState (reg : ℝ) (s : StS I J H) : StB I J H := { u := fun i h => s.u i h * Real.exp (s.α i / reg), v := effV reg s, q := s.q }

theorem kvB_eff (M : I → J → ℝ) {reg : ℝ} (s : StS I J H) (i : I) (h : H) : kvB (kernS M reg s) s.v i h = Real.exp (s.α i / reg) * kvB (kern M reg) (effV reg s) i h := by
  unfold kvB kernS kern effV
  rw [mul_sum]
  refine sum_congr rfl fun j _ => ?_
  rw [show (s.α i + s.β j - M i j) / reg = s.α i / reg + -M i j / reg + s.β j / reg by ring, Real.exp_add, Real.exp_add]
  ring

theorem fac_mul {reg ρ : ℝ} (hreg : 0 < reg) (hρ : 0 < ρ) (x : ℝ) : Real.exp (x / reg) ^ (1 - fiB reg ρ) * fac reg ρ x = 1 := by
  rw [← Real.exp_mul]
  unfold fac
  rw [← Real.exp_add, show x / reg * (1 - fiB reg ρ) + -x / (reg + ρ) = 0 by unfold fiB; field_simp; ring, Real.exp_zero]

theorem fac_mul' {reg ρ : ℝ} (hreg : 0 < reg) (hρ : 0 < ρ) (x : ℝ) : fac reg ρ x * Real.exp (x / reg) = Real.exp (x / reg) ^ fiB reg ρ := by
  rw [← Real.exp_mul]
  unfold fac
  rw [← Real.exp_add]
  congr 1
  unfold fiB; field_simp; ring

theorem updUS_eff {A : I → H → ℝ} (hA : ∀ i h, 0 ≤ A i h) (M : I → J → ℝ) {reg ρ : ℝ} (hreg : 0 < reg) (hρ : 0 < ρ) (s : StS I J H) (hv : ∀ j h, 0 < s.v j h) (i : I) (h : H) :
    updUS 0 A M reg ρ s i h * Real.exp (s.α i / reg) = updU A (kern M reg) (fiB reg ρ) (effV reg s) i h := by
  have hk : 0 < kvB (kern M reg) (effV reg s) i h :=
    sum_pos (fun j _ => mul_pos (Real.exp_pos _) (mul_pos (hv j h) (Real.exp_pos _))) univ_nonempty
  unfold updUS updU
  rw [add_zero, mul_assoc, fac_mul' hreg hρ, kvB_eff, ← Real.mul_rpow (div_nonneg (hA i h) (mul_pos (Real.exp_pos _) hk).le) (Real.exp_pos _).le]
  congr 1
  have := (Real.exp_pos (s.α i / reg)).ne'
  have := hk.ne'
  field_simp

theorem ktuB_eff {A : I → H → ℝ} (hA : ∀ i h, 0 ≤ A i h) (M : I → J → ℝ) {reg ρ : ℝ} (hreg : 0 < reg) (hρ : 0 < ρ) (s : StS I J H) (hv : ∀ j h, 0 < s.v j h) (j : J) (h : H) :
    ktuB (kernS M reg s) (updUS 0 A M reg ρ s) j h = Real.exp (s.β j / reg) * kap A (kern M reg) (fiB reg ρ) (effV reg s) j h := by
  unfold kap ktuB
  rw [mul_sum]
  refine sum_congr rfl fun i _ => ?_
  rw [← updUS_eff hA M hreg hρ s hv]
  unfold kernS kern
  rw [show (s.α i + s.β j - M i j) / reg = s.α i / reg + -M i j / reg + s.β j / reg by ring, Real.exp_add, Real.exp_add]
  ring

theorem updQS_eff {A : I → H → ℝ} {w : H → ℝ} (hi : UnbBaryInput A w) (M : I → J → ℝ) {reg ρ : ℝ} (hreg : 0 < reg) (hρ : 0 < ρ) (s : StS I J H) (hv : ∀ j h, 0 < s.v j h) :
    updQS 0 A w M reg ρ s = baryQ A w (kern M reg) (fiB reg ρ) (effV reg s) := by
  have g := hi.good M hreg hρ
  have hv' : ∀ j h, 0 < effV reg s j h := fun j h => mul_pos (hv j h) (Real.exp_pos _)
  funext j
  unfold updQS baryQ updQ
  congr 1
  refine sum_congr rfl fun h _ => ?_
  rw [ktuB_eff hi.nonneg M hreg hρ s hv, Real.mul_rpow (Real.exp_pos _).le (kap_pos g hv' j h).le]
  have := fac_mul hreg hρ (s.β j)
  linear_combination (kap A (kern M reg) (fiB reg ρ) (effV reg s) j h ^ (1 - fiB reg ρ) * w h) * this

theorem updVS_eff {A : I → H → ℝ} {w : H → ℝ} (hi : UnbBaryInput A w) (M : I → J → ℝ) {reg ρ : ℝ} (hreg : 0 < reg) (hρ : 0 < ρ) (s : StS I J H) (hv : ∀ j h, 0 < s.v j h) (j : J) (h : H) :
    updVS 0 A w M reg ρ s j h * Real.exp (s.β j / reg) = next A w (kern M reg) (fiB reg ρ) (effV reg s) j h := by
  have g := hi.good M hreg hρ
  have hv' : ∀ j h, 0 < effV reg s j h := fun j h => mul_pos (hv j h) (Real.exp_pos _)
  have hk := kap_pos g hv' j h
  unfold updVS next updV
  rw [add_zero, mul_assoc, fac_mul' hreg hρ, updQS_eff hi M hreg hρ s hv, ktuB_eff hi.nonneg M hreg hρ s hv,
    ← Real.mul_rpow (div_nonneg (q_pos g hv' j).le (mul_pos (Real.exp_pos _) hk).le) (Real.exp_pos _).le]
  congr 1
  have := (Real.exp_pos (s.β j / reg)).ne'
  have := hk.ne'
  field_simp

/-- C98: an iteration of the stabilised solver computes the barycenter, and the scalings `u e^{alpha / reg}`, `v e^{beta / reg}`, that an iteration of the plain solver computes from the scalings the state
stands for - unless it absorbs: then the scalings `v e^{beta / reg}` of all histograms are replaced by their maximum over the histograms. -/
theorem C98_stab_step {A : I → H → ℝ} {w : H → ℝ} (hi : UnbBaryInput A w) (M : I → J → ℝ) {reg ρ : ℝ} (hreg : 0 < reg) (hρ : 0 < ρ) (tau : ℝ) (s : StS I J H) (hv : ∀ j h, 0 < s.v j h) :
    (stepS 0 tau A w M reg ρ s).q = (stepB A w (kern M reg) (fiB reg ρ) (effState reg s)).q ∧
    (∀ j h, 0 < (stepS 0 tau A w M reg ρ s).v j h) ∧
    (¬ absorbsB 0 tau A w M reg ρ s → effState reg (stepS 0 tau A w M reg ρ s) = stepB A w (kern M reg) (fiB reg ρ) (effState reg s)) ∧
    (absorbsB 0 tau A w M reg ρ s → (effState reg (stepS 0 tau A w M reg ρ s)).v = fun j _ => vmax ((stepB A w (kern M reg) (fiB reg ρ) (effState reg s)).v j)) := by
  have g := hi.good M hreg hρ
  have hv' : ∀ j h, 0 < effV reg s j h := fun j h => mul_pos (hv j h) (Real.exp_pos _)
  have hV := fun j h => updVS_eff hi M hreg hρ s hv j h
  have hVp : ∀ j h, 0 < updVS 0 A w M reg ρ s j h := fun j h => by
    have := next_pos g hv' j h
    rw [← hV] at this
    exact pos_of_mul_pos_left this (Real.exp_pos _).le
  have hQ := updQS_eff hi M hreg hρ s hv
  have hq : (stepS 0 tau A w M reg ρ s).q = (stepB A w (kern M reg) (fiB reg ρ) (effState reg s)).q := by
    rw [stepB_eq]
    unfold stepS
    split_ifs <;> exact hQ
  refine ⟨hq, fun j h => ?_, fun ha => ?_, fun ha => ?_⟩
  · unfold stepS
    split_ifs
    · exact one_pos
    · exact hVp j h
  · rw [stepB_eq]
    unfold stepS
    rw [if_neg ha]
    unfold effState
    congr 1
    · funext i h; exact updUS_eff hi.nonneg M hreg hρ s hv i h
    · funext j h; exact hV j h
  · rw [stepB_eq]
    unfold stepS
    rw [if_pos ha]
    funext j h
    simp only [effState, effV, one_mul]
    have hm : 0 < vmax (updVS 0 A w M reg ρ s j) := (hVp j (Classical.arbitrary H)).trans_le (le_vmax _ _)
    rw [add_div, mul_div_cancel_left₀ _ hreg.ne', Real.exp_add, Real.exp_log hm]
    refine le_antisymm ?_ ?_
    · rw [mul_comm, ← le_div_iff₀ (Real.exp_pos _)]
      refine vmax_le fun h => ?_
      rw [le_div_iff₀ (Real.exp_pos _), hV]
      exact le_vmax _ h
    · refine vmax_le fun h => ?_
      rw [← show updVS 0 A w M reg ρ s j h * Real.exp (s.β j / reg) = _ from hV j h, mul_comm]
      exact mul_le_mul_of_nonneg_left (le_vmax _ h) (Real.exp_pos _).le

/-- C98: if the stabilised solver absorbs only finitely often, its barycenters converge to the barycenter as well. -/
theorem C98_stab_converges {A : I → H → ℝ} {w : H → ℝ} (hi : UnbBaryInput A w) (M : I → J → ℝ) {reg ρ : ℝ} (hreg : 0 < reg) (hρ : 0 < ρ) (tau : ℝ) (s : StS I J H) (hv : ∀ j h, 0 < s.v j h)
    (hfin : ∃ N, ∀ n ≥ N, ¬ absorbsB 0 tau A w M reg ρ ((stepS 0 tau A w M reg ρ)^[n] s)) :
    ∃ q P, IsUnbBary A w M reg ρ q P ∧ ∀ j, Tendsto (fun n => ((stepS 0 tau A w M reg ρ)^[n] s).q j) atTop (𝓝 (q j)) := by
  obtain ⟨q, P, hopt, _, hconv⟩ := C98_converges hi M hreg hρ
  refine ⟨q, P, hopt, fun j => ?_⟩
  obtain ⟨N, hN⟩ := hfin
  have hpos : ∀ n j h, 0 < ((stepS 0 tau A w M reg ρ)^[n] s).v j h := fun n => by
    induction n with
    | zero => exact hv
    | succ n ih => rw [Function.iterate_succ_apply']; exact (C98_stab_step hi M hreg hρ tau _ ih).2.1
  have hsim : ∀ n, effState reg ((stepS 0 tau A w M reg ρ)^[n + N] s) = (stepB A w (kern M reg) (fiB reg ρ))^[n] (effState reg ((stepS 0 tau A w M reg ρ)^[N] s)) := fun n => by
    induction n with
    | zero => simp
    | succ n ih =>
      rw [show n + 1 + N = (n + N) + 1 by ring, Function.iterate_succ_apply', Function.iterate_succ_apply', ← ih]
      exact (C98_stab_step hi M hreg hρ tau _ (hpos _)).2.2.1 (hN _ (by omega))
  have hlim := (hconv (effState reg ((stepS 0 tau A w M reg ρ)^[N] s)) fun j h => mul_pos (hpos N j h) (Real.exp_pos _)).1 j
  refine (tendsto_add_atTop_iff_nat N).1 (hlim.congr fun n => ?_)
  rw [← hsim n]; rfl

/-! ## Weights that do not sum to one -/

/-- C98 fails for weights that do not sum to one, which the code accepts: one histogram `1` on one point with weight `2` has the barycenter `1` (the weight only scales the objective), but every result of at
least two iterations is `2 √2`. -/
theorem C98_weights_refuted :
    IsUnbBary (fun _ _ : Unit => (1 : ℝ)) (fun _ => 2) (fun _ _ : Unit => 0) 1 1 (fun _ => 1) (fun _ _ _ => 1) ∧
    ∀ n, ((stepB (fun _ _ : Unit => (1 : ℝ)) (fun _ => 2) (kern (fun _ _ : Unit => 0) 1) (fiB 1 1))^[n + 2] startB).q () = 2 * Real.sqrt 2 := by
  have hf : fiB 1 1 = 1 / 2 := by unfold fiB; norm_num
  have hker : kern (fun _ _ : Unit => (0 : ℝ)) 1 = fun _ _ => 1 := by unfold kern; simp
  constructor
  · have hi : UnbBaryInput (fun _ _ : Unit => (1 : ℝ)) (fun _ : Unit => 1) := ⟨fun _ _ => zero_le_one, fun _ => ⟨(), one_pos⟩, fun _ => one_pos, by simp⟩
    have h := C98_fixed_optimal hi (fun _ _ : Unit => 0) one_pos one_pos (startB : StB Unit Unit Unit) (fun _ _ => one_pos) (by
      
      have e1 : updU (fun _ _ : Unit => (1 : ℝ)) (fun _ _ : Unit => 1) (1 / 2) (fun _ _ : Unit => 1) = fun _ _ => 1 := by funext i h; simp [updU, kvB]
      have e2 : ktuB (fun _ _ : Unit => (1 : ℝ)) (fun _ _ : Unit => 1) = fun _ _ => 1 := by funext i h; simp [ktuB]
      have e3 : updQ (fun _ : Unit => (1 : ℝ)) (1 / 2) (fun _ _ : Unit => 1) = fun _ => 1 := by funext i; simp [updQ]
      have e4 : updV (1 / 2) (fun _ _ : Unit => (1 : ℝ)) (fun _ : Unit => 1) = fun _ _ => 1 := by funext i h; simp [updV]
      rw [hf, hker]; simp only [stepB, startB, e1, e2, e3, e4])
    have e : statePlans (fun _ _ : Unit => (0 : ℝ)) 1 (startB : StB Unit Unit Unit) = fun _ _ _ => 1 := by unfold statePlans startB; simp
    rw [e] at h
    refine ⟨h.1, fun q' P' hc => ?_⟩
    have h2 := h.2 q' P' hc
    have key : ∀ q P, unbBaryObjective (fun _ _ : Unit => (1 : ℝ)) (fun _ : Unit => 2) (fun _ _ : Unit => 0) 1 1 q P
        = 2 * unbBaryObjective (fun _ _ : Unit => (1 : ℝ)) (fun _ : Unit => 1) (fun _ _ : Unit => 0) 1 1 q P := fun q P => by
      simp [unbBaryObjective]
    rw [key, key]
    have e0 : (startB : StB Unit Unit Unit).q = fun _ => 1 := rfl
    rw [e0] at h2
    exact ⟨by linarith [h2.1], fun hle => h2.2 (by linarith)⟩
  · have hs2 : Real.sqrt 2 ^ 2 = 2 := Real.sq_sqrt (by norm_num)
    have hs0 : 0 < Real.sqrt 2 := Real.sqrt_pos.2 (by norm_num)
    have hstep : ∀ s : StB Unit Unit Unit, 0 < s.v () () → (stepB (fun _ _ : Unit => (1 : ℝ)) (fun _ => 2) (kern (fun _ _ : Unit => 0) 1) (fiB 1 1) s).v () () = 2 ∧
        (s.v () () = 2 → (stepB (fun _ _ : Unit => (1 : ℝ)) (fun _ => 2) (kern (fun _ _ : Unit => 0) 1) (fiB 1 1) s).q () = 2 * Real.sqrt 2) := fun s hs => by
      have hx : 0 < (s.v () ())⁻¹ ^ (2⁻¹ : ℝ) := Real.rpow_pos_of_pos (inv_pos.2 hs) _
      obtain ⟨x, hxd⟩ : ∃ x, x = (s.v () ())⁻¹ ^ (2⁻¹ : ℝ) := ⟨_, rfl⟩
      rw [← hxd] at hx
      have hq : (stepB (fun _ _ : Unit => (1 : ℝ)) (fun _ => 2) (kern (fun _ _ : Unit => 0) 1) (fiB 1 1) s).q () = 4 * x := by
        rw [hf, hker]
        simp only [stepB, updU, kvB, updQ, ktuB, Finset.univ_unique, Finset.sum_singleton, one_mul, one_div, PUnit.default_eq_unit]
        rw [← hxd, show (1 : ℝ) - 2⁻¹ = 2⁻¹ by norm_num, Real.mul_rpow (Real.rpow_nonneg hx.le _) (by norm_num), ← Real.rpow_mul hx.le]
        norm_num
        ring
      constructor
      · have hv : (stepB (fun _ _ : Unit => (1 : ℝ)) (fun _ => 2) (kern (fun _ _ : Unit => 0) 1) (fiB 1 1) s).v () ()
            = ((stepB (fun _ _ : Unit => (1 : ℝ)) (fun _ => 2) (kern (fun _ _ : Unit => 0) 1) (fiB 1 1) s).q () / x) ^ (2⁻¹ : ℝ) := by
          rw [hxd, hf, hker]
          simp [stepB, updU, kvB, updV, ktuB]
        rw [hv, hq, mul_div_assoc, div_self hx.ne', mul_one, show (4 : ℝ) = 2 ^ (2 : ℝ) by norm_num, ← Real.rpow_mul (by norm_num)]
        norm_num
      · intro h2
        rw [hq, hxd, h2, show (2⁻¹ : ℝ) = 1 / 2 by norm_num, ← Real.sqrt_eq_rpow, Real.sqrt_div' _ (by norm_num), Real.sqrt_one]
        field_simp
        nlinarith
    have hv : ∀ n, ((stepB (fun _ _ : Unit => (1 : ℝ)) (fun _ => 2) (kern (fun _ _ : Unit => 0) 1) (fiB 1 1))^[n + 1] (startB : StB Unit Unit Unit)).v () () = 2 := fun n => by
      induction n with
      | zero => exact (hstep startB one_pos).1
      | succ n ih => rw [Function.iterate_succ_apply']; exact (hstep _ (by rw [ih]; norm_num)).1
    intro n
    rw [Function.iterate_succ_apply']
    exact (hstep _ (by rw [hv]; norm_num)).2 (hv n)

/-- two different histograms on two points, one with a zero, uniform weights: the hypotheses hold -/
example : UnbBaryInput (fun (i : Bool) (h : Bool) => if h then (if i then (1 : ℝ) else 0) else (if i then 1 / 2 else 2)) (weightsOf none) :=
  ⟨fun i h => by cases i <;> cases h <;> norm_num, fun h => ⟨true, by cases h <;> norm_num⟩, C98_default_weights.1, C98_default_weights.2.1⟩

/-- the stabilised start is positive -/
example : ∀ j h, 0 < (startS : StS Bool Bool Bool).v j h := fun _ _ => by simp [startS]

end POT.Props
