import Verif.Lemmas.GwBary
import Verif.Props.GwEntropic

/-! # C125: Gromov-Wasserstein barycenters -/

set_option linter.unusedSectionVars false

namespace POT.Props

open Finset Gromov GromovBary Optim Spec GwBary

variable {S : Type*} [Fintype S] {I : S → Type*} [∀ s, Fintype (I s)] {J E : Type*} [Fintype J] [Fintype E]

/-- Valid arguments of the barycenter functions: convex weights `lambdas`, probability vectors, positive for the barycenter, `0 ≤ alpha ≤ 1`, symmetric structures if `symmetric` says so, and a loss that is handled exactly (`LossOk`). -/
structure BaryOk (d : Data S I J E) : Prop where
  lam_nonneg : ∀ s, 0 ≤ d.lam s
  lam_sum : ∑ s, d.lam s = 1
  p_pos : ∀ j, 0 < d.p j
  p_sum : ∑ j, d.p j = 1
  ps_nonneg : ∀ s i, 0 ≤ d.ps s i
  ps_sum : ∀ s, ∑ i, d.ps s i = 1
  alpha : 0 ≤ d.alpha ∧ d.alpha ≤ 1
  symm : d.symmetric = true → ∀ s i k, d.C s i k = d.C s k i
  loss : LossOk d.loss d.C

/-- Valid initial structure. -/
def StartOk (d : Data S I J E) (C0 : J → J → ℝ) : Prop := (d.symmetric = true → ∀ j l, C0 j l = C0 l j) ∧ d.loss.Dom C0

variable {d : Data S I J E} {lp : (s : S) → (J → I s → ℝ) → J → I s → ℝ} {warm : Bool} {crit : Crit} {tol : ℝ} {outer' maxIter : ℕ} {X0 : J → E → ℝ} {C0 : J → J → ℝ}

private theorem outer_coupling (h : BaryOk d) (s : S) : IsCoupling d.p (d.ps s) (outer d.p (d.ps s)) :=
  ⟨fun j i => mul_nonneg (h.p_pos j).le (h.ps_nonneg s i), fun j => by simp only [outer, ← mul_sum, h.ps_sum, mul_one], fun i => by simp only [outer, ← sum_mul, h.p_sum, one_mul]⟩

private theorem fgwPlan_facts (h : BaryOk d) (hlp : ∀ s M, IsCoupling d.p (d.ps s) (lp s M)) {z : Bary J E} (hz : d.symmetric = true → ∀ j l, z.C j l = z.C l j) {o : Option ((s : S) → J → I s → ℝ)} (ho : ∀ T, o = some T → ∀ s, IsCoupling d.p (d.ps s) (T s)) (s : S) :
    IsCoupling d.p (d.ps s) (fgwPlan d lp maxIter z o s).1 ∧
    (fgwPlan d lp maxIter z o s).2 = fgwObjective d.loss.decomp.loss z.C (d.C s) (fun j i => (1 - d.alpha) * distSq z.X (d.Y s) j i) d.alpha (fgwPlan d lp maxIter z o s).1 ∧
    fgwObjective d.loss.decomp.loss z.C (d.C s) (fun j i => (1 - d.alpha) * distSq z.X (d.Y s) j i) d.alpha (fgwPlan d lp maxIter z o s).1 ≤
      fgwObjective d.loss.decomp.loss z.C (d.C s) (fun j i => (1 - d.alpha) * distSq z.X (d.Y s) j i) d.alpha (o.getD (fun s => outer d.p (d.ps s)) s) := by
  have e : (o.map fun T => T s).getD (outer d.p (d.ps s)) = o.getD (fun s => outer d.p (d.ps s)) s := by cases o <;> rfl
  have h0 : IsCoupling d.p (d.ps s) (o.getD (fun s => outer d.p (d.ps s)) s) := by
    cases o with
    | none => exact outer_coupling h s
    | some T => exact ho T rfl s
  unfold fgwPlan
  rw [e]
  exact cgRun_fgw (fun hs => ⟨hz hs, h.symm hs s⟩) (hlp s) _ _ _ h0

/-- State of the barycenter during the loop: valid, with the fixed parts at their start. -/
private def BGood (d : Data S I J E) (X0 : J → E → ℝ) (C0 : J → J → ℝ) (z : Bary J E) : Prop := StartOk d z.C ∧ (d.fixedFeatures = true → z.X = X0) ∧ (d.fixedStructure = true → z.C = C0)

/-- both balanced functions share the solver and the update -/
private theorem source_descends (h : BaryOk d) (hlp : ∀ s M, IsCoupling d.p (d.ps s) (lp s M)) (X0 : J → E → ℝ) (C0 : J → J → ℝ) (y : Sys (Bary J E) ((s : S) → J → I s → ℝ)) (h1 : y.solve = (fgwSys d lp maxIter tol).solve) (h2 : y.update = updSource d) :
    Descends y (fun z T => fgwBaryObjective d.loss.fn d.alpha d.lam d.C d.Y z.X z.C T) (BGood d X0 C0) (fun T => ∀ s, IsCoupling d.p (d.ps s) (T s)) (fun _ s => outer d.p (d.ps s)) where
  solve z o hz ho := by
    rw [h1]
    refine ⟨fun s => (fgwPlan_facts h hlp hz.1.1 ho s).1, ?_⟩
    rw [objective_eq, objective_eq]
    exact sum_le_sum fun s _ => mul_le_mul_of_nonneg_left (fgwPlan_facts h hlp hz.1.1 ho s).2.2 (h.lam_nonneg s)
  update z T hz hT := by
    rw [h2]
    refine ⟨⟨⟨fun hs j l => ?_, ?_⟩, fun hF => ?_, fun hF => ?_⟩, updSource_opt h.lam_nonneg h.lam_sum h.p_pos h.alpha h.loss (fun s => (hT s).nonneg) (fun s => (hT s).row) z (fun _ => rfl) (fun _ => rfl) hz.1.2⟩
    · unfold updSource
      dsimp only
      split_ifs
      · exact hz.1.1 hs j l
      · exact structSource_symm _ (h.symm hs) j l
    · unfold updSource
      dsimp only
      split_ifs
      · exact hz.1.2
      · exact structSource_dom
    · unfold updSource
      dsimp only
      rw [if_pos hF, hz.2.1 hF]
    · unfold updSource
      dsimp only
      rw [if_pos hF, hz.2.2 hF]

private theorem init_feas {Z Ts : Type*} {F : Ts → Prop} {z : Z} : ∀ T, (GwBary.init z (none : Option Ts)).T = some T → F T := fun T hT => by cases hT

private theorem warm_feas {Ts : Type*} {F : Ts → Prop} {o : Option Ts} (h : ∀ T, o = some T → F T) (warm : Bool) : ∀ T, (if warm = true then o else none) = some T → F T := by
  cases warm
  · intro T hT; simp at hT
  · intro T hT; exact h T (by simpa using hT)

private theorem init_good (h0 : StartOk d C0) : BGood d X0 C0 ⟨X0, C0⟩ := ⟨h0, fun _ => rfl, fun _ => rfl⟩

/-- **What `fgw_barycenters` returns**, for every start, stopping rule and number of iterations.  The plans in the log are couplings; fixed parts are untouched; and the returned features and structure are the best possible for these plans: no
other pair has a smaller barycenter objective. -/
theorem C125_fgw_result (h : BaryOk d) (hlp : ∀ s M, IsCoupling d.p (d.ps s) (lp s M)) (h0 : StartOk d C0) (hn : 0 < outer') :
    ∃ T, (fgwRun d lp warm crit tol outer' maxIter X0 C0).T = some T ∧ (∀ s, IsCoupling d.p (d.ps s) (T s)) ∧
      (d.fixedFeatures = true → (fgwRun d lp warm crit tol outer' maxIter X0 C0).z.X = X0) ∧ (d.fixedStructure = true → (fgwRun d lp warm crit tol outer' maxIter X0 C0).z.C = C0) ∧
      ∀ (X : J → E → ℝ) (C : J → J → ℝ), (d.fixedFeatures = true → X = X0) → (d.fixedStructure = true → C = C0) → d.loss.Dom C →
        fgwBaryObjective d.loss.fn d.alpha d.lam d.C d.Y (fgwRun d lp warm crit tol outer' maxIter X0 C0).z.X (fgwRun d lp warm crit tol outer' maxIter X0 C0).z.C T ≤ fgwBaryObjective d.loss.fn d.alpha d.lam d.C d.Y X C T := by
  have hd := source_descends (tol := tol) (maxIter := maxIter) h hlp X0 C0 (fgwSys d lp maxIter tol) rfl rfl
  obtain ⟨s0, hg, hf, he, -⟩ := loop_last (warm := warm) (crit := crit) (tol := tol) hd (s := GwBary.init ⟨X0, C0⟩ none) (init_good h0) init_feas hn
  unfold fgwRun
  rw [he]
  have h2 := (hd.solve s0.z _ hg (warm_feas hf warm)).1
  have hg' := (hd.update s0.z _ hg h2).1
  exact ⟨_, rfl, h2, hg'.2.1, hg'.2.2, fun X C hX hC hdom => updSource_opt h.lam_nonneg h.lam_sum h.p_pos h.alpha h.loss (fun s => (h2 s).nonneg) (fun s => (h2 s).row) _ (fun hF => by rw [hX hF, hg.2.1 hF]) (fun hF => by rw [hC hF, hg.2.2 hF]) hdom⟩

/-- **Descent with `warmstartT=True`.**  The barycenter objective at the returned features, structure and plans is at most the one at the initial features and structure with the product plans, and never grows when more iterations are allowed. -/
theorem C125_fgw_descent (h : BaryOk d) (hlp : ∀ s M, IsCoupling d.p (d.ps s) (lp s M)) (h0 : StartOk d C0) {T : (s : S) → J → I s → ℝ} (hT : (fgwRun d lp true crit tol outer' maxIter X0 C0).T = some T) :
    fgwBaryObjective d.loss.fn d.alpha d.lam d.C d.Y (fgwRun d lp true crit tol outer' maxIter X0 C0).z.X (fgwRun d lp true crit tol outer' maxIter X0 C0).z.C T
      ≤ fgwBaryObjective d.loss.fn d.alpha d.lam d.C d.Y X0 C0 (fun s j i => d.p j * d.ps s i) ∧
    ∀ n', outer' ≤ n' → ∀ T', (fgwRun d lp true crit tol n' maxIter X0 C0).T = some T' →
      fgwBaryObjective d.loss.fn d.alpha d.lam d.C d.Y (fgwRun d lp true crit tol n' maxIter X0 C0).z.X (fgwRun d lp true crit tol n' maxIter X0 C0).z.C T' ≤
        fgwBaryObjective d.loss.fn d.alpha d.lam d.C d.Y (fgwRun d lp true crit tol outer' maxIter X0 C0).z.X (fgwRun d lp true crit tol outer' maxIter X0 C0).z.C T := by
  obtain ⟨k, hk, hk0, he, -, hmore⟩ := loop_iter (y := fgwSys d lp maxIter tol) (warm := true) (crit := crit) (tol := tol) outer' (GwBary.init ⟨X0, C0⟩ none)
  have hd := source_descends (tol := tol) (maxIter := maxIter) h hlp X0 C0 (fgwSys d lp maxIter tol) rfl rfl
  unfold fgwRun at hT ⊢
  rw [he] at hT ⊢
  constructor
  · have := iter_descent hd (s := GwBary.init ⟨X0, C0⟩ none) (init_good h0) init_feas (Nat.zero_le k)
    rw [hT] at this
    exact this
  · intro n' hn' T' hT'
    obtain ⟨k', hk', he'⟩ := hmore n' hn'
    rw [he'] at hT' ⊢
    have := iter_descent hd (s := GwBary.init ⟨X0, C0⟩ none) (init_good h0) init_feas hk'
    rw [hT, hT'] at this
    exact this

/-- **The logged loss and the stop.**  The last entry of `log["loss"]` is the sum, without the weights `lambdas`, of the fused Gromov-Wasserstein costs of the returned plans between the barycenter `(X, C)` before its last update and the inputs;
these plans are at least as good for `(X, C)` as the product plans if there is no warm start.  If the test on the barycenter ended the loop early, then `X` *or* `C` moved by at most `tol` in the last update. -/
theorem C125_fgw_last (h : BaryOk d) (hlp : ∀ s M, IsCoupling d.p (d.ps s) (lp s M)) (h0 : StartOk d C0) (hn : 0 < outer') :
    ∃ (T : (s : S) → J → I s → ℝ) (X : J → E → ℝ) (C : J → J → ℝ), (fgwRun d lp warm crit tol outer' maxIter X0 C0).T = some T ∧
      (fgwRun d lp warm crit tol outer' maxIter X0 C0).losses.getLast? = some (fgwBaryObjective d.loss.fn d.alpha (fun _ => 1) d.C d.Y X C T) ∧
      (d.fixedFeatures = true → X = X0) ∧ (d.fixedStructure = true → C = C0) ∧
      (warm = false → fgwBaryObjective d.loss.fn d.alpha d.lam d.C d.Y X C T ≤ fgwBaryObjective d.loss.fn d.alpha d.lam d.C d.Y X C (fun s j i => d.p j * d.ps s i)) ∧
      (crit = .barycenter → (fgwRun d lp warm crit tol outer' maxIter X0 C0).losses.length < outer' →
        Real.sqrt (∑ j, ∑ e, ((fgwRun d lp warm crit tol outer' maxIter X0 C0).z.X j e - X j e) ^ 2) ≤ tol ∨ Real.sqrt (∑ j, ∑ l, ((fgwRun d lp warm crit tol outer' maxIter X0 C0).z.C j l - C j l) ^ 2) ≤ tol) := by
  have hd := source_descends (tol := tol) (maxIter := maxIter) h hlp X0 C0 (fgwSys d lp maxIter tol) rfl rfl
  obtain ⟨s0, hg, hf, he, hst⟩ := loop_last (warm := warm) (crit := crit) (tol := tol) hd (s := GwBary.init ⟨X0, C0⟩ none) (init_good h0) init_feas hn
  unfold fgwRun
  rw [he]
  refine ⟨_, s0.z.X, s0.z.C, rfl, ?_, hg.2.1, hg.2.2, fun hw => ?_, fun hc hl => ?_⟩
  · have e := objective_eq { d with lam := fun _ => 1 } s0.z (fun s => (fgwPlan d lp maxIter s0.z (if warm = true then s0.T else none) s).1)
    simp only [one_mul] at e
    have e2 : (step (fgwSys d lp maxIter tol) warm s0).losses.getLast? = some (∑ s, (fgwPlan d lp maxIter s0.z (if warm = true then s0.T else none) s).2) := by
      simp [step, fgwSys]
    rw [e2]
    congr 1
    refine Eq.trans (sum_congr rfl fun s _ => (fgwPlan_facts h hlp hg.1.1 (warm_feas hf warm) s).2.1) e.symm
  · subst hw
    exact (hd.solve s0.z none hg (fun T hT => by cases hT)).2
  · subst hc
    have := hst (by simpa [GwBary.init] using hl)
    simp only [stops, fgwSys, nearFused] at this
    rcases this with h1 | h1
    · left
      by_cases hF : d.fixedFeatures = true
      · rw [if_pos hF] at h1
        have e : (step (fgwSys d lp maxIter tol) warm s0).z.X = s0.z.X := by simp [step, fgwSys, updSource, hF]
        rw [e]
        simpa using h1
      · rw [if_neg hF] at h1
        exact h1
    · right
      by_cases hF : d.fixedStructure = true
      · rw [if_pos hF] at h1
        have e : (step (fgwSys d lp maxIter tol) warm s0).z.C = s0.z.C := by simp [step, fgwSys, updSource, hF]
        rw [e]
        simpa using h1
      · rw [if_neg hF] at h1
        exact h1

/-! ## `gromov_barycenters` -/

section gw

variable {lam : S → ℝ} {C : (s : S) → I s → I s → ℝ} {ps : (s : S) → I s → ℝ} {p : J → ℝ} {ℓ : Loss} {symmetric : Bool}

private theorem gw_objective (Cb : J → J → ℝ) (T : (s : S) → J → I s → ℝ) (X : J → Empty → ℝ) (Y : (s : S) → I s → Empty → ℝ) : fgwBaryObjective ℓ.fn 1 lam C Y X Cb T = ∑ s, lam s * gwEnergy ℓ.fn Cb (C s) (T s) := by
  unfold fgwBaryObjective
  exact sum_congr rfl fun s _ => by ring

/-- **What `gromov_barycenters` returns**: couplings, and the structure with the smallest weighted sum of Gromov-Wasserstein energies for them.  If the test on the barycenter ended the loop early, the structure moved by at most `tol` in
the last update. -/
theorem C125_gw_result (h : BaryOk (gwData lam C ps p ℓ symmetric)) (hlp : ∀ s M, IsCoupling p (ps s) (lp s M)) (h0 : StartOk (gwData lam C ps p ℓ symmetric) C0) (hn : 0 < outer') :
    ∃ (T : (s : S) → J → I s → ℝ) (Cprev : J → J → ℝ), (gwRun (gwData lam C ps p ℓ symmetric) lp warm crit tol outer' maxIter C0).T = some T ∧ (∀ s, IsCoupling p (ps s) (T s)) ∧
      (∀ C' : J → J → ℝ, ℓ.Dom C' → ∑ s, lam s * gwEnergy ℓ.fn (gwRun (gwData lam C ps p ℓ symmetric) lp warm crit tol outer' maxIter C0).z.C (C s) (T s) ≤ ∑ s, lam s * gwEnergy ℓ.fn C' (C s) (T s)) ∧
      (gwRun (gwData lam C ps p ℓ symmetric) lp warm crit tol outer' maxIter C0).losses.getLast? = some (∑ s, gwEnergy ℓ.fn Cprev (C s) (T s)) ∧
      (warm = false → ∀ s, gwEnergy ℓ.fn Cprev (C s) (T s) ≤ gwEnergy ℓ.fn Cprev (C s) (fun j i => p j * ps s i)) ∧
      (crit = .barycenter → (gwRun (gwData lam C ps p ℓ symmetric) lp warm crit tol outer' maxIter C0).losses.length < outer' → Real.sqrt (∑ j, ∑ l, ((gwRun (gwData lam C ps p ℓ symmetric) lp warm crit tol outer' maxIter C0).z.C j l - Cprev j l) ^ 2) ≤ tol) := by
  have hd := source_descends (tol := tol) (maxIter := maxIter) (d := gwData lam C ps p ℓ symmetric) (lp := lp) h hlp (fun _ e => e.elim) C0 { fgwSys (gwData lam C ps p ℓ symmetric) lp maxIter tol with near := fun z z' => normDiff z'.C z.C ≤ tol } rfl rfl
  obtain ⟨s0, hg, hf, he, hst⟩ := loop_last (warm := warm) (crit := crit) (tol := tol) hd (s := GwBary.init ⟨fun _ e => e.elim, C0⟩ none) (init_good h0) init_feas hn
  have hfacts := fgwPlan_facts (maxIter := maxIter) h hlp hg.1.1 (warm_feas hf warm)
  have e0 : ∀ s (T : J → I s → ℝ), fgwObjective (gwData lam C ps p ℓ symmetric).loss.decomp.loss s0.z.C ((gwData lam C ps p ℓ symmetric).C s) (fun j i => (1 - (gwData lam C ps p ℓ symmetric).alpha) * distSq s0.z.X ((gwData lam C ps p ℓ symmetric).Y s) j i) (gwData lam C ps p ℓ symmetric).alpha T = gwEnergy ℓ.fn s0.z.C (C s) T := by
    intro s T
    simp [fgwObjective, gwData, Spec.inner, Loss.fn]
  unfold gwRun
  rw [he]
  refine ⟨_, s0.z.C, rfl, fun s => (hfacts s).1, fun C' hdom => ?_, ?_, fun hw s => ?_, fun hc hl => ?_⟩
  · have := updSource_opt h.lam_nonneg h.lam_sum h.p_pos h.alpha h.loss (fun s => (hfacts s).1.nonneg) (fun s => (hfacts s).1.row) s0.z (X' := s0.z.X) (C' := C') (fun _ => rfl) (fun hF => by cases hF) hdom
    simp only [gwData] at this
    rw [gw_objective, gw_objective] at this
    exact this
  · have e2 : (step { fgwSys (gwData lam C ps p ℓ symmetric) lp maxIter tol with near := fun z z' => normDiff z'.C z.C ≤ tol } warm s0).losses.getLast? = some (∑ s, (fgwPlan (gwData lam C ps p ℓ symmetric) lp maxIter s0.z (if warm = true then s0.T else none) s).2) := by
      simp [step, fgwSys]
    rw [e2]
    congr 1
    exact sum_congr rfl fun s _ => by rw [(hfacts s).2.1, e0]; rfl
  · subst hw
    have := (hfacts s).2.2
    rw [e0, e0] at this
    exact this
  · subst hc
    exact hst (by simpa [GwBary.init] using hl)

/-- **Descent of `gromov_barycenters` with `warmstartT=True`.** -/
theorem C125_gw_descent (h : BaryOk (gwData lam C ps p ℓ symmetric)) (hlp : ∀ s M, IsCoupling p (ps s) (lp s M)) (h0 : StartOk (gwData lam C ps p ℓ symmetric) C0) {T : (s : S) → J → I s → ℝ}
    (hT : (gwRun (gwData lam C ps p ℓ symmetric) lp true crit tol outer' maxIter C0).T = some T) :
    ∑ s, lam s * gwEnergy ℓ.fn (gwRun (gwData lam C ps p ℓ symmetric) lp true crit tol outer' maxIter C0).z.C (C s) (T s) ≤ ∑ s, lam s * gwEnergy ℓ.fn C0 (C s) (fun j i => p j * ps s i) ∧
    ∀ n', outer' ≤ n' → ∀ T', (gwRun (gwData lam C ps p ℓ symmetric) lp true crit tol n' maxIter C0).T = some T' →
      ∑ s, lam s * gwEnergy ℓ.fn (gwRun (gwData lam C ps p ℓ symmetric) lp true crit tol n' maxIter C0).z.C (C s) (T' s) ≤ ∑ s, lam s * gwEnergy ℓ.fn (gwRun (gwData lam C ps p ℓ symmetric) lp true crit tol outer' maxIter C0).z.C (C s) (T s) := by
  have hd := source_descends (tol := tol) (maxIter := maxIter) (d := gwData lam C ps p ℓ symmetric) (lp := lp) h hlp (fun _ e => e.elim) C0 { fgwSys (gwData lam C ps p ℓ symmetric) lp maxIter tol with near := fun z z' => normDiff z'.C z.C ≤ tol } rfl rfl
  obtain ⟨k, hk, hk0, he, -, hmore⟩ := loop_iter (y := { fgwSys (gwData lam C ps p ℓ symmetric) lp maxIter tol with near := fun z z' => normDiff z'.C z.C ≤ tol }) (warm := true) (crit := crit) (tol := tol) outer' (GwBary.init ⟨fun _ e => e.elim, C0⟩ none)
  unfold gwRun at hT ⊢
  rw [he] at hT ⊢
  constructor
  · have := iter_descent hd (s := GwBary.init ⟨fun _ e => e.elim, C0⟩ none) (init_good h0) init_feas (Nat.zero_le k)
    rw [hT] at this
    simp only [gwData] at this
    rw [gw_objective, gw_objective] at this
    exact this
  · intro n' hn' T' hT'
    obtain ⟨k', hk', he'⟩ := hmore n' hn'
    rw [he'] at hT' ⊢
    have := iter_descent hd (s := GwBary.init ⟨fun _ e => e.elim, C0⟩ none) (init_good h0) init_feas hk'
    rw [hT, hT'] at this
    simp only [gwData] at this
    rw [gw_objective, gw_objective] at this
    exact this

end gw

/-! ## Semi-relaxed barycenters -/

section sr

variable [Nonempty J] {tie : ℝ} {start : Bary J E → (s : S) → I s → J → ℝ} {T0 : (s : S) → I s → J → ℝ}

/-- Plans with first marginals `ps`, free second marginals. -/
def SrPlans (ps : (s : S) → I s → ℝ) (T : (s : S) → I s → J → ℝ) : Prop := ∀ s, (∀ i j, 0 ≤ T s i j) ∧ ∀ i, ∑ j, T s i j = ps s i

/-- Valid arguments of the semi-relaxed functions, with the square loss. -/
structure SrOk (d : Data S I J E) (tie : ℝ) (start : Bary J E → (s : S) → I s → J → ℝ) : Prop where
  lam_nonneg : ∀ s, 0 ≤ d.lam s
  ps_nonneg : ∀ s i, 0 ≤ d.ps s i
  alpha : 0 ≤ d.alpha ∧ d.alpha ≤ 1
  loss : d.loss = .square
  tie : 0 ≤ tie
  start : ∀ z, SrPlans d.ps (start z)

private theorem srPlan_facts (h : SrOk d tie start) {z : Bary J E} {o : Option ((s : S) → I s → J → ℝ)} (ho : ∀ T, o = some T → SrPlans d.ps T) (s : S) :
    ((∀ i j, 0 ≤ (srPlan d tie start maxIter tol z o s).1 i j) ∧ ∀ i, ∑ j, (srPlan d tie start maxIter tol z o s).1 i j = d.ps s i) ∧
    (srPlan d tie start maxIter tol z o s).2 = fgwObjective d.loss.decomp.loss (d.C s) z.C (fun i j => (1 - d.alpha) * distSq (d.Y s) z.X i j) d.alpha (srPlan d tie start maxIter tol z o s).1 ∧
    fgwObjective d.loss.decomp.loss (d.C s) z.C (fun i j => (1 - d.alpha) * distSq (d.Y s) z.X i j) d.alpha (srPlan d tie start maxIter tol z o s).1 ≤
      fgwObjective d.loss.decomp.loss (d.C s) z.C (fun i j => (1 - d.alpha) * distSq (d.Y s) z.X i j) d.alpha (o.getD (start z) s) := by
  refine cgRun_sr (h.ps_nonneg s) h.tie _ _ _ ?_
  cases o with
  | none => exact h.start z s
  | some T => exact ho T rfl s

private def SGood (d : Data S I J E) (X0 : J → E → ℝ) (C0 : J → J → ℝ) (z : Bary J E) : Prop := (d.fixedFeatures = true → z.X = X0) ∧ (d.fixedStructure = true → z.C = C0)

private theorem sr_descends (h : SrOk d tie start) (X0 : J → E → ℝ) (C0 : J → J → ℝ) (y : Sys (Bary J E) ((s : S) → I s → J → ℝ)) (h1 : y.solve = (srSys d tie start maxIter tol).solve) (h2 : y.update = updTarget d) :
    Descends y (fun z T => srBaryObjective d.loss.fn d.alpha d.lam d.C d.Y z.X z.C T) (SGood d X0 C0) (SrPlans d.ps) start where
  solve z o hz ho := by
    rw [h1]
    refine ⟨fun s => (srPlan_facts h ho s).1, ?_⟩
    rw [sr_objective_eq, sr_objective_eq]
    exact sum_le_sum fun s _ => mul_le_mul_of_nonneg_left (srPlan_facts h ho s).2.2 (h.lam_nonneg s)
  update z T hz hT := by
    rw [h2]
    have hl : LossOk d.loss d.C := by rw [h.loss]; trivial
    have hdom : d.loss.Dom z.C := by rw [h.loss]; trivial
    refine ⟨⟨fun hF => ?_, fun hF => ?_⟩, updTarget_opt h.lam_nonneg h.alpha hl (fun s => (hT s).1) z (fun _ => rfl) (fun _ => rfl) hdom⟩
    · unfold updTarget
      dsimp only
      rw [if_pos hF, hz.1 hF]
    · unfold updTarget
      dsimp only
      rw [if_pos hF, hz.2 hF]

private theorem some_feas {Z Ts : Type*} {F : Ts → Prop} {z : Z} {T0 : Ts} (h : F T0) : ∀ T, (GwBary.init z (some T0)).T = some T → F T := fun T hT => by
  simp only [GwBary.init, Option.some.injEq] at hT
  exact hT ▸ h

/-- **What `semirelaxed_fgw_barycenters` returns**: plans whose first marginals are the weights of the inputs, the fixed parts untouched, and the best features and structure for these plans. -/
theorem C125_sr_result (h : SrOk d tie start) (h0 : SrPlans d.ps T0) (hn : 0 < outer') :
    ∃ T, (srRun d tie start warm crit tol outer' maxIter X0 C0 T0).T = some T ∧ SrPlans d.ps T ∧
      (d.fixedFeatures = true → (srRun d tie start warm crit tol outer' maxIter X0 C0 T0).z.X = X0) ∧ (d.fixedStructure = true → (srRun d tie start warm crit tol outer' maxIter X0 C0 T0).z.C = C0) ∧
      ∀ (X : J → E → ℝ) (C : J → J → ℝ), (d.fixedFeatures = true → X = X0) → (d.fixedStructure = true → C = C0) →
        srBaryObjective d.loss.fn d.alpha d.lam d.C d.Y (srRun d tie start warm crit tol outer' maxIter X0 C0 T0).z.X (srRun d tie start warm crit tol outer' maxIter X0 C0 T0).z.C T ≤ srBaryObjective d.loss.fn d.alpha d.lam d.C d.Y X C T := by
  have hd := sr_descends (tol := tol) (maxIter := maxIter) h X0 C0 (srSys d tie start maxIter tol) rfl rfl
  obtain ⟨s0, hg, hf, he, -⟩ := loop_last (warm := warm) (crit := crit) (tol := tol) hd (s := GwBary.init ⟨X0, C0⟩ (some T0)) ⟨fun _ => rfl, fun _ => rfl⟩ (some_feas h0) hn
  unfold srRun
  rw [he]
  have h2 := (hd.solve s0.z _ hg (warm_feas hf warm)).1
  have hg' := (hd.update s0.z _ hg h2).1
  exact ⟨_, rfl, h2, hg'.1, hg'.2, fun X C hX hC => updTarget_opt h.lam_nonneg h.alpha (by rw [h.loss]; trivial) (fun s => (h2 s).1) _ (fun hF => by rw [hX hF, hg.1 hF]) (fun hF => by rw [hC hF, hg.2 hF]) (by rw [h.loss]; trivial)⟩

/-- **Descent of `semirelaxed_fgw_barycenters` with `warmstartT=True`** from the initial plans, features and structure. -/
theorem C125_sr_descent (h : SrOk d tie start) (h0 : SrPlans d.ps T0) {T : (s : S) → I s → J → ℝ} (hT : (srRun d tie start true crit tol outer' maxIter X0 C0 T0).T = some T) :
    srBaryObjective d.loss.fn d.alpha d.lam d.C d.Y (srRun d tie start true crit tol outer' maxIter X0 C0 T0).z.X (srRun d tie start true crit tol outer' maxIter X0 C0 T0).z.C T ≤ srBaryObjective d.loss.fn d.alpha d.lam d.C d.Y X0 C0 T0 ∧
    ∀ n', outer' ≤ n' → ∀ T', (srRun d tie start true crit tol n' maxIter X0 C0 T0).T = some T' →
      srBaryObjective d.loss.fn d.alpha d.lam d.C d.Y (srRun d tie start true crit tol n' maxIter X0 C0 T0).z.X (srRun d tie start true crit tol n' maxIter X0 C0 T0).z.C T' ≤
        srBaryObjective d.loss.fn d.alpha d.lam d.C d.Y (srRun d tie start true crit tol outer' maxIter X0 C0 T0).z.X (srRun d tie start true crit tol outer' maxIter X0 C0 T0).z.C T := by
  have hd := sr_descends (tol := tol) (maxIter := maxIter) h X0 C0 (srSys d tie start maxIter tol) rfl rfl
  obtain ⟨k, hk, hk0, he, -, hmore⟩ := loop_iter (y := srSys d tie start maxIter tol) (warm := true) (crit := crit) (tol := tol) outer' (GwBary.init ⟨X0, C0⟩ (some T0))
  have hg0 : SGood d X0 C0 ⟨X0, C0⟩ := ⟨fun _ => rfl, fun _ => rfl⟩
  unfold srRun at hT ⊢
  rw [he] at hT ⊢
  constructor
  · have := iter_descent hd (s := GwBary.init ⟨X0, C0⟩ (some T0)) hg0 (some_feas h0) (Nat.zero_le k)
    rw [hT] at this
    exact this
  · intro n' hn' T' hT'
    obtain ⟨k', hk', he'⟩ := hmore n' hn'
    rw [he'] at hT' ⊢
    have := iter_descent hd (s := GwBary.init ⟨X0, C0⟩ (some T0)) hg0 (some_feas h0) hk'
    rw [hT, hT'] at this
    exact this

/-- **What `semirelaxed_gromov_barycenters` returns** (structures only): the best structure for the returned plans; with `warmstartT=True` at most the energy of the start; and after a stop by the test on the barycenter the structure moved by
at most `tol`. -/
theorem C125_srgw_result {lam : S → ℝ} {C : (s : S) → I s → I s → ℝ} {ps : (s : S) → I s → ℝ} {p : J → ℝ} {symmetric : Bool} {start : Bary J Empty → (s : S) → I s → J → ℝ} (h : SrOk (gwData lam C ps p .square symmetric) tie start) (h0 : SrPlans ps T0) (hn : 0 < outer') :
    ∃ (T : (s : S) → I s → J → ℝ) (Cprev : J → J → ℝ), (srGwRun (gwData lam C ps p .square symmetric) tie start warm crit tol outer' maxIter C0 T0).T = some T ∧ SrPlans ps T ∧
      (∀ C' : J → J → ℝ, ∑ s, lam s * gwEnergy (Loss.fn .square) (C s) (srGwRun (gwData lam C ps p .square symmetric) tie start warm crit tol outer' maxIter C0 T0).z.C (T s) ≤ ∑ s, lam s * gwEnergy (Loss.fn .square) (C s) C' (T s)) ∧
      (warm = true → ∑ s, lam s * gwEnergy (Loss.fn .square) (C s) (srGwRun (gwData lam C ps p .square symmetric) tie start warm crit tol outer' maxIter C0 T0).z.C (T s) ≤ ∑ s, lam s * gwEnergy (Loss.fn .square) (C s) C0 (T0 s)) ∧
      (crit = .barycenter → (srGwRun (gwData lam C ps p .square symmetric) tie start warm crit tol outer' maxIter C0 T0).losses.length < outer' →
        Real.sqrt (∑ j, ∑ l, ((srGwRun (gwData lam C ps p .square symmetric) tie start warm crit tol outer' maxIter C0 T0).z.C j l - Cprev j l) ^ 2) ≤ tol) ∧
      (srGwRun (gwData lam C ps p .square symmetric) tie start warm crit tol outer' maxIter C0 T0).losses.getLast? = some (∑ s, gwEnergy (Loss.fn .square) (C s) Cprev (T s)) := by
  have hd := sr_descends (tol := tol) (maxIter := maxIter) (d := gwData lam C ps p .square symmetric) h (fun _ e => e.elim) C0 { srSys (gwData lam C ps p .square symmetric) tie start maxIter tol with near := fun z z' => normDiff z'.C z.C ≤ tol } rfl rfl
  have hg0 : SGood (gwData lam C ps p .square symmetric) (fun _ e => e.elim) C0 ⟨fun _ e => e.elim, C0⟩ := ⟨fun _ => rfl, fun _ => rfl⟩
  have hobj : ∀ (X : J → Empty → ℝ) (Cb : J → J → ℝ) (T : (s : S) → I s → J → ℝ), srBaryObjective (gwData lam C ps p .square symmetric).loss.fn (gwData lam C ps p .square symmetric).alpha (gwData lam C ps p .square symmetric).lam (gwData lam C ps p .square symmetric).C (gwData lam C ps p .square symmetric).Y X Cb T = ∑ s, lam s * gwEnergy (Loss.fn .square) (C s) Cb (T s) := by
    intro X Cb T
    simp [srBaryObjective, gwData]
  obtain ⟨k, hk, hk0, hk1, -, -⟩ := loop_iter (y := { srSys (gwData lam C ps p .square symmetric) tie start maxIter tol with near := fun z z' => normDiff z'.C z.C ≤ tol }) (warm := warm) (crit := crit) (tol := tol) outer' (GwBary.init ⟨fun _ e => e.elim, C0⟩ (some T0))
  obtain ⟨s0, hg, hf, he, hst⟩ := loop_last (warm := warm) (crit := crit) (tol := tol) hd (s := GwBary.init ⟨fun _ e => e.elim, C0⟩ (some T0)) hg0 (some_feas h0) hn
  have hfacts := srPlan_facts (maxIter := maxIter) (tol := tol) (z := s0.z) h (warm_feas hf warm)
  unfold srGwRun
  rw [he]
  refine ⟨_, s0.z.C, rfl, fun s => (hfacts s).1, fun C' => ?_, fun hw => ?_, fun hc hl => ?_, ?_⟩
  · have := updTarget_opt h.lam_nonneg h.alpha (by rw [h.loss]; trivial) (fun s => (hfacts s).1.1) s0.z (X' := s0.z.X) (C' := C') (fun _ => rfl) (fun hF => by cases hF) trivial
    rw [hobj, hobj] at this
    exact this
  · subst hw
    have := iter_descent hd (s := GwBary.init ⟨fun _ e => e.elim, C0⟩ (some T0)) hg0 (some_feas h0) (Nat.zero_le k)
    rw [← hk1, he, hobj, hobj] at this
    exact this
  · subst hc
    exact hst (by simpa [GwBary.init] using hl)
  · have e2 : (step { srSys (gwData lam C ps p .square symmetric) tie start maxIter tol with near := fun z z' => normDiff z'.C z.C ≤ tol } warm s0).losses.getLast? = some (∑ s, (srPlan (gwData lam C ps p .square symmetric) tie start maxIter tol s0.z (if warm = true then s0.T else none) s).2) := by
      simp [step, srSys]
    rw [e2]
    congr 1
    refine sum_congr rfl fun s _ => ?_
    rw [(hfacts s).2.1]
    simp [fgwObjective, gwData, Spec.inner, Loss.fn, step, srSys]

end sr

/-! ## Entropic barycenters -/

section ent

variable {ε : ℝ} {sk : (s : S) → (J → I s → ℝ) → J → I s → ℝ}

private theorem entPlan_facts (h : BaryOk d) (hps : ∀ s i, 0 < d.ps s i) (hε : 0 < ε) (hsk : ∀ s, SolvesEntropic d.p (d.ps s) ε (sk s)) (hm : 1 ≤ maxIter) (X : J → E → ℝ) (C : J → J → ℝ) (o : Option ((s : S) → J → I s → ℝ)) (s : S) :
    (IsCoupling d.p (d.ps s) (entPlan d ε sk maxIter X C o s).1 ∧ ∀ j i, 0 < (entPlan d ε sk maxIter X C o s).1 j i) ∧
    (entPlan d ε sk maxIter X C o s).2 = fgwCost d.loss.decomp.loss C (d.C s) (distSq X (d.Y s)) d.alpha (entPlan d ε sk maxIter X C o s).1 := by
  haveI : Nonempty J := by
    by_contra hJ
    rw [not_nonempty_iff] at hJ
    have := h.p_sum
    simp at this
  haveI : Nonempty (I s) := by
    by_contra hJ
    rw [not_nonempty_iff] at hJ
    have := h.ps_sum s
    simp at this
  have hf := C87_feasible (symmetric := d.symmetric) (D := d.loss.decomp) (C1 := C) (C2 := d.C s) (M := distSq X (d.Y s)) (α := d.alpha) h.p_pos (hps s) (by rw [h.p_sum, h.ps_sum]) hε (hsk s) false (o.map fun T => T s) hm (tol := 1 / 10 ^ 4) (by norm_num)
  exact ⟨hf, (C87_value hf.1).1⟩

/-- **What `entropic_gromov_barycenters` returns**: positive couplings, and the best structure for them; after a stop by the test on the barycenter the structure moved by at most `tol`. -/
theorem C125_entropic_result {lam : S → ℝ} {C : (s : S) → I s → I s → ℝ} {ps : (s : S) → I s → ℝ} {p : J → ℝ} {ℓ : Loss} {symmetric : Bool} (h : BaryOk (gwData lam C ps p ℓ symmetric)) (hps : ∀ s i, 0 < ps s i) (hε : 0 < ε) (hsk : ∀ s, SolvesEntropic p (ps s) ε (sk s))
    (hm : 1 ≤ maxIter) (hn : 0 < outer') :
    ∃ (T : (s : S) → J → I s → ℝ) (Cprev : J → J → ℝ), (entRun (gwData lam C ps p ℓ symmetric) ε sk warm crit tol outer' maxIter C0).T = some T ∧ (∀ s, IsCoupling p (ps s) (T s) ∧ ∀ j i, 0 < T s j i) ∧
      (∀ C' : J → J → ℝ, ℓ.Dom C' → ∑ s, lam s * gwEnergy ℓ.fn (entRun (gwData lam C ps p ℓ symmetric) ε sk warm crit tol outer' maxIter C0).z.C (C s) (T s) ≤ ∑ s, lam s * gwEnergy ℓ.fn C' (C s) (T s)) ∧
      (entRun (gwData lam C ps p ℓ symmetric) ε sk warm crit tol outer' maxIter C0).losses.getLast? = some (∑ s, gwEnergy ℓ.fn Cprev (C s) (T s)) ∧
      (crit = .barycenter → (entRun (gwData lam C ps p ℓ symmetric) ε sk warm crit tol outer' maxIter C0).losses.length < outer' → Real.sqrt (∑ j, ∑ l, ((entRun (gwData lam C ps p ℓ symmetric) ε sk warm crit tol outer' maxIter C0).z.C j l - Cprev j l) ^ 2) ≤ tol) := by
  let y : Sys (Bary J Empty) ((s : S) → J → I s → ℝ) :=
    { solve := fun z G0 => (fun s => (entPlan (gwData lam C ps p ℓ symmetric) ε sk maxIter z.X z.C G0 s).1, ∑ s, (entPlan (gwData lam C ps p ℓ symmetric) ε sk maxIter z.X z.C G0 s).2)
      update := updSource (gwData lam C ps p ℓ symmetric), near := fun z z' => normDiff z'.C z.C ≤ tol, nanStop := true }
  have hd : Descends y (fun _ _ => 0) (fun _ => True) (fun _ => True) (fun _ s => outer p (ps s)) := ⟨fun _ _ _ _ => ⟨trivial, le_rfl⟩, fun _ _ _ _ => ⟨trivial, le_rfl⟩⟩
  obtain ⟨s0, -, -, he, hst⟩ := loop_last (warm := warm) (crit := crit) (tol := tol) hd (s := GwBary.init ⟨fun _ e => e.elim, C0⟩ none) trivial (fun _ _ => trivial) hn
  have hfacts := entPlan_facts (maxIter := maxIter) h hps hε hsk hm s0.z.X s0.z.C (if warm = true then s0.T else none)
  have e0 : entRun (gwData lam C ps p ℓ symmetric) ε sk warm crit tol outer' maxIter C0 = step y warm s0 := he
  rw [e0]
  refine ⟨_, s0.z.C, rfl, fun s => (hfacts s).1, fun C' hdom => ?_, ?_, fun hc hl => ?_⟩
  · have := updSource_opt h.lam_nonneg h.lam_sum h.p_pos h.alpha h.loss (fun s => (hfacts s).1.1.nonneg) (fun s => (hfacts s).1.1.row) s0.z (X' := s0.z.X) (C' := C') (fun _ => rfl) (fun hF => by cases hF) hdom
    simp only [gwData] at this
    rw [gw_objective, gw_objective] at this
    exact this
  · have e2 : (step y warm s0).losses.getLast? = some (∑ s, (entPlan (gwData lam C ps p ℓ symmetric) ε sk maxIter s0.z.X s0.z.C (if warm = true then s0.T else none) s).2) := by
      simp [step, y]
    rw [e2]
    congr 1
    refine sum_congr rfl fun s _ => ?_
    rw [(hfacts s).2]
    simp [fgwCost, gwData, Loss.fn, y]
  · subst hc
    exact hst (by simpa [GwBary.init] using hl)

/-- **What `entropic_fused_gromov_barycenters` returns as structure**: the best one for the positive couplings in the log, unless it is fixed (the features are another matter, see `C125_entropic_features_refuted`). -/
theorem C125_entropic_fused_structure (h : BaryOk d) (hps : ∀ s i, 0 < d.ps s i) (hε : 0 < ε) (hsk : ∀ s, SolvesEntropic d.p (d.ps s) ε (sk s)) (hm : 1 ≤ maxIter) (hn : 0 < outer') {Y0 : J → E → ℝ} :
    ∃ T : (s : S) → J → I s → ℝ, (entFusedRun d ε sk warm crit tol outer' maxIter Y0 C0).T = some T ∧ (∀ s, IsCoupling d.p (d.ps s) (T s) ∧ ∀ j i, 0 < T s j i) ∧
      (d.fixedStructure = true → (entFusedRun d ε sk warm crit tol outer' maxIter Y0 C0).z.C = C0) ∧
      (d.fixedStructure = false → ∀ C' : J → J → ℝ, d.loss.Dom C' → ∑ s, d.lam s * gwEnergy d.loss.fn (entFusedRun d ε sk warm crit tol outer' maxIter Y0 C0).z.C (d.C s) (T s) ≤ ∑ s, d.lam s * gwEnergy d.loss.fn C' (d.C s) (T s)) := by
  have hd : Descends (entFusedSys d ε sk maxIter tol) (fun _ _ => 0) (fun z => d.fixedStructure = true → z.C = C0) (fun _ => True) (fun _ s => outer d.p (d.ps s)) :=
    ⟨fun _ _ _ _ => ⟨trivial, le_rfl⟩, fun z T hz _ => ⟨fun hF => by simp [entFusedSys, hF, hz hF], le_rfl⟩⟩
  obtain ⟨s0, hg, -, he, hst⟩ := loop_last (warm := warm) (crit := crit) (tol := tol) hd (s := GwBary.init ⟨Y0, Y0, C0⟩ none) (fun _ => rfl) (fun _ _ => trivial) hn
  have hfacts := entPlan_facts (maxIter := maxIter) h hps hε hsk hm s0.z.X s0.z.C (if warm = true then s0.T else none)
  unfold entFusedRun
  rw [he]
  refine ⟨_, rfl, fun s => (hfacts s).1, fun hF => by simp [step, entFusedSys, hF, hg hF], fun hF C' hdom => ?_⟩
  have e : (step (entFusedSys d ε sk maxIter tol) warm s0).z.C = structSource d.loss d.lam d.p (fun s => (entPlan d ε sk maxIter s0.z.X s0.z.C (if warm = true then s0.T else none) s).1) d.C := by
    simp [step, entFusedSys, hF]
  rw [e]
  exact structSource_opt h.lam_nonneg h.lam_sum h.p_pos (fun s => (hfacts s).1.1.nonneg) (fun s => (hfacts s).1.1.row) h.loss hdom

end ent

/-! ## What is false of the code -/

/-- **The stopping test is too weak.**  `(err_feature <= tol) or (err_structure <= tol)`, where the error of a fixed part is zero: with `fixed_structure=True` or `fixed_features=True` and the criterion `"barycenter"`, `fgw_barycenters` performs
exactly one iteration, for all inputs, tolerances and `max_iter`. -/
theorem C125_fixed_one_iteration_refuted (hfix : d.fixedFeatures = true ∨ d.fixedStructure = true) (htol : 0 ≤ tol) (n : ℕ) :
    fgwRun d lp warm .barycenter tol (n + 1) maxIter X0 C0 = fgwRun d lp warm .barycenter tol 1 maxIter X0 C0 ∧ (fgwRun d lp warm .barycenter tol (n + 1) maxIter X0 C0).losses.length = 1 := by
  have hs : ∀ s : St (Bary J E) ((s : S) → J → I s → ℝ), stops (fgwSys d lp maxIter tol) .barycenter tol s (step (fgwSys d lp maxIter tol) warm s) := by
    intro s
    rcases hfix with hF | hF
    · left; rw [if_pos hF]; exact htol
    · right; rw [if_pos hF]; exact htol
  unfold fgwRun
  rw [loop_succ, loop_succ, if_pos (hs _), if_pos (hs _)]
  exact ⟨rfl, rfl⟩

/-- The same for `semirelaxed_fgw_barycenters`. -/
theorem C125_sr_fixed_one_iteration_refuted [Nonempty J] {tie : ℝ} {start : Bary J E → (s : S) → I s → J → ℝ} {T0 : (s : S) → I s → J → ℝ} (hfix : d.fixedFeatures = true ∨ d.fixedStructure = true) (htol : 0 ≤ tol) (n : ℕ) :
    (srRun d tie start warm .barycenter tol (n + 1) maxIter X0 C0 T0).losses.length = 1 := by
  have hs : ∀ s : St (Bary J E) ((s : S) → I s → J → ℝ), stops (srSys d tie start maxIter tol) .barycenter tol s (step (srSys d tie start maxIter tol) warm s) := by
    intro s
    rcases hfix with hF | hF
    · left; rw [if_pos hF]; exact htol
    · right; rw [if_pos hF]; exact htol
  unfold srRun
  rw [loop_succ, if_pos (hs _)]
  rfl

/-- **`entropic_fused_gromov_barycenters` never updates the features it returns**: they are `init_Y` (zeros by default) for all inputs; and with the criterion `"barycenter"` it performs exactly one iteration. -/
theorem C125_entropic_features_refuted {ε : ℝ} {sk : (s : S) → (J → I s → ℝ) → J → I s → ℝ} {Y0 : J → E → ℝ} :
    (entFusedRun d ε sk warm crit tol outer' maxIter Y0 C0).z.Y = Y0 ∧
    ∀ n, 0 ≤ tol → (entFusedRun d ε sk warm .barycenter tol (n + 1) maxIter Y0 C0).losses.length = 1 := by
  constructor
  · obtain ⟨k, -, -, he, -⟩ := loop_iter (y := entFusedSys d ε sk maxIter tol) (warm := warm) (crit := crit) (tol := tol) outer' (GwBary.init ⟨Y0, Y0, C0⟩ none)
    unfold entFusedRun
    rw [he]
    clear he
    induction k with
    | zero => rfl
    | succ k ih => rw [Function.iterate_succ_apply']; exact ih
  · intro n htol
    have hs : ∀ s : St (EntBary J E) ((s : S) → J → I s → ℝ), stops (entFusedSys d ε sk maxIter tol) .barycenter tol s (step (entFusedSys d ε sk maxIter tol) warm s) := by
      intro s
      left
      have : normDiff (step (entFusedSys d ε sk maxIter tol) warm s).z.Y s.z.Y = 0 := by
        have e : (step (entFusedSys d ε sk maxIter tol) warm s).z.Y = s.z.Y := rfl
        simp [e, normDiff]
      rw [this]
      simpa using htol
    unfold entFusedRun
    rw [loop_succ, if_pos (hs _)]
    rfl

/-- Inputs with one node each, for the examples. -/
noncomputable def oneNode {S : Type*} (lam c : S → ℝ) (y α : ℝ) (fc fx : Bool) : Data S (fun _ => Unit) Unit Unit :=
  { lam := lam, C := fun s _ _ => c s, Y := fun _ _ _ => y, ps := fun _ _ => 1, p := fun _ => 1, alpha := α, loss := .square, symmetric := true, fixedStructure := fc, fixedFeatures := fx }

/-- The only linear solver for one node. -/
def oneLp {S : Type*} : (s : S) → (Unit → Unit → ℝ) → Unit → Unit → ℝ := fun _ _ _ _ => 1

theorem oneNode_ok {S : Type*} [Fintype S] {lam c : S → ℝ} (hl : ∀ s, 0 ≤ lam s) (hl1 : ∑ s, lam s = 1) {y α : ℝ} (hα : 0 ≤ α ∧ α ≤ 1) (fc fx : Bool) :
    BaryOk (oneNode lam c y α fc fx) ∧ (∀ s M, IsCoupling (oneNode lam c y α fc fx).p ((oneNode lam c y α fc fx).ps s) (oneLp s M)) ∧ ∀ C0, StartOk (oneNode lam c y α fc fx) C0 :=
  ⟨⟨hl, hl1, fun _ => zero_lt_one, by simp [oneNode], fun _ _ => zero_le_one, fun _ => by simp [oneNode], hα, fun _ _ _ _ => rfl, trivial⟩, fun s M => ⟨fun _ _ => zero_le_one, fun _ => by simp [oneLp, oneNode], fun _ => by simp [oneLp, oneNode]⟩,
    fun C0 => ⟨fun _ _ _ => rfl, trivial⟩⟩

private theorem one_coupling {T : Unit → Unit → ℝ} (h : IsCoupling (fun _ => 1) (fun _ => 1) T) : T () () = 1 := by simpa using h.row ()

/-- **The test stops although the structure has not converged**: with one input of one node, nothing fixed, `alpha = 1/2`, correct initial features and `init_C = 0`, the loop ends after one iteration of any number allowed, in which the
structure moved from 0 to 1, however small the tolerance. -/
theorem C125_or_test_refuted (tol : ℝ) (htol : 0 ≤ tol) (n : ℕ) (warm : Bool) (maxIter : ℕ) :
    (fgwRun (oneNode (fun _ : Unit => 1) (fun _ => 1) 0 (1 / 2) false false) oneLp warm .barycenter tol (n + 1) maxIter (fun _ _ => 0) (fun _ _ => 0)).losses.length = 1 ∧
    (fgwRun (oneNode (fun _ : Unit => 1) (fun _ => 1) 0 (1 / 2) false false) oneLp warm .barycenter tol (n + 1) maxIter (fun _ _ => 0) (fun _ _ => 0)).z.C () () = 1 := by
  obtain ⟨h1, h2, h3⟩ := oneNode_ok (S := Unit) (lam := fun _ => 1) (c := fun _ => 1) (fun _ => zero_le_one) (by simp) (y := 0) (α := 1 / 2) (by norm_num) false false
  constructor
  · unfold fgwRun
    rw [loop_succ, if_pos]
    · rfl
    · left
      have e : (step (fgwSys (oneNode (fun _ : Unit => 1) (fun _ => 1) 0 (1 / 2) false false) oneLp maxIter tol) warm (GwBary.init ⟨fun _ _ => 0, fun _ _ => 0⟩ none)).z.X = fun _ _ => 0 := by
        funext j e
        simp [step, fgwSys, updSource, featSource, oneNode]
      rw [e]
      simp [normDiff, GwBary.init, oneNode, htol]
  · obtain ⟨T, -, hT, -, -, hopt⟩ := C125_fgw_result (warm := warm) (crit := .barycenter) (tol := tol) (maxIter := maxIter) (X0 := fun _ _ => 0) h1 h2 (h3 (fun _ _ => 0)) (Nat.succ_pos n)
    have := hopt (fun _ _ => 0) (fun _ _ => 1) (fun h => by cases h) (fun h => by cases h) trivial
    have hT1 : T () () () = 1 := one_coupling (hT ())
    change fgwBaryObjective _ _ _ _ _ (fgwRun (oneNode (fun _ : Unit => 1) (fun _ => 1) 0 (1 / 2) false false) oneLp warm .barycenter tol (n + 1) maxIter (fun _ _ => 0) (fun _ _ => 0)).z.X (fgwRun (oneNode (fun _ : Unit => 1) (fun _ => 1) 0 (1 / 2) false false) oneLp warm .barycenter tol (n + 1) maxIter (fun _ _ => 0) (fun _ _ => 0)).z.C T ≤ _ at this
    generalize fgwRun (oneNode (fun _ : Unit => 1) (fun _ => 1) 0 (1 / 2) false false) oneLp warm .barycenter tol (n + 1) maxIter (fun _ _ => 0) (fun _ _ => 0) = R at this ⊢
    simp [fgwBaryObjective, gwEnergy, oneNode, hT1, Loss.fn, Loss.decomp, square, Decomp.loss] at this
    have h0 : (R.z.C () () - 1) ^ 2 = 0 := le_antisymm (by nlinarith [sq_nonneg (R.z.X () ())]) (sq_nonneg _)
    exact sub_eq_zero.mp (pow_eq_zero_iff (two_ne_zero) |>.mp h0)

/-- **`log["loss"]` is not the barycenter objective**: with weights `(1, 0)` and structures `0` and `1`, the fixed barycenter `0` has objective 0 for all couplings, yet 1 is logged. -/
theorem C125_logged_loss_refuted (tol : ℝ) (n : ℕ) (warm : Bool) (crit : Crit) (maxIter : ℕ) :
    ∃ T, (fgwRun (oneNode (fun s : Fin 2 => if s = 0 then 1 else 0) (fun s => if s = 0 then 0 else 1) 0 1 true true) oneLp warm crit tol (n + 1) maxIter (fun _ _ => 0) (fun _ _ => 0)).T = some T ∧
      fgwBaryObjective (Loss.fn .square) 1 (fun s : Fin 2 => if s = 0 then 1 else 0) (fun s _ _ => if s = 0 then 0 else 1) (fun _ (_ : Unit) (_ : Unit) => (0 : ℝ)) (fun _ _ => 0) (fun _ _ => 0) T = 0 ∧
      (fgwRun (oneNode (fun s : Fin 2 => if s = 0 then 1 else 0) (fun s => if s = 0 then 0 else 1) 0 1 true true) oneLp warm crit tol (n + 1) maxIter (fun _ _ => 0) (fun _ _ => 0)).losses.getLast? = some 1 := by
  obtain ⟨h1, h2, h3⟩ := oneNode_ok (S := Fin 2) (lam := fun s => if s = 0 then 1 else 0) (c := fun s => if s = 0 then 0 else 1) (fun s => by split_ifs <;> norm_num) (by simp) (y := 0) (α := 1) (by norm_num) true true
  obtain ⟨T, X, C, hT, hl, hX, hC, -, -⟩ := C125_fgw_last (warm := warm) (crit := crit) (tol := tol) (maxIter := maxIter) (X0 := fun _ _ => 0) h1 h2 (h3 (fun _ _ => 0)) (Nat.succ_pos n)
  obtain ⟨T', hT', hcoup, -⟩ := C125_fgw_result (warm := warm) (crit := crit) (tol := tol) (maxIter := maxIter) (X0 := fun _ _ => 0) h1 h2 (h3 (fun _ _ => 0)) (Nat.succ_pos n)
  obtain rfl : T = T' := Option.some.inj (hT.symm.trans hT')
  have hT1 : ∀ s, T s () () = 1 := fun s => one_coupling (hcoup s)
  obtain rfl := hX rfl
  obtain rfl := hC rfl
  refine ⟨T, hT, ?_, ?_⟩
  · simp [fgwBaryObjective, gwEnergy, hT1, Loss.fn, Loss.decomp, square, Decomp.loss]
  · rw [hl]
    simp [fgwBaryObjective, gwEnergy, oneNode, hT1, Loss.fn, Loss.decomp, square, Decomp.loss]

/-- **A perfect barycenter never satisfies the criterion `"loss"`**: when the loss is zero the relative change is `nan`, and all `max_iter` iterations are done; here the start is already the barycenter. -/
theorem C125_zero_loss_refuted (tol : ℝ) (htol : tol < 1) (n : ℕ) (warm : Bool) (maxIter : ℕ) :
    (fgwRun (oneNode (fun _ : Unit => 1) (fun _ => 0) 0 1 true true) oneLp warm .loss tol n maxIter (fun _ _ => 0) (fun _ _ => 0)).losses.length = n := by
  rcases Nat.eq_zero_or_pos n with rfl | hn
  · rfl
  obtain ⟨h1, h2, h3⟩ := oneNode_ok (S := Unit) (lam := fun _ => 1) (c := fun _ => 0) (fun _ => zero_le_one) (by simp) (y := 0) (α := 1) (by norm_num) true true
  have hstep : ∀ s : St (Bary Unit Unit) ((s : Unit) → Unit → Unit → ℝ), BGood (oneNode (fun _ : Unit => 1) (fun _ => 0) 0 1 true true) (fun _ _ => 0) (fun _ _ => 0) s.z → (∀ T, s.T = some T → ∀ u, IsCoupling (fun _ => 1) (fun _ => 1) (T u)) →
      (step (fgwSys (oneNode (fun _ : Unit => 1) (fun _ => 0) 0 1 true true) oneLp maxIter tol) warm s).loss = 0 := by
    intro s hg hf
    have hp := fgwPlan_facts (maxIter := maxIter) (z := s.z) h1 h2 (fun _ _ _ => rfl) (warm_feas hf warm) ()
    have e : (step (fgwSys (oneNode (fun _ : Unit => 1) (fun _ => 0) 0 1 true true) oneLp maxIter tol) warm s).loss = (fgwPlan (oneNode (fun _ : Unit => 1) (fun _ => 0) 0 1 true true) oneLp maxIter s.z (if warm = true then s.T else none) ()).2 := by
      simp [step, fgwSys]
    rw [e, hp.2.1, hg.2.2 rfl]
    simp [fgwObjective, gwEnergy, oneNode, Spec.inner, Loss.decomp, square, Decomp.loss]
  have hd := source_descends (tol := tol) (maxIter := maxIter) h1 h2 (fun _ _ => 0) (fun _ _ => 0) (fgwSys (oneNode (fun _ : Unit => 1) (fun _ => 0) 0 1 true true) oneLp maxIter tol) rfl rfl
  obtain ⟨k, hk, hk0, he, hst, -⟩ := loop_iter (y := fgwSys (oneNode (fun _ : Unit => 1) (fun _ => 0) 0 1 true true) oneLp maxIter tol) (warm := warm) (crit := .loss) (tol := tol) n (GwBary.init ⟨fun _ _ => 0, fun _ _ => 0⟩ none)
  unfold fgwRun
  rw [he, iter_losses]
  rcases hk.lt_or_eq with hlt | heq
  · exfalso
    obtain ⟨k', rfl, hs⟩ := hst hlt
    obtain ⟨hg, hf⟩ := iter_good (warm := warm) hd (s := GwBary.init ⟨fun _ _ => 0, fun _ _ => 0⟩ none) (init_good (h3 _)) init_feas k'
    have h0 := hstep _ hg hf
    rw [Function.iterate_succ_apply'] at hs
    unfold stops at hs
    dsimp only at hs
    rw [h0] at hs
    cases k' with
    | zero =>
      simp only [Function.iterate_zero, id_eq, GwBary.init] at hs
      norm_num at hs
      linarith
    | succ m =>
      obtain ⟨hg', hf'⟩ := iter_good (warm := warm) hd (s := GwBary.init ⟨fun _ _ => 0, fun _ _ => 0⟩ none) (init_good (h3 _)) init_feas m
      have h0' := hstep _ hg' hf'
      rw [Function.iterate_succ_apply', h0'] at hs
      simp [fgwSys] at hs
  · simp [GwBary.init, heq]

/-! ## The hypotheses can be met -/

example : ∃ T, (fgwRun (oneNode (fun _ : Fin 2 => 1 / 2) (fun s => s.val) 0 (1 / 2) false false) oneLp true .loss (1 / 10) 5 100 (fun _ _ => 3) (fun _ _ => 2)).T = some T := by
  obtain ⟨h1, h2, h3⟩ := oneNode_ok (S := Fin 2) (lam := fun _ => 1 / 2) (c := fun s => (s.val : ℝ)) (fun _ => by norm_num) (by norm_num) (y := 0) (α := 1 / 2) (by norm_num) false false
  obtain ⟨T, hT, -⟩ := C125_fgw_result (warm := true) (crit := .loss) (tol := 1 / 10) (maxIter := 100) (outer' := 5) (X0 := fun _ _ => 3) h1 h2 (h3 (fun _ _ => 2)) (by norm_num)
  exact ⟨T, hT⟩

/-- Two nodes, two inputs, both losses: valid arguments. -/
example (δ : ℝ) (h0 : 0 < δ) (h1 : δ ≤ 1) (kl : Bool) : BaryOk (gwData (I := fun _ => Fin 2) (J := Fin 2) (fun _ : Fin 2 => 1 / 2) (fun s i j => if i = j then 1 else 2 + s.val) (fun _ _ => 1 / 2) (fun _ => 1 / 2) (if kl then .kl 0 δ else .square) true) where
  lam_nonneg _ := by norm_num [gwData]
  lam_sum := by norm_num [gwData]
  p_pos _ := by norm_num [gwData]
  p_sum := by norm_num [gwData]
  ps_nonneg _ _ := by norm_num [gwData]
  ps_sum _ := by norm_num [gwData]
  alpha := by norm_num [gwData]
  symm _ s i k := by simp only [gwData, eq_comm]
  loss := by
    cases kl
    · trivial
    · refine ⟨rfl, h0, fun s i k => ?_⟩
      have : (0 : ℝ) ≤ (s.val : ℝ) := by positivity
      simp only [gwData]
      split_ifs <;> linarith

/-- Valid arguments of the semi-relaxed functions. -/
example : SrOk (gwData (I := fun _ => Fin 2) (J := Fin 2) (fun _ : Fin 2 => 1 / 2) (fun s i j => if i = j then 1 else 2 + s.val) (fun _ _ => 1 / 2) (fun _ => 1 / 2) .square true) (1 / 10) (fun _ _ _ _ => 1 / 4) where
  lam_nonneg _ := by norm_num [gwData]
  ps_nonneg _ _ := by norm_num [gwData]
  alpha := by norm_num [gwData]
  loss := rfl
  tie := by norm_num
  start _ s := ⟨fun _ _ => by norm_num, fun _ => by norm_num [gwData]⟩

end POT.Props
