import Verif.Lemmas.Ewca
import Verif.Props.Prw
import Mathlib.Data.Fin.Tuple.Sort

/-! # C123: entropic Wasserstein component analysis (ot/dr.py 426-594) -/

set_option linter.unusedSectionVars false

namespace POT.Props

open Finset Matrix POT.Spec POT.Sinkhorn POT.Ewca

variable {n d k : ℕ} {W : Type*}

/-- What the called functions promise: `np.linalg.qr`, `np.linalg.eigh`, an exact inner Sinkhorn solver for uniform weights, and `PCA` (orthonormal components and a bound on the variance of the data in every direction). -/
def EwcaOk (E : Ext n d k W) (reg : ℝ) : Prop :=
  IsQr E.qr ∧ E.eighD.Ok ∧ E.eighN.Ok ∧ (∀ w M, IsEntropicOptimal (fun _ => 1 / (n : ℝ)) (fun _ => 1 / (n : ℝ)) M reg (E.sink w M).1) ∧
  ∀ X : Matrix (Fin n) (Fin d) ℝ, IsStiefel (E.pca X).1 ∧ ∀ x : Fin d → ℝ, ∑ i, (∑ e, X i e * x e) ^ 2 ≤ n * ((E.pca X).2 * ∑ e, x e ^ 2)

variable {E : Ext n d k W} {reg : ℝ} {hn : 0 < n} {hk : k ≤ d} {X : Matrix (Fin n) (Fin d) ℝ} {U0 : Option (Matrix (Fin d) (Fin k) ℝ)} {m : Method} {stopThr : ℝ} {maxiter maxiterMM : ℕ}

private theorem cost_fun (X : Matrix (Fin n) (Fin d) ℝ) (U : Matrix (Fin d) (Fin k) ℝ) : costM (center X) U = componentCost X U := by
  funext i j
  rw [costM_eq]
  unfold componentCost centered
  congr 1 <;> funext e <;> exact center_eq X _ e

private theorem start_bound (hE : EwcaOk E reg) (X : Matrix (Fin n) (Fin d) ℝ) (U0 : Option (Matrix (Fin d) (Fin k) ℝ)) (m : Method) (l : ℝ) (hl : (start E X U0 m).2 = some l) (x : Fin d → ℝ) : (X *ᵥ x) ⬝ᵥ (X *ᵥ x) ≤ n * (l * (x ⬝ᵥ x)) := by
  have h := (hE.2.2.2.2 X).2 x
  cases U0 with
  | some U => cases m <;> simp [start] at hl
  | none =>
    cases m with
    | bcd => simp [start] at hl
    | mm =>
      simp only [start, Option.some.injEq] at hl
      rw [← hl]
      simp only [mulVec, dotProduct]
      simpa only [sq] using h

private theorem start_stiefel (hE : EwcaOk E reg) (X : Matrix (Fin n) (Fin d) ℝ) (hU0 : ∀ U, U0 = some U → IsStiefel U) (m : Method) : IsStiefel (start E X U0 m).1 := by
  cases U0 with
  | some U => cases m <;> exact hU0 U rfl
  | none => cases m <;> exact (hE.2.2.2.2 X).1

/-- one iteration -/
private theorem step_facts (hE : EwcaOk E reg) {Xc : Matrix (Fin n) (Fin d) ℝ} {lam : Option ℝ} (hlam : ∀ l, lam = some l → ∀ x : Fin d → ℝ, (Xc *ᵥ x) ⬝ᵥ (Xc *ᵥ x) ≤ n * (l * (x ⬝ᵥ x))) {s s' : Ewca.St n d k W} (hs : IsStiefel s.U)
    (h : Ewca.step E hn hk Xc lam maxiterMM m s = some s') :
    IsStiefel s'.U ∧ s'.pi = some (E.sink s.warm (costM Xc s.U)).1 ∧ s'.crit = some (E.crit s.U s'.U) ∧ cost (costM Xc s'.U) (E.sink s.warm (costM Xc s.U)).1 ≤ cost (costM Xc s.U) (E.sink s.warm (costM Xc s.U)).1 ∧
    (m = .bcd → ∀ U : Matrix (Fin d) (Fin k) ℝ, IsStiefel U → cost (costM Xc s'.U) (E.sink s.warm (costM Xc s.U)).1 ≤ cost (costM Xc U) (E.sink s.warm (costM Xc s.U)).1) := by
  obtain ⟨U, hU, rfl⟩ := Option.map_eq_some_iff.1 h
  have hcol : ∀ j, ∑ i, (E.sink s.warm (costM Xc s.U)).1 i j = 1 / n := (hE.2.2.2.1 s.warm (costM Xc s.U)).1.col
  cases m with
  | bcd =>
    cases hU
    obtain ⟨h1, h2⟩ := bcd_best hE.2.1 hk (X := Xc) hcol
    exact ⟨h1, rfl, rfl, h2 _ hs, fun _ => h2⟩
  | mm =>
    obtain ⟨h1, h2⟩ := mmLoop_descent hE.1 hE.2.2.1 hn hcol hlam maxiterMM hs hU
    exact ⟨h1, rfl, rfl, h2, fun hc => by cases hc⟩

private theorem loop_last (hE : EwcaOk E reg) {Xc : Matrix (Fin n) (Fin d) ℝ} {lam : Option ℝ} (hlam : ∀ l, lam = some l → ∀ x : Fin d → ℝ, (Xc *ᵥ x) ⬝ᵥ (Xc *ᵥ x) ≤ n * (l * (x ⬝ᵥ x))) (t : ℕ) {s s' : Ewca.St n d k W} (hs : IsStiefel s.U)
    (h : Ewca.loop (Ewca.step E hn hk Xc lam maxiterMM m) stopThr t s = some s') :
    (s' = s ∨ ∃ s₁, IsStiefel s₁.U ∧ Ewca.step E hn hk Xc lam maxiterMM m s₁ = some s') := by
  induction t generalizing s with
  | zero => cases h; exact Or.inl rfl
  | succ t ih =>
    rw [loop_succ] at h
    split_ifs at h with hc
    · obtain ⟨s1, h1, h2⟩ := Option.bind_eq_some_iff.1 h
      rcases ih (step_facts hE hlam hs h1).1 h2 with rfl | h3
      · exact Or.inr ⟨s, hs, h1⟩
      · exact Or.inr h3
    · exact Or.inl (Option.some.inj h).symm

private theorem result_facts (hE : EwcaOk E reg) (hU0 : ∀ U, U0 = some U → IsStiefel U) {P : Matrix (Fin n) (Fin n) ℝ} {U : Matrix (Fin d) (Fin k) ℝ} (h : ewca E hn hk X U0 m stopThr maxiter maxiterMM = some (P, U)) :
    ∃ s s₁ : Ewca.St n d k W, Ewca.loop (Ewca.step E hn hk (center X) (start E (center X) U0 m).2 maxiterMM m) stopThr maxiter { U := (start E (center X) U0 m).1, pi := none, warm := none, crit := none } = some s ∧
      s.pi = some P ∧ s.U = U ∧ IsStiefel s₁.U ∧ Ewca.step E hn hk (center X) (start E (center X) U0 m).2 maxiterMM m s₁ = some s := by
  obtain ⟨s, h1, h2⟩ := Option.bind_eq_some_iff.1 h
  obtain ⟨P', hP', h3⟩ := Option.map_eq_some_iff.1 h2
  obtain ⟨rfl, rfl⟩ := Prod.mk.inj h3
  rcases loop_last hE (start_bound hE _ U0 m) maxiter (start_stiefel hE (center X) hU0 m) h1 with rfl | ⟨s₁, h4, h5⟩
  · cases hP'
  · exact ⟨s, s₁, h1, hP', rfl, h4, h5⟩

/-- **What `ewca` returns**, with exact inner solvers.  The projection has orthonormal columns.  The plan is the entropic optimum for the projection `W` of the previous iteration; the returned projection does not raise the transported cost of
that plan, and with `method="BCD"` it is the best of all projections for it.  If the subspace distance between `W` and `U` is at most `stopThr`, allowing more iterations changes nothing. -/
theorem C123_ewca_result (hE : EwcaOk E reg) (hU0 : ∀ U, U0 = some U → IsStiefel U) {P : Matrix (Fin n) (Fin n) ℝ} {U : Matrix (Fin d) (Fin k) ℝ} (h : ewca E hn hk X U0 m stopThr maxiter maxiterMM = some (P, U)) :
    IsStiefel U ∧ ∃ V : Matrix (Fin d) (Fin k) ℝ, IsStiefel V ∧ IsEntropicOptimal (fun _ => 1 / (n : ℝ)) (fun _ => 1 / (n : ℝ)) (componentCost X V) reg P ∧
      cost (componentCost X U) P ≤ cost (componentCost X V) P ∧
      (m = .bcd → ∀ U' : Matrix (Fin d) (Fin k) ℝ, IsStiefel U' → cost (componentCost X U) P ≤ cost (componentCost X U') P) ∧
      (E.crit V U ≤ stopThr → ∀ T, maxiter ≤ T → ewca E hn hk X U0 m stopThr T maxiterMM = some (P, U)) := by
  obtain ⟨s, s₁, h1, h2, rfl, h4, h5⟩ := result_facts hE hU0 h
  obtain ⟨f1, f2, f3, f4, f5⟩ := step_facts hE (start_bound hE _ U0 m) h4 h5
  have hP : P = (E.sink s₁.warm (costM (center X) s₁.U)).1 := Option.some.inj (h2.symm.trans f2)
  have hopt := hE.2.2.2.1 s₁.warm (costM (center X) s₁.U)
  rw [← hP] at f4 f5 hopt
  refine ⟨f1, s₁.U, h4, ?_, ?_, fun hm U' hU' => ?_, fun hc T hT => ?_⟩
  · rw [← cost_fun]; exact hopt
  · rw [← cost_fun, ← cost_fun]; exact f4
  · rw [← cost_fun, ← cost_fun]; exact f5 hm U' hU'
  · obtain ⟨c, rfl⟩ := Nat.exists_eq_add_of_le hT
    unfold ewca
    dsimp only
    rw [loop_add, h1]
    have : Ewca.loop (Ewca.step E hn hk (center X) (start E (center X) U0 m).2 maxiterMM m) stopThr c s = some s := by
      cases c with
      | zero => rfl
      | succ c =>
        rw [loop_succ, if_neg]
        intro hall
        have := hall _ f3
        linarith
    rw [Option.bind_some, this, Option.bind_some, h2]
    rfl

/-- **Stop by the test.**  If the result is not the one of running all `maxiter` iterations without a test, the returned projection is within `stopThr` of the one the plan was computed for. -/
theorem C123_ewca_stop (hE : EwcaOk E reg) (hU0 : ∀ U, U0 = some U → IsStiefel U) (hcrit : ∀ A B, 0 ≤ E.crit A B) {P : Matrix (Fin n) (Fin n) ℝ} {U : Matrix (Fin d) (Fin k) ℝ} (h : ewca E hn hk X U0 m stopThr maxiter maxiterMM = some (P, U))
    (hfull : ewca E hn hk X U0 m stopThr maxiter maxiterMM ≠ ewca E hn hk X U0 m (-1) maxiter maxiterMM) :
    ∃ V : Matrix (Fin d) (Fin k) ℝ, IsStiefel V ∧ IsEntropicOptimal (fun _ => 1 / (n : ℝ)) (fun _ => 1 / (n : ℝ)) (componentCost X V) reg P ∧ E.crit V U ≤ stopThr := by
  obtain ⟨s, s₁, h1, h2, rfl, h4, h5⟩ := result_facts hE hU0 h
  obtain ⟨f1, f2, f3, f4, f5⟩ := step_facts hE (start_bound hE _ U0 m) h4 h5
  have hP : P = (E.sink s₁.warm (costM (center X) s₁.U)).1 := Option.some.inj (h2.symm.trans f2)
  have hopt := hE.2.2.2.1 s₁.warm (costM (center X) s₁.U)
  rw [← hP] at hopt
  refine ⟨s₁.U, h4, by rw [← cost_fun]; exact hopt, ?_⟩
  by_contra hc
  -- the test never stopped the run
  have key : ∀ (t : ℕ) (x : Ewca.St n d k W), (∀ c, x.crit = some c → 0 ≤ c) → (∀ c, s.crit = some c → stopThr < c) →
      Ewca.loop (Ewca.step E hn hk (center X) (start E (center X) U0 m).2 maxiterMM m) stopThr t x = some s →
      Ewca.loop (Ewca.step E hn hk (center X) (start E (center X) U0 m).2 maxiterMM m) (-1) t x = some s := by
    intro t
    induction t with
    | zero => intro x _ _ h; exact h
    | succ t ih =>
      intro x hx hs h
      rw [loop_succ] at h ⊢
      rw [if_pos fun c hc => lt_of_lt_of_le (by norm_num) (hx c hc)]
      split_ifs at h with h6
      · obtain ⟨y, hy1, hy2⟩ := Option.bind_eq_some_iff.1 h
        rw [hy1, Option.bind_some]
        refine ih y (fun c hc => ?_) hs hy2
        obtain ⟨V, -, rfl⟩ := Option.map_eq_some_iff.1 hy1
        cases hc
        exact hcrit _ _
      · cases h
        exact absurd hs h6
  refine hfull ?_
  have h7 := key maxiter _ (fun c hc => by cases hc) (fun c hc => by rw [f3] at hc; cases hc; exact not_le.1 ‹_›) h1
  unfold ewca
  dsimp only
  rw [h1, h7]

/-- the value at `U` through the inner solver -/
private theorem value_unique (hE : EwcaOk E reg) (w : Option W) {U : Matrix (Fin d) (Fin k) ℝ} {v : ℝ} (h : IsComponentValue X reg U v) : v = entropicObjective (costM (center X) U) reg (E.sink w (costM (center X) U)).1 := by
  obtain ⟨Q, hQ, rfl⟩ := h
  rw [Fintype.card_fin, ← cost_fun] at hQ
  have hS := hE.2.2.2.1 w (costM (center X) U)
  have : Q = (E.sink w (costM (center X) U)).1 := (hS.2 Q hQ.1).2 (hQ.2 _ hS.1).1
  rw [← this, cost_fun]

private theorem step_value (hE : EwcaOk E reg) {lam : Option ℝ} (hlam : ∀ l, lam = some l → ∀ x : Fin d → ℝ, (center X *ᵥ x) ⬝ᵥ (center X *ᵥ x) ≤ n * (l * (x ⬝ᵥ x))) {s s' : Ewca.St n d k W} (hs : IsStiefel s.U)
    (h : Ewca.step E hn hk (center X) lam maxiterMM m s = some s') : entropicObjective (costM (center X) s'.U) reg (E.sink none (costM (center X) s'.U)).1 ≤ entropicObjective (costM (center X) s.U) reg (E.sink none (costM (center X) s.U)).1 := by
  obtain ⟨f1, f2, f3, f4, f5⟩ := step_facts hE hlam hs h
  have hS := hE.2.2.2.1 s.warm (costM (center X) s.U)
  have hS0 := hE.2.2.2.1 none (costM (center X) s.U)
  have he : (E.sink none (costM (center X) s.U)).1 = (E.sink s.warm (costM (center X) s.U)).1 := (hS.2 _ hS0.1).2 (hS0.2 _ hS.1).1
  have h1 := ((hE.2.2.2.1 none (costM (center X) s'.U)).2 _ hS.1).1
  refine h1.trans ?_
  rw [he]
  unfold entropicObjective
  linarith

private theorem loop_value (hE : EwcaOk E reg) {lam : Option ℝ} (hlam : ∀ l, lam = some l → ∀ x : Fin d → ℝ, (center X *ᵥ x) ⬝ᵥ (center X *ᵥ x) ≤ n * (l * (x ⬝ᵥ x))) (t : ℕ) {s s' : Ewca.St n d k W} (hs : IsStiefel s.U)
    (h : Ewca.loop (Ewca.step E hn hk (center X) lam maxiterMM m) stopThr t s = some s') :
    IsStiefel s'.U ∧ entropicObjective (costM (center X) s'.U) reg (E.sink none (costM (center X) s'.U)).1 ≤ entropicObjective (costM (center X) s.U) reg (E.sink none (costM (center X) s.U)).1 := by
  induction t generalizing s with
  | zero => cases h; exact ⟨hs, le_rfl⟩
  | succ t ih =>
    rw [loop_succ] at h
    split_ifs at h with hc
    · obtain ⟨s1, h1, h2⟩ := Option.bind_eq_some_iff.1 h
      obtain ⟨g1, g2⟩ := ih (step_facts hE hlam hs h1).1 h2
      exact ⟨g1, g2.trans (step_value hE hlam hs h1)⟩
    · cases h; exact ⟨hs, le_rfl⟩

/-- **More iterations never hurt**, for both methods: the entropic transport objective between the centred data and its projection on the returned subspace does not increase with `maxiter`. -/
theorem C123_ewca_descent (hE : EwcaOk E reg) (hU0 : ∀ U, U0 = some U → IsStiefel U) {T : ℕ} (hT : maxiter ≤ T) {P P' : Matrix (Fin n) (Fin n) ℝ} {U U' : Matrix (Fin d) (Fin k) ℝ}
    (h : ewca E hn hk X U0 m stopThr maxiter maxiterMM = some (P, U)) (h' : ewca E hn hk X U0 m stopThr T maxiterMM = some (P', U')) {v v' : ℝ} (hv : IsComponentValue X reg U v) (hv' : IsComponentValue X reg U' v') : v' ≤ v := by
  obtain ⟨s, s₁, h1, -, rfl, -, -⟩ := result_facts hE hU0 h
  obtain ⟨s', s₁', h1', -, rfl, -, -⟩ := result_facts hE hU0 h'
  obtain ⟨c, rfl⟩ := Nat.exists_eq_add_of_le hT
  rw [loop_add, h1, Option.bind_some] at h1'
  rw [value_unique hE none hv, value_unique hE none hv']
  have hs := (loop_value hE (start_bound hE _ U0 m) maxiter (start_stiefel hE (center X) hU0 m) h1).1
  exact (loop_value hE (start_bound hE _ U0 m) c hs h1').2

/-- **Never worse than the start**: the objective at the returned subspace is at most the one at the given `U0`, or at the principal components when none is given. -/
theorem C123_ewca_start (hE : EwcaOk E reg) (hU0 : ∀ U, U0 = some U → IsStiefel U) {P : Matrix (Fin n) (Fin n) ℝ} {U : Matrix (Fin d) (Fin k) ℝ} (h : ewca E hn hk X U0 m stopThr maxiter maxiterMM = some (P, U)) {v v0 : ℝ}
    (hv : IsComponentValue X reg U v) (hv0 : IsComponentValue X reg (U0.getD (E.pca (of (centered X))).1) v0) : v ≤ v0 := by
  obtain ⟨s, s₁, h1, -, rfl, -, -⟩ := result_facts hE hU0 h
  have hc : (of (centered X) : Matrix (Fin n) (Fin d) ℝ) = center X := by
    ext i e; rw [center_eq]; rfl
  rw [hc] at hv0
  rw [value_unique hE none hv, value_unique hE none hv0]
  have := (loop_value hE (start_bound hE _ U0 m) maxiter (start_stiefel hE (center X) hU0 m) h1).2
  cases U0 with
  | some V => cases m <;> exact this
  | none => cases m <;> exact this

/-- **When it raises**: `method="BCD"` returns whenever one iteration is allowed; `method="MM"` does when no start is given. -/
theorem C123_ewca_returns (hm : 0 < maxiter) (h : m = .bcd ∨ U0 = none) : (ewca E hn hk X U0 m stopThr maxiter maxiterMM).isSome := by
  have hmm : ∀ (t : ℕ) (P : Matrix (Fin n) (Fin n) ℝ) (lp l : ℝ) (U : Matrix (Fin d) (Fin k) ℝ), (mmLoop E (center X) P lp (some l) t U).isSome := by
    intro t
    induction t with
    | zero => intros; rfl
    | succ t ih => intro P lp l U; unfold mmLoop; rw [if_neg (by simp)]; exact ih _ _ _ _
  have hstep : ∀ s, ∃ s', Ewca.step E hn hk (center X) (start E (center X) U0 m).2 maxiterMM m s = some s' ∧ s'.pi.isSome := by
    intro s
    have : (updateU E hn hk (center X) (E.sink s.warm (costM (center X) s.U)).1 (start E (center X) U0 m).2 maxiterMM s.U m).isSome := by
      cases m with
      | bcd => rfl
      | mm =>
        rcases h with h | rfl
        · cases h
        · exact hmm _ _ _ _ _
    obtain ⟨V, hV⟩ := Option.isSome_iff_exists.1 this
    exact ⟨_, by unfold Ewca.step; dsimp only; rw [hV]; rfl, rfl⟩
  have hloop : ∀ t s, s.pi.isSome → ∃ s', Ewca.loop (Ewca.step E hn hk (center X) (start E (center X) U0 m).2 maxiterMM m) stopThr t s = some s' ∧ s'.pi.isSome := by
    intro t
    induction t with
    | zero => intro s hs; exact ⟨s, rfl, hs⟩
    | succ t ih =>
      intro s hs
      rw [loop_succ]
      split_ifs
      · obtain ⟨s', h1, h2⟩ := hstep s
        rw [h1, Option.bind_some]
        exact ih s' h2
      · exact ⟨s, rfl, hs⟩
  obtain ⟨t, rfl⟩ := Nat.exists_eq_succ_of_ne_zero hm.ne'
  unfold ewca
  dsimp only
  rw [Nat.succ_eq_add_one, loop_succ, if_pos (fun c hc => by cases hc)]
  obtain ⟨s', h1, h2⟩ := hstep { U := (start E (center X) U0 m).1, pi := none, warm := none, crit := none }
  obtain ⟨s'', h3, h4⟩ := hloop t s' h2
  rw [h1, Option.bind_some, h3, Option.bind_some, Option.isSome_map]
  exact h4

/-- **Refuted: `method="MM"` accepts a start.**  On two points of the line and a start orthogonal to them, every call with `U0` given raises, because the bound `lambda_scm` is only computed when `U0` is missing; the same call without `U0`
returns. -/
theorem C123_mm_start_refuted (E : Ext 2 2 1 W) (hreg : 0 < reg) (hE : EwcaOk E reg) :
    IsStiefel (!![0; 1] : Matrix (Fin 2) (Fin 1) ℝ) ∧
    (∀ T t, ewca E two_pos one_le_two !![1, 0; -1, 0] (some !![0; 1]) .mm stopThr (T + 1) (t + 1) = none) ∧
    ∀ T t, (ewca E two_pos one_le_two !![1, 0; -1, 0] none .mm stopThr (T + 1) t).isSome := by
  refine ⟨?_, fun T t => ?_, fun T t => C123_ewca_returns (Nat.succ_pos T) (Or.inr rfl)⟩
  · unfold IsStiefel; ext i j; fin_cases i; fin_cases j; simp [mul_apply, Fin.sum_univ_two]
  have hc : center (!![1, 0; -1, 0] : Matrix (Fin 2) (Fin 2) ℝ) = !![1, 0; -1, 0] := by
    ext i j; fin_cases i <;> fin_cases j <;> simp [center, Fin.sum_univ_two]
  have hM : costM (!![1, 0; -1, 0] : Matrix (Fin 2) (Fin 2) ℝ) (!![0; 1] : Matrix (Fin 2) (Fin 1) ℝ) = fun _ _ => 1 := by
    funext i j; rw [costM_eq]; fin_cases i <;> fin_cases j <;> simp [reconSq, Fin.sum_univ_two]
  have hu : IsEntropicOptimal (fun _ : Fin 2 => 1 / ((2 : ℕ) : ℝ)) (fun _ : Fin 2 => 1 / ((2 : ℕ) : ℝ)) (fun _ _ => (1 : ℝ)) reg fun _ _ => 1 / 4 := by
    refine optimal_of_form hreg (x := fun _ => Real.log (1 / 4) + 1 / reg) (y := fun _ => 0) ⟨fun i j => by norm_num, fun i => by norm_num [Fin.sum_univ_two], fun j => by norm_num [Fin.sum_univ_two]⟩ (fun i j => by norm_num) fun i j => by ring
  have hS := hE.2.2.2.1 none (fun _ _ => (1 : ℝ))
  have hP : (E.sink none (fun _ _ => (1 : ℝ))).1 = of fun _ _ => 1 / 4 := (hu.2 _ hS.1).2 (hS.2 _ hu.1).1
  have hlp : lambdaPi E.eighN two_pos (of fun _ _ => (1 / 4 : ℝ)) ≤ 0 := by
    have := lambdaPi_le hE.2.2.1 two_pos (of fun _ _ => (1 / 4 : ℝ)) ![1, -1]
    simp [piSym, dotProduct, mulVec, Fin.sum_univ_two] at this
    linarith
  unfold ewca
  dsimp only
  rw [loop_succ, if_pos (fun c hc => by cases hc)]
  have : Ewca.step E two_pos one_le_two (center !![1, 0; -1, 0]) (start E (center !![1, 0; -1, 0]) (some !![0; 1]) .mm).2 (t + 1) .mm { U := (start E (center !![1, 0; -1, 0]) (some !![0; 1]) .mm).1, pi := none, warm := none, crit := none } = none := by
    simp only [start, hc, Ewca.step, updateU, hM, hP]
    unfold mmLoop
    rw [if_pos ⟨rfl, by push_cast; linarith⟩]
    rfl
  rw [this]
  rfl

/-- `np.linalg.eigh` can be provided for every size. -/
theorem eigh_exists (n : ℕ) : ∃ e : Eigh n, e.Ok := by
  have key : ∀ S : Matrix (Fin n) (Fin n) ℝ, Sᵀ = S → ∃ (w : Fin n → ℝ) (V : Matrix (Fin n) (Fin n) ℝ), Vᵀ * V = 1 ∧ S = V * diagonal w * Vᵀ ∧ Monotone w := by
    intro S hS
    have hH : S.IsHermitian := by rw [IsHermitian, conjTranspose_eq_transpose_of_trivial]; exact hS
    obtain ⟨V, hV⟩ : ∃ V : Matrix (Fin n) (Fin n) ℝ, V = (hH.eigenvectorUnitary : Matrix (Fin n) (Fin n) ℝ) := ⟨_, rfl⟩
    have hVV : Vᵀ * V = 1 := by
      rw [hV]
      have := (Matrix.mem_unitaryGroup_iff' (A := (hH.eigenvectorUnitary : Matrix (Fin n) (Fin n) ℝ))).1 hH.eigenvectorUnitary.2
      rwa [star_eq_conjTranspose, conjTranspose_eq_transpose_of_trivial] at this
    have hC : S = V * diagonal hH.eigenvalues * Vᵀ := by
      have := hH.spectral_theorem
      rw [Unitary.conjStarAlgAut_apply, star_eq_conjTranspose, conjTranspose_eq_transpose_of_trivial] at this
      rw [hV]; exact this
    obtain ⟨σ, hσ⟩ : ∃ σ, σ = Tuple.sort hH.eigenvalues := ⟨_, rfl⟩
    refine ⟨hH.eigenvalues ∘ σ, V.submatrix id σ, Stiefel.cols_orth hVV σ.injective, ?_, by rw [hσ]; exact Tuple.monotone_sort _⟩
    conv_lhs => rw [hC]
    ext i j
    rw [mul_apply, mul_apply]
    simp only [mul_diagonal, submatrix_apply, id_eq, transpose_apply, Function.comp]
    exact (Equiv.sum_comp σ fun c => V i c * hH.eigenvalues c * V j c).symm
  classical
  choose w V h using key
  refine ⟨⟨fun S => if hS : Sᵀ = S then w S hS else 0, fun S => if hS : Sᵀ = S then V S hS else 0⟩, fun S hS => ?_⟩
  simp only [dif_pos hS]
  exact h S hS

/-- The hypotheses hold: routines with these promises exist. -/
theorem ewcaOk_exists (hreg : 0 < reg) : ∃ E : Ext 2 2 1 Unit, EwcaOk E reg := by
  obtain ⟨e, he⟩ := eigh_exists 2
  have key : ∀ M : Fin 2 → Fin 2 → ℝ, ∃ P : Matrix (Fin 2) (Fin 2) ℝ, IsEntropicOptimal (fun _ => 1 / ((2 : ℕ) : ℝ)) (fun _ => 1 / ((2 : ℕ) : ℝ)) M reg P := by
    intro M
    obtain ⟨R, hR, hRp, ⟨x, y, hform⟩, -⟩ := exists_limit (a := fun _ : Fin 2 => 1 / ((2 : ℕ) : ℝ)) (b := fun _ : Fin 2 => 1 / ((2 : ℕ) : ℝ)) (K := kernel M reg)
      (fun i j => kernel_pos _ _ i j) (fun i => by norm_num) (fun j => by norm_num) rfl (s := ⟨fun _ => 1, fun _ => 1⟩) ⟨fun _ => one_pos, fun _ => one_pos⟩
    exact ⟨R, optimal_of_form hreg (x := x) (y := y) hR hRp fun i j => by rw [hform, log_kernel, sub_eq_add_neg]⟩
  choose f hf using key
  refine ⟨⟨qrOne, e, e, fun _ M => (f M, none), fun _ _ => 0, fun X => (!![1; 0], (Xᵀ * X).trace)⟩, qrOne_ok, he, he, fun _ M => hf M, fun X => ⟨?_, fun x => ?_⟩⟩
  · unfold IsStiefel; ext i j; fin_cases i; fin_cases j; simp [mul_apply, Fin.sum_univ_two]
  · have h : ∑ i, (∑ e, X i e * x e) ^ 2 ≤ (Xᵀ * X).trace * ∑ e, x e ^ 2 := by
      rw [Stiefel.trace_self_rows, sum_mul]
      refine sum_le_sum fun i _ => ?_
      have := sum_mul_sq_le_sq_mul_sq univ (X i) x
      simp only [dotProduct]
      simpa only [sq] using this
    have h0 : 0 ≤ (Xᵀ * X).trace * ∑ e, x e ^ 2 := mul_nonneg (Stiefel.trace_self_nonneg X) (sum_nonneg fun _ _ => sq_nonneg _)
    push_cast
    linarith

/-- a call meeting the hypotheses of the theorems above, for both methods -/
example (m : Method) : ∃ E : Ext 2 2 1 Unit, EwcaOk E 1 ∧ ∃ P U, ewca E two_pos one_le_two !![1, 0; -1, 3] none m 0 5 3 = some (P, U) := by
  obtain ⟨E, hE⟩ := ewcaOk_exists one_pos
  obtain ⟨⟨P, U⟩, h⟩ := Option.isSome_iff_exists.1 (C123_ewca_returns (E := E) (hn := two_pos) (hk := one_le_two) (X := !![1, 0; -1, 3]) (U0 := none) (m := m) (stopThr := 0) (maxiter := 5) (maxiterMM := 3) (by norm_num) (Or.inr rfl))
  exact ⟨E, hE, P, U, h⟩

end POT.Props
