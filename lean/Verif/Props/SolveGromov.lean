import Verif.Spec.SolveGromov
import Verif.Model.SolveGromov
import Verif.Props.GwPartialEntropic
import Verif.Props.Solve
import Mathlib.Tactic.NormNum

/-! # C90: `ot.solve_gromov` -/

set_option linter.unusedSectionVars false

namespace POT.Props

open Finset Spec Gromov GwEntropic GwPartialEntropic SolveGromov

variable {n m : ℕ} [NeZero n] [NeZero m]

/-- The loss `L` selected by `loss`. -/
noncomputable def gwLossOf (klGuard : ℝ) : SolveGromov.Loss → ℝ → ℝ → ℝ
  | .l2 => sqLoss
  | .kl => klLoss klGuard
  | .other => fun _ _ => 0

/-- The problem a call asks for: balanced unless `unbalanced` is given or the type is semi-relaxed. -/
noncomputable def gwKindOf (c : SolveGromov.Call n m) : GwKind :=
  match c.unbType with
  | .semirelaxed => .semirelaxed
  | _ => match c.unbalanced with
    | none => .balanced
    | some mm => .partialMass mm

/-- The objective a call asks for: `(1 - alpha) ⟨M, T⟩ + alpha GW(T)`, only the second term (with weight 1) without `M`. -/
noncomputable def gwObjectiveOf (klGuard : ℝ) (c : SolveGromov.Call n m) (T : Fin n → Fin m → ℝ) : ℝ :=
  match c.M with
  | none => gwEnergy (gwLossOf klGuard c.loss) c.Ca c.Cb T
  | some M => fgwCost (gwLossOf klGuard c.loss) c.Ca c.Cb M c.alpha T

/-- Its quadratic part. -/
noncomputable def gwQuadOf (klGuard : ℝ) (c : SolveGromov.Call n m) (T : Fin n → Fin m → ℝ) : ℝ :=
  match c.M with
  | none => gwEnergy (gwLossOf klGuard c.loss) c.Ca c.Cb T
  | some _ => c.alpha * gwEnergy (gwLossOf klGuard c.loss) c.Ca c.Cb T

/-- Its linear part. -/
noncomputable def gwLinearOf (c : SolveGromov.Call n m) (T : Fin n → Fin m → ℝ) : ℝ :=
  match c.M with
  | none => 0
  | some M => (1 - c.alpha) * cost M T

/-- What is assumed of the inner solvers, for the weights of the call: the linear ones return feasible plans, the entropic ones solutions. -/
structure InnerSolversOk (e : SolveGromov.Ext n m) (a : Fin n → ℝ) (b : Fin m → ℝ) : Prop where
  lp : ∑ i, a i = ∑ j, b j → ∀ N, IsCoupling a b (e.lp a b N)
  pw : ∀ mm, 0 ≤ mm → mm ≤ ∑ i, a i → mm ≤ ∑ j, b j → ∀ N, IsPartialOf a b mm (e.pw a b mm N)
  sk : ∑ i, a i = ∑ j, b j → ∀ ε, 0 < ε → SolvesEntropic a b ε (e.sk ε a b)
  epw : ∀ ε mm, 0 < ε → 0 < mm → mm ≤ ∑ i, a i → mm ≤ ∑ j, b j → SolvesEntropicPartial a b ε mm (e.epw ε a b mm)

/-- The arguments are of a supported kind and consistent: equal masses in the balanced case, a mass that can be moved in the partial case, a symmetric pair of matrices if the flag says so. -/
structure CallOk (c : SolveGromov.Call n m) (a : Fin n → ℝ) (b : Fin m → ℝ) : Prop where
  weights : c.a = some a ∧ c.b = some b
  pos : (∀ i, 0 < a i) ∧ ∀ j, 0 < b j
  loss : c.loss ≠ .other
  sym : c.symmetric = true → (∀ i k, c.Ca i k = c.Ca k i) ∧ ∀ j l, c.Cb j l = c.Cb l j
  kind : match gwKindOf c with
    | .balanced => ∑ i, a i = ∑ j, b j
    | .semirelaxed => True
    | .partialMass mm => c.unbType = .partial_ ∧ 0 < mm ∧ mm ≤ ∑ i, a i ∧ mm ≤ ∑ j, b j

theorem decomp_loss {g : ℝ} {l : SolveGromov.Loss} {D : Decomp ℝ} (h : decomp g l = some D) : D.loss = gwLossOf g l := by
  cases l
  · simp only [decomp, Option.some.injEq] at h
    rw [← h, square_loss']; rfl
  · simp only [decomp, Option.some.injEq] at h
    rw [← h, kl_loss']; rfl
  · simp [decomp] at h

theorem decomp_some (g : ℝ) {l : SolveGromov.Loss} (h : l ≠ .other) : ∃ D, decomp g l = some D := by
  cases l
  · exact ⟨_, rfl⟩
  · exact ⟨_, rfl⟩
  · exact absurd rfl h

theorem inner_cost (M T : Fin n → Fin m → ℝ) : Spec.inner M T = cost M T := by
  unfold Spec.inner cost
  exact sum_congr rfl fun i _ => sum_congr rfl fun j _ => mul_comm _ _

theorem dot_cost (M T : Fin n → Fin m → ℝ) : dot T M = cost M T := rfl

theorem fgwObjective_zero (L : ℝ → ℝ → ℝ) (C1 : Fin n → Fin n → ℝ) (C2 : Fin m → Fin m → ℝ) (T : Fin n → Fin m → ℝ) :
    fgwObjective L C1 C2 (fun _ _ => 0) 1 T = gwEnergy L C1 C2 T := by
  unfold fgwObjective
  rw [inner_cost]
  simp [cost]

theorem fgwObjective_scaled (L : ℝ → ℝ → ℝ) (C1 : Fin n → Fin n → ℝ) (C2 : Fin m → Fin m → ℝ) (M : Fin n → Fin m → ℝ) (α : ℝ) (T : Fin n → Fin m → ℝ) :
    fgwObjective L C1 C2 (fun i j => (1 - α) * M i j) α T = fgwCost L C1 C2 M α T := by
  unfold fgwObjective fgwCost
  congr 1
  unfold Spec.inner cost
  rw [mul_sum]
  refine sum_congr rfl fun i _ => ?_
  rw [mul_sum]
  exact sum_congr rfl fun j _ => by ring

/-- Result of a run of the conditional gradient loop. -/
theorem cg_of {P : Optim.Problem ℝ (Fin n) (Fin m)} {N : ℕ} (hN : P.numItermax = N) {G0 : Fin n → Fin m → ℝ} {F : (Fin n → Fin m → ℝ) → Prop} {obj : (Fin n → Fin m → ℝ) → ℝ}
    (h : ∃ s, P.loop (max 1 N) (P.init G0) = some s ∧ F s.G ∧ s.losses.head? = some (obj s.G) ∧ obj s.G ≤ obj G0) :
    ∃ T, cg P G0 = some (T, obj T) ∧ F T ∧ obj T ≤ obj G0 := by
  obtain ⟨s, h1, h2, h3, h4⟩ := h
  refine ⟨s.G, ?_, h2, h4⟩
  unfold cg
  rw [hN, h1]
  simp [h3]

theorem feat_none {c : SolveGromov.Call n m} (h : c.M = none ∨ c.alpha = 1) : feat c = none := by
  unfold feat
  rcases h with h | h
  · rw [h]; simp
  · rw [if_pos h]

theorem feat_some {c : SolveGromov.Call n m} {M : Fin n → Fin m → ℝ} (h : c.M = some M) (h1 : c.alpha ≠ 1) : feat c = some M := by
  unfold feat
  rw [if_neg h1, h]

/-- With `alpha = 1` the features do not count. -/
theorem objective_plain {g : ℝ} {c : SolveGromov.Call n m} (h : c.M = none ∨ c.alpha = 1) (T : Fin n → Fin m → ℝ) :
    gwObjectiveOf g c T = gwEnergy (gwLossOf g c.loss) c.Ca c.Cb T ∧ gwQuadOf g c T = gwEnergy (gwLossOf g c.loss) c.Ca c.Cb T ∧ gwLinearOf c T = 0 := by
  unfold gwObjectiveOf gwQuadOf gwLinearOf
  cases hM : c.M with
  | none => exact ⟨rfl, rfl, rfl⟩
  | some M =>
    have h1 : c.alpha = 1 := by simpa [hM] using h
    simp [h1, fgwCost]

theorem objective_fused {g : ℝ} {c : SolveGromov.Call n m} {M : Fin n → Fin m → ℝ} (h : c.M = some M) (T : Fin n → Fin m → ℝ) :
    gwObjectiveOf g c T = fgwCost (gwLossOf g c.loss) c.Ca c.Cb M c.alpha T ∧ gwQuadOf g c T = c.alpha * gwEnergy (gwLossOf g c.loss) c.Ca c.Cb T ∧
      gwLinearOf c T = (1 - c.alpha) * cost M T := by
  unfold gwObjectiveOf gwQuadOf gwLinearOf
  rw [h]
  exact ⟨rfl, rfl, rfl⟩

/-- The value is the sum of its parts. -/
theorem objective_parts (g : ℝ) (c : SolveGromov.Call n m) (T : Fin n → Fin m → ℝ) : gwObjectiveOf g c T = gwLinearOf c T + gwQuadOf g c T := by
  unfold gwObjectiveOf gwQuadOf gwLinearOf fgwCost
  cases c.M with
  | none => simp
  | some M => rfl

theorem kind_balanced {c : SolveGromov.Call n m} (h : gwKindOf c = .balanced) : c.unbalanced = none ∧ c.unbType ≠ .semirelaxed := by
  unfold gwKindOf at h
  cases hu : c.unbType <;> cases hb : c.unbalanced <;> simp [hu, hb] at h ⊢

theorem kind_semirelaxed {c : SolveGromov.Call n m} (h : gwKindOf c = .semirelaxed) : c.unbType = .semirelaxed := by
  unfold gwKindOf at h
  cases hu : c.unbType <;> cases hb : c.unbalanced <;> simp [hu, hb] at h ⊢

theorem kind_partial {c : SolveGromov.Call n m} {mm : ℝ} (h : gwKindOf c = .partialMass mm) : c.unbalanced = some mm ∧ c.unbType ≠ .semirelaxed := by
  unfold gwKindOf at h
  cases hu : c.unbType <;> cases hb : c.unbalanced <;> simp [hu, hb] at h ⊢ <;> exact h

section Branches

variable {e : SolveGromov.Ext n m} {c : SolveGromov.Call n m} {a : Fin n → ℝ} {b : Fin m → ℝ} {D : Decomp ℝ}

theorem solve_balanced (ha : c.a = some a) (hb : c.b = some b) (hD : decomp e.klGuard c.loss = some D) (hk : gwKindOf c = .balanced) :
    solveGromov e c = if c.reg.getD 0 = 0 then exactBalanced e D c a b else entropicBalanced e D c a b (c.reg.getD 0) := by
  unfold solveGromov
  simp only [ha, hb, hD, Option.getD_some, if_pos (kind_balanced hk)]

theorem solve_semirelaxed (ha : c.a = some a) (hD : decomp e.klGuard c.loss = some D) (hk : gwKindOf c = .semirelaxed) :
    solveGromov e c = if c.reg.getD 0 = 0 then exactSemirelaxed e D c a else entropicSemirelaxed e D c a (c.reg.getD 0) := by
  have h := kind_semirelaxed hk
  unfold solveGromov
  simp only [ha, hD, Option.getD_some, h]
  simp

theorem solve_partial (ha : c.a = some a) (hb : c.b = some b) (hD : decomp e.klGuard c.loss = some D) {mm : ℝ} (hk : gwKindOf c = .partialMass mm) (hu : c.unbType = .partial_) :
    solveGromov e c = if c.reg.getD 0 = 0 then exactPartial e D c a b mm else entropicPartialG e D c a b (c.reg.getD 0) mm := by
  have h := kind_partial hk
  unfold solveGromov
  simp only [ha, hb, hD, Option.getD_some, h.1, hu]
  simp

/-- What the exact branches guarantee. -/
def ExactResult (g : ℝ) (c : SolveGromov.Call n m) (F : (Fin n → Fin m → ℝ) → Prop) (G0 : Fin n → Fin m → ℝ) (o : Outcome n m) : Prop :=
  ∃ r, o = .ok r ∧ F r.plan ∧ r.value = gwObjectiveOf g c r.plan ∧ gwObjectiveOf g c r.plan ≤ gwObjectiveOf g c G0 ∧
    r.valueQuad = some (gwQuadOf g c r.plan) ∧ (∀ x, r.valueLinear = some x → x = gwLinearOf c r.plan) ∧
    (c.M ≠ none → (∀ mm, gwKindOf c = .partialMass mm → c.alpha ≠ 1) → r.valueLinear = some (gwLinearOf c r.plan))

theorem exactBalanced_ok (hs : InnerSolversOk e a b) (hS : ∑ i, a i = ∑ j, b j) (hD : decomp e.klGuard c.loss = some D)
    (hsym : c.symmetric = true → (∀ i k, c.Ca i k = c.Ca k i) ∧ ∀ j l, c.Cb j l = c.Cb l j) (h0 : IsCoupling a b (c.planInit.getD (Optim.outer a b)))
    (hα : c.M = none ∨ c.alpha ≠ 0) : ExactResult e.klGuard c (IsCoupling a b) (c.planInit.getD (Optim.outer a b)) (exactBalanced e D c a b) := by
  have hL := decomp_loss hD
  unfold exactBalanced
  by_cases hp : c.M = none ∨ c.alpha = 1
  · obtain ⟨T, h1, h2, h3⟩ := cg_of rfl (C36_fgw_returned c.symmetric D c.Ca c.Cb hsym a b (fun _ _ => 0) 1 (e.lp a b) (hs.lp hS) (c.maxIter.getD 10000)
      (c.tol.getD (1 / 10 ^ 9)) (c.tol.getD (1 / 10 ^ 9)) _ h0)
    simp only [feat_none hp, h1]
    refine ⟨_, rfl, h2, ?_, ?_, ?_, ?_, ?_⟩
    · dsimp only
      rw [(objective_plain hp T).1, fgwObjective_zero, hL]
    · rw [(objective_plain hp _).1, (objective_plain hp _).1, ← hL]
      rwa [fgwObjective_zero, fgwObjective_zero] at h3
    · dsimp only
      rw [(objective_plain hp T).2.1, fgwObjective_zero, hL]
    · intro x hx
      dsimp only at hx ⊢
      rw [(objective_plain (g := e.klGuard) hp T).2.2]
      split at hx
      · exact (Option.some.inj hx).symm
      · exact absurd hx (by simp)
    · intro hM _
      dsimp only
      rw [(objective_plain (g := e.klGuard) hp T).2.2, if_pos (hp.resolve_left hM)]
  · push Not at hp
    obtain ⟨M, hM⟩ := Option.ne_none_iff_exists'.1 hp.1
    have h0' : c.alpha ≠ 0 := hα.resolve_left hp.1
    obtain ⟨T, h1, h2, h3⟩ := cg_of rfl (C36_fgw_returned c.symmetric D c.Ca c.Cb hsym a b (fun i j => (1 - c.alpha) * M i j) c.alpha (e.lp a b) (hs.lp hS) (c.maxIter.getD 10000)
      (c.tol.getD (1 / 10 ^ 9)) (c.tol.getD (1 / 10 ^ 9)) _ h0)
    simp only [feat_some hM hp.2, h1, if_neg h0']
    rw [fgwObjective_scaled, fgwObjective_scaled, hL] at h3
    refine ⟨_, rfl, h2, ?_, ?_, ?_, ?_, ?_⟩
    · dsimp only
      rw [(objective_fused hM T).1, fgwObjective_scaled, hL]
    · rwa [(objective_fused hM _).1, (objective_fused hM _).1]
    · dsimp only
      rw [(objective_fused hM T).2.1, fgwObjective_scaled, hL, dot_cost]
      unfold fgwCost
      congr 1; ring
    · intro x hx
      dsimp only at hx ⊢
      rw [(objective_fused (g := e.klGuard) hM T).2.2, ← Option.some.inj hx, dot_cost, mul_comm]
    · intro _ _
      dsimp only
      rw [(objective_fused (g := e.klGuard) hM T).2.2, dot_cost, mul_comm]

theorem exactSemirelaxed_ok (ha : ∀ i, 0 ≤ a i) (ht : 0 ≤ e.srTol) (hD : decomp e.klGuard c.loss = some D)
    (h0 : GwKind.semirelaxed.Feasible a b (c.planInit.getD fun i _ => a i * (1 / m))) :
    ExactResult e.klGuard c (GwKind.semirelaxed.Feasible a b) (c.planInit.getD fun i _ => a i * (1 / m)) (exactSemirelaxed e D c a) := by
  have hL := decomp_loss hD
  unfold exactSemirelaxed
  by_cases hp : c.M = none ∨ c.alpha = 1
  · obtain ⟨T, h1, h2, h3⟩ := cg_of (F := GwKind.semirelaxed.Feasible a b) rfl (C36_semirelaxed_returned c.symmetric D c.Ca c.Cb a ha (fun _ _ => 0) 1 e.srTol ht (c.maxIter.getD 10000)
      (c.tol.getD (1 / 10 ^ 9)) (c.tol.getD (1 / 10 ^ 9)) _ h0)
    simp only [feat_none hp, h1]
    refine ⟨_, rfl, h2, ?_, ?_, ?_, ?_, ?_⟩
    · dsimp only
      rw [(objective_plain hp T).1, fgwObjective_zero, hL]
    · rw [(objective_plain hp _).1, (objective_plain hp _).1, ← hL]
      rwa [fgwObjective_zero, fgwObjective_zero] at h3
    · dsimp only
      rw [(objective_plain hp T).2.1, fgwObjective_zero, hL]
    · intro x hx
      dsimp only at hx ⊢
      rw [(objective_plain (g := e.klGuard) hp T).2.2]
      split at hx
      · exact (Option.some.inj hx).symm
      · exact absurd hx (by simp)
    · intro hM _
      dsimp only
      rw [(objective_plain (g := e.klGuard) hp T).2.2, if_pos (hp.resolve_left hM)]
  · push Not at hp
    obtain ⟨M, hM⟩ := Option.ne_none_iff_exists'.1 hp.1
    obtain ⟨T, h1, h2, h3⟩ := cg_of (F := GwKind.semirelaxed.Feasible a b) rfl (C36_semirelaxed_returned c.symmetric D c.Ca c.Cb a ha (fun i j => (1 - c.alpha) * M i j) c.alpha e.srTol ht (c.maxIter.getD 10000)
      (c.tol.getD (1 / 10 ^ 9)) (c.tol.getD (1 / 10 ^ 9)) _ h0)
    simp only [feat_some hM hp.2, h1]
    rw [fgwObjective_scaled, fgwObjective_scaled, hL] at h3
    refine ⟨_, rfl, h2, ?_, ?_, ?_, ?_, ?_⟩
    · dsimp only
      rw [(objective_fused hM T).1, fgwObjective_scaled, hL]
    · rwa [(objective_fused hM _).1, (objective_fused hM _).1]
    · dsimp only
      rw [(objective_fused hM T).2.1, fgwObjective_scaled, hL, dot_cost]
      unfold fgwCost
      congr 1; ring
    · intro x hx
      dsimp only at hx ⊢
      rw [(objective_fused (g := e.klGuard) hM T).2.2, ← Option.some.inj hx, dot_cost, mul_comm]
    · intro _ _
      dsimp only
      rw [(objective_fused (g := e.klGuard) hM T).2.2, dot_cost, mul_comm]

theorem isPartial_iff {mm : ℝ} {T : Fin n → Fin m → ℝ} : (IsPartial a b T ∧ mass T = mm) ↔ IsPartialOf a b mm T :=
  ⟨fun h => ⟨h.1.nonneg, h.1.row, h.1.col, h.2⟩, fun h => ⟨⟨h.nonneg, h.row, h.col⟩, h.mass⟩⟩

theorem exactPartial_ok (hs : InnerSolversOk e a b) {mm : ℝ} (hk : gwKindOf c = .partialMass mm) (hm0 : 0 ≤ mm) (hma : mm ≤ ∑ i, a i) (hmb : mm ≤ ∑ j, b j) (hD : decomp e.klGuard c.loss = some D)
    (hsym : c.symmetric = true → (∀ i k, c.Ca i k = c.Ca k i) ∧ ∀ j l, c.Cb j l = c.Cb l j)
    (h0 : IsPartialOf a b mm (c.planInit.getD fun i j => a i * b j * mm / ((∑ i, a i) * ∑ j, b j))) :
    ExactResult e.klGuard c (IsPartialOf a b mm) (c.planInit.getD fun i j => a i * b j * mm / ((∑ i, a i) * ∑ j, b j)) (exactPartial e D c a b mm) := by
  have hL := decomp_loss hD
  unfold exactPartial
  rw [if_neg (by push Not; exact ⟨hma, hmb⟩), if_neg (not_lt.2 hm0)]
  have hst : partialStart a b mm c.planInit = some (c.planInit.getD fun i j => a i * b j * mm / ((∑ i, a i) * ∑ j, b j)) := by
    cases hpi : c.planInit with
    | none => rfl
    | some G =>
      rw [hpi] at h0
      simp only [Option.getD_some] at h0 ⊢
      unfold partialStart
      exact if_pos ⟨h0.row, h0.col⟩
  have hpw : ∀ N, IsPartial a b (e.pw a b mm N) ∧ mass (e.pw a b mm N) = mm := fun N => isPartial_iff.2 (hs.pw mm hm0 hma hmb N)
  dsimp only
  rw [hst]
  by_cases hp : c.M = none ∨ c.alpha = 1
  · obtain ⟨T, h1, h2, h3⟩ := cg_of (F := fun T => IsPartial a b T ∧ mass T = mm) rfl (C36_partial_returned c.symmetric D c.Ca c.Cb hsym a b mm (fun _ _ => 0) 1 (e.pw a b mm) hpw (c.maxIter.getD 1000)
      (c.tol.getD (1 / 10 ^ 7)) 0 _ (isPartial_iff.2 h0))
    simp only [feat_none hp, h1]
    refine ⟨_, rfl, isPartial_iff.1 h2, ?_, ?_, ?_, ?_, ?_⟩
    · dsimp only
      rw [(objective_plain hp T).1, fgwObjective_zero, hL]
    · rw [(objective_plain hp _).1, (objective_plain hp _).1, ← hL]
      rwa [fgwObjective_zero, fgwObjective_zero] at h3
    · dsimp only
      rw [(objective_plain hp T).2.1, fgwObjective_zero, hL]
    · intro x hx
      exact absurd hx (by simp)
    · intro hM h
      exact absurd (hp.resolve_left hM) (h mm hk)
  · push Not at hp
    obtain ⟨M, hM⟩ := Option.ne_none_iff_exists'.1 hp.1
    obtain ⟨T, h1, h2, h3⟩ := cg_of (F := fun T => IsPartial a b T ∧ mass T = mm) rfl (C36_partial_returned c.symmetric D c.Ca c.Cb hsym a b mm (fun i j => (1 - c.alpha) * M i j) c.alpha (e.pw a b mm) hpw (c.maxIter.getD 1000)
      (c.tol.getD (1 / 10 ^ 7)) 0 _ (isPartial_iff.2 h0))
    simp only [feat_some hM hp.2, h1]
    rw [fgwObjective_scaled, fgwObjective_scaled, hL] at h3
    refine ⟨_, rfl, isPartial_iff.1 h2, ?_, ?_, ?_, ?_, ?_⟩
    · dsimp only
      rw [(objective_fused hM T).1, fgwObjective_scaled, hL]
    · rwa [(objective_fused hM _).1, (objective_fused hM _).1]
    · dsimp only
      rw [(objective_fused hM T).2.1, fgwObjective_scaled, hL, dot_cost]
      unfold fgwCost
      congr 1; ring
    · intro x hx
      dsimp only at hx ⊢
      rw [(objective_fused (g := e.klGuard) hM T).2.2, ← Option.some.inj hx, dot_cost, mul_comm]
    · intro _ _
      dsimp only
      rw [(objective_fused (g := e.klGuard) hM T).2.2, dot_cost, mul_comm]

end Branches

/-- The default start is feasible. -/
theorem product_feasible {c : SolveGromov.Call n m} {a : Fin n → ℝ} {b : Fin m → ℝ} (hc : CallOk c a b) (hone : gwKindOf c = .balanced → ∑ i, a i = 1) :
    (gwKindOf c).Feasible a b ((gwKindOf c).product a b) := by
  have hk := hc.kind
  cases h : gwKindOf c with
  | balanced =>
    rw [h] at hk
    have h1 := hone h
    have h2 : ∑ j, b j = 1 := hk ▸ h1
    exact ⟨fun i j => mul_nonneg (hc.pos.1 i).le (hc.pos.2 j).le, fun i => by simp only [GwKind.product]; rw [← mul_sum, h2, mul_one],
      fun j => by simp only [GwKind.product]; rw [← sum_mul, h1, one_mul]⟩
  | semirelaxed =>
    refine ⟨fun i j => mul_nonneg (hc.pos.1 i).le (by positivity), fun i => ?_⟩
    have : (m : ℝ) ≠ 0 := Nat.cast_ne_zero.2 (NeZero.ne m)
    simp only [GwKind.product, sum_const, card_univ, Fintype.card_fin, nsmul_eq_mul]
    field_simp
  | partialMass mm =>
    rw [h] at hk
    exact epStart_ok (fun i => (hc.pos.1 i).le) (fun j => (hc.pos.2 j).le) (hk.2.1.trans_le hk.2.2.1) (hk.2.1.trans_le hk.2.2.2) hk.2.1.le hk.2.2.1 hk.2.2.2

/-- **C90, exact problems (`reg` absent or 0).** Balanced, semi-relaxed and partial, with and without features: the call returns; the plan satisfies the constraints; `value` is the objective
`(1 - alpha) ⟨M, T⟩ + alpha GW(T)` of this plan (`GW(T)` without features), not larger than at the start; `value_quad` is its quadratic part; `value_linear` is its linear part where it is set, and it is set whenever features are
given, apart from the partial problem with `alpha = 1`. (The balanced problem with `alpha = 0` is `C90_wasserstein`.) -/
theorem C90_exact {e : SolveGromov.Ext n m} {c : SolveGromov.Call n m} {a : Fin n → ℝ} {b : Fin m → ℝ} (hs : InnerSolversOk e a b) (ht : 0 ≤ e.srTol) (hc : CallOk c a b)
    (hreg : c.reg = none ∨ c.reg = some 0) (h0 : (gwKindOf c).Feasible a b (c.planInit.getD ((gwKindOf c).product a b))) (hα : gwKindOf c = .balanced → c.M = none ∨ c.alpha ≠ 0) :
    ∃ r, solveGromov e c = .ok r ∧ (gwKindOf c).Feasible a b r.plan ∧ r.value = gwObjectiveOf e.klGuard c r.plan ∧
      gwObjectiveOf e.klGuard c r.plan ≤ gwObjectiveOf e.klGuard c (c.planInit.getD ((gwKindOf c).product a b)) ∧
      r.valueQuad = some (gwQuadOf e.klGuard c r.plan) ∧ (∀ x, r.valueLinear = some x → x = gwLinearOf c r.plan) ∧
      (c.M ≠ none → (∀ mm, gwKindOf c = .partialMass mm → c.alpha ≠ 1) → r.valueLinear = some (gwLinearOf c r.plan)) := by
  have hr : c.reg.getD 0 = 0 := by rcases hreg with h | h <;> rw [h] <;> rfl
  obtain ⟨D, hD⟩ := decomp_some e.klGuard hc.loss
  have hk := hc.kind
  cases h : gwKindOf c with
  | balanced =>
    rw [h] at hk h0
    rw [solve_balanced hc.weights.1 hc.weights.2 hD h, if_pos hr]
    have := exactBalanced_ok hs hk hD hc.sym h0 (hα h)
    unfold ExactResult at this
    rwa [h] at this
  | semirelaxed =>
    rw [h] at h0
    rw [solve_semirelaxed hc.weights.1 hD h, if_pos hr]
    have e1 : GwKind.semirelaxed.product a b = fun i _ => a i * (1 / (m : ℝ)) := by
      funext i j; simp [GwKind.product]
    rw [e1] at h0 ⊢
    have := exactSemirelaxed_ok (e := e) (b := b) (fun i => (hc.pos.1 i).le) ht hD h0
    unfold ExactResult at this
    rwa [h] at this
  | partialMass mm =>
    rw [h] at hk h0
    rw [solve_partial hc.weights.1 hc.weights.2 hD h hk.1, if_pos hr]
    have := exactPartial_ok hs h hk.2.1.le hk.2.2.1 hk.2.2.2 hD hc.sym h0
    unfold ExactResult at this
    rwa [h] at this

/-- What the regularised branches guarantee. -/
def EntropicResult (g guard reg : ℝ) (c : SolveGromov.Call n m) (F : (Fin n → Fin m → ℝ) → Prop) (o : Outcome n m) : Prop :=
  ∃ r, o = .ok r ∧ F r.plan ∧ r.value = gwObjectiveOf g c r.plan + reg * guardedEntropy guard r.plan ∧
    r.valueQuad = some (gwQuadOf g c r.plan) ∧ (∀ x, r.valueLinear = some x → x = gwLinearOf c r.plan) ∧
    (c.M ≠ none → (∀ mm, gwKindOf c = .partialMass mm → c.alpha ≠ 1) → r.valueLinear = some (gwLinearOf c r.plan))

section Entropic

variable {e : SolveGromov.Ext n m} {c : SolveGromov.Call n m} {a : Fin n → ℝ} {b : Fin m → ℝ} {D : Decomp ℝ} {reg : ℝ}

theorem entropicBalanced_ok (ha : ∀ i, 0 < a i) (hb : ∀ j, 0 < b j) (hs : InnerSolversOk e a b) (hS : ∑ i, a i = ∑ j, b j) (hreg : 0 < reg) (hD : decomp e.klGuard c.loss = some D)
    (hent : c.regEntropy = true) (hmeth : c.method ≠ some .other) (hmi : 1 ≤ c.maxIter.getD 1000) (hα : c.M = none ∨ c.alpha ≠ 0) :
    EntropicResult e.klGuard e.guard reg c (IsCoupling a b) (entropicBalanced e D c a b reg) := by
  have hL := decomp_loss hD
  unfold entropicBalanced
  rw [if_pos hent]
  by_cases hp : c.M = none ∨ c.alpha = 1
  · simp only [feat_none hp, if_neg hmeth]
    have h2 := (C87_feasible (symmetric := c.symmetric) (D := D) (C1 := c.Ca) (C2 := c.Cb) (M := fun _ _ => 0) (α := 1) ha hb hS hreg (hs.sk hS reg hreg) (decide (c.method = some .ppa)) c.planInit hmi
      (tol := 1 / 10 ^ 9) (by norm_num)).1
    obtain ⟨T, hT⟩ : ∃ T, T = (entropicFgw c.symmetric D c.Ca c.Cb a b (fun _ _ => 0) 1 reg (decide (c.method = some .ppa)) (e.sk reg a b) c.planInit (c.maxIter.getD 1000) (1 / 10 ^ 9)).T := ⟨_, rfl⟩
    rw [← hT] at h2 ⊢
    rw [gwF_eq D c.Ca c.Cb h2.row h2.col, hL]
    refine ⟨_, rfl, h2, ?_, ?_, ?_, ?_⟩
    · dsimp only
      rw [(objective_plain hp T).1]; rfl
    · dsimp only
      rw [(objective_plain hp T).2.1]
    · intro x hx
      dsimp only at hx ⊢
      rw [(objective_plain (g := e.klGuard) hp T).2.2, ← Option.some.inj hx]
    · intro _ _
      dsimp only
      rw [(objective_plain (g := e.klGuard) hp T).2.2]
  · push Not at hp
    obtain ⟨M, hM⟩ := Option.ne_none_iff_exists'.1 hp.1
    have h0' : c.alpha ≠ 0 := hα.resolve_left hp.1
    simp only [feat_some hM hp.2, if_neg h0', if_neg hmeth]
    have h2 := (C87_feasible (symmetric := c.symmetric) (D := D) (C1 := c.Ca) (C2 := c.Cb) (M := M) (α := c.alpha) ha hb hS (show (0 : ℝ) < 1 / 10 by norm_num) (hs.sk hS (1 / 10) (by norm_num))
      (decide (c.method = some .ppa)) c.planInit hmi (tol := 1 / 10 ^ 9) (by norm_num)).1
    obtain ⟨T, hT⟩ : ∃ T, T = (entropicFgw c.symmetric D c.Ca c.Cb a b M c.alpha (1 / 10) (decide (c.method = some .ppa)) (e.sk (1 / 10) a b) c.planInit (c.maxIter.getD 1000) (1 / 10 ^ 9)).T := ⟨_, rfl⟩
    rw [← hT] at h2 ⊢
    rw [(C87_value h2).1, (C87_value h2).2, hL]
    refine ⟨_, rfl, h2, ?_, ?_, ?_, ?_⟩
    · dsimp only
      rw [(objective_fused hM T).1]; rfl
    · dsimp only
      rw [(objective_fused hM T).2.1]
    · intro x hx
      dsimp only at hx ⊢
      rw [(objective_fused (g := e.klGuard) hM T).2.2, ← Option.some.inj hx]
    · intro _ _
      dsimp only
      rw [(objective_fused (g := e.klGuard) hM T).2.2]

theorem entropicSemirelaxed_ok (ha : ∀ i, 0 < a i) (hD : decomp e.klGuard c.loss = some D)
    (h0 : ∀ G, c.planInit = some G → (∀ i, ∑ j, G i j = a i) ∧ ∀ i j, 0 < G i j) (hent : c.regEntropy = true ∨ c.M ≠ none) :
    EntropicResult e.klGuard e.guard reg c (GwKind.semirelaxed.Feasible a b) (entropicSemirelaxed e D c a reg) := by
  have hL := decomp_loss hD
  unfold entropicSemirelaxed
  dsimp only
  by_cases hp : c.regEntropy = true ∧ feat c = none
  · rw [if_pos hp]
    have hp' : c.M = none ∨ c.alpha = 1 := by
      by_contra h
      push Not at h
      obtain ⟨M, hM⟩ := Option.ne_none_iff_exists'.1 h.1
      rw [feat_some hM h.2] at hp
      exact absurd hp.2 (by simp)
    have h2 := C88_feasible (symmetric := c.symmetric) (D := D) (C1 := c.Ca) (C2 := c.Cb) (M := fun _ _ => 0) (α := 1) (ε := reg) ha c.planInit h0 (c.maxIter.getD 1000) (c.tol.getD (1 / 10 ^ 9))
    obtain ⟨T, hT⟩ : ∃ T, T = (entropicSr c.symmetric D c.Ca c.Cb a (fun _ _ => 0) 1 reg c.planInit (c.maxIter.getD 1000) (c.tol.getD (1 / 10 ^ 9))).T := ⟨_, rfl⟩
    rw [← hT] at h2 ⊢
    rw [srF_eq D c.Ca c.Cb h2.1, hL]
    refine ⟨_, rfl, ⟨fun i j => (h2.2.1 i j).le, h2.1⟩, ?_, ?_, ?_, ?_⟩
    · dsimp only
      rw [(objective_plain hp' T).1]; rfl
    · dsimp only
      rw [(objective_plain hp' T).2.1]
    · intro x hx
      dsimp only at hx ⊢
      rw [(objective_plain (g := e.klGuard) hp' T).2.2, ← Option.some.inj hx]
    · intro _ _
      dsimp only
      rw [(objective_plain (g := e.klGuard) hp' T).2.2]
  · rw [if_neg hp]
    have hM0 : c.M ≠ none := by
      rcases hent with h | h
      · intro h'
        exact hp ⟨h, feat_none (.inl h')⟩
      · exact h
    obtain ⟨M, hM⟩ := Option.ne_none_iff_exists'.1 hM0
    rw [hM]
    dsimp only
    have h2 := C88_feasible (symmetric := c.symmetric) (D := D) (C1 := c.Ca) (C2 := c.Cb) (M := M) (α := c.alpha) (ε := 1 / 10) ha c.planInit h0 (c.maxIter.getD 1000) (c.tol.getD (1 / 10 ^ 9))
    obtain ⟨T, hT⟩ : ∃ T, T = (entropicSr c.symmetric D c.Ca c.Cb a M c.alpha (1 / 10) c.planInit (c.maxIter.getD 1000) (c.tol.getD (1 / 10 ^ 9))).T := ⟨_, rfl⟩
    rw [← hT] at h2 ⊢
    rw [h2.2.2, hL]
    refine ⟨_, rfl, ⟨fun i j => (h2.2.1 i j).le, h2.1⟩, ?_, ?_, ?_, ?_⟩
    · dsimp only
      rw [(objective_fused hM T).1]; rfl
    · dsimp only
      rw [(objective_fused hM T).2.1]
    · intro x hx
      dsimp only at hx ⊢
      rw [(objective_fused (g := e.klGuard) hM T).2.2, ← Option.some.inj hx]
    · intro _ _
      dsimp only
      rw [(objective_fused (g := e.klGuard) hM T).2.2]

theorem entropicPartialG_ok (hs : InnerSolversOk e a b) {mm : ℝ} (hk : gwKindOf c = .partialMass mm) (hm0 : 0 < mm) (hma : mm ≤ ∑ i, a i) (hmb : mm ≤ ∑ j, b j) (hreg : 0 < reg)
    (hD : decomp e.klGuard c.loss = some D) (h0 : ∀ G, c.planInit = some G → (∃ i, ∑ j, G i j ≤ a i) ∧ ∃ j, ∑ i, G i j ≤ b j)
    (hmi : 1 ≤ c.maxIter.getD 1000) (ht : c.tol.getD (1 / 10 ^ 7) < 1) :
    EntropicResult e.klGuard e.guard reg c (IsPartialOf a b mm) (entropicPartialG e D c a b reg mm) := by
  have hL := decomp_loss hD
  unfold entropicPartialG
  rw [if_neg (by push Not; exact ⟨hma, hmb⟩)]
  have hx : epMass a b (some mm) = some mm := by
    rw [epMass_some, if_neg (not_lt.2 hm0.le), if_neg (not_lt.2 (le_min hma hmb))]
  obtain ⟨G, hG⟩ : ∃ G, epStart a b mm c.planInit = some G := by
    cases hpi : c.planInit with
    | none => exact ⟨_, rfl⟩
    | some G => exact ⟨G, if_pos (h0 G hpi)⟩
  have hsk := hs.epw reg mm hreg hm0 hma hmb
  by_cases hp : c.M = none ∨ c.alpha = 1
  · simp only [feat_none hp]
    obtain ⟨s, hs'⟩ : ∃ s, entropicPartialGw c.symmetric D c.Ca c.Cb a b (e.epw reg a b) (some mm) c.planInit (c.maxIter.getD 1000) (c.tol.getD (1 / 10 ^ 7)) = some s := by
      unfold entropicPartialGw
      rw [hx]
      simp only [hG]
      exact ⟨_, rfl⟩
    have h2 := (C89_feasible (M := fun _ _ => 0) (α := 1) (some mm) hsk c.planInit hmi ht).1 s hs'
    rw [hs']
    dsimp only
    rw [(C89_value (M := fun _ _ => 0) (α := 1) s.T).1, hL]
    refine ⟨_, rfl, h2, ?_, ?_, ?_, ?_⟩
    · dsimp only
      rw [(objective_plain hp s.T).1]; rfl
    · dsimp only
      rw [(objective_plain hp s.T).2.1]
    · intro x hx
      exact absurd hx (by simp)
    · intro hM h
      exact absurd (hp.resolve_left hM) (h mm hk)
  · push Not at hp
    obtain ⟨M, hM⟩ := Option.ne_none_iff_exists'.1 hp.1
    simp only [feat_some hM hp.2]
    obtain ⟨s, hs'⟩ : ∃ s, entropicPartialFgw c.symmetric D c.Ca c.Cb a b M c.alpha (e.epw reg a b) (some mm) c.planInit (c.maxIter.getD 1000) (c.tol.getD (1 / 10 ^ 7)) = some s := by
      unfold entropicPartialFgw
      rw [hx]
      simp only [hG]
      exact ⟨_, rfl⟩
    have h2 := (C89_feasible (some mm) hsk c.planInit hmi ht).2 s hs'
    rw [hs']
    dsimp only
    rw [(C89_value (M := M) (α := c.alpha) s.T).2, hL]
    refine ⟨_, rfl, h2, ?_, ?_, ?_, ?_⟩
    · dsimp only
      rw [(objective_fused hM s.T).1]; rfl
    · dsimp only
      rw [(objective_fused hM s.T).2.1, dot_cost]
      unfold fgwCost
      congr 1; ring
    · intro x hx
      dsimp only at hx ⊢
      rw [(objective_fused (g := e.klGuard) hM s.T).2.2, ← Option.some.inj hx, dot_cost, mul_comm]
    · intro _ _
      dsimp only
      rw [(objective_fused (g := e.klGuard) hM s.T).2.2, dot_cost, mul_comm]

end Entropic

/-- **C90, regularised problems (`reg > 0`).** The call returns; the plan satisfies the constraints; `value` is the objective of this plan plus `reg ∑ T log (T + 1e-16)`; the parts are as in the exact case. Conditions: at least one
iteration is allowed, the tolerance of the partial solver is less than 1, and a given start is positive with the right row sums (semi-relaxed), or passes the check of the code (partial). -/
theorem C90_entropic {e : SolveGromov.Ext n m} {c : SolveGromov.Call n m} {a : Fin n → ℝ} {b : Fin m → ℝ} (hs : InnerSolversOk e a b) (hc : CallOk c a b) {reg : ℝ} (hreg : 0 < reg) (hr : c.reg = some reg)
    (hmi : 1 ≤ c.maxIter.getD 1000)
    (hargs : match gwKindOf c with
      | .balanced => c.regEntropy = true ∧ c.method ≠ some .other ∧ (c.M = none ∨ c.alpha ≠ 0)
      | .semirelaxed => (c.regEntropy = true ∨ c.M ≠ none) ∧ ∀ G, c.planInit = some G → (∀ i, ∑ j, G i j = a i) ∧ ∀ i j, 0 < G i j
      | .partialMass _ => c.tol.getD (1 / 10 ^ 7) < 1 ∧ ∀ G, c.planInit = some G → (∃ i, ∑ j, G i j ≤ a i) ∧ ∃ j, ∑ i, G i j ≤ b j) :
    ∃ r, solveGromov e c = .ok r ∧ (gwKindOf c).Feasible a b r.plan ∧ r.value = gwObjectiveOf e.klGuard c r.plan + reg * guardedEntropy e.guard r.plan ∧
      r.valueQuad = some (gwQuadOf e.klGuard c r.plan) ∧ (∀ x, r.valueLinear = some x → x = gwLinearOf c r.plan) ∧
      (c.M ≠ none → (∀ mm, gwKindOf c = .partialMass mm → c.alpha ≠ 1) → r.valueLinear = some (gwLinearOf c r.plan)) := by
  have hr' : c.reg.getD 0 = reg := by rw [hr]; rfl
  obtain ⟨D, hD⟩ := decomp_some e.klGuard hc.loss
  have hk := hc.kind
  cases h : gwKindOf c with
  | balanced =>
    rw [h] at hk hargs
    rw [solve_balanced hc.weights.1 hc.weights.2 hD h, hr', if_neg hreg.ne']
    have := entropicBalanced_ok hc.pos.1 hc.pos.2 hs hk hreg hD hargs.1 hargs.2.1 hmi hargs.2.2
    unfold EntropicResult at this
    rwa [h] at this
  | semirelaxed =>
    rw [h] at hargs
    rw [solve_semirelaxed hc.weights.1 hD h, hr', if_neg hreg.ne']
    have := entropicSemirelaxed_ok (e := e) (b := b) (reg := reg) hc.pos.1 hD hargs.2 hargs.1
    unfold EntropicResult at this
    rwa [h] at this
  | partialMass mm =>
    rw [h] at hk hargs
    rw [solve_partial hc.weights.1 hc.weights.2 hD h hk.1, hr', if_neg hreg.ne']
    have := entropicPartialG_ok hs h hk.2.1 hk.2.2.1 hk.2.2.2 hreg hD hargs.2 hmi hargs.1
    unfold EntropicResult at this
    rwa [h] at this

/-! ### the balanced problem with `alpha = 0` -/

theorem alpha_zero_feat {c : SolveGromov.Call n m} {M : Fin n → Fin m → ℝ} (hM : c.M = some M) (hα : c.alpha = 0) : feat c = some M :=
  feat_some hM (by rw [hα]; norm_num)

/-- **C90, `alpha = 0`, exact.** The balanced problem with features and `alpha = 0` is linear transport: the call returns what `ot.solve` returns (C85): `value` and `value_linear` are the cost of the plan, `value_quad` is 0, and
either the plan is optimal up to the pivot tolerance, with potentials that certify it, or the iteration limit is reported. -/
theorem C90_wasserstein (e : SolveGromov.Ext n m) (he : 0 ≤ e.eps) (he8 : 8 * e.eps ≤ 1) (hf : 0 ≤ e.feps) (hmt : 0 < e.massTol) (hturns : 2 ^ (n * m + (n + m)) < e.turns)
    {c : SolveGromov.Call n m} {M : Fin n → Fin m → ℝ} {C : ℝ} (hM0 : ∀ i j, 0 ≤ M i j) (hMC : ∀ i j, M i j ≤ C) {a : Fin n → ℝ} {b : Fin m → ℝ} (hc : CallOk c a b) (hk : gwKindOf c = .balanced)
    (hM : c.M = some M) (hα : c.alpha = 0) (hreg : c.reg = none ∨ c.reg = some 0) :
    ∃ r, solveGromov e c = .ok r ∧ r.value = cost M r.plan ∧ r.valueLinear = some (cost M r.plan) ∧ r.valueQuad = some 0 ∧
      (r.status = some .optimal ∧ IsEpsOptimal (e.eps * (2 * (C + 1) * (n + m)) * ∑ i, a i) a b M r.plan ∧
          (∃ u v, r.potentials = some (u, v) ∧ (∀ i j, u i + v j ≤ M i j + e.eps * (2 * (C + 1) * (n + m))) ∧ dualValue a b u v = r.value) ∨
        r.status = some .maxIter ∧ c.maxIter ≠ some 0 ∧ IsPartial a b r.plan) := by
  have hr : c.reg.getD 0 = 0 := by rcases hreg with h | h <;> rw [h] <;> rfl
  obtain ⟨D, hD⟩ := decomp_some e.klGuard hc.loss
  have hS := hc.kind
  rw [hk] at hS
  have hpa : 0 < ∑ i, a i := sum_pos (fun i _ => hc.pos.1 i) univ_nonempty
  obtain ⟨r, h1, h2, h3, h4⟩ := C85_exact e.toExt he he8 hf hmt hturns hM0 hMC (fun i => (hc.pos.1 i).le) (fun j => (hc.pos.2 j).le) hpa hS (.inl rfl) none .entropy .kl c.maxIter none none c.tol .autodiff
  rw [solve_balanced hc.weights.1 hc.weights.2 hD hk, if_pos hr]
  unfold exactBalanced
  simp only [alpha_zero_feat hM hα, if_pos hα]
  simp only [Solve.solve, Option.getD_none, Option.getD_some, if_true] at h1
  revert h1
  split
  · simp
  · simp
  · rename_i r' hr'
    intro h1
    have h1 := Solve.Outcome.ok.inj h1
    subst h1
    dsimp only at h3 h4
    rw [hr']
    refine ⟨_, rfl, ?_, ?_, ?_, ?_⟩
    · exact h3
    · exact congrArg some h3
    · rfl
    · exact h4

/-- **C90, `alpha = 0`, entropic.** The plan, `value`, `value_linear` and the potentials are those of `ot.solve` with `reg_type="entropy"` (so C85 applies); `value_quad` is not set. -/
theorem C90_wasserstein_entropic (e : SolveGromov.Ext n m) {c : SolveGromov.Call n m} {M : Fin n → Fin m → ℝ} {a : Fin n → ℝ} {b : Fin m → ℝ} (hc : CallOk c a b) (hk : gwKindOf c = .balanced)
    (hM : c.M = some M) (hα : c.alpha = 0) {reg : ℝ} (hreg : 0 < reg) (hr : c.reg = some reg) (hent : c.regEntropy = true) {N : ℕ} (hN : c.maxIter = some (N + 1)) {tol : ℝ} (ht : c.tol = some tol) :
    ∃ r s, solveGromov e c = .ok r ∧ Solve.solve e.toExt M (some a) (some b) (some reg) none .entropy none .kl (some (N + 1)) none none (some tol) .autodiff = .ok s ∧
      r.plan = s.plan ∧ r.value = s.value ∧ r.valueLinear = some s.valueLinear ∧ r.potentials = s.potentials ∧ r.valueQuad = none := by
  obtain ⟨D, hD⟩ := decomp_some e.klGuard hc.loss
  have h := solve_entropic e.toExt true M a b hreg none .kl N none none tol (grad := .autodiff) (by simp)
  have hr' : c.reg.getD 0 = reg := by rw [hr]; rfl
  have hd : ∀ P : Fin n → Fin m → ℝ, dot P M = ∑ i, ∑ j, M i j * P i j := fun P => sum_congr rfl fun i _ => sum_congr rfl fun j _ => mul_comm _ _
  rw [solve_balanced hc.weights.1 hc.weights.2 hD hk, hr', if_neg hreg.ne']
  unfold entropicBalanced
  simp only [hent, if_true, alpha_zero_feat hM hα, if_pos hα, hN, ht, Option.getD_some, Nat.add_one_ne_zero, if_false]
  refine ⟨_, _, rfl, h, rfl, ?_, ?_, rfl, rfl⟩
  · simp only [hd]; rfl
  · simp only [hd]

/-! ### outcomes -/

/-- **C90, not implemented.** `NotImplementedError` is raised exactly for an unknown loss, for a mass together with an unbalanced type other than "semirelaxed" and "partial", and for a balanced regularised problem with another
regulariser than the entropy. -/
theorem C90_not_implemented (e : SolveGromov.Ext n m) (c : SolveGromov.Call n m) :
    solveGromov e c = .notImplemented ↔ c.loss = .other ∨ (c.unbalanced ≠ none ∧ c.unbType ≠ .semirelaxed ∧ c.unbType ≠ .partial_) ∨
      (c.reg.getD 0 ≠ 0 ∧ c.unbalanced = none ∧ c.unbType ≠ .semirelaxed ∧ c.regEntropy = false) := by
  have e1 : ∀ D a b, exactBalanced e D c a b ≠ .notImplemented := by
    intro D a b
    unfold exactBalanced
    dsimp only
    repeat' split
    all_goals simp
  have e2 : ∀ D a, exactSemirelaxed e D c a ≠ .notImplemented := by
    intro D a
    unfold exactSemirelaxed
    dsimp only
    repeat' split
    all_goals simp
  have e3 : ∀ D a b mm, exactPartial e D c a b mm ≠ .notImplemented := by
    intro D a b mm
    unfold exactPartial
    dsimp only
    repeat' split
    all_goals simp
  have e4 : ∀ D a b reg, entropicBalanced e D c a b reg = .notImplemented ↔ c.regEntropy = false := by
    intro D a b reg
    unfold entropicBalanced
    dsimp only
    cases c.regEntropy
    · simp
    · simp only [if_true]
      repeat' split
      all_goals simp
  have e5 : ∀ D a reg, entropicSemirelaxed e D c a reg ≠ .notImplemented := by
    intro D a reg
    unfold entropicSemirelaxed
    dsimp only
    repeat' split
    all_goals simp
  have e6 : ∀ D a b reg mm, entropicPartialG e D c a b reg mm ≠ .notImplemented := by
    intro D a b reg mm
    unfold entropicPartialG
    dsimp only
    repeat' split
    all_goals simp
  unfold solveGromov
  by_cases hl : c.loss = .other
  · rw [hl]
    simp [decomp]
  obtain ⟨D, hD⟩ := decomp_some e.klGuard hl
  rw [hD]
  dsimp only
  by_cases hr : c.reg.getD 0 = 0
  · rw [if_pos hr]
    by_cases h1 : c.unbalanced = none ∧ c.unbType ≠ .semirelaxed
    · rw [if_pos h1]
      simp [e1, hl, h1.1, hr]
    · rw [if_neg h1]
      by_cases h2 : c.unbType = .semirelaxed
      · rw [if_pos h2]
        simp [e2, hl, h2]
      · rw [if_neg h2]
        obtain ⟨mm, hmm⟩ := Option.ne_none_iff_exists'.1 fun h => h1 ⟨h, h2⟩
        rw [hmm]
        cases hu : c.unbType <;> simp [hl, hu, e3, hr] <;> exact absurd hu h2
  · rw [if_neg hr]
    by_cases h1 : c.unbalanced = none ∧ c.unbType ≠ .semirelaxed
    · rw [if_pos h1, e4]
      simp [hl, h1.1, hr, h1.2]
    · rw [if_neg h1]
      by_cases h2 : c.unbType = .semirelaxed
      · rw [if_pos h2]
        simp [e5, hl, h2]
      · rw [if_neg h2]
        obtain ⟨mm, hmm⟩ := Option.ne_none_iff_exists'.1 fun h => h1 ⟨h, h2⟩
        rw [hmm]
        cases hu : c.unbType <;> simp [hl, hu, e6, hr] <;> exact absurd hu h2

/-- **C90, impossible masses.** A negative mass, or one larger than that of one of the weights, is refused by the partial problems. -/
theorem C90_mass (e : SolveGromov.Ext n m) {c : SolveGromov.Call n m} {a : Fin n → ℝ} {b : Fin m → ℝ} (ha : c.a = some a) (hb : c.b = some b) (hl : c.loss ≠ .other) (hu : c.unbType = .partial_) {mm : ℝ}
    (hm : c.unbalanced = some mm) (hbad : mm < 0 ∨ ∑ i, a i < mm ∨ ∑ j, b j < mm) : solveGromov e c = .error := by
  obtain ⟨D, hD⟩ := decomp_some e.klGuard hl
  have hk : gwKindOf c = .partialMass mm := by unfold gwKindOf; rw [hu, hm]
  rw [solve_partial ha hb hD hk hu]
  by_cases h : mm > ∑ i, a i ∨ mm > ∑ j, b j
  · unfold exactPartial entropicPartialG
    rw [if_pos h, if_pos h, ite_self]
  · have h0 : mm < 0 := by
      rcases hbad with h' | h' | h'
      · exact h'
      · exact absurd (.inl h') h
      · exact absurd (.inr h') h
    have hx : epMass a b (some mm) = none := by rw [epMass_some, if_pos h0]
    unfold exactPartial entropicPartialG entropicPartialGw entropicPartialFgw
    rw [if_neg h, if_neg h, if_pos h0, hx]
    dsimp only
    cases feat c <;> simp

/-- **C90, default weights.** Without weights the call is the one with uniform weights of mass 1. -/
theorem C90_default_weights (e : SolveGromov.Ext n m) (c : SolveGromov.Call n m) : ∃ (a : Fin n → ℝ) (b : Fin m → ℝ), (∀ i i', a i = a i') ∧ (∀ j j', b j = b j') ∧ ∑ i, a i = 1 ∧ ∑ j, b j = 1 ∧
    (c.a = none → solveGromov e c = solveGromov e { c with a := some a }) ∧ (c.b = none → solveGromov e c = solveGromov e { c with b := some b }) := by
  refine ⟨fun _ => 1 / n, fun _ => 1 / m, fun _ _ => rfl, fun _ _ => rfl, by simp [NeZero.ne n], by simp [NeZero.ne m], fun h => ?_, fun h => ?_⟩
  · unfold solveGromov
    rw [h]; rfl
  · unfold solveGromov
    rw [h]; rfl

/-! ### descent of the entropic problem without features -/

/-- **C90, entropic balanced problem without features.** With the default method and a regularisation at least twice the curvature of the energy on the couplings (times the mass), the documented objective
`GW(T) + reg ∑ T log T` of the returned plan is not larger than at the start. -/
theorem C90_entropic_descent {e : SolveGromov.Ext n m} {c : SolveGromov.Call n m} {a : Fin n → ℝ} {b : Fin m → ℝ} (hs : InnerSolversOk e a b) (hc : CallOk c a b) (hk : gwKindOf c = .balanced) {reg : ℝ} (hreg : 0 < reg)
    (hr : c.reg = some reg) (hent : c.regEntropy = true) (hM : c.M = none ∨ c.alpha = 1) (hmeth : c.method = none ∨ c.method = some .pgd) {κ : ℝ} (hκ : CurvatureLe (gwLossOf e.klGuard c.loss) c.Ca c.Cb κ)
    (hcurv : 2 * (∑ i, a i) * κ ≤ reg) (h0 : IsCoupling a b (c.planInit.getD ((gwKindOf c).product a b))) :
    ∃ r, solveGromov e c = .ok r ∧ gwEnergy (gwLossOf e.klGuard c.loss) c.Ca c.Cb r.plan + reg * ∑ i, ∑ j, r.plan i j * Real.log (r.plan i j) ≤
      gwEnergy (gwLossOf e.klGuard c.loss) c.Ca c.Cb (c.planInit.getD ((gwKindOf c).product a b)) +
        reg * ∑ i, ∑ j, (c.planInit.getD ((gwKindOf c).product a b)) i j * Real.log ((c.planInit.getD ((gwKindOf c).product a b)) i j) := by
  have hr' : c.reg.getD 0 = reg := by rw [hr]; rfl
  obtain ⟨D, hD⟩ := decomp_some e.klGuard hc.loss
  have hL := decomp_loss hD
  have hS := hc.kind
  rw [hk] at hS h0 ⊢
  have hno : c.method ≠ some .other := by rcases hmeth with h | h <;> rw [h] <;> simp
  have hpp : decide (c.method = some .ppa) = false := by rcases hmeth with h | h <;> rw [h] <;> simp
  rw [solve_balanced hc.weights.1 hc.weights.2 hD hk, hr', if_neg hreg.ne']
  unfold entropicBalanced
  simp only [hent, if_true, feat_none hM, if_neg hno, hpp]
  rw [← hL] at hκ ⊢
  have hmono := (C87_pgd_monotone (symmetric := c.symmetric) (M := fun _ _ => 0) hc.sym hc.pos.1 hc.pos.2 hS hreg (hs.sk hS reg hreg) hκ zero_le_one (by rw [one_mul]; exact hcurv) c.planInit h0 (1 / 10 ^ 9)).2
    (c.maxIter.getD 1000)
  refine ⟨_, rfl, ?_⟩
  simp only [fgwEntropic, fgwCost, sub_self, zero_mul, one_mul, zero_add] at hmono
  exact hmono

/-! ### what does not hold -/

/-- The regularisation has no influence on the plan of the fused entropic problems, balanced and semi-relaxed: the solvers run with 0.1 whatever `reg` is. -/
theorem C90_reg_ignored (e : SolveGromov.Ext n m) {c : SolveGromov.Call n m} (hM : c.M ≠ none) (h0 : c.alpha ≠ 0) (h1 : c.alpha ≠ 1) (hent : c.regEntropy = true) (hmeth : c.method ≠ some .other)
    (hl : c.loss ≠ .other) (hk : gwKindOf c = .balanced ∨ gwKindOf c = .semirelaxed) {reg reg' : ℝ} (hr : reg ≠ 0) (hr' : reg' ≠ 0) :
    ∃ r r', solveGromov e { c with reg := some reg } = .ok r ∧ solveGromov e { c with reg := some reg' } = .ok r' ∧ r.plan = r'.plan := by
  obtain ⟨D, hD⟩ := decomp_some e.klGuard hl
  obtain ⟨M, hM⟩ := Option.ne_none_iff_exists'.1 hM
  unfold solveGromov
  rcases hk with hk | hk
  · have hk' := kind_balanced hk
    simp only [hD, Option.getD_some, hr, hr', if_false, hk'.1, ne_eq, hk'.2, not_false_eq_true, and_self, if_true, entropicBalanced, hent, feat, h0, h1, hM, hmeth]
    exact ⟨_, _, rfl, rfl, rfl⟩
  · have hk' := kind_semirelaxed hk
    simp only [hD, Option.getD_some, hr, hr', if_false, ne_eq, hk', not_true_eq_false, and_false, if_true, entropicSemirelaxed, hent, feat, h1, reduceCtorEq, hM]
    exact ⟨_, _, rfl, rfl, rfl⟩

/-- The tolerance has no influence on the entropic balanced problems: the solvers run with 1e-9 whatever `tol` is. -/
theorem C90_tol_ignored (e : SolveGromov.Ext n m) {c : SolveGromov.Call n m} (hk : gwKindOf c = .balanced) (hα : c.M = none ∨ c.alpha ≠ 0) (hr : c.reg.getD 0 ≠ 0) (tol tol' : Option ℝ) :
    solveGromov e { c with tol := tol } = solveGromov e { c with tol := tol' } := by
  have hk' := kind_balanced hk
  unfold solveGromov
  cases hD : decomp e.klGuard c.loss with
  | none => rfl
  | some D =>
    simp only [hr, if_false, hk'.1, ne_eq, hk'.2, not_false_eq_true, and_self, if_true, entropicBalanced, feat]
    by_cases h1 : c.alpha = 1
    · simp only [h1, if_true]
    · cases hM : c.M with
      | none => simp only [ite_self]
      | some M =>
        have h0 : c.alpha ≠ 0 := hα.resolve_left (by rw [hM]; simp)
        simp only [h0, h1, if_false]

theorem pgDf_zero (symmetric : Bool) (D : Decomp ℝ) (C1 : Fin n → Fin n → ℝ) (C2 : Fin m → Fin m → ℝ) : pgDf symmetric D C1 C2 (fun _ _ => 0) = fun _ _ => 0 := by
  funext i j
  cases symmetric <;> simp [pgDf, gwDf, gwggrad, tensorProduct, constC, dot3, rowSum, colSum]

theorem gwEnergy_zero (L : ℝ → ℝ → ℝ) (C1 : Fin n → Fin n → ℝ) (C2 : Fin m → Fin m → ℝ) : gwEnergy L C1 C2 (fun _ _ => 0) = 0 := by
  simp [gwEnergy]

/-- The conditional gradient method for the partial problem stays at the zero plan. -/
theorem cg_zero (symmetric : Bool) (C1 : Fin n → Fin n → ℝ) (C2 : Fin m → Fin m → ℝ) (hsym : symmetric = true → (∀ i k, C1 i k = C1 k i) ∧ (∀ j l, C2 j l = C2 l j)) (lp : (Fin n → Fin m → ℝ) → Fin n → Fin m → ℝ)
    (hlp : ∀ N i j, 0 ≤ lp N i j) (N : ℕ) (t1 t2 : ℝ) : cg (pgProblem symmetric square C1 C2 (fun _ _ => 0) 1 lp N t1 t2) (fun _ _ => 0) = some (fun _ _ => 0, 0) := by
  obtain ⟨P, hP⟩ : ∃ P, P = pgProblem symmetric square C1 C2 (fun _ _ => 0) 1 lp N t1 t2 := ⟨_, rfl⟩
  have hobj0 : fgwObjective (square : Decomp ℝ).loss C1 C2 (fun _ _ => 0) 1 (fun _ _ => (0 : ℝ)) = 0 := by rw [fgwObjective_zero, gwEnergy_zero]
  have hinv : ∀ k, (P.iter (fun _ _ => 0) k).G = (fun _ _ => 0) ∧ (P.iter (fun _ _ => 0) k).costG = 0 ∧ (P.iter (fun _ _ => 0) k).dfG.getD (fun _ _ => 0) = (fun _ _ => 0) ∧
      (P.iter (fun _ _ => 0) k).losses.head? = some 0 := by
    intro k
    induction k with
    | zero =>
      have : P.cost (fun _ _ => 0) = 0 := by
        rw [hP]
        simp [Optim.Problem.cost, pgProblem, pgF_eq, gwEnergy_zero]
      refine ⟨rfl, this, rfl, ?_⟩
      show some (P.cost fun _ _ => 0) = some 0
      rw [this]
    | succ k ih =>
      obtain ⟨h1, h2, h3, -⟩ := ih
      obtain ⟨s, hs⟩ : ∃ s, s = P.iter (fun _ _ => 0) k := ⟨_, rfl⟩
      have hst : P.iter (fun _ _ => 0) (k + 1) = P.step s := by rw [hs]; rfl
      rw [hst]
      rw [← hs] at h1 h2 h3
      have hdf : s.dfG.getD (P.df s.G) = fun _ _ => 0 := by
        cases hd : s.dfG with
        | none =>
          rw [h1, hP]
          exact pgDf_zero _ _ _ _
        | some d => rw [hd] at h3; exact h3
      obtain ⟨Gc, hGc⟩ : ∃ Gc, Gc = lp fun i j => P.M i j + P.reg1 * s.dfG.getD (P.df s.G) i j := ⟨_, rfl⟩
      have h0 := C39_linesearch_partial symmetric square C1 C2 hsym (fun _ _ => 0) 1 (fun _ _ => 0) Gc
      dsimp only at h0
      rw [hobj0, pgDf_zero] at h0
      obtain ⟨r, hr⟩ : ∃ r, r = pgLinesearch (fun _ _ => 0) 1 (fun i j => Gc i j - 0) (fun _ _ => 0) (pgDf symmetric square C1 C2 fun i j => Gc i j - 0 + 0) 0 := ⟨_, rfl⟩
      rw [← hr] at h0
      obtain ⟨g1, g2, g3, g4, g5⟩ := h0
      have hG : ∀ x : ℝ, 0 ≤ gwEnergy (square : Decomp ℝ).loss C1 C2 (fun i j => 0 + x * (Gc i j - 0)) := by
        intro x
        have : gwEnergy (square : Decomp ℝ).loss C1 C2 (fun i j => 0 + x * (Gc i j - 0)) = x ^ 2 * gwEnergy (square : Decomp ℝ).loss C1 C2 Gc := by
          unfold gwEnergy
          simp only [mul_sum]
          exact sum_congr rfl fun _ _ => sum_congr rfl fun _ _ => sum_congr rfl fun _ _ => sum_congr rfl fun _ _ => by ring
        rw [this]
        refine mul_nonneg (sq_nonneg _) (sum_nonneg fun i _ => sum_nonneg fun j _ => sum_nonneg fun k _ => sum_nonneg fun l _ => ?_)
        rw [square_loss']
        exact mul_nonneg (mul_nonneg (sq_nonneg _) (hGc ▸ hlp _ i j)) (hGc ▸ hlp _ k l)
      rw [fgwObjective_zero] at g3
      have hc0 : r.cost = 0 := by
        refine le_antisymm ?_ (g3 ▸ hG _)
        have := g4 0 le_rfl zero_le_one
        rw [fgwObjective_zero] at this
        simpa [gwEnergy_zero] using this
      have ha0 : r.alpha = 0 := by
        have hb : (pgLinesearchCoef (fun _ _ => 0) 1 (fun i j => Gc i j - 0) (fun _ _ => 0) (pgDf symmetric square C1 C2 fun i j => Gc i j - 0 + 0)).2 = 0 := by
          simp [pgLinesearchCoef]
        have hra : r.alpha = Optim.quadStep (pgLinesearchCoef (fun _ _ => 0) 1 (fun i j => Gc i j - 0) (fun _ _ => 0) (pgDf symmetric square C1 C2 fun i j => Gc i j - 0 + 0)).1
            (pgLinesearchCoef (fun _ _ => 0) 1 (fun i j => Gc i j - 0) (fun _ _ => 0) (pgDf symmetric square C1 C2 fun i j => Gc i j - 0 + 0)).2 := by rw [hr]; rfl
        have hrc : r.cost = 0 + (pgLinesearchCoef (fun _ _ => 0) 1 (fun i j => Gc i j - 0) (fun _ _ => 0) (pgDf symmetric square C1 C2 fun i j => Gc i j - 0 + 0)).1 * r.alpha ^ 2 +
            (pgLinesearchCoef (fun _ _ => 0) 1 (fun i j => Gc i j - 0) (fun _ _ => 0) (pgDf symmetric square C1 C2 fun i j => Gc i j - 0 + 0)).2 * r.alpha := by rw [hr]; rfl
        rw [hb] at hra hrc
        generalize (pgLinesearchCoef (fun _ _ => 0) 1 (fun i j => Gc i j - 0) (fun _ _ => 0) (pgDf symmetric square C1 C2 fun i j => Gc i j - 0 + 0)).1 = A at hra hrc
        unfold Optim.quadStep at hra
        split_ifs at hra with q1 q2
        · simpa using hra
        · rw [hra, hc0] at hrc
          linarith
        · exact hra
      have hls : P.lineSearch s.G (fun i j => Gc i j - s.G i j) (fun i j => P.M i j + P.reg1 * s.dfG.getD (P.df s.G) i j) s.costG (s.dfG.getD (P.df s.G)) = r := by
        rw [hdf, h1, h2, hr, hP]; rfl
      have hlp' : P.lpSolver (fun i j => P.M i j + P.reg1 * s.dfG.getD (P.df s.G) i j) = Gc := by rw [hGc, hP]; rfl
      have hstep : P.step s = { G := fun i j => s.G i j + r.alpha * (Gc i j - s.G i j), costG := r.cost, dfG := r.df, it := s.it + 1, losses := r.cost :: s.losses } := by
        unfold Optim.Problem.step
        dsimp only
        rw [hlp', hls]
      rw [hstep]
      refine ⟨?_, hc0, ?_, by simp [hc0]⟩
      · funext i j
        simp only [ha0, h1]; ring
      · dsimp only
        rw [g5]
        simp only [ha0, Option.getD_some, zero_mul, add_zero]
        exact pgDf_zero _ _ _ _
  obtain ⟨j, -, -, h3⟩ := P.loop_init (fun _ _ => 0)
  unfold cg
  rw [← hP, h3]
  simp [(hinv j).1, (hinv j).2.2.2]

/-- **The mass of a given start is not checked.** For every pair of structures the exact partial problem (square loss, no features) started from the zero plan returns the zero plan with value 0, whatever positive mass was
asked for. -/
theorem C90_partial_start_refuted {e : SolveGromov.Ext n m} {c : SolveGromov.Call n m} {a : Fin n → ℝ} {b : Fin m → ℝ} (hs : InnerSolversOk e a b) (hc : CallOk c a b) {mm : ℝ} (hk : gwKindOf c = .partialMass mm)
    (hreg : c.reg = none) (hl : c.loss = .l2) (hM : c.M = none) (h0 : c.planInit = some fun _ _ => 0) :
    0 < mm ∧ ∃ r, solveGromov e c = .ok r ∧ r.value = 0 ∧ ∑ i, ∑ j, r.plan i j = 0 := by
  have hkk := hc.kind
  rw [hk] at hkk
  refine ⟨hkk.2.1, ?_⟩
  have hD : decomp e.klGuard c.loss = some square := by rw [hl]; rfl
  rw [solve_partial hc.weights.1 hc.weights.2 hD hk hkk.1, hreg, Option.getD_none, if_pos rfl]
  unfold exactPartial
  rw [if_neg (by push Not; exact ⟨hkk.2.2.1, hkk.2.2.2⟩), if_neg (not_lt.2 hkk.2.1.le)]
  have hst : partialStart a b mm c.planInit = some fun _ _ => 0 := by
    rw [h0]
    unfold partialStart
    refine if_pos ⟨fun i => ?_, fun j => ?_⟩
    · simpa [rowSum] using (hc.pos.1 i).le
    · simpa [colSum] using (hc.pos.2 j).le
  simp only [hst, feat_none (.inl hM), cg_zero c.symmetric c.Ca c.Cb hc.sym (e.pw a b mm) (fun N => (hs.pw mm hkk.2.1.le hkk.2.2.1 hkk.2.2.2 N).nonneg)]
  exact ⟨_, rfl, rfl, by simp⟩

/-- **`value_linear` is missing** in the partial problems with features and `alpha = 1`. -/
theorem C90_parts_refuted {e : SolveGromov.Ext n m} {c : SolveGromov.Call n m} {a : Fin n → ℝ} {b : Fin m → ℝ} (hc : CallOk c a b) {mm : ℝ} (hk : gwKindOf c = .partialMass mm) (hα : c.alpha = 1)
    {r : Res n m} (hr : solveGromov e c = .ok r) : r.valueLinear = none := by
  have hkk := hc.kind
  rw [hk] at hkk
  obtain ⟨D, hD⟩ := decomp_some e.klGuard hc.loss
  rw [solve_partial hc.weights.1 hc.weights.2 hD hk hkk.1] at hr
  unfold exactPartial entropicPartialG at hr
  simp only [feat_none (.inr hα)] at hr
  repeat' split at hr
  all_goals first | rw [← Outcome.ok.inj hr] | cases hr

/-! ### the regularisation that is not passed on -/

/-- A two-point problem: no structure, features that favour the diagonal, `alpha = 1/2`, `reg = 10`. -/
noncomputable def regCall : SolveGromov.Call 2 2 where
  Ca := fun _ _ => 0
  Cb := fun _ _ => 0
  M := some fun i j => if i = j then 0 else 2
  a := some fun _ => 1 / 2
  b := some fun _ => 1 / 2
  loss := .l2
  symmetric := true
  alpha := 1 / 2
  reg := some 10
  regEntropy := true
  unbalanced := none
  unbType := .kl
  method := none
  maxIter := none
  planInit := none
  tol := none

theorem regCall_ok : CallOk regCall (fun _ => 1 / 2) (fun _ => 1 / 2) where
  weights := ⟨rfl, rfl⟩
  pos := ⟨fun _ => by norm_num, fun _ => by norm_num⟩
  loss := by simp [regCall]
  sym := fun _ => ⟨fun _ _ => rfl, fun _ _ => rfl⟩
  kind := rfl

theorem log_gibbs {p r : ℝ} (hp : 0 ≤ p) (hr : 0 < r) : p * Real.log r + p - r ≤ p * Real.log p := by
  rcases hp.eq_or_lt with rfl | hp
  · simp; exact hr.le
  · have h := Real.log_le_sub_one_of_pos (div_pos hr hp)
    rw [Real.log_div hr.ne' hp.ne'] at h
    have h2 := mul_le_mul_of_nonneg_left h hp.le
    have e : p * (r / p - 1) = r - p := by field_simp
    rw [e] at h2
    linarith

/-- **The plan of the fused entropic problem is not the regularised one.** With solvers that are exact, `ot.solve_gromov` with `reg = 10` returns a plan whose documented objective is more than 1 above that of another coupling: the
plan is the solution for 0.1. -/
theorem C90_reg_refuted (e : SolveGromov.Ext 2 2) (hs : InnerSolversOk e (fun _ => 1 / 2) (fun _ => 1 / 2)) :
    ∃ (r : Res 2 2) (Q : Fin 2 → Fin 2 → ℝ), solveGromov e regCall = .ok r ∧ IsCoupling (fun _ => 1 / 2) (fun _ => 1 / 2) Q ∧
      gwObjectiveOf e.klGuard regCall Q + 10 * ∑ i, ∑ j, Q i j * Real.log (Q i j) + 1
        < gwObjectiveOf e.klGuard regCall r.plan + 10 * ∑ i, ∑ j, r.plan i j * Real.log (r.plan i j) := by
  obtain ⟨N, hN⟩ : ∃ N : Fin 2 → Fin 2 → ℝ, N = fun i j => if i = j then 0 else 1 := ⟨_, rfl⟩
  obtain ⟨P, hPd⟩ : ∃ P, P = e.sk (1 / 10) (fun _ => 1 / 2) (fun _ => 1 / 2) N := ⟨_, rfl⟩
  have hP : IsEntropicOptimal (fun _ => 1 / 2) (fun _ => 1 / 2) N (1 / 10) P := hPd ▸ hs.sk rfl (1 / 10) (by norm_num) N
  have hstep : ∀ T, egwStep true square (fun _ _ => 0) (fun _ _ => 0) (fun _ : Fin 2 => (1 : ℝ) / 2) (fun _ : Fin 2 => (1 : ℝ) / 2) (fun i j => if i = j then 0 else 2) (1 / 2) (1 / 10) false
      (e.sk (1 / 10) (fun _ => 1 / 2) (fun _ => 1 / 2)) T = P := by
    intro T
    rw [hPd]
    unfold egwStep
    simp only [Bool.false_eq_true, if_false]
    congr 1
    funext i j
    rw [hN]
    fin_cases i <;> fin_cases j <;> simp [fgwGrad, gwDf, gwggrad, tensorProduct, constC, dot3, mapM, square] <;> norm_num
  have hT : (entropicFgw true square (fun _ _ => 0) (fun _ _ => 0) (fun _ : Fin 2 => (1 : ℝ) / 2) (fun _ : Fin 2 => (1 : ℝ) / 2) (fun i j => if i = j then 0 else 2) (1 / 2) (1 / 10) false
      (e.sk (1 / 10) (fun _ => 1 / 2) (fun _ => 1 / 2)) none 1000 (1 / 10 ^ 9)).T = P := by
    unfold entropicFgw
    rw [show (1000 : ℕ) = 999 + 1 from rfl, egwLoop_succ, if_pos (by norm_num)]
    exact egwLoop_inv (Inv := fun T => T = P) (fun T _ => hstep T) _ _ _ (hstep _)
  obtain ⟨r, hr, hrp⟩ : ∃ r, solveGromov e regCall = .ok r ∧ r.plan = P := by
    unfold solveGromov
    simp only [regCall, decomp, Option.getD_some, show (10 : ℝ) ≠ 0 by norm_num, if_false, ne_eq, reduceCtorEq, not_false_eq_true, and_self, if_true, entropicBalanced, feat, show (1 / 2 : ℝ) ≠ 1 by norm_num,
      show (1 / 2 : ℝ) ≠ 0 by norm_num, Option.getD_none, decide_false]
    exact ⟨_, rfl, hT⟩
  refine ⟨r, fun _ _ => 1 / 4, hr, ⟨fun _ _ => by norm_num, fun _ => by simp [Fin.sum_univ_two]; norm_num, fun _ => by simp [Fin.sum_univ_two]; norm_num⟩, ?_⟩
  rw [hrp]
  have hobj : ∀ T : Fin 2 → Fin 2 → ℝ, gwObjectiveOf e.klGuard regCall T = T 0 1 + T 1 0 := by
    intro T
    unfold gwObjectiveOf fgwCost
    simp [regCall, gwLossOf, cost, gwEnergy, sqLoss, Fin.sum_univ_two]
    ring
  rw [hobj, hobj]
  have hr0 := hP.1.row 0
  have hr1 := hP.1.row 1
  have hc0 := hP.1.col 0
  simp only [Fin.sum_univ_two] at hr0 hr1 hc0
  have h01 := hP.1.nonneg 0 1
  have h00 := hP.1.nonneg 0 0
  have e10 : P 1 0 = P 0 1 := by linarith
  have e00 : P 0 0 = 1 / 2 - P 0 1 := by linarith
  have e11 : P 1 1 = 1 / 2 - P 0 1 := by linarith
  have hopt := (hP.2 (fun i j => if i = j then 1 / 2 else 0) ⟨fun i j => by split <;> norm_num, fun i => by fin_cases i <;> simp, fun j => by fin_cases j <;> simp⟩).1
  have hl2 : Real.log (2⁻¹ : ℝ) = -Real.log 2 := Real.log_inv 2
  simp only [entropicObjective, cost, hN, Fin.sum_univ_two, e10, e00, e11] at hopt
  norm_num [hl2] at hopt
  have hx0 : 0 ≤ P 0 1 := h01
  have hx1 : 0 ≤ 1 / 2 - P 0 1 := by linarith
  simp only [Fin.sum_univ_two, e10, e00, e11]
  have lh : Real.log (1 / 2 : ℝ) = -Real.log 2 := by rw [one_div, Real.log_inv]
  rw [lh] at hopt
  clear e10 e00 e11 hr0 hr1 hc0 h01 h00
  generalize hx : P 0 1 = x at hopt hx0 hx1 ⊢
  have l2a := Real.log_two_gt_d9
  have l2b := Real.log_two_lt_d9
  have l4 : Real.log (1 / 4 : ℝ) = -2 * Real.log 2 := by
    rw [show (1 / 4 : ℝ) = (2 ^ 2)⁻¹ by norm_num, Real.log_inv, Real.log_pow]; push_cast; ring
  have l8 : Real.log (1 / 8 : ℝ) = -3 * Real.log 2 := by
    rw [show (1 / 8 : ℝ) = (2 ^ 3)⁻¹ by norm_num, Real.log_inv, Real.log_pow]; push_cast; ring
  have l38 : Real.log (3 / 8 : ℝ) = Real.log 3 - 3 * Real.log 2 := by
    rw [Real.log_div (by norm_num) (by norm_num), show (8 : ℝ) = 2 ^ 3 by norm_num, Real.log_pow]; push_cast; ring
  have l3a : 3 / 2 * Real.log 2 ≤ Real.log 3 := by
    have := Real.log_le_log (by norm_num) (show (8 : ℝ) ≤ 9 by norm_num)
    rw [show (8 : ℝ) = 2 ^ 3 by norm_num, show (9 : ℝ) = 3 ^ 2 by norm_num, Real.log_pow, Real.log_pow] at this
    push_cast at this
    linarith
  have l3b : Real.log 3 ≤ 2 := by
    have := Real.log_le_sub_one_of_pos (show (0 : ℝ) < 3 by norm_num)
    linarith
  have g1 := log_gibbs hx0 (show (0 : ℝ) < 1 / 4 by norm_num)
  have g2 := log_gibbs hx1 (show (0 : ℝ) < 1 / 4 by norm_num)
  have g3 := log_gibbs hx0 (show (0 : ℝ) < 1 / 8 by norm_num)
  have g4 := log_gibbs hx1 (show (0 : ℝ) < 3 / 8 by norm_num)
  rw [l4] at g1 g2
  rw [l8] at g3
  rw [l38] at g4
  rw [l4]
  have hxl : x ≤ 4 / 100 := by nlinarith
  have hx3 : x * Real.log 3 ≤ 4 / 100 * 2 := mul_le_mul hxl l3b (Real.log_nonneg (by norm_num)) (by norm_num)
  nlinarith

/-! ### Non-vacuity -/

/-- An environment in which the inner solvers are exact. -/
noncomputable def exGwExt (n m : ℕ) : SolveGromov.Ext n m where
  toExt := exExt n m
  sk ε a b := Classical.epsilon fun s => SolvesEntropic a b ε s
  pw a b mm _ := fun i j => a i * b j * mm / ((∑ i, a i) * ∑ j, b j)
  epw ε a b mm := Classical.epsilon fun s => SolvesEntropicPartial a b ε mm s
  klGuard := 1 / 10 ^ 18
  srTol := 1 / 10 ^ 15

/-- Exact inner solvers exist for all positive weights. -/
theorem exGwExt_ok {n m : ℕ} [NeZero n] [NeZero m] {a : Fin n → ℝ} {b : Fin m → ℝ} (ha : ∀ i, 0 < a i) (hb : ∀ j, 0 < b j) : InnerSolversOk (exGwExt n m) a b where
  lp h N := by
    have hS : 0 < ∑ i, a i := sum_pos (fun i _ => ha i) univ_nonempty
    refine (exactEmd_optimal a b N ⟨fun i j => a i * b j / ∑ i, a i, fun i j => div_nonneg (mul_nonneg (ha i).le (hb j).le) hS.le, fun i => ?_, fun j => ?_⟩).1
    · rw [← sum_div, ← mul_sum, ← h]; field_simp
    · rw [← sum_div, ← sum_mul]; field_simp
  pw mm h0 h1 h2 _ := epStart_ok (fun i => (ha i).le) (fun j => (hb j).le) (sum_pos (fun i _ => ha i) univ_nonempty) (sum_pos (fun j _ => hb j) univ_nonempty) h0 h1 h2
  sk h _ hε := Classical.epsilon_spec (exists_solver ha hb h hε)
  epw _ _ hε h0 h1 h2 := Classical.epsilon_spec (exists_partial_solver ha hb hε h0 h1 h2)

/-- Three points against two, with features, weights of mass 1. -/
noncomputable def exGwCall (u : Option ℝ) (ut : SolveGromov.UnbArg) (reg : Option ℝ) : SolveGromov.Call 3 2 where
  Ca i k := |((i : ℕ) : ℝ) - (k : ℕ)|
  Cb j l := if j = l then 0 else 2
  M := some fun i j => (((i : ℕ) : ℝ) - (j : ℕ)) ^ 2
  a := some fun _ => 1 / 3
  b := some fun _ => 1 / 2
  loss := .l2
  symmetric := true
  alpha := 1 / 2
  reg := reg
  regEntropy := true
  unbalanced := u
  unbType := ut
  method := none
  maxIter := none
  planInit := none
  tol := none

theorem exGwCall_ok {u : Option ℝ} {ut : SolveGromov.UnbArg} (hu : (u = none ∧ ut = .kl) ∨ ut = .semirelaxed ∨ (ut = .partial_ ∧ u = some (1 / 2))) (reg : Option ℝ) :
    CallOk (exGwCall u ut reg) (fun _ => 1 / 3) (fun _ => 1 / 2) where
  weights := ⟨rfl, rfl⟩
  pos := ⟨fun _ => by norm_num, fun _ => by norm_num⟩
  loss := by simp [exGwCall]
  sym _ := ⟨fun i k => by simp only [exGwCall]; exact abs_sub_comm _ _, fun j l => by simp only [exGwCall, eq_comm]⟩
  kind := by
    rcases hu with ⟨rfl, rfl⟩ | rfl | ⟨rfl, rfl⟩
    · simp [gwKindOf, exGwCall]
    · simp [gwKindOf, exGwCall]
    · simp [gwKindOf, exGwCall]; norm_num

/-- The hypotheses of `C90_exact` hold in the three kinds. -/
example {u : Option ℝ} {ut : SolveGromov.UnbArg} (hu : (u = none ∧ ut = .kl) ∨ ut = .semirelaxed ∨ (ut = .partial_ ∧ u = some (1 / 2))) :
    ∃ r, solveGromov (exGwExt 3 2) (exGwCall u ut none) = .ok r ∧ r.value = gwObjectiveOf (1 / 10 ^ 18) (exGwCall u ut none) r.plan := by
  obtain ⟨r, h1, _, h2, _⟩ := C90_exact (exGwExt_ok (fun _ => by norm_num) (fun _ => by norm_num)) (by norm_num [exGwExt]) (exGwCall_ok hu none) (.inl rfl)
    (product_feasible (exGwCall_ok hu none) fun _ => by norm_num) (fun _ => .inr (by norm_num [exGwCall]))
  exact ⟨r, h1, h2⟩

/-- The hypotheses of `C90_entropic` hold in the three kinds. -/
example {u : Option ℝ} {ut : SolveGromov.UnbArg} (hu : (u = none ∧ ut = .kl) ∨ ut = .semirelaxed ∨ (ut = .partial_ ∧ u = some (1 / 2))) :
    ∃ r, solveGromov (exGwExt 3 2) (exGwCall u ut (some 1)) = .ok r ∧ (gwKindOf (exGwCall u ut (some 1))).Feasible (fun _ => 1 / 3) (fun _ => 1 / 2) r.plan := by
  obtain ⟨r, h1, h2, _⟩ := C90_entropic (exGwExt_ok (fun _ => by norm_num) (fun _ => by norm_num)) (exGwCall_ok hu (some 1)) one_pos rfl (by norm_num [exGwCall]) (by
    rcases hu with ⟨rfl, rfl⟩ | rfl | ⟨rfl, rfl⟩
    · simp [gwKindOf, exGwCall]
    · simp [gwKindOf, exGwCall]
    · simp [gwKindOf, exGwCall]; norm_num)
  exact ⟨r, h1, h2⟩

/-- The hypothesis of `C90_reg_refuted` holds. -/
example : ∃ e : SolveGromov.Ext 2 2, InnerSolversOk e (fun _ => 1 / 2) (fun _ => 1 / 2) := ⟨exGwExt 2 2, exGwExt_ok (fun _ => by norm_num) (fun _ => by norm_num)⟩

/-- The hypotheses of `C90_partial_start_refuted` hold. -/
example : ∃ r, solveGromov (exGwExt 3 2) { exGwCall (some (1 / 2)) .partial_ none with M := none, planInit := some fun _ _ => 0 } = .ok r ∧ ∑ i, ∑ j, r.plan i j = 0 := by
  obtain ⟨_, r, h1, _, h2⟩ := C90_partial_start_refuted (e := exGwExt 3 2) (c := { exGwCall (some (1 / 2)) .partial_ none with M := none, planInit := some fun _ _ => 0 }) (mm := 1 / 2)
    (exGwExt_ok (fun _ => by norm_num) (fun _ => by norm_num))
    ⟨⟨rfl, rfl⟩, ⟨fun _ => by norm_num, fun _ => by norm_num⟩, (exGwCall_ok (.inr (.inr ⟨rfl, rfl⟩)) none).loss, (exGwCall_ok (.inr (.inr ⟨rfl, rfl⟩)) none).sym, (exGwCall_ok (.inr (.inr ⟨rfl, rfl⟩)) none).kind⟩
    rfl rfl rfl rfl rfl
  exact ⟨r, h1, h2⟩

end POT.Props
