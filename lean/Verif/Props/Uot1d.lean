import Verif.Lemmas.Uot1dConv
import Verif.Props.Mm
import Mathlib.Tactic.FinCases
import Mathlib.Tactic.NormNum

/-!
# C51: one-dimensional unbalanced transport; C65: dual potentials in one dimension
-/

namespace POT.Props

open Finset POT.Spec POT.Emd1d POT.Uot1d

set_option linter.unusedSectionVars false

section Rescale

variable {I J : Type*} [Fintype I] [Fintype J]

/-- C51: `rescale_potentials` returns a translation after which the two reweighted marginals have the same mass and the dual objective is maximal among all translations; unless both
parameters are infinite it is the only maximiser. -/
theorem C51_rescale {a : I → ℝ} {b : J → ℝ} {ρ₁ ρ₂ : Option ℝ} (h₁ : PosParam ρ₁) (h₂ : PosParam ρ₂) (ha : ∀ i, 0 ≤ a i) (hb : ∀ j, 0 ≤ b j)
    (hsa : 0 < ∑ i, a i) (hsb : 0 < ∑ j, b j) (hm : ρ₁ = none → ρ₂ = none → ∑ i, a i = ∑ j, b j) (f : I → ℝ) (g : J → ℝ) :
    let t := rescaleTransl f g a b ρ₁ ρ₂
    ∑ i, tilted ρ₁ a (fun i => f i + t) i = ∑ j, tilted ρ₂ b (fun j => g j - t) j ∧
      (∀ s, uotDual a b ρ₁ ρ₂ (fun i => f i + s) (fun j => g j - s) ≤ uotDual a b ρ₁ ρ₂ (fun i => f i + t) (fun j => g j - t)) ∧
      (ρ₁ ≠ none ∨ ρ₂ ≠ none → ∀ s, s ≠ t → uotDual a b ρ₁ ρ₂ (fun i => f i + s) (fun j => g j - s) < uotDual a b ρ₁ ρ₂ (fun i => f i + t) (fun j => g j - t)) := by
  refine ⟨?_, uotDual_translate_le h₁ h₂ ha hb hsa hsb hm f g, fun hρ s hs => uotDual_translate_lt h₁ h₂ ha hb hsa hsb hρ f g hs⟩
  have := mass_eq (f := f) (g := g) h₁ h₂ ha hb hsa hsb hm
  cases ρ₁ <;> cases ρ₂ <;> exact this

end Rescale

section Call

variable {n m : ℕ} {srt : Sorter n m} {eps p : ℝ} {xa : Fin n → ℝ} {xb : Fin m → ℝ} {ρ₁ ρ₂ : Option ℝ} {a : Fin n → ℝ} {b : Fin m → ℝ}
  {permA : Equiv.Perm (Fin n)} {permB : Equiv.Perm (Fin m)}

/-- A valid call of `uot_1d`: the sorting routine sorts, the permutations sort the supports, weights are positive, parameters are positive or infinite; equal masses when both
are infinite. -/
structure Uot1dCall (srt : Sorter n m) (p : ℝ) (xa : Fin n → ℝ) (xb : Fin m → ℝ) (ρ₁ ρ₂ : Option ℝ) (a : Fin n → ℝ) (b : Fin m → ℝ)
    (permA : Equiv.Perm (Fin n)) (permB : Equiv.Perm (Fin m)) : Prop where
  sorts : ∀ q, Monotone (q ∘ srt q)
  hn : 0 < n
  hm : 0 < m
  hp : 1 ≤ p
  sortA : Monotone fun i => xa (permA i)
  sortB : Monotone fun j => xb (permB j)
  pos₁ : PosParam ρ₁
  pos₂ : PosParam ρ₂
  ha : ∀ i, 0 < a i
  hb : ∀ j, 0 < b j
  hmass : ρ₁ = none → ρ₂ = none → ∑ i, a i = ∑ j, b j

theorem Uot1dCall.call (h : Uot1dCall srt p xa xb ρ₁ ρ₂ a b permA permB) :
    Call srt p (fun i => xa (permA i)) (fun j => xb (permB j)) ρ₁ ρ₂ (fun i => a (permA i)) (fun j => b (permB j)) :=
  ⟨h.sorts, h.hn, h.hm, h.hp, h.sortA, h.sortB, h.pos₁, h.pos₂, fun _ => h.ha _, fun _ => h.hb _, fun x y => by
    rw [Equiv.sum_comp permA a, Equiv.sum_comp permB b]; exact h.hmass x y⟩

theorem reweight_eq_tilted {K : Type*} (ρ : Option ℝ) (a f : K → ℝ) : reweight ρ a f = tilted ρ a f := by
  cases ρ <;> rfl

/-- C51: the returned marginals are the weights reweighted by the returned potentials, and have the same mass. -/
theorem C51_marginals (h : Uot1dCall srt p xa xb ρ₁ ρ₂ a b permA permB) (N : ℕ) :
    let o := uot1d srt eps p xa xb ρ₁ ρ₂ a b permA permB N
    (∀ i, o.u i = tilted ρ₁ a o.f i) ∧ (∀ j, o.v j = tilted ρ₂ b o.g j) ∧ ∑ i, o.u i = ∑ j, o.v j := by
  obtain ⟨_, _, hsu, hsv, _, hu, hv⟩ := h.call.rw N
  refine ⟨fun i => ?_, fun j => ?_, ?_⟩
  · have := hu (permA.symm i)
    rw [reweight_eq_tilted] at this
    refine this.trans ?_
    cases ρ₁ <;> simp [tilted, uot1d, rwAt]
  · have := hv (permB.symm j)
    rw [reweight_eq_tilted] at this
    refine this.trans ?_
    cases ρ₂ <;> simp [tilted, uot1d, rwAt]
  · have e1 : ∀ (w : Fin n → ℝ) (c : ℝ), ∑ i, w (permA.symm i) * c = (∑ i, w i) * c := fun w c => by
      rw [sum_mul, ← Equiv.sum_comp permA.symm fun i => w i * c]
    have e2 : ∀ (w : Fin m → ℝ) (c : ℝ), ∑ i, w (permB.symm i) * c = (∑ i, w i) * c := fun w c => by
      rw [sum_mul, ← Equiv.sum_comp permB.symm fun i => w i * c]
    simp only [rwAt] at hsu hsv
    refine (e1 _ _).trans (Eq.trans ?_ (e2 _ _).symm)
    rw [hsu, hsv]

/-- C51: `linear_cost` is the optimal transport cost between the returned marginals; `total_cost` is the unbalanced objective of an admissible plan, up to the regularisation `eps` of
the logarithm inside `kl_div`. -/
theorem C51_costs (h : Uot1dCall srt p xa xb ρ₁ ρ₂ a b permA permB) (he : 0 ≤ eps) (N : ℕ) :
    let o := uot1d srt eps p xa xb ρ₁ ρ₂ a b permA permB N
    ∃ G, IsOptimal o.u o.v (fun i j => |xa i - xb j| ^ p) G ∧ o.linear = cost (fun i j => |xa i - xb j| ^ p) G ∧ IsAdmissible a b ρ₁ ρ₂ G ∧
      (∀ c, unbObjective a b (fun i j => |xa i - xb j| ^ p) 0 c ρ₁ ρ₂ G ≤ o.total ∧
        o.total ≤ unbObjective a b (fun i j => |xa i - xb j| ^ p) 0 c ρ₁ ρ₂ G + eps * (paramMass ρ₁ a + paramMass ρ₂ b)) := by
  obtain ⟨hru, hrv, hsu, hsv, hmp, hu, hv⟩ := h.call.rw N
  obtain ⟨w1, w2⟩ := h.call.wass N
  obtain ⟨m1, m2, _⟩ := C51_marginals (eps := eps) h N
  intro o
  obtain ⟨r, er⟩ : ∃ r, r = rwAt srt p (fun i => xa (permA i)) (fun j => xb (permB j)) ρ₁ ρ₂ (fun i => a (permA i)) (fun j => b (permB j)) N := ⟨_, rfl⟩
  have ou : ∀ i, o.u i = r.u (permA.symm i) * r.mass := fun i => by rw [er]; rfl
  have ov : ∀ j, o.v j = r.v (permB.symm j) * r.mass := fun i => by rw [er]; rfl
  have ol : o.linear = (wasserstein1d p (fun i => xa (permA i)) (fun j => xb (permB j)) r.u r.v (Equiv.refl _) (Equiv.refl _)).2 * r.mass := by rw [er]; rfl
  rw [← er] at w1 w2 hmp hru hrv
  obtain ⟨G₀, eG⟩ : ∃ G₀, G₀ = (wasserstein1d p (fun i => xa (permA i)) (fun j => xb (permB j)) r.u r.v (Equiv.refl _) (Equiv.refl _)).1 := ⟨_, rfl⟩
  rw [← eG] at w1 w2
  -- back to the original order, then scaled
  have r1 := w1.reindex permA.symm permB.symm
  have hM : (fun i j => dist1d p (fun i => xa (permA i)) (fun j => xb (permB j)) (permA.symm i) (permB.symm j)) = fun i j => |xa i - xb j| ^ p := by
    funext i j; simp [dist1d]
  rw [hM] at r1
  have hopt : IsOptimal o.u o.v (fun i j => |xa i - xb j| ^ p) (fun i j => G₀ (permA.symm i) (permB.symm j) * r.mass) := by
    constructor
    · constructor
      · intro i j; exact mul_nonneg (r1.1.nonneg i j) hmp.le
      · intro i; rw [← sum_mul, r1.1.row i, ou]
      · intro j; rw [← sum_mul, r1.1.col j, ov]
    · intro G' hG'
      have hG2 : IsCoupling (fun i => r.u (permA.symm i)) (fun j => r.v (permB.symm j)) (fun i j => G' i j / r.mass) := by
        constructor
        · intro i j; exact div_nonneg (hG'.nonneg i j) hmp.le
        · intro i; rw [← sum_div, hG'.row i, ou, mul_div_cancel_right₀ _ hmp.ne']
        · intro j; rw [← sum_div, hG'.col j, ov, mul_div_cancel_right₀ _ hmp.ne']
      have h1 := mul_le_mul_of_nonneg_right (r1.2 _ hG2) hmp.le
      have e1 : ∀ (G : Fin n → Fin m → ℝ), cost (fun i j => |xa i - xb j| ^ p) (fun i j => G i j * r.mass) = cost (fun i j => |xa i - xb j| ^ p) G * r.mass := fun G => by
        unfold cost; rw [sum_mul]; refine sum_congr rfl fun i _ => ?_; rw [sum_mul]; exact sum_congr rfl fun j _ => by ring
      rw [e1]
      have e2 := e1 fun i j => G' i j / r.mass
      simp only [div_mul_cancel₀ _ hmp.ne'] at e2
      rw [e2]; exact h1
  have hlin : o.linear = cost (fun i j => |xa i - xb j| ^ p) (fun i j => G₀ (permA.symm i) (permB.symm j) * r.mass) := by
    rw [ol, w2]
    have := cost_reindex permA.symm permB.symm (dist1d p (fun i => xa (permA i)) (fun j => xb (permB j))) G₀
    rw [hM] at this
    rw [← this]
    unfold cost; rw [sum_mul]; refine sum_congr rfl fun i _ => ?_; rw [sum_mul]; exact sum_congr rfl fun j _ => by ring
  refine ⟨_, hopt, hlin, ⟨hopt.1.nonneg, fun hn i => ?_, fun hn j => ?_⟩, fun c => ?_⟩
  · rw [hopt.1.row i, m1 i]; subst hn; rfl
  · rw [hopt.1.col j, m2 j]; subst hn; rfl
  · have hrow : (fun i => ∑ j, G₀ (permA.symm i) (permB.symm j) * r.mass) = o.u := funext hopt.1.row
    have hcol : (fun j => ∑ i, G₀ (permA.symm i) (permB.symm j) * r.mass) = o.v := funext hopt.1.col
    unfold unbObjective
    rw [hrow, hcol, ← hlin]
    have hup : ∀ i, 0 ≤ o.u i := fun i => by rw [ou]; exact mul_nonneg (hru _).le hmp.le
    have hvp : ∀ j, 0 ≤ o.v j := fun i => by rw [ov]; exact mul_nonneg (hrv _).le hmp.le
    have k1 := klDivMass_bounds he hup h.ha
    have k2 := klDivMass_bounds he hvp h.hb
    have ht : o.total = match (generalizing := false) ρ₁, ρ₂ with
      | none, none => o.linear
      | none, some r₂ => o.linear + r₂ * Mm.klDivMass eps o.v b
      | some r₁, none => o.linear + r₁ * Mm.klDivMass eps o.u a
      | some r₁, some r₂ => o.linear + r₁ * Mm.klDivMass eps o.u a + r₂ * Mm.klDivMass eps o.v b := rfl
    rw [ht]
    cases ρ₁ with
    | none =>
      cases ρ₂ with
      | none => simp [marginalTerm, paramMass]
      | some r₂ =>
        have hr := h.pos₂ r₂ rfl
        have l1 := mul_le_mul_of_nonneg_left k2.1 hr.le
        have l2 := mul_le_mul_of_nonneg_left k2.2 hr.le
        simp only [marginalTerm, paramMass]
        constructor <;> nlinarith
    | some r₁ =>
      have hr₁ := h.pos₁ r₁ rfl
      have l1 := mul_le_mul_of_nonneg_left k1.1 hr₁.le
      have l2 := mul_le_mul_of_nonneg_left k1.2 hr₁.le
      cases ρ₂ with
      | none =>
        simp only [marginalTerm, paramMass]
        constructor <;> nlinarith
      | some r₂ =>
        have hr := h.pos₂ r₂ rfl
        have l3 := mul_le_mul_of_nonneg_left k2.1 hr.le
        have l4 := mul_le_mul_of_nonneg_left k2.2 hr.le
        simp only [marginalTerm, paramMass]
        constructor <;> nlinarith

/-- The cumulative weights of the marginals returned by the calls with fewer iterations never coincide. -/
def NoTiesUpTo (srt : Sorter n m) (eps p : ℝ) (xa : Fin n → ℝ) (xb : Fin m → ℝ) (ρ₁ ρ₂ : Option ℝ) (a : Fin n → ℝ) (b : Fin m → ℝ)
    (permA : Equiv.Perm (Fin n)) (permB : Equiv.Perm (Fin m)) (N : ℕ) : Prop :=
  ∀ l ≤ N, NoTies (fun i => (uot1d srt eps p xa xb ρ₁ ρ₂ a b permA permB l).u (permA i)) (fun j => (uot1d srt eps p xa xb ρ₁ ρ₂ a b permA permB l).v (permB j))

theorem noTies_rwAt {l : ℕ}
    (hnt : NoTies (fun i => (uot1d srt eps p xa xb ρ₁ ρ₂ a b permA permB l).u (permA i)) (fun j => (uot1d srt eps p xa xb ρ₁ ρ₂ a b permA permB l).v (permB j))) :
    NoTies (rwAt srt p (fun i => xa (permA i)) (fun j => xb (permB j)) ρ₁ ρ₂ (fun i => a (permA i)) (fun j => b (permB j)) l).u
      (rwAt srt p (fun i => xa (permA i)) (fun j => xb (permB j)) ρ₁ ρ₂ (fun i => a (permA i)) (fun j => b (permB j)) l).v := by
  intro i j hi hj heq
  refine hnt i j hi hj ?_
  simp only [uot1d, Equiv.symm_apply_apply]
  rw [← sum_mul, ← sum_mul]
  unfold rwAt at heq
  rw [heq]

theorem dualTerm_perm {k : ℕ} (ρ : Option ℝ) (w f : Fin k → ℝ) (σ : Equiv.Perm (Fin k)) : dualTerm ρ w (fun i => f (σ.symm i)) = dualTerm ρ (fun i => w (σ i)) f := by
  cases ρ with
  | none => simp only [dualTerm]; rw [← Equiv.sum_comp σ]; simp
  | some r => simp only [dualTerm]; rw [← Equiv.sum_comp σ]; simp

/-- C51: without ties the returned potentials are dual feasible, for every number of iterations; their dual value is a lower bound of the unbalanced objective of every admissible plan. -/
theorem C51_dual_feasible (h : Uot1dCall srt p xa xb ρ₁ ρ₂ a b permA permB) (N : ℕ) (hnt : NoTiesUpTo srt eps p xa xb ρ₁ ρ₂ a b permA permB N) :
    let o := uot1d srt eps p xa xb ρ₁ ρ₂ a b permA permB N
    DualFeasible (fun i j => |xa i - xb j| ^ p) o.f o.g ∧
      ∀ c P, IsAdmissible a b ρ₁ ρ₂ P → uotDual a b ρ₁ ρ₂ o.f o.g ≤ unbObjective a b (fun i j => |xa i - xb j| ^ p) 0 c ρ₁ ρ₂ P := by
  obtain ⟨C, hC0, hC⟩ := dist_bound p (fun i => xa (permA i)) (fun j => xb (permB j))
  obtain ⟨f1, _⟩ := h.call.inv hC hC0 N fun l hl => noTies_rwAt (hnt l hl.le)
  intro o
  have hf : DualFeasible (fun i j => |xa i - xb j| ^ p) o.f o.g := fun i j => by
    have := feasible_translate f1 (rescaleTransl (fwLoop srt (cost1d p (fun i => xa (permA i)) fun j => xb (permB j)) ρ₁ ρ₂ (fun i => a (permA i)) (fun j => b (permB j)) N).1
      (fwLoop srt (cost1d p (fun i => xa (permA i)) fun j => xb (permB j)) ρ₁ ρ₂ (fun i => a (permA i)) (fun j => b (permB j)) N).2
      (fun i => a (permA i)) (fun j => b (permB j)) ρ₁ ρ₂) (permA.symm i) (permB.symm j)
    simpa [dist1d, o, uot1d, getReweighted] using this
  exact ⟨hf, fun c P hP => uot_weak_duality h.pos₁ h.pos₂ h.ha h.hb c hf hP⟩

/-- C51: without ties `total_cost` converges to the minimum of the unbalanced objective, at the rate `1 / √(numItermax + 2)`, and the dual value of the returned potentials converges to the
maximum of the dual at the rate `1 / (numItermax + 2)`; `B` depends on the problem only.  (`eps` is the constant inside `kl_div`.) -/
theorem C51_converges (h : Uot1dCall srt p xa xb ρ₁ ρ₂ a b permA permB) (he : 0 ≤ eps) :
    ∃ B, 0 ≤ B ∧ ∀ N, 1 ≤ N → NoTiesUpTo srt eps p xa xb ρ₁ ρ₂ a b permA permB N →
      (∀ c P, IsAdmissible a b ρ₁ ρ₂ P →
        (uot1d srt eps p xa xb ρ₁ ρ₂ a b permA permB N).total ≤
          unbObjective a b (fun i j => |xa i - xb j| ^ p) 0 c ρ₁ ρ₂ P + 5 * B / Real.sqrt (N + 2) + eps * (paramMass ρ₁ a + paramMass ρ₂ b)) ∧
      ∀ f g, DualFeasible (fun i j => |xa i - xb j| ^ p) f g →
        uotDual a b ρ₁ ρ₂ f g ≤ uotDual a b ρ₁ ρ₂ (uot1d srt eps p xa xb ρ₁ ρ₂ a b permA permB N).f (uot1d srt eps p xa xb ρ₁ ρ₂ a b permA permB N).g + 4 * B / (N + 2) := by
  obtain ⟨B, hB, hrate⟩ := h.call.rate
  refine ⟨B, hB, fun N hN hnt => ?_⟩
  obtain ⟨r1, r2⟩ := hrate N (fun l hl => noTies_rwAt (hnt l hl)) hN
  obtain ⟨o, ho⟩ : ∃ o, o = uot1d srt eps p xa xb ρ₁ ρ₂ a b permA permB N := ⟨_, rfl⟩
  obtain ⟨r, er⟩ : ∃ r, r = rwAt srt p (fun i => xa (permA i)) (fun j => xb (permB j)) ρ₁ ρ₂ (fun i => a (permA i)) (fun j => b (permB j)) N := ⟨_, rfl⟩
  rw [← ho]
  rw [← er] at r1 r2
  have ou : ∀ i, o.u i = r.u (permA.symm i) * r.mass := fun i => by rw [er, ho]; rfl
  have ov : ∀ j, o.v j = r.v (permB.symm j) * r.mass := fun i => by rw [er, ho]; rfl
  have of : o.f = fun i => r.f (permA.symm i) := by rw [er, ho]; rfl
  have og : o.g = fun i => r.g (permB.symm i) := by rw [er, ho]; rfl
  have ol : o.linear = (wasserstein1d p (fun i => xa (permA i)) (fun j => xb (permB j)) r.u r.v (Equiv.refl _) (Equiv.refl _)).2 * r.mass := by rw [er, ho]; rfl
  have hD : uotDual a b ρ₁ ρ₂ o.f o.g = uotDual (fun i => a (permA i)) (fun j => b (permB j)) ρ₁ ρ₂ r.f r.g := by
    unfold uotDual; rw [of, og, dualTerm_perm, dualTerm_perm]
  constructor
  · intro c P hP
    obtain ⟨G, g1, g2, g3, g4⟩ := C51_costs h he N
    rw [← ho] at g1 g2 g4
    have hwd := (C51_dual_feasible h N hnt).2 c P hP
    rw [← ho] at hwd
    obtain ⟨m1, m2, _⟩ := C51_marginals (eps := eps) h N
    rw [← ho] at m1 m2
    have t1 := (g4 c).2
    have k1 := dualTerm_eq h.pos₁ h.ha o.f
    have k2 := dualTerm_eq h.pos₂ h.hb o.g
    rw [reweight_eq_tilted, ← (funext m1 : o.u = _)] at k1
    rw [reweight_eq_tilted, ← (funext m2 : o.v = _)] at k2
    have hobj : unbObjective a b (fun i j => |xa i - xb j| ^ p) 0 c ρ₁ ρ₂ G = o.linear + marginalTerm ρ₁ o.u a + marginalTerm ρ₂ o.v b := by
      unfold unbObjective
      rw [← g2, (funext g1.1.row : (fun i => ∑ j, G i j) = o.u), (funext g1.1.col : (fun j => ∑ i, G i j) = o.v)]
      ring
    obtain ⟨_, _, _, _, _, hum, hvm⟩ := h.call.rw N
    rw [← er] at hum hvm
    have e1 : ∑ i, o.f i * o.u i = ∑ i, reweight ρ₁ (fun i => a (permA i)) r.f i * r.f i := by
      rw [← Equiv.sum_comp permA]
      exact sum_congr rfl fun i _ => by rw [ou, of, ← hum]; simp only [Equiv.symm_apply_apply]; ring
    have e2 : ∑ j, o.g j * o.v j = ∑ j, reweight ρ₂ (fun j => b (permB j)) r.g j * r.g j := by
      rw [← Equiv.sum_comp permB]
      exact sum_congr rfl fun i _ => by rw [ov, og, ← hvm]; simp only [Equiv.symm_apply_apply]; ring
    rw [← ol, ← e1, ← e2] at r2
    unfold uotDual at hwd
    rw [hobj] at t1
    linarith
  · intro f g hfg
    have := r1 (fun i => f (permA i)) (fun j => g (permB j)) (fun i j => hfg _ _)
    rw [hD]
    refine le_trans (le_of_eq ?_) this
    have e1 := dualTerm_perm ρ₁ a (fun i => f (permA i)) permA
    have e2 := dualTerm_perm ρ₂ b (fun i => g (permB i)) permB
    simp only [Equiv.apply_symm_apply] at e1 e2
    unfold uotDual
    rw [e1, e2]

end Call

section DualPotentials

variable {n m : ℕ} {p : ℝ} {xa : Fin n → ℝ} {xb : Fin m → ℝ} {a : Fin n → ℝ} {b : Fin m → ℝ} {permA : Equiv.Perm (Fin n)} {permB : Equiv.Perm (Fin m)}
  {σ : Fin (n + m) ≃ Fin n ⊕ Fin m}

theorem gradUV_value {n m : ℕ} {σ : Fin (n + m) ≃ Fin n ⊕ Fin m} {M : ℕ → ℕ → ℝ} {a : Fin n → ℝ} {b : Fin m → ℝ} (permA : Equiv.Perm (Fin n)) (permB : Equiv.Perm (Fin m))
    (hσ : Monotone (keys (fun i => a (permA i)) (fun j => b (permB j)) ∘ σ)) :
    ∑ i, a i * gradU σ M (fun i => a (permA i)) (fun j => b (permB j)) (permA.symm i) + ∑ j, b j * gradV σ M (fun i => a (permA i)) (fun j => b (permB j)) (permB.symm j) =
      (wasserstein1dSorted n m (pad fun i => a (permA i)) (pad fun j => b (permB j)) M).2 := by
  rw [← grad_value (M := M) hσ, ← Equiv.sum_comp permA, ← Equiv.sum_comp permB fun j => b j * _]
  simp only [Equiv.symm_apply_apply]

/-- C65: the potentials returned by `emd_1d_dual_backprop` reproduce the returned loss, which is the optimal transport cost, and their two parts are equal. -/
theorem C65_value (hσ : Monotone (keys (fun i => a (permA i)) (fun j => b (permB j)) ∘ σ)) (hn : 1 ≤ n) (hm : 1 ≤ m) (hp : 1 ≤ p)
    (hpa : Monotone fun i => xa (permA i)) (hpb : Monotone fun j => xb (permB j)) (ha : ∀ i, 0 ≤ a i) (hb : ∀ j, 0 ≤ b j) (hs : ∑ i, a i = ∑ j, b j) (hpos : 0 < ∑ i, a i) :
    let o := emd1dDualBackprop σ p xa xb a b permA permB
    ∑ i, a i * o.1 i + ∑ j, b j * o.2.1 j = o.2.2 ∧ ∑ i, a i * o.1 i = ∑ j, b j * o.2.1 j ∧
      ∃ G, IsOptimal a b (fun i j => |xa i - xb j| ^ p) G ∧ o.2.2 = cost (fun i j => |xa i - xb j| ^ p) G := by
  obtain ⟨o1, o2⟩ := C04_wasserstein1d_optimal hn hm p hp xa xb a b permA permB hpa hpb ha hb hs
  refine ⟨?_, ?_, _, o1, o2⟩
  · simp only [emd1dDualBackprop]
    rw [centerOtDual_value _ _ hs, gradUV_value permA permB hσ]
    rfl
  · exact centerOtDual_balance _ _ (by rw [← hs]; positivity)

/-- C65: when no interior cumulative weights coincide, the potentials returned by `emd_1d_dual_backprop` are feasible, hence an optimal pair of dual potentials. -/
theorem C65_optimal (hσ : Monotone (keys (fun i => a (permA i)) (fun j => b (permB j)) ∘ σ)) (hn : 1 ≤ n) (hm : 1 ≤ m) (hp : 1 ≤ p)
    (hpa : Monotone fun i => xa (permA i)) (hpb : Monotone fun j => xb (permB j)) (ha : ∀ i, 0 < a i) (hb : ∀ j, 0 < b j) (hs : ∑ i, a i = ∑ j, b j)
    (hnt : NoTies (fun i => a (permA i)) (fun j => b (permB j))) :
    let o := emd1dDualBackprop σ p xa xb a b permA permB
    DualFeasible (fun i j => |xa i - xb j| ^ p) o.1 o.2.1 ∧
      ∀ f g, DualFeasible (fun i j => |xa i - xb j| ^ p) f g → ∑ i, a i * f i + ∑ j, b j * g j ≤ ∑ i, a i * o.1 i + ∑ j, b j * o.2.1 j := by
  have hpos : 0 < ∑ i, a i := sum_pos (fun k _ => ha k) ⟨⟨0, hn⟩, mem_univ _⟩
  obtain ⟨v1, _, G, g1, g2⟩ := C65_value hσ hn hm hp hpa hpb (fun i => (ha i).le) (fun j => (hb j).le) hs hpos
  refine ⟨fun i j => ?_, fun f g hfg => ?_⟩
  · have h := grad_feasible (M := cost1d p (fun i => xa (permA i)) (fun j => xb (permB j))) hσ hn hm (fun _ => ha _) (fun _ => hb _)
      (by rw [Equiv.sum_comp permA a, Equiv.sum_comp permB b]; exact hs) hnt (fun i i' j j' hi hi' hj hj' => by
      unfold cost1d
      refine monge_of_convex (convex_abs_rpow hp) ?_ ?_
      · rw [pad_eq _ (show i < n by omega), pad_eq _ hi']; exact hpa hi
      · rw [pad_eq _ (show j < m by omega), pad_eq _ hj']; exact hpb hj) (permA.symm i) (permB.symm j)
    rw [cost1d_eq] at h
    simp only [dist1d, Equiv.apply_symm_apply] at h
    simp only [emd1dDualBackprop, LpDual.centerOtDual]
    linarith
  · rw [v1, g2]
    exact lp_weak g1.1 hfg

end DualPotentials

section Examples

/-- a sorting routine -/
noncomputable def stdSorter (n m : ℕ) : Sorter n m := fun q => (Tuple.sort (q ∘ finSumFinEquiv.symm)).trans finSumFinEquiv.symm

theorem stdSorter_sorts (n m : ℕ) (q : Fin n ⊕ Fin m → ℝ) : Monotone (q ∘ stdSorter n m q) := Tuple.monotone_sort (q ∘ finSumFinEquiv.symm)

/-- The hypotheses of C51 hold: one point against three, both marginals relaxed, for every number of iterations. -/
example : Uot1dCall (stdSorter 1 3) 2 (fun _ => 0) (fun j : Fin 3 => (j : ℕ)) (some 1) (some 2) (fun _ => 1) (fun _ => 1 / 2) (Equiv.refl _) (Equiv.refl _) ∧
    ∀ eps N, NoTiesUpTo (stdSorter 1 3) eps 2 (fun _ => 0) (fun j : Fin 3 => (j : ℕ)) (some 1) (some 2) (fun _ => 1) (fun _ => 1 / 2) (Equiv.refl _) (Equiv.refl _) N := by
  refine ⟨⟨stdSorter_sorts 1 3, by norm_num, by norm_num, by norm_num, fun _ _ _ => le_rfl, fun i j h => ?_, ?_, ?_, fun _ => one_pos, fun _ => by norm_num, fun h => by simp at h⟩, ?_⟩
  · simp only [Equiv.refl_apply]; exact_mod_cast h
  · intro r hr; simp at hr; linarith
  · intro r hr; simp at hr; linarith
  · intro eps N l _ i j hi _
    omega

/-- The hypotheses of C65 hold: weights `(1/3, 2/3)` and `(1/2, 1/2)` have no ties. -/
example : NoTies (fun i : Fin 2 => (![1 / 3, 2 / 3] i : ℝ)) (fun j : Fin 2 => (![1 / 2, 1 / 2] j : ℝ)) ∧ ∑ i : Fin 2, (![1 / 3, 2 / 3] i : ℝ) = ∑ j : Fin 2, (![1 / 2, 1 / 2] j : ℝ) := by
  constructor
  · intro i j hi hj
    have hi0 : i = 0 := by apply Fin.ext; simp; omega
    have hj0 : j = 0 := by apply Fin.ext; simp; omega
    subst hi0 hj0
    simp [Finset.sum_filter]
  · simp [Fin.sum_univ_two]; norm_num

/-- the order a stable sort gives to the cumulative weights `(1/2, 1)` and `(1/2, 1)` -/
def stableTies : Fin (2 + 2) ≃ Fin 2 ⊕ Fin 2 where
  toFun := ![Sum.inl 0, Sum.inr 0, Sum.inl 1, Sum.inr 1]
  invFun := Sum.elim ![0, 2] ![1, 3]
  left_inv := by decide
  right_inv := by decide

/-- uniform weights on two points -/
noncomputable def halves : Fin 2 → ℝ := fun _ => 1 / 2

theorem cum_halves : cum halves 0 = 1 / 2 ∧ cum halves 1 = 1 := by
  unfold cum
  rw [Finset.sum_filter, Finset.sum_filter, Fin.sum_univ_two, Fin.sum_univ_two]
  simp [halves]
  norm_num

theorem stableTies_sorts : Monotone (keys halves halves ∘ stableTies) := by
  obtain ⟨k1, k2⟩ := cum_halves
  refine Fin.monotone_iff_le_succ.2 fun i => ?_
  fin_cases i <;> simp [keys, stableTies, k1, k2] <;> norm_num

theorem ties_violation : gradU stableTies (cost1d 2 ![0, 3] ![0, 1]) halves halves 0 + gradV stableTies (cost1d 2 ![0, 3] ![0, 1]) halves halves 1 = 4 := by
  obtain ⟨k1, k2⟩ := cum_halves
  have c : cumsum (pad halves) 2 = [1 / 2, 1] := by
    simp only [cumsum, List.range_succ, List.range_zero, List.nil_append, List.map_cons, List.map_nil, List.cons_append]
    have e1 := sum_pad_le halves 0
    have e2 := sum_pad_le halves 1
    rw [k1] at e1
    rw [k2] at e2
    simp only [Fin.val_zero, Fin.val_one] at e1 e2
    rw [e1, e2]
  have q1 : quantileIdx (1 / 2) [1 / 2, 1] 2 = 0 := by
    simp [quantileIdx, List.countP_cons]; norm_num
  have q2 : quantileIdx 1 [1 / 2, 1] 2 = 1 := by
    simp [quantileIdx, List.countP_cons]; norm_num
  have e : ∀ i : Fin (2 + 2), gridQ stableTies halves halves i = if (i : ℕ) < 2 then 1 / 2 else 1 := by
    intro i
    fin_cases i <;> simp [gridQ, stableTies, keys, k1, k2]
  have m0 : cost1d 2 (![0, 3] : Fin 2 → ℝ) (![0, 1] : Fin 2 → ℝ) 0 0 = 0 := by simp [cost1d, pad]
  have m1 : cost1d 2 (![0, 3] : Fin 2 → ℝ) (![0, 1] : Fin 2 → ℝ) 1 1 = 4 := by norm_num [cost1d, pad]
  have g : ∀ i : Fin (2 + 2), gridC stableTies (cost1d 2 ![0, 3] ![0, 1]) halves halves i = if (i : ℕ) < 2 then 0 else 4 := by
    intro i
    unfold gridC
    rw [if_pos i.2, e i, c]
    split_ifs
    · rw [q1, m0]
    · rw [q2, m1]
  have g0 := g 0
  have g1 := g 1
  have g2 := g 2
  have g3 := g 3
  have g4 : gridC stableTies (cost1d 2 ![0, 3] ![0, 1]) halves halves 4 = 0 := by simp [gridC]
  simp at g0 g1 g2 g3
  simp only [gradU, gradV, gradQ]
  rw [Finset.sum_filter, Finset.sum_filter, Fin.sum_univ_two, Fin.sum_univ_two]
  have s0 : (stableTies.symm (Sum.inl 0) : ℕ) = 0 := rfl
  have s1 : (stableTies.symm (Sum.inl 1) : ℕ) = 2 := rfl
  have s3 : (stableTies.symm (Sum.inr 1) : ℕ) = 3 := rfl
  simp [s0, s1, s3, g0, g1, g2, g3, g4]

/-- C65 fails when cumulative weights coincide: for uniform weights on `{0, 3}` and `{0, 1}` and `p = 2` the potentials returned by `emd_1d_dual_backprop` violate a dual constraint. -/
theorem C65_ties_refuted : Monotone (keys halves halves ∘ stableTies) ∧ ¬ DualFeasible (fun i j => |(![0, 3] : Fin 2 → ℝ) i - (![0, 1] : Fin 2 → ℝ) j| ^ (2 : ℝ))
    (emd1dDualBackprop stableTies 2 ![0, 3] ![0, 1] halves halves (Equiv.refl _) (Equiv.refl _)).1
    (emd1dDualBackprop stableTies 2 ![0, 3] ![0, 1] halves halves (Equiv.refl _) (Equiv.refl _)).2.1 := by
  refine ⟨stableTies_sorts, fun h => ?_⟩
  have h1 := h 0 1
  have h2 := ties_violation
  simp only [emd1dDualBackprop, LpDual.centerOtDual, Equiv.refl_apply, Equiv.refl_symm] at h1
  have h3 : |(![0, 3] : Fin 2 → ℝ) 0 - (![0, 1] : Fin 2 → ℝ) 1| ^ (2 : ℝ) = 1 := by norm_num
  rw [h3] at h1
  have h4 : gradU stableTies (cost1d 2 (fun i => (![0, 3] : Fin 2 → ℝ) i) (fun j => (![0, 1] : Fin 2 → ℝ) j)) (fun i => halves i) (fun j => halves j) 0 +
      gradV stableTies (cost1d 2 (fun i => (![0, 3] : Fin 2 → ℝ) i) (fun j => (![0, 1] : Fin 2 → ℝ) j)) (fun i => halves i) (fun j => halves j) 1 = 4 := h2
  linarith

/-- With ties the potentials of `uot_1d` can be infeasible for every number of iterations: balanced parameters, uniform weights on `{0, 3}` and `{0, 1}`, `p = 2`. -/
theorem C51_ties_refuted (srt : Sorter 2 2) (hs : srt (keys halves halves) = stableTies) (eps : ℝ) (N : ℕ) (hN : 1 ≤ N) :
    ¬ DualFeasible (fun i j => |(![0, 3] : Fin 2 → ℝ) i - (![0, 1] : Fin 2 → ℝ) j| ^ (2 : ℝ))
      (uot1d srt eps 2 ![0, 3] ![0, 1] none none halves halves (Equiv.refl _) (Equiv.refl _) N).f
      (uot1d srt eps 2 ![0, 3] ![0, 1] none none halves halves (Equiv.refl _) (Equiv.refl _) N).g := by
  have hsum : ∑ k, halves k = 1 := by rw [Fin.sum_univ_two]; simp [halves]; norm_num
  have hr : ∀ fg : (Fin 2 → ℝ) × (Fin 2 → ℝ), getReweighted fg.1 fg.2 halves halves none none = ⟨fg.1, fg.2, halves, halves, 1⟩ := fun fg => by
    simp [getReweighted, rescaleTransl, reweight, hsum]
  obtain ⟨M, hM⟩ : ∃ M, M = cost1d 2 (fun i => (![0, 3] : Fin 2 → ℝ) i) (fun j => (![0, 1] : Fin 2 → ℝ) j) := ⟨_, rfl⟩
  have hstep : ∀ (k : ℕ) (fg : (Fin 2 → ℝ) × (Fin 2 → ℝ)), fwStep srt M none none halves halves k fg =
      (fun i => fg.1 i + 2 / (2 + (k : ℝ)) * ((dualBackprop stableTies M halves halves).1 i - fg.1 i),
        fun j => fg.2 j + 2 / (2 + (k : ℝ)) * ((dualBackprop stableTies M halves halves).2 j - fg.2 j)) := fun k fg => by
    unfold fwStep
    simp only [hr, hs]
  have hloop : ∀ k, fwLoop srt M none none halves halves (k + 1) = dualBackprop stableTies M halves halves := by
    intro k
    induction k with
    | zero =>
      rw [fwLoop, hstep, fwLoop]
      refine Prod.ext (funext fun i => ?_) (funext fun j => ?_) <;> simp
    | succ k ih =>
      rw [fwLoop, hstep, ih]
      refine Prod.ext (funext fun i => ?_) (funext fun j => ?_) <;> simp
  obtain ⟨k, rfl⟩ : ∃ k, N = k + 1 := ⟨N - 1, by omega⟩
  intro h
  have h1 := h 0 1
  have e1 : (uot1d srt eps 2 ![0, 3] ![0, 1] none none halves halves (Equiv.refl _) (Equiv.refl _) (k + 1)).f = (dualBackprop stableTies M halves halves).1 := by
    show (getReweighted (fwLoop srt (cost1d 2 (fun i => (![0, 3] : Fin 2 → ℝ) i) (fun j => (![0, 1] : Fin 2 → ℝ) j)) none none halves halves (k + 1)).1
      (fwLoop srt (cost1d 2 (fun i => (![0, 3] : Fin 2 → ℝ) i) (fun j => (![0, 1] : Fin 2 → ℝ) j)) none none halves halves (k + 1)).2 halves halves none none).f = _
    rw [hr, ← hM, hloop]
  have e2 : (uot1d srt eps 2 ![0, 3] ![0, 1] none none halves halves (Equiv.refl _) (Equiv.refl _) (k + 1)).g = (dualBackprop stableTies M halves halves).2 := by
    show (getReweighted (fwLoop srt (cost1d 2 (fun i => (![0, 3] : Fin 2 → ℝ) i) (fun j => (![0, 1] : Fin 2 → ℝ) j)) none none halves halves (k + 1)).1
      (fwLoop srt (cost1d 2 (fun i => (![0, 3] : Fin 2 → ℝ) i) (fun j => (![0, 1] : Fin 2 → ℝ) j)) none none halves halves (k + 1)).2 halves halves none none).g = _
    rw [hr, ← hM, hloop]
  have h3 : |(![0, 3] : Fin 2 → ℝ) 0 - (![0, 1] : Fin 2 → ℝ) 1| ^ (2 : ℝ) = 1 := by norm_num
  rw [e1, e2] at h1
  have h1 := h1.trans_eq h3
  have h2 : gradU stableTies M halves halves 0 + gradV stableTies M halves halves 1 = 4 := by rw [hM]; exact ties_violation
  simp only [dualBackprop, LpDual.centerOtDual] at h1
  linarith

end Examples

end POT.Props
