import Verif.Lemmas.Usot
import Verif.Props.Uot1d

/-!
# C109: sliced unbalanced transport and unbalanced sliced transport
-/

namespace POT.Props

open Finset POT.Spec POT.Emd1d POT.Uot1d POT.Sliced POT.Usot

set_option linter.unusedSectionVars false

variable {n m L : ℕ} {D : Type*} [Fintype D] {srt : Sorter n m} {eps p : ℝ} {X : Fin n → D → ℝ} {Y : Fin m → D → ℝ} {ρ₁ ρ₂ : Option ℝ} {a : Fin n → ℝ} {b : Fin m → ℝ}
  {θ : Fin L → D → ℝ} {σ : Sorters n m L}

/-- A valid call: the sorting routine sorts, the permutations sort the projections, there is a projection, weights are positive, parameters are positive or infinite; equal masses when
both are infinite. -/
structure UsotCall (srt : Sorter n m) (p : ℝ) (X : Fin n → D → ℝ) (Y : Fin m → D → ℝ) (ρ₁ ρ₂ : Option ℝ) (a : Fin n → ℝ) (b : Fin m → ℝ) (θ : Fin L → D → ℝ)
    (σ : Sorters n m L) : Prop where
  sorts : ∀ q, Monotone (q ∘ srt q)
  hL : 0 < L
  hn : 0 < n
  hm : 0 < m
  hp : 1 ≤ p
  perms : σ.Sorts X Y θ
  pos₁ : PosParam ρ₁
  pos₂ : PosParam ρ₂
  ha : ∀ i, 0 < a i
  hb : ∀ j, 0 < b j
  hmass : ρ₁ = none → ρ₂ = none → ∑ i, a i = ∑ j, b j

theorem UsotCall.ucall (h : UsotCall srt p X Y ρ₁ ρ₂ a b θ σ) : UCall srt p (proj X θ) (proj Y θ) σ ρ₁ ρ₂ a b :=
  ⟨h.sorts, h.hL, h.hn, h.hm, h.hp, fun k => (h.perms k).1, fun k => (h.perms k).2, h.pos₁, h.pos₂, h.ha, h.hb, h.hmass⟩

theorem UsotCall.slice (h : UsotCall srt p X Y ρ₁ ρ₂ a b θ σ) (k : Fin L) : Uot1dCall srt p (proj X θ k) (proj Y θ k) ρ₁ ρ₂ a b (σ.permA k) (σ.permB k) :=
  ⟨h.sorts, h.hn, h.hm, h.hp, (h.perms k).1, (h.perms k).2, h.pos₁, h.pos₂, h.ha, h.hb, h.hmass⟩

theorem sliceCost_eq (k : Fin L) : dist1d p (proj X θ k) (proj Y θ k) = sliceCost p X Y θ k := rfl

/-- what the final reweighting gives -/
theorem usot_final (h : UsotCall srt p X Y ρ₁ ρ₂ a b θ σ) (N : ℕ) :
    let o := unbalancedSliced srt eps p X Y ρ₁ ρ₂ a b θ σ N
    let r := rwsAt srt p (proj X θ) (proj Y θ) σ ρ₁ ρ₂ a b N
    o.f = r.f ∧ o.g = r.g ∧ (∀ k, o.mass k = r.mass) ∧ (∀ k, o.losses k = sliceW p (proj X θ) (proj Y θ) σ r.u r.v k) ∧
      (∀ i, o.a' i = r.u i * r.mass) ∧ (∀ j, o.b' j = r.v j * r.mass) ∧ o.sot = (average fun k => sliceW p (proj X θ) (proj Y θ) σ r.u r.v k) * r.mass := by
  obtain ⟨r1, r2, r3, r4, r5, r6, r7⟩ := (h.ucall.gen (C := 0) le_rfl).rw (orc := usotDir srt p (proj X θ) (proj Y θ) σ) N
  have he := getReweighteds_eq (σ := σ) (a := a) (b := b) (ρ₁ := ρ₁) (ρ₂ := ρ₂) (genLoop (usotDir srt p (proj X θ) (proj Y θ) σ) ρ₁ ρ₂ a b N).1
    (genLoop (usotDir srt p (proj X θ) (proj Y θ) σ) ρ₁ ρ₂ a b N).2
  obtain ⟨e1, e2, e3, e4, e5⟩ := he
  refine ⟨?_, ?_, fun k => ?_, fun k => ?_, fun i => ?_, fun j => ?_, ?_⟩
  · simp only [unbalancedSliced, usotLoop_eq, e1]; rfl
  · simp only [unbalancedSliced, usotLoop_eq, e2]; rfl
  · simp only [unbalancedSliced, usotLoop_eq, e5]; rfl
  · simp only [unbalancedSliced, usotLoop_eq, e3, e4]; rfl
  · simp only [unbalancedSliced, usotLoop_eq, e1]; exact (r6 i).symm
  · simp only [unbalancedSliced, usotLoop_eq, e2]; exact (r7 j).symm
  · rw [← average_mul_right]
    simp only [unbalancedSliced, usotLoop_eq, e3, e4, e5]; rfl

/-- C109: the marginals returned by `unbalanced_sliced_ot` are the weights reweighted by potentials (an infinite parameter leaves them unchanged); they are positive and have the same mass,
which is the logged `full_mass` of every slice. -/
theorem C109_marginals (h : UsotCall srt p X Y ρ₁ ρ₂ a b θ σ) (N : ℕ) :
    let o := unbalancedSliced srt eps p X Y ρ₁ ρ₂ a b θ σ N
    (∀ i, o.a' i = tilted ρ₁ a o.f i ∧ 0 < o.a' i) ∧ (∀ j, o.b' j = tilted ρ₂ b o.g j ∧ 0 < o.b' j) ∧ ∑ i, o.a' i = ∑ j, o.b' j ∧ ∀ k, o.mass k = ∑ i, o.a' i := by
  obtain ⟨r1, r2, r3, r4, r5, r6, r7⟩ := (h.ucall.gen (C := 0) le_rfl).rw (orc := usotDir srt p (proj X θ) (proj Y θ) σ) N
  obtain ⟨f1, f2, f3, f4, f5, f6, f7⟩ := usot_final (eps := eps) h N
  intro o
  have s1 : ∑ i, o.a' i = (rwsAt srt p (proj X θ) (proj Y θ) σ ρ₁ ρ₂ a b N).mass := by
    rw [sum_congr rfl fun i _ => f5 i, ← sum_mul]
    show (∑ i, (genRw (usotDir srt p (proj X θ) (proj Y θ) σ) ρ₁ ρ₂ a b N).u i) * _ = _
    rw [r3, one_mul]
  have s2 : ∑ i, o.b' i = (rwsAt srt p (proj X θ) (proj Y θ) σ ρ₁ ρ₂ a b N).mass := by
    rw [sum_congr rfl fun i _ => f6 i, ← sum_mul]
    show (∑ i, (genRw (usotDir srt p (proj X θ) (proj Y θ) σ) ρ₁ ρ₂ a b N).v i) * _ = _
    rw [r4, one_mul]
  refine ⟨fun i => ⟨?_, ?_⟩, fun j => ⟨?_, ?_⟩, s1.trans s2.symm, fun k => (f3 k).trans s1.symm⟩
  · show reweight ρ₁ a o.f i = _; rw [reweight_eq_tilted]
  · rw [f5 i]; exact mul_pos (r1 i) r5
  · show reweight ρ₂ b o.g j = _; rw [reweight_eq_tilted]
  · rw [f6 j]; exact mul_pos (r2 j) r5

theorem scale_opt {I J : Type*} [Fintype I] [Fintype J] {u : I → ℝ} {v : J → ℝ} {M G : I → J → ℝ} (h : IsOptimal u v M G) {c : ℝ} (hc : 0 < c) :
    IsOptimal (fun i => u i * c) (fun j => v j * c) M (fun i j => G i j * c) ∧ cost M (fun i j => G i j * c) = cost M G * c := by
  have e1 : ∀ (G : I → J → ℝ), cost M (fun i j => G i j * c) = cost M G * c := fun G => by
    unfold cost; rw [sum_mul]; refine sum_congr rfl fun i _ => ?_; rw [sum_mul]; exact sum_congr rfl fun j _ => by ring
  refine ⟨⟨⟨fun i j => mul_nonneg (h.1.nonneg i j) hc.le, fun i => ?_, fun j => ?_⟩, fun G' hG' => ?_⟩, e1 G⟩
  · rw [← sum_mul, h.1.row i]
  · rw [← sum_mul, h.1.col j]
  · have hG2 : IsCoupling u v (fun i j => G' i j / c) := by
      constructor
      · intro i j; exact div_nonneg (hG'.nonneg i j) hc.le
      · intro i; rw [← sum_div, hG'.row i, mul_div_cancel_right₀ _ hc.ne']
      · intro j; rw [← sum_div, hG'.col j, mul_div_cancel_right₀ _ hc.ne']
    have h1 := mul_le_mul_of_nonneg_right (h.2 _ hG2) hc.le
    rw [e1]
    have e2 := e1 fun i j => G' i j / c
    simp only [div_mul_cancel₀ _ hc.ne'] at e2
    rw [e2]; exact h1

/-- the two penalties, computed with the guarded logarithm -/
theorem guarded_total {I J : Type*} [Fintype I] [Fintype J] {ρ₁ ρ₂ : Option ℝ} (h₁ : PosParam ρ₁) (h₂ : PosParam ρ₂) {a x : I → ℝ} {b y : J → ℝ} (ha : ∀ i, 0 < a i) (hb : ∀ j, 0 < b j)
    (hx : ∀ i, 0 ≤ x i) (hy : ∀ j, 0 ≤ y j) {eps : ℝ} (he : 0 ≤ eps) (s : ℝ) :
    let t := match (generalizing := false) ρ₁, ρ₂ with
      | none, none => s
      | none, some r₂ => s + r₂ * Mm.klDivMass eps y b
      | some r₁, none => s + r₁ * Mm.klDivMass eps x a
      | some r₁, some r₂ => s + r₁ * Mm.klDivMass eps x a + r₂ * Mm.klDivMass eps y b
    s + marginalTerm ρ₁ x a + marginalTerm ρ₂ y b ≤ t ∧ t ≤ s + marginalTerm ρ₁ x a + marginalTerm ρ₂ y b + eps * (paramMass ρ₁ a + paramMass ρ₂ b) := by
  have k1 := klDivMass_bounds he hx ha
  have k2 := klDivMass_bounds he hy hb
  cases ρ₁ with
  | none =>
    cases ρ₂ with
    | none => simp [marginalTerm, paramMass]
    | some r₂ =>
      have hr := h₂ r₂ rfl
      have l1 := mul_le_mul_of_nonneg_left k2.1 hr.le
      have l2 := mul_le_mul_of_nonneg_left k2.2 hr.le
      simp only [marginalTerm, paramMass]
      constructor <;> nlinarith
  | some r₁ =>
    have hr₁ := h₁ r₁ rfl
    have l1 := mul_le_mul_of_nonneg_left k1.1 hr₁.le
    have l2 := mul_le_mul_of_nonneg_left k1.2 hr₁.le
    cases ρ₂ with
    | none =>
      simp only [marginalTerm, paramMass]
      constructor <;> nlinarith
    | some r₂ =>
      have hr := h₂ r₂ rfl
      have l3 := mul_le_mul_of_nonneg_left k2.1 hr.le
      have l4 := mul_le_mul_of_nonneg_left k2.2 hr.le
      simp only [marginalTerm, paramMass]
      constructor <;> nlinarith

/-- C109: `sot_loss` is the average, over the projections, of the optimal transport cost between the projected reweighted samples (each the logged one-dimensional loss times the mass), and
the returned loss is the objective at the returned marginals, up to the constant `eps` inside `kl_div`. -/
theorem C109_loss (h : UsotCall srt p X Y ρ₁ ρ₂ a b θ σ) (he : 0 ≤ eps) (N : ℕ) :
    let o := unbalancedSliced srt eps p X Y ρ₁ ρ₂ a b θ σ N
    Competes a b ρ₁ ρ₂ o.a' o.b' ∧
      ∃ P : Fin L → Fin n → Fin m → ℝ, (∀ k, IsOptimal o.a' o.b' (sliceCost p X Y θ k) (P k) ∧ o.losses k * o.mass k = cost (sliceCost p X Y θ k) (P k)) ∧
        o.sot = average (fun k => cost (sliceCost p X Y θ k) (P k)) ∧
        usotObjective a b (sliceCost p X Y θ) ρ₁ ρ₂ o.a' o.b' P ≤ o.loss ∧
        o.loss ≤ usotObjective a b (sliceCost p X Y θ) ρ₁ ρ₂ o.a' o.b' P + eps * (paramMass ρ₁ a + paramMass ρ₂ b) := by
  obtain ⟨r1, r2, r3, r4, r5, r6, r7⟩ := (h.ucall.gen (C := 0) le_rfl).rw (orc := usotDir srt p (proj X θ) (proj Y θ) σ) N
  obtain ⟨f1, f2, f3, f4, f5, f6, f7⟩ := usot_final (eps := eps) h N
  obtain ⟨m1, m2, m3, m4⟩ := C109_marginals (eps := eps) h N
  intro o
  choose G hG1 hG2 using fun k => slice_opt (p := p) (σ := σ) h.hn h.hm h.hp k (h.perms k).1 (h.perms k).2 r1 r2 (r3.trans r4.symm)
  have hsc := fun k => scale_opt (hG1 k) r5
  have ea : o.a' = fun i => (genRw (usotDir srt p (proj X θ) (proj Y θ) σ) ρ₁ ρ₂ a b N).u i * (genRw (usotDir srt p (proj X θ) (proj Y θ) σ) ρ₁ ρ₂ a b N).mass := funext f5
  have eb : o.b' = fun i => (genRw (usotDir srt p (proj X θ) (proj Y θ) σ) ρ₁ ρ₂ a b N).v i * (genRw (usotDir srt p (proj X θ) (proj Y θ) σ) ρ₁ ρ₂ a b N).mass := funext f6
  have hl : ∀ k, o.losses k * o.mass k = cost (sliceCost p X Y θ k) (fun i j => G k i j * (genRw (usotDir srt p (proj X θ) (proj Y θ) σ) ρ₁ ρ₂ a b N).mass) := fun k => by
    have e : o.losses k * o.mass k = sliceW p (proj X θ) (proj Y θ) σ (genRw (usotDir srt p (proj X θ) (proj Y θ) σ) ρ₁ ρ₂ a b N).u
      (genRw (usotDir srt p (proj X θ) (proj Y θ) σ) ρ₁ ρ₂ a b N).v k * (genRw (usotDir srt p (proj X θ) (proj Y θ) σ) ρ₁ ρ₂ a b N).mass := by
      rw [f4 k, f3 k]; rfl
    rw [e, hG2 k]
    exact (hsc k).2.symm
  have hs : o.sot = average fun k => cost (sliceCost p X Y θ k) (fun i j => G k i j * (genRw (usotDir srt p (proj X θ) (proj Y θ) σ) ρ₁ ρ₂ a b N).mass) := by
    rw [← funext hl]; rfl
  refine ⟨⟨fun i => (m1 i).2.le, fun j => (m2 j).2.le, fun hn => ?_, fun hn => ?_⟩, fun k i j => G k i j * (genRw (usotDir srt p (proj X θ) (proj Y θ) σ) ρ₁ ρ₂ a b N).mass, fun k => ⟨?_, hl k⟩, hs, ?_⟩
  · funext i; rw [(m1 i).1]; subst hn; rfl
  · funext j; rw [(m2 j).1]; subst hn; rfl
  · rw [ea, eb]; exact (hsc k).1
  · have ht := guarded_total h.pos₁ h.pos₂ h.ha h.hb (fun i => (m1 i).2.le) (fun j => (m2 j).2.le) he o.sot
    unfold usotObjective
    rw [← hs]
    exact ht

/-- The cumulative weights, along every projection, of the marginals returned with at most `N` iterations never coincide. -/
def NoTiesOnSlices (srt : Sorter n m) (eps p : ℝ) (X : Fin n → D → ℝ) (Y : Fin m → D → ℝ) (ρ₁ ρ₂ : Option ℝ) (a : Fin n → ℝ) (b : Fin m → ℝ) (θ : Fin L → D → ℝ) (σ : Sorters n m L)
    (N : ℕ) : Prop :=
  ∀ l ≤ N, ∀ k, NoTies (fun i => (unbalancedSliced srt eps p X Y ρ₁ ρ₂ a b θ σ l).a' (σ.permA k i)) (fun j => (unbalancedSliced srt eps p X Y ρ₁ ρ₂ a b θ σ l).b' (σ.permB k j))

theorem noTies_rwsAt (h : UsotCall srt p X Y ρ₁ ρ₂ a b θ σ) {N : ℕ} (hnt : NoTiesOnSlices srt eps p X Y ρ₁ ρ₂ a b θ σ N) :
    ∀ l ≤ N, ∀ k, NoTies (fun i => (rwsAt srt p (proj X θ) (proj Y θ) σ ρ₁ ρ₂ a b l).u (σ.permA k i)) (fun j => (rwsAt srt p (proj X θ) (proj Y θ) σ ρ₁ ρ₂ a b l).v (σ.permB k j)) := by
  intro l hl k i j hi hj heq
  obtain ⟨f1, f2, f3, f4, f5, f6, f7⟩ := usot_final (eps := eps) h l
  refine hnt l hl k i j hi hj ?_
  simp only [f5, f6]
  rw [← sum_mul, ← sum_mul, heq]

/-- C109: without ties the final potentials are, for every number of iterations, averages of potentials feasible on each projection; hence their dual value bounds the objective from below,
for all competing marginals and all plans between them. -/
theorem C109_dual_feasible (h : UsotCall srt p X Y ρ₁ ρ₂ a b θ σ) (N : ℕ) (hnt : NoTiesOnSlices srt eps p X Y ρ₁ ρ₂ a b θ σ N) :
    let o := unbalancedSliced srt eps p X Y ρ₁ ρ₂ a b θ σ N
    AverageFeasible (sliceCost p X Y θ) o.f o.g ∧
      ∀ x y, Competes a b ρ₁ ρ₂ x y → ∀ P : Fin L → Fin n → Fin m → ℝ, (∀ k, IsCoupling x y (P k)) →
        uotDual a b ρ₁ ρ₂ o.f o.g ≤ usotObjective a b (sliceCost p X Y θ) ρ₁ ρ₂ x y P := by
  obtain ⟨C, hC0, hC⟩ := dists_bound p (proj X θ) (proj Y θ)
  obtain ⟨k1, _⟩ := (h.ucall.gen hC0).inv (orc := usotDir srt p (proj X θ) (proj Y θ) σ) N fun l hl => h.ucall.oracleAt hC0 hC (noTies_rwsAt h hnt l hl.le)
  obtain ⟨f1, f2, _⟩ := usot_final (eps := eps) h N
  intro o
  have hf : AverageFeasible (sliceCost p X Y θ) o.f o.g := by
    rw [f1, f2]
    exact averageFeasible_translate h.hL k1 _
  exact ⟨hf, fun x y hc P hP => usot_weak_duality h.pos₁ h.pos₂ h.ha h.hb hf hc hP⟩

/-- C109: without ties the loss returned by `unbalanced_sliced_ot` converges to the minimum, over the common marginals and the plans of all projections, of the averaged cost plus the two
penalties, at the rate `1 / √(numItermax + 2)`; the dual value of the final potentials converges at the rate `1 / (numItermax + 2)`; `B` depends on the problem only. -/
theorem C109_converges (h : UsotCall srt p X Y ρ₁ ρ₂ a b θ σ) (he : 0 ≤ eps) :
    ∃ B, 0 ≤ B ∧ ∀ N, 1 ≤ N → NoTiesOnSlices srt eps p X Y ρ₁ ρ₂ a b θ σ N →
      (∀ x y, Competes a b ρ₁ ρ₂ x y → ∀ P : Fin L → Fin n → Fin m → ℝ, (∀ k, IsCoupling x y (P k)) →
        (unbalancedSliced srt eps p X Y ρ₁ ρ₂ a b θ σ N).loss ≤
          usotObjective a b (sliceCost p X Y θ) ρ₁ ρ₂ x y P + 5 * B / Real.sqrt (N + 2) + eps * (paramMass ρ₁ a + paramMass ρ₂ b)) ∧
      ∀ f g, AverageFeasible (sliceCost p X Y θ) f g →
        uotDual a b ρ₁ ρ₂ f g ≤ uotDual a b ρ₁ ρ₂ (unbalancedSliced srt eps p X Y ρ₁ ρ₂ a b θ σ N).f (unbalancedSliced srt eps p X Y ρ₁ ρ₂ a b θ σ N).g + 4 * B / (N + 2) := by
  obtain ⟨C, hC0, hC⟩ := dists_bound p (proj X θ) (proj Y θ)
  obtain ⟨B, hB, hrate⟩ := (h.ucall.gen hC0).rate (orc := usotDir srt p (proj X θ) (proj Y θ) σ) (W := fun u v => average fun k => sliceW p (proj X θ) (proj Y θ) σ u v k)
  refine ⟨B, hB, fun N hN hnt => ?_⟩
  obtain ⟨q1, q2⟩ := hrate N (fun l hl => h.ucall.oracleAt hC0 hC (noTies_rwsAt h hnt l hl)) hN
  obtain ⟨f1, f2, f3, f4, f5, f6, f7⟩ := usot_final (eps := eps) h N
  obtain ⟨o, ho⟩ : ∃ o, o = unbalancedSliced srt eps p X Y ρ₁ ρ₂ a b θ σ N := ⟨_, rfl⟩
  obtain ⟨l1, P₀, l2, l3, l4, l5⟩ := C109_loss h he N
  have hdf := (C109_dual_feasible h N hnt).2
  obtain ⟨m1, m2, _⟩ := C109_marginals (eps := eps) h N
  rw [← ho]
  rw [← ho] at f1 f2 f7 l2 l3 l4 l5 hdf m1 m2
  obtain ⟨r, er⟩ : ∃ r, r = rwsAt srt p (proj X θ) (proj Y θ) σ ρ₁ ρ₂ a b N := ⟨_, rfl⟩
  rw [← er] at f1 f2 f7
  have er' : genRw (usotDir srt p (proj X θ) (proj Y θ) σ) ρ₁ ρ₂ a b N = r := er.symm
  simp only [er'] at q1 q2
  constructor
  · intro x y hc P hP
    have k1 := dualTerm_eq h.pos₁ h.ha o.f
    have k2 := dualTerm_eq h.pos₂ h.hb o.g
    rw [← f7, ← f1, ← f2] at q2
    have hwd := hdf x y hc P hP
    have e1 : reweight ρ₁ a o.f = o.a' := by rw [reweight_eq_tilted]; exact (funext fun i => (m1 i).1).symm
    have e2 : reweight ρ₂ b o.g = o.b' := by rw [reweight_eq_tilted]; exact (funext fun i => (m2 i).1).symm
    rw [e1] at k1 q2
    rw [e2] at k2 q2
    simp only [mul_comm (o.a' _), mul_comm (o.b' _)] at q2
    unfold uotDual at hwd
    unfold usotObjective at l5
    rw [← l3] at l5
    linarith
  · intro f g hfg
    rw [f1, f2]
    exact q1 f g hfg

/-- C109: the value of `sliced_unbalanced_ot` is the average of the logged one-dimensional values; each is the unbalanced objective on its projection of an admissible plan with the logged
marginals, up to the constant `eps` inside `kl_div`. -/
theorem C109_sliced (h : UsotCall srt p X Y ρ₁ ρ₂ a b θ σ) (he : 0 ≤ eps) (N : ℕ) :
    slicedUnbalanced srt eps p X Y ρ₁ ρ₂ a b θ σ N = average (fun k => (projectedUot srt eps p X Y ρ₁ ρ₂ a b θ σ N k).total) ∧
      ∀ k, let o := projectedUot srt eps p X Y ρ₁ ρ₂ a b θ σ N k
        ∃ G, IsOptimal o.u o.v (sliceCost p X Y θ k) G ∧ IsAdmissible a b ρ₁ ρ₂ G ∧
          ∀ c, unbObjective a b (sliceCost p X Y θ k) 0 c ρ₁ ρ₂ G ≤ o.total ∧
            o.total ≤ unbObjective a b (sliceCost p X Y θ k) 0 c ρ₁ ρ₂ G + eps * (paramMass ρ₁ a + paramMass ρ₂ b) := by
  refine ⟨rfl, fun k => ?_⟩
  obtain ⟨G, g1, _, g3, g4⟩ := C51_costs (h.slice k) he N
  exact ⟨G, g1, g3, g4⟩

/-- C109: without ties the value of `sliced_unbalanced_ot` converges to the average of the minima of the unbalanced problems on the projections. -/
theorem C109_sliced_converges (h : UsotCall srt p X Y ρ₁ ρ₂ a b θ σ) (he : 0 ≤ eps) :
    ∃ B, 0 ≤ B ∧ ∀ N, 1 ≤ N → (∀ k, NoTiesUpTo srt eps p (proj X θ k) (proj Y θ k) ρ₁ ρ₂ a b (σ.permA k) (σ.permB k) N) →
      ∀ c (P : Fin L → Fin n → Fin m → ℝ), (∀ k, IsAdmissible a b ρ₁ ρ₂ (P k)) →
        slicedUnbalanced srt eps p X Y ρ₁ ρ₂ a b θ σ N ≤
          average (fun k => unbObjective a b (sliceCost p X Y θ k) 0 c ρ₁ ρ₂ (P k)) + 5 * B / Real.sqrt (N + 2) + eps * (paramMass ρ₁ a + paramMass ρ₂ b) := by
  choose B hB hr using fun k => C51_converges (h.slice k) he
  refine ⟨average B, average_nonneg hB, fun N hN hnt c P hP => ?_⟩
  have h1 : average (fun k => (projectedUot srt eps p X Y ρ₁ ρ₂ a b θ σ N k).total) ≤
      average fun k => unbObjective a b (sliceCost p X Y θ k) 0 c ρ₁ ρ₂ (P k) + (5 / Real.sqrt (N + 2) * B k + eps * (paramMass ρ₁ a + paramMass ρ₂ b)) :=
    average_le fun k => by
      have := (hr k N hN (hnt k)).1 c (P k) (hP k)
      refine this.trans (le_of_eq ?_)
      show unbObjective a b (sliceCost p X Y θ k) 0 c ρ₁ ρ₂ (P k) + _ + _ = _
      ring
  rw [average_add, average_add, average_mul_left, average_const h.hL] at h1
  refine le_trans h1 (le_of_eq ?_)
  ring

/-- C109: sharing the marginals can only cost more: for plans with common marginals, the objective of `unbalanced_sliced_ot` is the average of the objectives of `sliced_unbalanced_ot`, and
the plans are admissible there. -/
theorem C109_order (h : UsotCall srt p X Y ρ₁ ρ₂ a b θ σ) {x : Fin n → ℝ} {y : Fin m → ℝ} (hc : Competes a b ρ₁ ρ₂ x y) {P : Fin L → Fin n → Fin m → ℝ} (hP : ∀ k, IsCoupling x y (P k))
    (c : Fin n → Fin m → ℝ) :
    (∀ k, IsAdmissible a b ρ₁ ρ₂ (P k)) ∧
      usotObjective a b (sliceCost p X Y θ) ρ₁ ρ₂ x y P = average fun k => unbObjective a b (sliceCost p X Y θ k) 0 c ρ₁ ρ₂ (P k) := by
  refine ⟨fun k => ⟨(hP k).nonneg, fun hn i => ?_, fun hn j => ?_⟩, ?_⟩
  · rw [(hP k).row, hc.fixed₁ hn]
  · rw [(hP k).col, hc.fixed₂ hn]
  · unfold usotObjective unbObjective
    have e : (fun k => cost (sliceCost p X Y θ k) (P k) + 0 * klPlan (P k) c + marginalTerm ρ₁ (fun i => ∑ j, P k i j) a + marginalTerm ρ₂ (fun j => ∑ i, P k i j) b) =
        fun k => cost (sliceCost p X Y θ k) (P k) + (marginalTerm ρ₁ x a + marginalTerm ρ₂ y b) := by
      funext k
      rw [(funext (hP k).row : (fun i => ∑ j, P k i j) = x), (funext (hP k).col : (fun j => ∑ i, P k i j) = y)]
      ring
    rw [e, average_add, average_const h.hL]
    ring

section Examples

/-- The hypotheses hold: one point in the plane against three, two projections, both marginals relaxed, for every number of iterations. -/
example : let X : Fin 1 → Fin 2 → ℝ := fun _ _ => 0
    let Y : Fin 3 → Fin 2 → ℝ := fun j d => (j : ℕ) * ((d : ℕ) + 1)
    let θ : Fin 2 → Fin 2 → ℝ := fun k d => if k = d then 1 else 0
    let σ : Sorters 1 3 2 := ⟨fun _ => Equiv.refl _, fun _ => Equiv.refl _⟩
    UsotCall (stdSorter 1 3) 2 X Y (some 1) (some 2) (fun _ => 1) (fun _ => 1 / 2) θ σ ∧
      ∀ eps N, NoTiesOnSlices (stdSorter 1 3) eps 2 X Y (some 1) (some 2) (fun _ => 1) (fun _ => 1 / 2) θ σ N := by
  refine ⟨⟨stdSorter_sorts 1 3, by norm_num, by norm_num, by norm_num, by norm_num, fun k => ⟨fun _ _ _ => le_rfl, fun i j hij => ?_⟩, ?_, ?_, fun _ => one_pos, fun _ => by norm_num,
    fun h => by simp at h⟩, ?_⟩
  · simp only [proj, Equiv.refl_apply]
    refine sum_le_sum fun d _ => mul_le_mul_of_nonneg_right (mul_le_mul_of_nonneg_right ?_ (by positivity)) (by split_ifs <;> norm_num)
    exact_mod_cast hij
  · intro r hr; simp at hr; linarith
  · intro r hr; simp at hr; linarith
  · intro eps N l _ k i j hi _
    omega

end Examples

end POT.Props
