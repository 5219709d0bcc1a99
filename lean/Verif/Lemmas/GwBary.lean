import Verif.Model.GwBary
import Verif.Spec.GwBary
import Verif.Props.Gromov
import Verif.Props.GromovBary

/-! # Lemmas on the barycenter loops -/

set_option linter.unusedSectionVars false

namespace POT.GwBary

open Finset Gromov GromovBary Optim Spec Props

section generic

variable {Z Ts : Type*} {y : Sys Z Ts} {warm : Bool} {crit : Crit} {tol : ℝ}

open Classical in
theorem loop_succ (n : ℕ) (s : St Z Ts) : loop y warm crit tol (n + 1) s = if stops y crit tol s (step y warm s) then step y warm s else loop y warm crit tol n (step y warm s) := rfl

/-- The loop returns an iterate; if it is not the last one allowed, the test holds for it; and more iterations give the same or a later iterate. -/
theorem loop_iter (n : ℕ) (s : St Z Ts) : ∃ k ≤ n, (0 < n → 0 < k) ∧ loop y warm crit tol n s = (step y warm)^[k] s ∧
    (k < n → ∃ k', k = k' + 1 ∧ stops y crit tol ((step y warm)^[k'] s) ((step y warm)^[k] s)) ∧
    ∀ n', n ≤ n' → ∃ k', k ≤ k' ∧ loop y warm crit tol n' s = (step y warm)^[k'] s := by
  induction n generalizing s with
  | zero =>
    refine ⟨0, le_rfl, fun h => h, rfl, fun h => absurd h (lt_irrefl _), fun n' _ => ?_⟩
    clear * -
    induction n' generalizing s with
    | zero => exact ⟨0, le_rfl, rfl⟩
    | succ n' ih =>
      rw [loop_succ]
      split_ifs
      · exact ⟨1, Nat.zero_le _, rfl⟩
      · obtain ⟨k, -, h⟩ := ih (step y warm s)
        exact ⟨k + 1, Nat.zero_le _, by rw [h, Function.iterate_succ_apply]⟩
  | succ n ih =>
    by_cases hs : stops y crit tol s (step y warm s)
    · refine ⟨1, by omega, fun _ => one_pos, by rw [loop_succ, if_pos hs]; rfl, fun _ => ⟨0, rfl, hs⟩, fun n' hn' => ?_⟩
      obtain ⟨m, rfl⟩ : ∃ m, n' = m + 1 := ⟨n' - 1, by omega⟩
      exact ⟨1, le_rfl, by rw [loop_succ, if_pos hs]; rfl⟩
    · obtain ⟨k, hk, -, he, hst, hmore⟩ := ih (step y warm s)
      refine ⟨k + 1, by omega, fun _ => Nat.succ_pos _, by rw [loop_succ, if_neg hs, he, Function.iterate_succ_apply], fun hlt => ?_, fun n' hn' => ?_⟩
      · obtain ⟨k', rfl, h⟩ := hst (by omega)
        exact ⟨k' + 1, rfl, by simpa only [Function.iterate_succ_apply] using h⟩
      · obtain ⟨m, rfl⟩ : ∃ m, n' = m + 1 := ⟨n' - 1, by omega⟩
        obtain ⟨k', hk', h⟩ := hmore m (by omega)
        exact ⟨k' + 1, by omega, by rw [loop_succ, if_neg hs, h, Function.iterate_succ_apply]⟩

variable {E : Z → Ts → ℝ} {Good : Z → Prop} {Feas : Ts → Prop} {start : Z → Ts}

/-- What is used of the inner solver and of the update. -/
structure Descends (y : Sys Z Ts) (E : Z → Ts → ℝ) (Good : Z → Prop) (Feas : Ts → Prop) (start : Z → Ts) : Prop where
  solve : ∀ z o, Good z → (∀ T, o = some T → Feas T) → Feas (y.solve z o).1 ∧ E z (y.solve z o).1 ≤ E z (o.getD (start z))
  update : ∀ z T, Good z → Feas T → Good (y.update T z) ∧ E (y.update T z) T ≤ E z T

theorem iter_good (h : Descends y E Good Feas start) {s : St Z Ts} (hz : Good s.z) (hT : ∀ T, s.T = some T → Feas T) (k : ℕ) :
    Good ((step y warm)^[k] s).z ∧ ∀ T, ((step y warm)^[k] s).T = some T → Feas T := by
  induction k with
  | zero => exact ⟨hz, hT⟩
  | succ k ih =>
    rw [Function.iterate_succ_apply']
    have h1 := h.solve _ (if warm then ((step y warm)^[k] s).T else none) ih.1 (by cases warm <;> simp; exact ih.2)
    refine ⟨(h.update _ _ ih.1 h1.1).1, fun T hT => ?_⟩
    rw [← Option.some.inj hT]
    exact h1.1

/-- One iteration with warm start. -/
theorem step_descent (h : Descends y E Good Feas start) {s : St Z Ts} (hz : Good s.z) (hT : ∀ T, s.T = some T → Feas T) :
    ∃ T, (step y true s).T = some T ∧ E (step y true s).z T ≤ E s.z (s.T.getD (start s.z)) := by
  have h1 := h.solve s.z s.T hz hT
  exact ⟨_, rfl, (h.update _ _ hz h1.1).2.trans h1.2⟩

theorem iter_losses (s : St Z Ts) (k : ℕ) : ((step y warm)^[k] s).losses.length = s.losses.length + k := by
  induction k with
  | zero => rfl
  | succ k ih =>
    rw [Function.iterate_succ_apply']
    simp only [step, List.length_append, ih, List.length_singleton, add_assoc]

/-- The last iteration of the loop. -/
theorem loop_last (h : Descends y E Good Feas start) {s : St Z Ts} (hz : Good s.z) (hT : ∀ T, s.T = some T → Feas T) {n : ℕ} (hn : 0 < n) :
    ∃ s0 : St Z Ts, Good s0.z ∧ (∀ T, s0.T = some T → Feas T) ∧ loop y warm crit tol n s = step y warm s0 ∧ ((step y warm s0).losses.length < s.losses.length + n → stops y crit tol s0 (step y warm s0)) := by
  obtain ⟨k, -, hk0, he, hst, -⟩ := loop_iter (y := y) (warm := warm) (crit := crit) (tol := tol) n s
  obtain ⟨m, rfl⟩ : ∃ m, k = m + 1 := ⟨k - 1, by have := hk0 hn; omega⟩
  obtain ⟨hg, hf⟩ := iter_good (warm := warm) h hz hT m
  refine ⟨_, hg, hf, by rw [he, Function.iterate_succ_apply'], fun hl => ?_⟩
  rw [← Function.iterate_succ_apply' (step y warm), iter_losses] at hl
  obtain ⟨k', hk', hs⟩ := hst (by omega)
  obtain rfl : m = k' := by omega
  rwa [Function.iterate_succ_apply'] at hs

theorem iter_descent (h : Descends y E Good Feas start) {s : St Z Ts} (hz : Good s.z) (hT : ∀ T, s.T = some T → Feas T) {k k' : ℕ} (hk : k ≤ k') :
    E ((step y true)^[k'] s).z (((step y true)^[k'] s).T.getD (start ((step y true)^[k'] s).z)) ≤ E ((step y true)^[k] s).z (((step y true)^[k] s).T.getD (start ((step y true)^[k] s).z)) := by
  induction k', hk using Nat.le_induction with
  | base => exact le_rfl
  | succ m hm ih =>
    refine le_trans ?_ ih
    rw [Function.iterate_succ_apply']
    obtain ⟨hg, hf⟩ := iter_good (warm := true) h hz hT m
    obtain ⟨T, h1, h2⟩ := step_descent h hg hf
    rw [h1]
    exact h2

end generic

variable {S : Type*} [Fintype S] {I : S → Type*} [∀ s, Fintype (I s)] {J E : Type*} [Fintype J] [Fintype E]

/-! ## Updates -/

theorem structSource_square {lam : S → ℝ} (hl1 : ∑ s, lam s = 1) {p : J → ℝ} (hp : ∀ j, 0 < p j) {T : (s : S) → J → I s → ℝ} (hT : ∀ s j, ∑ i, T s j i = p j) (C : (s : S) → I s → I s → ℝ) :
    structSource .square lam p T C = updateSource2 lam T C := by
  funext j l
  have h : ∑ s, lam s * (p j * p l) = p j * p l := by rw [← sum_mul, hl1, one_mul]
  simp only [structSource, updateSource2, prod2, hT, h, nanInv, if_neg (mul_pos (hp j) (hp l)).ne']
  rw [one_div_mul_one_div]

theorem structSource_kl {lam : S → ℝ} (hl1 : ∑ s, lam s = 1) {p : J → ℝ} (hp : ∀ j, 0 < p j) {T : (s : S) → J → I s → ℝ} (hT : ∀ s j, ∑ i, T s j i = p j) (C : (s : S) → I s → I s → ℝ) (ε δ : ℝ) :
    structSource (.kl ε δ) lam p T C = updateSourceKl δ lam T C := by
  funext j l
  have h : ∑ s, lam s * (p j * p l) = p j * p l := by rw [← sum_mul, hl1, one_mul]
  simp only [structSource, updateSourceKl, prod2, hT, h, nanInv, if_neg (mul_pos (hp j) (hp l)).ne']
  rw [one_div_mul_one_div]

theorem featSource_eq {lam : S → ℝ} (hl1 : ∑ s, lam s = 1) {p : J → ℝ} (hp : ∀ j, 0 < p j) {T : (s : S) → J → I s → ℝ} (hT : ∀ s j, ∑ i, T s j i = p j) (Y : (s : S) → I s → E → ℝ) :
    featSource lam p T Y = updateFeature2 lam (fun s i j => T s j i) Y := by
  funext j e
  have h : ∑ s, lam s * p j = p j := by rw [← sum_mul, hl1, one_mul]
  simp only [featSource, updateFeature2, margTarget, hT, h, nanInv, if_neg (hp j).ne']

/-- the weights of the update are the same both ways round -/
theorem updateTarget2_symm {lam : S → ℝ} {T : (s : S) → I s → J → ℝ} {C : (s : S) → I s → I s → ℝ} (hC : ∀ s i k, C s i k = C s k i) (j l : J) :
    updateTarget2 lam T C j l = updateTarget2 lam T C l j := by
  unfold updateTarget2 structSum prod2
  congr 1
  · refine sum_congr rfl fun s _ => ?_
    congr 1
    simp only [sum_mul]
    rw [sum_comm]
    exact sum_congr rfl fun i _ => sum_congr rfl fun k _ => by rw [hC s k i]; ring
  · congr 1
    exact sum_congr rfl fun s _ => by ring

theorem structSource_symm (ℓ : Loss) {lam : S → ℝ} {p : J → ℝ} {T : (s : S) → J → I s → ℝ} {C : (s : S) → I s → I s → ℝ} (hC : ∀ s i k, C s i k = C s k i) (j l : J) :
    structSource ℓ lam p T C j l = structSource ℓ lam p T C l j := by
  have key : ∀ D : (s : S) → I s → I s → ℝ, (∀ s i k, D s i k = D s k i) → ∑ s, lam s * ∑ k, (∑ i, T s j i * D s i k) * T s l k = ∑ s, lam s * ∑ k, (∑ i, T s l i * D s i k) * T s j k := by
    intro D hD
    refine sum_congr rfl fun s _ => ?_
    congr 1
    simp only [sum_mul]
    rw [sum_comm]
    exact sum_congr rfl fun i _ => sum_congr rfl fun k _ => by rw [hD s k i]; ring
  cases ℓ with
  | square => simp only [structSource]; rw [key C hC, mul_comm (1 / p j)]
  | kl ε δ => simp only [structSource]; rw [key (fun s i k => Real.log (max (C s i k) δ)) (fun s i k => by rw [hC]), mul_comm (1 / p j)]

/-! ## Objective -/

/-- The loss function named by `loss_fun`. -/
noncomputable def Loss.fn (ℓ : Loss) : ℝ → ℝ → ℝ := ℓ.decomp.loss

theorem objective_eq (d : Data S I J E) (z : Bary J E) (T : (s : S) → J → I s → ℝ) :
    fgwBaryObjective d.loss.fn d.alpha d.lam d.C d.Y z.X z.C T = ∑ s, d.lam s * fgwObjective d.loss.decomp.loss z.C (d.C s) (fun j i => (1 - d.alpha) * distSq z.X (d.Y s) j i) d.alpha (T s) := by
  unfold fgwBaryObjective fgwObjective distSq Spec.inner Loss.fn
  refine sum_congr rfl fun s _ => ?_
  congr 2
  simp only [mul_sum]
  exact sum_congr rfl fun j _ => sum_congr rfl fun i _ => by rw [sum_mul]; exact sum_congr rfl fun e _ => by ring

theorem sr_objective_eq (d : Data S I J E) (z : Bary J E) (T : (s : S) → I s → J → ℝ) :
    srBaryObjective d.loss.fn d.alpha d.lam d.C d.Y z.X z.C T = ∑ s, d.lam s * fgwObjective d.loss.decomp.loss (d.C s) z.C (fun i j => (1 - d.alpha) * distSq (d.Y s) z.X i j) d.alpha (T s) := by
  unfold srBaryObjective fgwObjective distSq Spec.inner Loss.fn
  refine sum_congr rfl fun s _ => ?_
  congr 2
  simp only [mul_sum]
  exact sum_congr rfl fun j _ => sum_congr rfl fun i _ => by rw [sum_mul]; exact sum_congr rfl fun e _ => by ring

/-- conditional gradient, balanced -/
theorem cgRun_fgw {A B : Type*} [Fintype A] [Fintype B] {symmetric : Bool} {D : Decomp ℝ} {C1 : A → A → ℝ} {C2 : B → B → ℝ} (hsym : symmetric = true → (∀ i k, C1 i k = C1 k i) ∧ (∀ j l, C2 j l = C2 l j)) {p : A → ℝ} {q : B → ℝ} {M : A → B → ℝ} {reg : ℝ}
    {lp : (A → B → ℝ) → A → B → ℝ} (hlp : ∀ Mi, IsCoupling p q (lp Mi)) (n : ℕ) (t1 t2 : ℝ) {G0 : A → B → ℝ} (h0 : IsCoupling p q G0) :
    IsCoupling p q (cgRun (fgwProblem symmetric D C1 C2 p q M reg lp n t1 t2) G0).1 ∧
    (cgRun (fgwProblem symmetric D C1 C2 p q M reg lp n t1 t2) G0).2 = fgwObjective D.loss C1 C2 M reg (cgRun (fgwProblem symmetric D C1 C2 p q M reg lp n t1 t2) G0).1 ∧
    fgwObjective D.loss C1 C2 M reg (cgRun (fgwProblem symmetric D C1 C2 p q M reg lp n t1 t2) G0).1 ≤ fgwObjective D.loss C1 C2 M reg G0 := by
  obtain ⟨s, h1, h2, h3, h4⟩ := C36_fgw_returned symmetric D C1 C2 hsym p q M reg lp hlp n t1 t2 G0 h0
  have e : cgRun (fgwProblem symmetric D C1 C2 p q M reg lp n t1 t2) G0 = (s.G, s.losses.head?.getD 0) := by
    unfold cgRun
    rw [show (fgwProblem symmetric D C1 C2 p q M reg lp n t1 t2).numItermax = n from rfl, h1]
    rfl
  rw [e]
  exact ⟨h2, by rw [h3]; rfl, h4⟩

theorem cgRun_sr {A B : Type*} [Fintype A] [Fintype B] [Nonempty B] {symmetric : Bool} {D : Decomp ℝ} {C1 : A → A → ℝ} {C2 : B → B → ℝ} {p : A → ℝ} (hp : ∀ i, 0 ≤ p i) {M : A → B → ℝ} {reg tie : ℝ} (htie : 0 ≤ tie) (n : ℕ) (t1 t2 : ℝ) {G0 : A → B → ℝ}
    (h0 : (∀ i j, 0 ≤ G0 i j) ∧ ∀ i, ∑ j, G0 i j = p i) :
    ((∀ i j, 0 ≤ (cgRun (srProblem symmetric D C1 C2 p M reg tie n t1 t2) G0).1 i j) ∧ ∀ i, ∑ j, (cgRun (srProblem symmetric D C1 C2 p M reg tie n t1 t2) G0).1 i j = p i) ∧
    (cgRun (srProblem symmetric D C1 C2 p M reg tie n t1 t2) G0).2 = fgwObjective D.loss C1 C2 M reg (cgRun (srProblem symmetric D C1 C2 p M reg tie n t1 t2) G0).1 ∧
    fgwObjective D.loss C1 C2 M reg (cgRun (srProblem symmetric D C1 C2 p M reg tie n t1 t2) G0).1 ≤ fgwObjective D.loss C1 C2 M reg G0 := by
  obtain ⟨s, h1, h2, h3, h4⟩ := C36_semirelaxed_returned symmetric D C1 C2 p hp M reg tie htie n t1 t2 G0 h0
  have e : cgRun (srProblem symmetric D C1 C2 p M reg tie n t1 t2) G0 = (s.G, s.losses.head?.getD 0) := by
    unfold cgRun
    rw [show (srProblem symmetric D C1 C2 p M reg tie n t1 t2).numItermax = n from rfl, h1]
    rfl
  rw [e]
  exact ⟨h2, by rw [h3]; rfl, h4⟩

/-! ## The updates minimise the objective -/

theorem objective_split (L : ℝ → ℝ → ℝ) (α : ℝ) (lam : S → ℝ) (C : (s : S) → I s → I s → ℝ) (Y : (s : S) → I s → E → ℝ) (X : J → E → ℝ) (Cb : J → J → ℝ) (T : (s : S) → J → I s → ℝ) :
    fgwBaryObjective L α lam C Y X Cb T = (1 - α) * baryFeature lam (fun s i j => T s j i) Y X + α * ∑ s, lam s * gwEnergy L Cb (C s) (T s) := by
  unfold fgwBaryObjective baryFeature
  rw [mul_sum, mul_sum, ← sum_add_distrib]
  refine sum_congr rfl fun s _ => ?_
  have : ∑ j, ∑ i, T s j i * ∑ e, (X j e - Y s i e) ^ 2 = ∑ i, ∑ j, T s j i * ∑ e, (Y s i e - X j e) ^ 2 := by
    rw [sum_comm]
    exact sum_congr rfl fun i _ => sum_congr rfl fun j _ => by congr 1; exact sum_congr rfl fun e _ => by ring
  rw [this]
  ring

theorem sr_objective_split (L : ℝ → ℝ → ℝ) (α : ℝ) (lam : S → ℝ) (C : (s : S) → I s → I s → ℝ) (Y : (s : S) → I s → E → ℝ) (X : J → E → ℝ) (Cb : J → J → ℝ) (T : (s : S) → I s → J → ℝ) :
    srBaryObjective L α lam C Y X Cb T = (1 - α) * baryFeature lam T Y X + α * baryEnergy L lam T C Cb := by
  unfold srBaryObjective baryFeature baryEnergy
  rw [mul_sum, mul_sum, ← sum_add_distrib]
  exact sum_congr rfl fun s _ => by ring

/-- The loss named by the data is handled exactly: square, or Kullback-Leibler with the guard of the loss idealised to zero and inputs above the guard of the update. -/
def LossOk (ℓ : Loss) (C : (s : S) → I s → I s → ℝ) : Prop :=
  match ℓ with
  | .square => True
  | .kl ε δ => ε = 0 ∧ 0 < δ ∧ ∀ s i k, δ ≤ C s i k

/-- Structures the Kullback-Leibler loss is finite at. -/
def Loss.Dom (ℓ : Loss) (C : J → J → ℝ) : Prop :=
  match ℓ with
  | .square => True
  | .kl _ _ => ∀ j l, 0 < C j l

theorem structSource_opt {ℓ : Loss} {lam : S → ℝ} (hl : ∀ s, 0 ≤ lam s) (hl1 : ∑ s, lam s = 1) {p : J → ℝ} (hp : ∀ j, 0 < p j) {T : (s : S) → J → I s → ℝ} (hT0 : ∀ s j i, 0 ≤ T s j i) (hT : ∀ s j, ∑ i, T s j i = p j) {C : (s : S) → I s → I s → ℝ}
    (hℓ : LossOk ℓ C) {C' : J → J → ℝ} (hC' : ℓ.Dom C') :
    ∑ s, lam s * gwEnergy ℓ.fn (structSource ℓ lam p T C) (C s) (T s) ≤ ∑ s, lam s * gwEnergy ℓ.fn C' (C s) (T s) := by
  cases ℓ with
  | square =>
    rw [structSource_square hl1 hp hT]
    have e : Loss.square.fn = sqLoss := square_loss'
    rw [e]
    exact C41_structure_square_source lam hl T hT0 C C'
  | kl ε δ =>
    obtain ⟨rfl, hδ, hC⟩ := hℓ
    rw [structSource_kl hl1 hp hT]
    have e : (Loss.kl 0 δ).fn = klLoss 0 := kl_loss' 0
    rw [e]
    exact C41_structure_kl_source δ lam hl T hT0 C hC C' hC'

theorem structSource_dom {ℓ : Loss} {lam : S → ℝ} {p : J → ℝ} {T : (s : S) → J → I s → ℝ} {C : (s : S) → I s → I s → ℝ} : ℓ.Dom (structSource ℓ lam p T C) := by
  cases ℓ with
  | square => trivial
  | kl ε δ => exact fun j l => Real.exp_pos _

theorem updSource_opt {d : Data S I J E} (hl : ∀ s, 0 ≤ d.lam s) (hl1 : ∑ s, d.lam s = 1) (hp : ∀ j, 0 < d.p j) (ha : 0 ≤ d.alpha ∧ d.alpha ≤ 1) (hℓ : LossOk d.loss d.C) {T : (s : S) → J → I s → ℝ} (hT0 : ∀ s j i, 0 ≤ T s j i) (hT : ∀ s j, ∑ i, T s j i = d.p j)
    (z : Bary J E) {X' : J → E → ℝ} {C' : J → J → ℝ} (hX : d.fixedFeatures = true → X' = z.X) (hC : d.fixedStructure = true → C' = z.C) (hdom : d.loss.Dom C') :
    fgwBaryObjective d.loss.fn d.alpha d.lam d.C d.Y (updSource d T z).X (updSource d T z).C T ≤ fgwBaryObjective d.loss.fn d.alpha d.lam d.C d.Y X' C' T := by
  rw [objective_split, objective_split]
  have h1 : baryFeature d.lam (fun s i j => T s j i) d.Y (updSource d T z).X ≤ baryFeature d.lam (fun s i j => T s j i) d.Y X' := by
    unfold updSource
    dsimp only
    split_ifs with h
    · rw [hX h]
    · rw [featSource_eq hl1 hp hT]
      exact C41_feature d.lam hl _ (fun s i j => hT0 s j i) d.Y X'
  have h2 : ∑ s, d.lam s * gwEnergy d.loss.fn (updSource d T z).C (d.C s) (T s) ≤ ∑ s, d.lam s * gwEnergy d.loss.fn C' (d.C s) (T s) := by
    unfold updSource
    dsimp only
    split_ifs with h
    · rw [hC h]
    · exact structSource_opt hl hl1 hp hT0 hT hℓ hdom
  have := mul_le_mul_of_nonneg_left h1 (sub_nonneg.2 ha.2)
  have := mul_le_mul_of_nonneg_left h2 ha.1
  linarith

theorem updTarget_opt [Nonempty J] {d : Data S I J E} (hl : ∀ s, 0 ≤ d.lam s) (ha : 0 ≤ d.alpha ∧ d.alpha ≤ 1) (hℓ : LossOk d.loss d.C) {T : (s : S) → I s → J → ℝ} (hT0 : ∀ s i j, 0 ≤ T s i j)
    (z : Bary J E) {X' : J → E → ℝ} {C' : J → J → ℝ} (hX : d.fixedFeatures = true → X' = z.X) (hC : d.fixedStructure = true → C' = z.C) (hdom : d.loss.Dom C') :
    srBaryObjective d.loss.fn d.alpha d.lam d.C d.Y (updTarget d T z).X (updTarget d T z).C T ≤ srBaryObjective d.loss.fn d.alpha d.lam d.C d.Y X' C' T := by
  classical
  rw [sr_objective_split, sr_objective_split]
  have h1 : baryFeature d.lam T d.Y (updTarget d T z).X ≤ baryFeature d.lam T d.Y X' := by
    unfold updTarget
    dsimp only
    split_ifs with h
    · rw [hX h]
    · have := C41_feature d.lam hl T hT0 d.Y X'
      convert this
  have h2 : baryEnergy d.loss.fn d.lam T d.C (updTarget d T z).C ≤ baryEnergy d.loss.fn d.lam T d.C C' := by
    unfold updTarget
    dsimp only
    split_ifs with h
    · rw [hC h]
    · cases hd : d.loss with
      | square =>
        have e : Loss.square.fn = sqLoss := square_loss'
        rw [e]
        have := C41_structure_square d.lam hl T hT0 d.C C'
        convert this
      | kl ε δ =>
        rw [hd] at hℓ hdom
        obtain ⟨rfl, hδ, hC⟩ := hℓ
        have e : (Loss.kl 0 δ).fn = klLoss 0 := kl_loss' 0
        rw [e]
        have := C41_structure_kl d.lam hl T hT0 d.C (fun s i k => hδ.le.trans (hC s i k)) C' hdom
        convert this
  have := mul_le_mul_of_nonneg_left h1 (sub_nonneg.2 ha.2)
  have := mul_le_mul_of_nonneg_left h2 ha.1
  linarith

end POT.GwBary
