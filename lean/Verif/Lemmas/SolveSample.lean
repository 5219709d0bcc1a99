import Verif.Model.SolveSample
import Verif.Props.Utils
import Verif.Props.Solve
import Verif.Props.SinkhornLog

/-! # Lemmas for `solve_sample`: costs between points, batches, convergence of lazy Sinkhorn -/

set_option linter.unusedSectionVars false

namespace POT.SolveSample

open Finset Sinkhorn Solve Utils Spec Props Filter Topology

variable {n m d : ℕ}

theorem pointCost_nn (μ : PointMetric) (x y : Fin d → ℝ) : 0 ≤ pointCost μ x y := by
  cases μ
  · exact sum_nonneg fun _ _ => sq_nonneg _
  · exact Real.sqrt_nonneg _
  · exact sum_nonneg fun _ _ => abs_nonneg _

/-- the two arguments may be the same array: then rows with the same number are equal -/
def SameArg (same : Bool) (X : Fin n → Fin d → ℝ) (Y : Fin m → Fin d → ℝ) : Prop := same = true → ∀ (i : Fin n) (j : Fin m), i.val = j.val → X i = Y j

theorem distM_eq (μ : PointMetric) {same : Bool} {X : Fin n → Fin d → ℝ} {Y : Fin m → Fin d → ℝ} (h : SameArg same X Y) : distM μ same X Y = fun i j => pointCost μ (X i) (Y j) := by
  funext i j
  cases μ with
  | sqeuclidean =>
    have h1 := C21_sqeuclidean X Y i j
    simp only [distM, pointCost]
    cases same with
    | false => exact h1
    | true =>
      unfold sqEuclidean at h1 ⊢
      simp only [Bool.false_eq_true, if_false, if_true] at h1 ⊢
      rw [h1]
      split_ifs with hij
      · simp [h rfl i j hij]
      · rw [sub_zero, mul_one]; rfl
  | euclidean =>
    have h1 := C21_euclidean X Y i j
    simp only [distM, pointCost]
    cases same with
    | false => exact h1
    | true =>
      unfold euclidean at h1 ⊢
      simp only [Bool.false_eq_true, if_false, if_true] at h1 ⊢
      rw [h1]
      split_ifs with hij
      · simp [h rfl i j hij]
      · rw [sub_zero, mul_one]; rfl
  | cityblock => exact C21_cityblock X Y i j

theorem distM_false (μ : PointMetric) (X : Fin n → Fin d → ℝ) (Y : Fin m → Fin d → ℝ) : distM μ false X Y = fun i j => pointCost μ (X i) (Y j) := distM_eq μ (by intro h; cases h)

theorem entry_map {α : Type*} {k : ℕ} (φ : α → ℝ) (x : Fin k → α) {bs : ℕ} (hbs : 0 < bs) (i : Fin k) : entry (reduceAxisConcat (List.map φ) (List.ofFn x) bs) i = φ (x i) := by
  rw [C22_reduce_axis_concat φ _ bs hbs]
  unfold entry
  simp [List.getD]

/-- batches do not change an iteration -/
theorem batchedStep_eq (μ : PointMetric) {bs bt : ℕ} (hbs : 0 < bs) (hbt : 0 < bt) (a : Fin n → ℝ) (b : Fin m → ℝ) (X : Fin n → Fin d → ℝ) (Y : Fin m → Fin d → ℝ) (reg : ℝ) :
    batchedStep μ bs bt a b X Y reg = lazyStep a b (fun i j => pointCost μ (X i) (Y j)) reg := by
  funext s
  unfold batchedStep lazyStep
  simp only [entry_map _ _ hbs, entry_map _ _ hbt, distM_false]

theorem batchedErr_eq (μ : PointMetric) {bs : ℕ} (hbs : 0 < bs) (a : Fin n → ℝ) (X : Fin n → Fin d → ℝ) (Y : Fin m → Fin d → ℝ) (reg : ℝ) (s : UV (Fin n) (Fin m)) :
    batchedErr μ bs a X Y reg s = ∑ i, |∑ j, lazyPlan (fun i j => pointCost μ (X i) (Y j)) reg s i j - a i| := by
  unfold batchedErr lazyPlan
  simp only [entry_map _ _ hbs, distM_false]

theorem batchedLoss_eq (μ : PointMetric) {bs : ℕ} (hbs : 0 < bs) (X : Fin n → Fin d → ℝ) (Y : Fin m → Fin d → ℝ) (reg : ℝ) (s : UV (Fin n) (Fin m)) :
    batchedLoss μ bs X Y reg s = cost (fun i j => pointCost μ (X i) (Y j)) (lazyPlan (fun i j => pointCost μ (X i) (Y j)) reg s) := by
  unfold batchedLoss
  rw [C22_reduce_all _ _ bs hbs (fun l l' => by simp [List.map_append, List.sum_append])]
  simp only [List.map_ofFn, List.sum_ofFn, distM_false]
  unfold cost lazyPlan
  exact sum_congr rfl fun i _ => sum_congr rfl fun j _ => mul_comm _ _

theorem empiricalBatched_eq (μ : PointMetric) {bs bt : ℕ} (hbs : 0 < bs) (hbt : 0 < bt) (a : Fin n → ℝ) (b : Fin m → ℝ) (X : Fin n → Fin d → ℝ) (Y : Fin m → Fin d → ℝ) (reg : ℝ) (N : ℕ) (thr : ℝ)
    (warm : Option ((Fin n → ℝ) × (Fin m → ℝ))) : empiricalBatched μ bs bt a b X Y reg N thr warm = empiricalLazy a b (fun i j => pointCost μ (X i) (Y j)) reg N thr warm := by
  unfold empiricalBatched empiricalLazy
  simp only [batchedStep_eq μ hbs hbt, batchedErr_eq μ hbs]

theorem batchedPlan_eq (μ : PointMetric) (X : Fin n → Fin d → ℝ) (Y : Fin m → Fin d → ℝ) (reg : ℝ) (s : UV (Fin n) (Fin m)) :
    batchedPlan μ X Y reg s = lazyPlan (fun i j => pointCost μ (X i) (Y j)) reg s := by
  unfold batchedPlan lazyPlan
  simp only [distM_false]

/-! ### convergence of lazy Sinkhorn -/

section conv

variable {I J : Type*} [Fintype I] [Fintype J] [Nonempty I] [Nonempty J]

/-- potentials whose plan has the right row sums are not changed by the first half of an iteration, and the second half gives the right column sums -/
theorem lazyStep_fixed {a : I → ℝ} {b : J → ℝ} {M : I → J → ℝ} {reg : ℝ} {s : UV I J} (hr : ∀ i, ∑ j, lazyPlan M reg s i j = a i) (hc : ∀ j, ∑ i, lazyPlan M reg s i j = b j) : lazyStep a b M reg s = s := by
  have hu : (fun i => Real.log (a i) - logsumexp fun j => s.v j - M i j / reg) = s.u := by
    funext i
    rw [← hr i]
    have : ∑ j, lazyPlan M reg s i j = Real.exp (s.u i) * ∑ j, Real.exp (s.v j - M i j / reg) := by
      rw [mul_sum]
      exact sum_congr rfl fun j _ => by rw [lazyPlan, ← Real.exp_add]; congr 1; ring
    rw [this, Real.log_mul (Real.exp_pos _).ne' (sum_pos (fun j _ => Real.exp_pos _) univ_nonempty).ne', Real.log_exp, logsumexp]
    ring
  have hv : (fun j => Real.log (b j) - logsumexp fun i => s.u i - M i j / reg) = s.v := by
    funext j
    rw [← hc j]
    have : ∑ i, lazyPlan M reg s i j = Real.exp (s.v j) * ∑ i, Real.exp (s.u i - M i j / reg) := by
      rw [mul_sum]
      exact sum_congr rfl fun i _ => by rw [lazyPlan, ← Real.exp_add]; congr 1; ring
    rw [this, Real.log_mul (Real.exp_pos _).ne' (sum_pos (fun j _ => Real.exp_pos _) univ_nonempty).ne', Real.log_exp, logsumexp]
    ring
  have hu' : ∀ i, Real.log (a i) - (logsumexp fun j => s.v j - M i j / reg) = s.u i := congrFun hu
  unfold lazyStep
  simp only [hu', hv]

/-- with threshold zero the returned potentials are those after all iterations: an earlier stop happens at a fixed point only -/
theorem empiricalLazy_zero (a : I → ℝ) {b : J → ℝ} (M : I → J → ℝ) (reg : ℝ) (hb : ∀ j, 0 < b j) (N : ℕ) (hN : 0 < N) (warm : Option ((I → ℝ) × (J → ℝ))) :
    (empiricalLazy a b M reg N 0 warm).s = (lazyStep a b M reg)^[N] (logInit warm) := by
  obtain ⟨hcol, hrow, _⟩ := C22_lazy_marginals a b M reg N hN 0 warm hb
  obtain ⟨k, hk, e, -, -, x1, x2, x3⟩ := loop_spec (step := lazyStep a b M reg) (bad := fun _ => False)
    (stop := fun ii _ s => (ii + 1) % 10 = 0 ∧ ∑ i, |∑ j, lazyPlan M reg s i j - a i| ≤ 0) N 0 (logInit warm)
  have e' : (empiricalLazy a b M reg N 0 warm).s = _ := e
  rcases h : (empiricalLazy a b M reg N 0 warm).exit with _ | _ | _
  · have h0 := hrow h
    have hr : ∀ i, ∑ j, lazyPlan M reg (empiricalLazy a b M reg N 0 warm).s i j = a i := fun i => by
      have := (sum_eq_zero_iff_of_nonneg fun i _ => abs_nonneg _).1 (le_antisymm h0 (sum_nonneg fun i _ => abs_nonneg _)) i (mem_univ i)
      exact sub_eq_zero.1 (abs_eq_zero.1 this)
    have hf := lazyStep_fixed hr hcol
    obtain ⟨l, rfl⟩ := Nat.exists_eq_add_of_le hk
    have h3 := Function.iterate_fixed hf l
    rw [e', ← Function.iterate_add_apply] at h3
    rw [e', ← h3, add_comm]
  · rw [e', x1 h]
  · exact absurd (x3 h).2 (fun h => h)

theorem sinkhornLog_zero (a : I → ℝ) (b : J → ℝ) (M : I → J → ℝ) (reg : ℝ) (N : ℕ) (warm : Option ((I → ℝ) × (J → ℝ))) :
    (sinkhornLog a b M reg N 0 warm).s = (logStep a b M reg)^[N] (logInit warm) := by
  obtain ⟨k, hk, e, -, -, x1, x2, x3⟩ := loop_spec (step := logStep a b M reg) (bad := fun _ => False)
    (stop := fun ii _ s => ii % 10 = 0 ∧ logErr b M reg s < 0) N 0 (logInit warm)
  have e' : (sinkhornLog a b M reg N 0 warm).s = _ := e
  rcases h : (sinkhornLog a b M reg N 0 warm).exit with _ | _ | _
  · obtain ⟨l, -, -, -, h4⟩ := x2 h
    exact absurd h4 (not_lt.2 (Real.sqrt_nonneg _))
  · rw [e', x1 h]
  · exact absurd (x3 h).2 (fun h => h)

theorem coupling_swap {a : I → ℝ} {b : J → ℝ} {P : I → J → ℝ} (h : IsCoupling a b P) : IsCoupling b a (fun j i => P i j) := ⟨fun j i => h.nonneg i j, h.col, h.row⟩

theorem entropicObjective_swap (M : I → J → ℝ) (reg : ℝ) (P : I → J → ℝ) : entropicObjective (fun j i => M i j) reg (fun j i => P i j) = entropicObjective M reg P := by
  unfold entropicObjective cost
  rw [sum_comm]
  congr 2
  exact sum_comm

theorem entropic_swap {a : I → ℝ} {b : J → ℝ} {M : I → J → ℝ} {reg : ℝ} {P : J → I → ℝ} (h : IsEntropicOptimal b a (fun j i => M i j) reg P) : IsEntropicOptimal a b M reg (fun i j => P j i) := by
  refine ⟨coupling_swap h.1, fun Q hQ => ?_⟩
  have := h.2 _ (coupling_swap hQ)
  rw [entropicObjective_swap M reg Q] at this
  have e : entropicObjective (fun j i => M i j) reg P = entropicObjective M reg fun i j => P j i := entropicObjective_swap M reg fun i j => P j i
  rw [e] at this
  refine ⟨this.1, fun h' => ?_⟩
  have h2 := this.2 h'
  funext i j
  exact congrFun (congrFun h2 j) i

/-- the plans of lazy Sinkhorn converge to the entropic optimum -/
theorem lazy_converges {a : I → ℝ} {b : J → ℝ} (M : I → J → ℝ) {reg : ℝ} (hreg : 0 < reg) (ha : ∀ i, 0 < a i) (hb : ∀ j, 0 < b j) (hS : ∑ i, a i = ∑ j, b j) :
    ∃ P, IsEntropicOptimal a b M reg P ∧ ∀ i j, Tendsto (fun N => lazyPlan M reg (empiricalLazy a b M reg (N + 1) 0 none).s i j) atTop (𝓝 (P i j)) := by
  obtain ⟨P, hP, -, hlim⟩ := log_converges (fun j i => M i j) hreg hb ha hS.symm
  refine ⟨fun i j => P j i, entropic_swap hP, fun i j => (hlim j i).congr fun N => ?_⟩
  rw [empiricalLazy_zero a M reg hb (N + 1) N.succ_pos none, sinkhornLog_zero]
  have h := lazy_is_transposed_log a b M reg (logInit none) (N + 1)
  dsimp only at h
  rw [h]
  unfold lazyPlan logPlan logT
  have : (⟨(logInit none : UV I J).v, (logInit none : UV I J).u⟩ : UV J I) = logInit none := rfl
  rw [this]
  congr 1
  ring

end conv

end POT.SolveSample
