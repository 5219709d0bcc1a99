import Verif.Model.Partial
import Verif.Lemmas.PartialEntropic
import Verif.Spec.Entropic
import Mathlib.Tactic.FinCases
import Mathlib.Tactic.NormNum

/-!
# C46: entropic partial transport

Both solvers run Dykstra's algorithm for the Kullback–Leibler projections on the row, column and mass constraints. Positive weights and a positive mass are assumed: a zero
weight or `m = 0` makes the code divide zero by zero (DESIGN.md, finding 30).
-/

set_option linter.unusedSectionVars false

namespace POT.Props

open Finset Spec Partial PartialEntropic Filter Topology

variable {I J : Type*} [Fintype I] [Fintype J] [Nonempty I] [Nonempty J]

/-- the state of the solver that belongs to three blocks of scalings -/
noncomputable def toDyk (K : I → J → ℝ) (r : Red I J) : Dyk I J :=
  { K := plan K r, q1 := fun i _ => (r.f i)⁻¹, q2 := fun _ j => (r.g j)⁻¹, q3 := fun _ _ => r.c⁻¹ }

theorem dykStep_toDyk {a : I → ℝ} {b : J → ℝ} {m : ℝ} {K : I → J → ℝ} (ha : ∀ i, 0 < a i) (hb : ∀ j, 0 < b j) (hm : 0 < m) (hK : ∀ i j, 0 < K i j)
    {r : Red I J} (hr : Ok r) : dykStep a b m (toDyk K r) = toDyk K (redStep a b m K r) := by
  have e1 : ∀ i j, plan K r i j * (r.f i)⁻¹ = r.g j * r.c * K i j := fun i j => by
    have := (hr.f0 i).ne'
    simp only [plan]
    field_simp
  have ok1 := rowStep_ok ha hK hr
  have e2 : ∀ i j, min (a i / ∑ j, r.g j * r.c * K i j) 1 * (r.g j * r.c * K i j) = plan K (rowStep a K r) i j := fun i j => by
    simp only [plan, rowStep, rowS]
    ring
  have e3 : ∀ i j, (r.f i)⁻¹ * plan K r i j / plan K (rowStep a K r) i j = ((rowStep a K r).f i)⁻¹ := fun i j => by
    have h1 := (hr.f0 i).ne'
    have h2 := (ok1.f0 i).ne'
    have h3 := (hr.g0 j).ne'
    have h4 := hr.c0.ne'
    have h5 := (hK i j).ne'
    change (r.f i)⁻¹ * (r.f i * r.g j * r.c * K i j) / ((rowStep a K r).f i * r.g j * r.c * K i j) = _
    field_simp
  obtain ⟨r1, hr1⟩ : ∃ r1, rowStep a K r = r1 := ⟨_, rfl⟩
  rw [hr1] at e2 e3 ok1
  have eg : r.g = r1.g := by rw [← hr1]; rfl
  have ec : r.c = r1.c := by rw [← hr1]; rfl
  have e4 : ∀ i j, plan K r1 i j * (r1.g j)⁻¹ = r1.f i * r1.c * K i j := fun i j => by
    have := (ok1.g0 j).ne'
    simp only [plan]
    field_simp
  have ok2 := colStep_ok hb hK ok1
  have e5 : ∀ i j, r1.f i * r1.c * K i j * min (b j / ∑ i, r1.f i * r1.c * K i j) 1 = plan K (colStep b K r1) i j := fun i j => by
    simp only [plan, colStep, colS]
    ring
  have e6 : ∀ i j, (r1.g j)⁻¹ * plan K r1 i j / plan K (colStep b K r1) i j = ((colStep b K r1).g j)⁻¹ := fun i j => by
    have h1 := (ok1.f0 i).ne'
    have h2 := (ok2.g0 j).ne'
    have h3 := (ok1.g0 j).ne'
    have h4 := ok1.c0.ne'
    have h5 := (hK i j).ne'
    change (r1.g j)⁻¹ * (r1.f i * r1.g j * r1.c * K i j) / (r1.f i * (colStep b K r1).g j * r1.c * K i j) = _
    field_simp
  obtain ⟨r2, hr2⟩ : ∃ r2, colStep b K r1 = r2 := ⟨_, rfl⟩
  rw [hr2] at e5 e6 ok2
  have eg2 : r1.f = r2.f := by rw [← hr2]; rfl
  have ec2 : r1.c = r2.c := by rw [← hr2]; rfl
  have e7 : ∀ i j, plan K r2 i j * (r2.c)⁻¹ = r2.f i * r2.g j * K i j := fun i j => by
    have := ok2.c0.ne'
    simp only [plan]
    field_simp
  have e8 : ∀ i j, r2.f i * r2.g j * K i j * (m / ∑ i, ∑ j, r2.f i * r2.g j * K i j) = plan K (massStep m K r2) i j := fun i j => by
    simp only [plan, massStep, tot]
    ring
  have ok3 := massStep_ok hm hK ok2
  have e9 : ∀ i j, r2.c⁻¹ * plan K r2 i j / plan K (massStep m K r2) i j = ((massStep m K r2).c)⁻¹ := fun i j => by
    have h1 := (ok2.f0 i).ne'
    have h2 := (ok2.g0 j).ne'
    have h3 := ok2.c0.ne'
    have h4 := ok3.c0.ne'
    have h5 := (hK i j).ne'
    change r2.c⁻¹ * (r2.f i * r2.g j * r2.c * K i j) / (r2.f i * r2.g j * (massStep m K r2).c * K i j) = _
    field_simp
  have efin : redStep a b m K r = massStep m K r2 := by rw [redStep, hr1, hr2]
  rw [efin]
  unfold dykStep toDyk
  simp only [e1, e2, e3]
  simp only [eg, e4, e5, e6]
  simp only [ec, ec2, e7, e8, e9]
  rw [Dyk.mk.injEq]
  exact ⟨rfl, by rw [eg2]; rfl, rfl, rfl⟩

/-- trivial scalings -/
def one : Red I J := ⟨fun _ => 1, fun _ => 1, 1⟩

theorem one_ok : Ok (one : Red I J) := ⟨fun _ => one_pos, fun _ => le_rfl, fun _ => one_pos, fun _ => le_rfl, one_pos⟩

theorem dykInit_toDyk (M : I → J → ℝ) (reg m : ℝ) : dykInit M reg m = toDyk (dykInit M reg m).K one := by
  unfold toDyk plan one
  rw [Dyk.ext_iff]
  refine ⟨?_, ?_, ?_, ?_⟩ <;> funext i j <;> simp [dykInit]

theorem sumExp_pos (M : I → J → ℝ) (reg : ℝ) : 0 < ∑ i, ∑ j, Real.exp (M i j / (-reg)) :=
  sum_pos (fun _ _ => sum_pos (fun _ _ => Real.exp_pos _) univ_nonempty) univ_nonempty

theorem dykInit_pos (M : I → J → ℝ) (reg : ℝ) {m : ℝ} (hm : 0 < m) (i : I) (j : J) : 0 < (dykInit M reg m).K i j :=
  mul_pos (Real.exp_pos _) (div_pos hm (sumExp_pos M reg))

theorem dykInit_mass (M : I → J → ℝ) (reg m : ℝ) : ∑ i, ∑ j, (dykInit M reg m).K i j = m := by
  have := (sumExp_pos M reg).ne'
  simp only [dykInit, ← sum_mul]
  field_simp

/-- the iterates of the solver in reduced form -/
theorem dykIter {a : I → ℝ} {b : J → ℝ} {m : ℝ} (ha : ∀ i, 0 < a i) (hb : ∀ j, 0 < b j) (hm : 0 < m) (M : I → J → ℝ) (reg : ℝ) (n : ℕ) :
    (dykStep a b m)^[n] (dykInit M reg m) = toDyk (dykInit M reg m).K ((redStep a b m (dykInit M reg m).K)^[n] one) := by
  have hK := dykInit_pos M reg hm
  induction n with
  | zero => exact dykInit_toDyk M reg m
  | succ n ih =>
    rw [Function.iterate_succ_apply', ih, Function.iterate_succ_apply', dykStep_toDyk ha hb hm hK (iter_ok ha hb hm hK one_ok n)]

/-- **C46 (positive plans of mass `m`).** Every iterate of the solver is a positive plan of total mass exactly `m`. -/
theorem C46_mass {a : I → ℝ} {b : J → ℝ} {m : ℝ} (ha : ∀ i, 0 < a i) (hb : ∀ j, 0 < b j) (hm : 0 < m) (M : I → J → ℝ) (reg : ℝ) (n : ℕ) :
    (∀ i j, 0 < ((dykStep a b m)^[n] (dykInit M reg m)).K i j) ∧ mass ((dykStep a b m)^[n] (dykInit M reg m)).K = m := by
  have hK := dykInit_pos M reg hm
  rw [dykIter ha hb hm]
  refine ⟨plan_pos hK (iter_ok ha hb hm hK one_ok n), ?_⟩
  cases n with
  | zero => simpa [toDyk, plan, one, mass] using dykInit_mass M reg m
  | succ n => exact iter_mass ha hb hm hK one_ok n

theorem ent_objective (M : I → J → ℝ) {reg : ℝ} (hreg : reg ≠ 0) {m : ℝ} (hm : 0 < m) (P : I → J → ℝ) (hP : mass P = m) :
    reg * ent (dykInit M reg m).K P = entropicObjective M reg P - reg * m * Real.log (m / ∑ i, ∑ j, Real.exp (M i j / (-reg))) := by
  obtain ⟨w, hw⟩ : ∃ w, w = m / ∑ i, ∑ j, Real.exp (M i j / (-reg)) := ⟨_, rfl⟩
  have hw0 : 0 < w := hw ▸ div_pos hm (sumExp_pos M reg)
  have e : ∀ i j, P i j * Real.log (P i j / (dykInit M reg m).K i j) = P i j * Real.log (P i j) + P i j * (M i j / reg) - P i j * Real.log w := by
    intro i j
    have hk : (dykInit M reg m).K i j = Real.exp (M i j / (-reg)) * w := by rw [hw]; rfl
    by_cases h : P i j = 0
    · rw [h]; ring
    · rw [hk, Real.log_div h (mul_pos (Real.exp_pos _) hw0).ne', Real.log_mul (Real.exp_pos _).ne' hw0.ne', Real.log_exp, div_neg]
      ring
  rw [← hw]
  have e0 : reg * m * Real.log w = reg * (∑ i, ∑ j, P i j) * Real.log w := by rw [← hP, mass]
  rw [e0, ent]
  simp only [e, entropicObjective, cost, sum_sub_distrib, sum_add_distrib, mul_add, mul_sub]
  have e2 : reg * ∑ i, ∑ j, P i j * (M i j / reg) = ∑ i, ∑ j, P i j * M i j := by
    simp only [mul_sum]
    refine sum_congr rfl fun i _ => sum_congr rfl fun j _ => ?_
    field_simp
  rw [e2]
  simp only [mul_sum, sum_mul]
  have e3 : ∑ i, ∑ j, reg * (P i j * Real.log w) = ∑ i, ∑ j, reg * P i j * Real.log w :=
    sum_congr rfl fun i _ => sum_congr rfl fun j _ => by ring
  rw [e3]
  ring

/-- **C46 (convergence).** For positive weights and `0 < m ≤ min(sum a, sum b)` the iterates converge to the plan that minimises the entropic objective among all partial plans
of mass `m`; that plan is unique. In particular the violations of the row and column constraints tend to zero. -/
theorem C46_converges {a : I → ℝ} {b : J → ℝ} {m : ℝ} (ha : ∀ i, 0 < a i) (hb : ∀ j, 0 < b j) (hm : 0 < m) (hma : m ≤ ∑ i, a i) (hmb : m ≤ ∑ j, b j)
    (M : I → J → ℝ) {reg : ℝ} (hreg : 0 < reg) :
    ∃ P, IsPartial a b P ∧ mass P = m ∧
      (∀ H, IsPartial a b H → mass H = m → entropicObjective M reg P ≤ entropicObjective M reg H ∧
        (entropicObjective M reg H ≤ entropicObjective M reg P → H = P)) ∧
      ∀ i j, Tendsto (fun n => ((dykStep a b m)^[n] (dykInit M reg m)).K i j) atTop (𝓝 (P i j)) := by
  have hK := dykInit_pos M reg hm
  obtain ⟨P, h1, h2, h3, h4⟩ := exists_limit ha hb hm hma hmb hK (one_ok (I := I) (J := J))
  refine ⟨P, h1, h2, fun H hH hHm => ?_, fun i j => ?_⟩
  · obtain ⟨q1, q2⟩ := h3 H hH hHm
    have eP := ent_objective M hreg.ne' hm P h2
    have eH := ent_objective M hreg.ne' hm H hHm
    constructor
    · have := mul_le_mul_of_nonneg_left q1 hreg.le
      linarith
    · intro h
      refine q2 (le_of_mul_le_mul_left ?_ hreg)
      linarith
  · simp only [dykIter ha hb hm]
    exact h4 i j

/-! ## The log-domain solver -/

/-- entrywise logarithm of a state -/
noncomputable def logDyk (s : Dyk I J) : Dyk I J :=
  { K := fun i j => Real.log (s.K i j), q1 := fun i j => Real.log (s.q1 i j), q2 := fun i j => Real.log (s.q2 i j), q3 := fun i j => Real.log (s.q3 i j) }

structure DykPos (s : Dyk I J) : Prop where
  K : ∀ i j, 0 < s.K i j
  q1 : ∀ i j, 0 < s.q1 i j
  q2 : ∀ i j, 0 < s.q2 i j
  q3 : ∀ i j, 0 < s.q3 i j

theorem lse_log {ι : Type*} [Fintype ι] {x : ι → ℝ} (hx : ∀ i, 0 < x i) : Sinkhorn.logsumexp (fun i => Real.log (x i)) = Real.log (∑ i, x i) := by
  unfold Sinkhorn.logsumexp
  rw [sum_congr rfl fun i _ => Real.exp_log (hx i)]

theorem log_min_one {x : ℝ} (hx : 0 < x) : Real.log (min x 1) = min (Real.log x) 0 := by
  rcases le_total x 1 with h | h
  · rw [min_eq_left h, min_eq_left (Real.log_nonpos hx.le h)]
  · rw [min_eq_right h, Real.log_one, min_eq_right (Real.log_nonneg h)]

theorem dykLogStep_eq {a : I → ℝ} {b : J → ℝ} {m : ℝ} (ha : ∀ i, 0 < a i) (hb : ∀ j, 0 < b j) (hm : 0 < m) {s : Dyk I J} (hs : DykPos s) :
    dykLogStep a b m (logDyk s) = logDyk (dykStep a b m s) ∧ DykPos (dykStep a b m s) := by
  have pa : ∀ i j, 0 < s.K i j * s.q1 i j := fun i j => mul_pos (hs.K i j) (hs.q1 i j)
  have sa : ∀ i, 0 < ∑ j, s.K i j * s.q1 i j := fun i => sum_pos (fun j _ => pa i j) univ_nonempty
  have la : ∀ i j, Real.log (s.K i j) + Real.log (s.q1 i j) = Real.log (s.K i j * s.q1 i j) := fun i j =>
    (Real.log_mul (hs.K i j).ne' (hs.q1 i j).ne').symm
  have ma : ∀ i, 0 < min (a i / ∑ j, s.K i j * s.q1 i j) 1 := fun i => lt_min (div_pos (ha i) (sa i)) one_pos
  have l1 : ∀ i j, min (Real.log (a i) - Real.log (∑ j, s.K i j * s.q1 i j)) 0 + Real.log (s.K i j * s.q1 i j)
      = Real.log (min (a i / ∑ j, s.K i j * s.q1 i j) 1 * (s.K i j * s.q1 i j)) := fun i j => by
    rw [Real.log_mul (ma i).ne' (pa i j).ne', log_min_one (div_pos (ha i) (sa i)), Real.log_div (ha i).ne' (sa i).ne']
  obtain ⟨K1, hK1⟩ : ∃ K1 : I → J → ℝ, K1 = fun i j => min (a i / ∑ j, s.K i j * s.q1 i j) 1 * (s.K i j * s.q1 i j) := ⟨_, rfl⟩
  have p1 : ∀ i j, 0 < K1 i j := fun i j => by rw [hK1]; exact mul_pos (ma i) (pa i j)
  have l1q : ∀ i j, Real.log (s.q1 i j) + Real.log (s.K i j) - Real.log (K1 i j) = Real.log (s.q1 i j * s.K i j / K1 i j) := fun i j => by
    rw [Real.log_div (mul_pos (hs.q1 i j) (hs.K i j)).ne' (p1 i j).ne', Real.log_mul (hs.q1 i j).ne' (hs.K i j).ne']
  have pb : ∀ i j, 0 < K1 i j * s.q2 i j := fun i j => mul_pos (p1 i j) (hs.q2 i j)
  have sb : ∀ j, 0 < ∑ i, K1 i j * s.q2 i j := fun j => sum_pos (fun i _ => pb i j) univ_nonempty
  have lb : ∀ i j, Real.log (K1 i j) + Real.log (s.q2 i j) = Real.log (K1 i j * s.q2 i j) := fun i j =>
    (Real.log_mul (p1 i j).ne' (hs.q2 i j).ne').symm
  have mb : ∀ j, 0 < min (b j / ∑ i, K1 i j * s.q2 i j) 1 := fun j => lt_min (div_pos (hb j) (sb j)) one_pos
  have l2 : ∀ i j, Real.log (K1 i j * s.q2 i j) + min (Real.log (b j) - Real.log (∑ i, K1 i j * s.q2 i j)) 0
      = Real.log (K1 i j * s.q2 i j * min (b j / ∑ i, K1 i j * s.q2 i j) 1) := fun i j => by
    rw [Real.log_mul (pb i j).ne' (mb j).ne', log_min_one (div_pos (hb j) (sb j)), Real.log_div (hb j).ne' (sb j).ne']
  obtain ⟨K2, hK2⟩ : ∃ K2 : I → J → ℝ, K2 = fun i j => K1 i j * s.q2 i j * min (b j / ∑ i, K1 i j * s.q2 i j) 1 := ⟨_, rfl⟩
  have p2 : ∀ i j, 0 < K2 i j := fun i j => by rw [hK2]; exact mul_pos (pb i j) (mb j)
  have l2q : ∀ i j, Real.log (s.q2 i j) + Real.log (K1 i j) - Real.log (K2 i j) = Real.log (s.q2 i j * K1 i j / K2 i j) := fun i j => by
    rw [Real.log_div (mul_pos (hs.q2 i j) (p1 i j)).ne' (p2 i j).ne', Real.log_mul (hs.q2 i j).ne' (p1 i j).ne']
  have pc : ∀ i j, 0 < K2 i j * s.q3 i j := fun i j => mul_pos (p2 i j) (hs.q3 i j)
  have sc : 0 < ∑ i, ∑ j, K2 i j * s.q3 i j := sum_pos (fun i _ => sum_pos (fun j _ => pc i j) univ_nonempty) univ_nonempty
  have lc : ∀ i j, Real.log (K2 i j) + Real.log (s.q3 i j) = Real.log (K2 i j * s.q3 i j) := fun i j =>
    (Real.log_mul (p2 i j).ne' (hs.q3 i j).ne').symm
  have lsc : Sinkhorn.logsumexp (fun x : I × J => Real.log (K2 x.1 x.2 * s.q3 x.1 x.2)) = Real.log (∑ i, ∑ j, K2 i j * s.q3 i j) := by
    rw [lse_log fun x : I × J => pc x.1 x.2, Fintype.sum_prod_type]
  have l3 : ∀ i j, Real.log (K2 i j * s.q3 i j) + Real.log m - Real.log (∑ i, ∑ j, K2 i j * s.q3 i j)
      = Real.log (K2 i j * s.q3 i j * (m / ∑ i, ∑ j, K2 i j * s.q3 i j)) := fun i j => by
    rw [Real.log_mul (pc i j).ne' (div_pos hm sc).ne', Real.log_div hm.ne' sc.ne']
    ring
  obtain ⟨K3, hK3⟩ : ∃ K3 : I → J → ℝ, K3 = fun i j => K2 i j * s.q3 i j * (m / ∑ i, ∑ j, K2 i j * s.q3 i j) := ⟨_, rfl⟩
  have p3 : ∀ i j, 0 < K3 i j := fun i j => by rw [hK3]; exact mul_pos (pc i j) (div_pos hm sc)
  have l3q : ∀ i j, Real.log (s.q3 i j) + Real.log (K2 i j) - Real.log (K3 i j) = Real.log (s.q3 i j * K2 i j / K3 i j) := fun i j => by
    rw [Real.log_div (mul_pos (hs.q3 i j) (p2 i j)).ne' (p3 i j).ne', Real.log_mul (hs.q3 i j).ne' (p2 i j).ne']
  have estep : dykStep a b m s = ⟨K3, fun i j => s.q1 i j * s.K i j / K1 i j, fun i j => s.q2 i j * K1 i j / K2 i j,
      fun i j => s.q3 i j * K2 i j / K3 i j⟩ := by
    unfold dykStep
    rw [hK3, hK2, hK1]
  have f1 : ∀ i j, min (a i / ∑ j, s.K i j * s.q1 i j) 1 * (s.K i j * s.q1 i j) = K1 i j := fun i j => by rw [hK1]
  have f2 : ∀ i j, K1 i j * s.q2 i j * min (b j / ∑ i, K1 i j * s.q2 i j) 1 = K2 i j := fun i j => by rw [hK2]
  have f3 : ∀ i j, K2 i j * s.q3 i j * (m / ∑ i, ∑ j, K2 i j * s.q3 i j) = K3 i j := fun i j => by rw [hK3]
  refine ⟨?_, ?_⟩
  · rw [estep]
    unfold dykLogStep logDyk
    simp only [la, lse_log (pa _), l1, f1, l1q]
    simp only [lb, lse_log (fun i => pb i _), l2, f2, l2q]
    simp only [lc, lsc, l3, f3, l3q]
  · rw [estep]
    exact ⟨p3, fun i j => div_pos (mul_pos (hs.q1 i j) (hs.K i j)) (p1 i j), fun i j => div_pos (mul_pos (hs.q2 i j) (p1 i j)) (p2 i j),
      fun i j => div_pos (mul_pos (hs.q3 i j) (p2 i j)) (p3 i j)⟩

theorem dykLogInit_eq (M : I → J → ℝ) (reg : ℝ) {m : ℝ} (hm : 0 < m) : dykLogInit M reg m = logDyk (dykInit M reg m) := by
  have hS := sumExp_pos M reg
  have e : ∀ i j, -M i j / reg = M i j / (-reg) := fun i j => by rw [neg_div, div_neg]
  unfold dykLogInit logDyk dykInit Sinkhorn.logsumexp
  simp only [e, Fintype.sum_prod_type, Real.log_one]
  rw [Dyk.mk.injEq]
  refine ⟨?_, rfl, rfl, rfl⟩
  funext i j
  rw [Real.log_mul (Real.exp_pos _).ne' (div_pos hm hS).ne', Real.log_exp, Real.log_div hm.ne' hS.ne']
  ring

/-- **C46 (log domain).** After every number of iterations the state of `entropic_partial_wasserstein_logscale` is the entrywise logarithm of the state of
`entropic_partial_wasserstein`. -/
theorem C46_log {a : I → ℝ} {b : J → ℝ} {m : ℝ} (ha : ∀ i, 0 < a i) (hb : ∀ j, 0 < b j) (hm : 0 < m) (M : I → J → ℝ) (reg : ℝ) (n : ℕ) :
    (∀ i j, ((dykLogStep a b m)^[n] (dykLogInit M reg m)).K i j = Real.log (((dykStep a b m)^[n] (dykInit M reg m)).K i j)) ∧
    ∀ i j, Real.exp (((dykLogStep a b m)^[n] (dykLogInit M reg m)).K i j) = ((dykStep a b m)^[n] (dykInit M reg m)).K i j := by
  have h : (dykLogStep a b m)^[n] (dykLogInit M reg m) = logDyk ((dykStep a b m)^[n] (dykInit M reg m)) ∧ DykPos ((dykStep a b m)^[n] (dykInit M reg m)) := by
    induction n with
    | zero => exact ⟨dykLogInit_eq M reg hm, ⟨dykInit_pos M reg hm, fun _ _ => one_pos, fun _ _ => one_pos, fun _ _ => one_pos⟩⟩
    | succ n ih =>
      rw [Function.iterate_succ_apply', Function.iterate_succ_apply', ih.1]
      exact dykLogStep_eq ha hb hm ih.2
  rw [h.1]
  exact ⟨fun i j => rfl, fun i j => Real.exp_log (h.2.K i j)⟩

/-! ## The whole calls -/

theorem dykLoop_iter {S : Type*} (step : S → S) (get : S → I → J → ℝ) (thr : ℝ) (k cpt : ℕ) (err : ℝ) (s : S) :
    ∃ n ≤ k, dykLoop step get thr k cpt err s = step^[n] s ∧ (thr < err → 0 < k → 0 < n) := by
  induction k generalizing cpt err s with
  | zero => exact ⟨0, le_rfl, rfl, fun _ h => absurd h (lt_irrefl _)⟩
  | succ k ih =>
    unfold dykLoop
    by_cases h : err > thr
    · rw [if_pos h]
      obtain ⟨n, hn, e, -⟩ := ih (cpt + 1) (if cpt % 10 = 0 then matNorm (get s) (get (step s)) else err) (step s)
      refine ⟨n + 1, by omega, ?_, fun _ _ => by omega⟩
      exact e
    · rw [if_neg h]
      exact ⟨0, Nat.zero_le _, rfl, fun h' => absurd h' h⟩

/-- **C46 (whole calls).** With positive weights and an admissible positive mass both solvers return a positive plan of mass `m`, which is an iterate of the same sequence, reached after at
most `numItermax` iterations; any mass that is negative or larger than a total weight is rejected. (The two solvers may stop after different numbers of iterations: the log-domain solver
tests the change of the logarithms.) -/
theorem C46_call {a : I → ℝ} {b : J → ℝ} (ha : ∀ i, 0 < a i) (hb : ∀ j, 0 < b j) (M : I → J → ℝ) (reg : ℝ) (m : Option ℝ) (numItermax : ℕ) (stopThr : ℝ) :
    (∀ x, m = some x → x < 0 ∨ ∑ i, a i < x ∨ ∑ j, b j < x → entropicPartial a b M reg m numItermax stopThr = none ∧
      entropicPartialLog a b M reg m numItermax stopThr = none) ∧
    (∀ x, m.getD (min (∑ i, a i) (∑ j, b j)) = x → 0 < x → x ≤ ∑ i, a i → x ≤ ∑ j, b j →
      (∃ G, entropicPartial a b M reg m numItermax stopThr = some G ∧ (∀ i j, 0 < G i j) ∧ mass G = x ∧
        ∃ n ≤ numItermax, G = ((dykStep a b x)^[n] (dykInit M reg x)).K ∧ (0 < numItermax → stopThr < 1 → 0 < n)) ∧
      ∃ G, entropicPartialLog a b M reg m numItermax stopThr = some G ∧ (∀ i j, 0 < G i j) ∧ mass G = x ∧
        ∃ n ≤ numItermax, G = ((dykStep a b x)^[n] (dykInit M reg x)).K ∧ (0 < numItermax → stopThr < 1 → 0 < n)) := by
  constructor
  · intro x hx h
    unfold entropicPartial entropicPartialLog
    rw [hx]
    dsimp only [Option.getD_some]
    by_cases h0 : x < 0
    · rw [if_pos h0, if_pos h0]
      exact ⟨rfl, rfl⟩
    · have h1 : x > min (∑ i, a i) (∑ j, b j) := by
        rcases h with h | h | h
        · exact absurd h h0
        · exact lt_of_le_of_lt (min_le_left _ _) h
        · exact lt_of_le_of_lt (min_le_right _ _) h
      rw [if_neg h0, if_pos h1, if_neg h0, if_pos h1]
      exact ⟨rfl, rfl⟩
  · intro x hx h0 h1 h2
    unfold entropicPartial entropicPartialLog
    rw [hx]
    dsimp only
    have n0 : ¬ x < 0 := not_lt.2 h0.le
    have n1 : ¬ x > min (∑ i, a i) (∑ j, b j) := not_lt.2 (le_min h1 h2)
    rw [if_neg n0, if_neg n1, if_neg n0, if_neg n1]
    constructor
    · obtain ⟨n, hn, e, hp⟩ := dykLoop_iter (dykStep a b x) Dyk.K stopThr numItermax 0 1 (dykInit M reg x)
      obtain ⟨q1, q2⟩ := C46_mass ha hb h0 M reg n
      refine ⟨_, rfl, ?_⟩
      rw [e]
      exact ⟨q1, q2, n, hn, rfl, fun u v => hp v u⟩
    · obtain ⟨n, hn, e, hp⟩ := dykLoop_iter (dykLogStep a b x) Dyk.K stopThr numItermax 0 1 (dykLogInit M reg x)
      obtain ⟨q1, q2⟩ := C46_mass ha hb h0 M reg n
      have e2 : (fun i j => Real.exp (((dykLogStep a b x)^[n] (dykLogInit M reg x)).K i j)) = ((dykStep a b x)^[n] (dykInit M reg x)).K := by
        funext i j
        exact (C46_log ha hb h0 M reg n).2 i j
      rw [e, e2]
      refine ⟨_, rfl, ?_⟩
      exact ⟨q1, q2, n, hn, rfl, fun u v => hp v u⟩

/-- the hypotheses of `C46_converges` are met by two points each, half of the mass requested -/
example : ∃ P : Fin 2 → Fin 2 → ℝ, IsPartial (fun _ => 1 / 2) (fun _ => 1 / 2) P ∧ mass P = 1 / 2 ∧
    ∀ i j, Tendsto (fun n => ((dykStep (fun _ => 1 / 2) (fun _ => 1 / 2) (1 / 2))^[n] (dykInit (fun i j : Fin 2 => if i = j then (0 : ℝ) else 1) 1 (1 / 2))).K i j) atTop
      (𝓝 (P i j)) := by
  obtain ⟨P, h1, h2, -, h4⟩ := C46_converges (I := Fin 2) (J := Fin 2) (a := fun _ => 1 / 2) (b := fun _ => 1 / 2) (m := 1 / 2) (by norm_num) (by norm_num) (by norm_num)
    (by norm_num) (by norm_num) (fun i j => if i = j then (0 : ℝ) else 1) (reg := 1) one_pos
  exact ⟨P, h1, h2, h4⟩

/-- the hypotheses of `C46_call` are met by the default mass -/
example : ∃ G : Fin 2 → Fin 2 → ℝ, entropicPartialLog (fun _ => 1 / 2) (fun _ => 1 / 4) (fun _ _ => 1) 1 none 100 0 = some G ∧ mass G = 1 / 2 := by
  obtain ⟨-, h⟩ := C46_call (I := Fin 2) (J := Fin 2) (a := fun _ => 1 / 2) (b := fun _ => 1 / 4) (by norm_num) (by norm_num) (fun _ _ => 1) 1 none 100 0
  obtain ⟨-, G, h1, -, h2, -⟩ := h (1 / 2) (by norm_num) (by norm_num) (by norm_num) (by norm_num)
  exact ⟨G, h1, h2⟩

end POT.Props
