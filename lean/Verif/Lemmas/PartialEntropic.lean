import Verif.Lemmas.Kl
import Mathlib.Topology.Algebra.InfiniteSum.Real
import Mathlib.Topology.Algebra.Order.LiminfLimsup
import Mathlib.Topology.Order.MonotoneConvergence
import Mathlib.Topology.Order.Compact
import Mathlib.Topology.Sequences
import Mathlib.Topology.MetricSpace.Bounded
import Mathlib.Analysis.SpecialFunctions.Log.Basic
import Mathlib.Analysis.SpecialFunctions.Log.NegMulLog
import Mathlib.Algebra.BigOperators.Field
import Mathlib.Tactic.FieldSimp
import Mathlib.Tactic.Positivity

/-!
# Dykstra iterations for entropic partial transport, in reduced form

A plan of the form `f i * g j * c * K i j` is updated block by block: `f` by the row constraint, `g` by the column constraint, `c` by the mass constraint. Every update is an exact
maximisation of a concave dual function in one block of variables; this file derives convergence to the optimum from that.
-/

set_option linter.unusedSectionVars false

namespace POT.PartialEntropic

open Finset Spec Filter Topology

variable {I J : Type*} [Fintype I] [Fintype J] [Nonempty I] [Nonempty J]
variable {a : I → ℝ} {b : J → ℝ} {m : ℝ} {K : I → J → ℝ}

/-- the three blocks of scalings -/
@[ext] structure Red (I J : Type*) where
  f : I → ℝ
  g : J → ℝ
  c : ℝ

/-- the plan of a state -/
def plan (K : I → J → ℝ) (s : Red I J) : I → J → ℝ := fun i j => s.f i * s.g j * s.c * K i j

def rowS (K : I → J → ℝ) (s : Red I J) (i : I) : ℝ := ∑ j, s.g j * s.c * K i j
def colS (K : I → J → ℝ) (s : Red I J) (j : J) : ℝ := ∑ i, s.f i * s.c * K i j
def tot (K : I → J → ℝ) (s : Red I J) : ℝ := ∑ i, ∑ j, s.f i * s.g j * K i j

noncomputable def rowStep (a : I → ℝ) (K : I → J → ℝ) (s : Red I J) : Red I J := { s with f := fun i => min (a i / rowS K s i) 1 }
noncomputable def colStep (b : J → ℝ) (K : I → J → ℝ) (s : Red I J) : Red I J := { s with g := fun j => min (b j / colS K s j) 1 }
noncomputable def massStep (m : ℝ) (K : I → J → ℝ) (s : Red I J) : Red I J := { s with c := m / tot K s }

noncomputable def redStep (a : I → ℝ) (b : J → ℝ) (m : ℝ) (K : I → J → ℝ) (s : Red I J) : Red I J :=
  massStep m K (colStep b K (rowStep a K s))

/-- the dual function -/
noncomputable def dual (a : I → ℝ) (b : J → ℝ) (m : ℝ) (K : I → J → ℝ) (s : Red I J) : ℝ :=
  ∑ i, a i * Real.log (s.f i) + ∑ j, b j * Real.log (s.g j) + m * Real.log s.c - ∑ i, ∑ j, plan K s i j

structure Ok (s : Red I J) : Prop where
  f0 : ∀ i, 0 < s.f i
  f1 : ∀ i, s.f i ≤ 1
  g0 : ∀ j, 0 < s.g j
  g1 : ∀ j, s.g j ≤ 1
  c0 : 0 < s.c

theorem plan_pos (hK : ∀ i j, 0 < K i j) {s : Red I J} (hs : Ok s) (i : I) (j : J) : 0 < plan K s i j :=
  mul_pos (mul_pos (mul_pos (hs.f0 i) (hs.g0 j)) hs.c0) (hK i j)

theorem rowS_pos (hK : ∀ i j, 0 < K i j) {s : Red I J} (hs : Ok s) (i : I) : 0 < rowS K s i :=
  sum_pos (fun j _ => mul_pos (mul_pos (hs.g0 j) hs.c0) (hK i j)) univ_nonempty

theorem colS_pos (hK : ∀ i j, 0 < K i j) {s : Red I J} (hs : Ok s) (j : J) : 0 < colS K s j :=
  sum_pos (fun i _ => mul_pos (mul_pos (hs.f0 i) hs.c0) (hK i j)) univ_nonempty

theorem tot_pos (hK : ∀ i j, 0 < K i j) {s : Red I J} (hs : Ok s) : 0 < tot K s :=
  sum_pos (fun i _ => sum_pos (fun j _ => mul_pos (mul_pos (hs.f0 i) (hs.g0 j)) (hK i j)) univ_nonempty) univ_nonempty

theorem row_plan (s : Red I J) (i : I) : ∑ j, plan K s i j = s.f i * rowS K s i := by
  rw [rowS, mul_sum]
  exact sum_congr rfl fun j _ => by simp only [plan]; ring

theorem col_plan (s : Red I J) (j : J) : ∑ i, plan K s i j = s.g j * colS K s j := by
  rw [colS, mul_sum]
  exact sum_congr rfl fun i _ => by simp only [plan]; ring

theorem mass_plan (s : Red I J) : ∑ i, ∑ j, plan K s i j = s.c * tot K s := by
  rw [tot, mul_sum]
  refine sum_congr rfl fun i _ => ?_
  rw [mul_sum]
  exact sum_congr rfl fun j _ => by simp only [plan]; ring

theorem rowStep_ok (ha : ∀ i, 0 < a i) (hK : ∀ i j, 0 < K i j) {s : Red I J} (hs : Ok s) : Ok (rowStep a K s) :=
  ⟨fun i => lt_min (div_pos (ha i) (rowS_pos hK hs i)) one_pos, fun i => min_le_right _ _, hs.g0, hs.g1, hs.c0⟩

theorem colStep_ok (hb : ∀ j, 0 < b j) (hK : ∀ i j, 0 < K i j) {s : Red I J} (hs : Ok s) : Ok (colStep b K s) :=
  ⟨hs.f0, hs.f1, fun j => lt_min (div_pos (hb j) (colS_pos hK hs j)) one_pos, fun j => min_le_right _ _, hs.c0⟩

theorem massStep_ok (hm : 0 < m) (hK : ∀ i j, 0 < K i j) {s : Red I J} (hs : Ok s) : Ok (massStep m K s) :=
  ⟨hs.f0, hs.f1, hs.g0, hs.g1, div_pos hm (tot_pos hK hs)⟩

theorem redStep_ok (ha : ∀ i, 0 < a i) (hb : ∀ j, 0 < b j) (hm : 0 < m) (hK : ∀ i j, 0 < K i j) {s : Red I J} (hs : Ok s) :
    Ok (redStep a b m K s) := massStep_ok hm hK (colStep_ok hb hK (rowStep_ok ha hK hs))

theorem iter_ok (ha : ∀ i, 0 < a i) (hb : ∀ j, 0 < b j) (hm : 0 < m) (hK : ∀ i j, 0 < K i j) {s : Red I J} (hs : Ok s) (n : ℕ) :
    Ok ((redStep a b m K)^[n] s) := by
  induction n with
  | zero => exact hs
  | succ n ih =>
    rw [Function.iterate_succ_apply']
    exact redStep_ok ha hb hm hK ih

theorem massStep_mass (hK : ∀ i j, 0 < K i j) {s : Red I J} (hs : Ok s) : ∑ i, ∑ j, plan K (massStep m K s) i j = m := by
  have h := tot_pos hK hs
  rw [mass_plan]
  change m / tot K s * tot K s = m
  field_simp

/-- one coordinate of a capped block update -/
theorem coord {S x A : ℝ} (hS : 0 < S) (hA : 0 < A) (hx : 0 < x) (hx1 : x ≤ 1) :
    (min (A / S) 1 * S) * Real.log ((min (A / S) 1 * S) / (x * S)) - min (A / S) 1 * S + x * S ≤
      (A * Real.log (min (A / S) 1) - min (A / S) 1 * S) - (A * Real.log x - x * S) := by
  have hAS := div_pos hA hS
  have h0 : 0 < min (A / S) 1 := lt_min hAS one_pos
  rw [mul_div_mul_right _ _ hS.ne', Real.log_div h0.ne' hx.ne']
  suffices h : 0 ≤ (A - min (A / S) 1 * S) * (Real.log (min (A / S) 1) - Real.log x) by linarith
  rcases le_total (A / S) 1 with h | h
  · rw [min_eq_left h, div_mul_cancel₀ _ hS.ne', sub_self, zero_mul]
  · rw [min_eq_right h, Real.log_one]
    refine mul_nonneg ?_ ?_
    · rw [one_mul, sub_nonneg]
      rwa [le_div_iff₀ hS, one_mul] at h
    · have := Real.log_nonpos hx.le hx1
      linarith

theorem row_gain (ha : ∀ i, 0 < a i) (hK : ∀ i j, 0 < K i j) {s : Red I J} (hs : Ok s) :
    klDivergence (fun i => ∑ j, plan K (rowStep a K s) i j) (fun i => ∑ j, plan K s i j) ≤
      dual a b m K (rowStep a K s) - dual a b m K s := by
  have e : dual a b m K (rowStep a K s) - dual a b m K s
      = ∑ i, ((a i * Real.log ((rowStep a K s).f i) - (rowStep a K s).f i * rowS K s i) - (a i * Real.log (s.f i) - s.f i * rowS K s i)) := by
    unfold dual
    simp only [row_plan]
    change ∑ i, a i * Real.log ((rowStep a K s).f i) + ∑ j, b j * Real.log (s.g j) + m * Real.log s.c - ∑ i, (rowStep a K s).f i * rowS K s i - _ = _
    simp only [sum_sub_distrib]
    ring
  rw [e, klDivergence]
  refine sum_le_sum fun i _ => ?_
  simp only [row_plan]
  exact coord (rowS_pos hK hs i) (ha i) (hs.f0 i) (hs.f1 i)

theorem sum_plan_cols (s : Red I J) : ∑ i, ∑ j, plan K s i j = ∑ j, s.g j * colS K s j := by
  rw [sum_comm]
  exact sum_congr rfl fun j _ => col_plan s j

theorem col_gain (hb : ∀ j, 0 < b j) (hK : ∀ i j, 0 < K i j) {s : Red I J} (hs : Ok s) :
    klDivergence (fun j => ∑ i, plan K (colStep b K s) i j) (fun j => ∑ i, plan K s i j) ≤
      dual a b m K (colStep b K s) - dual a b m K s := by
  have e : dual a b m K (colStep b K s) - dual a b m K s
      = ∑ j, ((b j * Real.log ((colStep b K s).g j) - (colStep b K s).g j * colS K s j) - (b j * Real.log (s.g j) - s.g j * colS K s j)) := by
    unfold dual
    simp only [sum_plan_cols]
    change ∑ i, a i * Real.log (s.f i) + ∑ j, b j * Real.log ((colStep b K s).g j) + m * Real.log s.c - ∑ j, (colStep b K s).g j * colS K s j - _ = _
    simp only [sum_sub_distrib]
    ring
  rw [e, klDivergence]
  refine sum_le_sum fun j _ => ?_
  simp only [col_plan]
  exact coord (colS_pos hK hs j) (hb j) (hs.g0 j) (hs.g1 j)

theorem mass_gain (hm : 0 < m) (hK : ∀ i j, 0 < K i j) {s : Red I J} (hs : Ok s) :
    m * Real.log (m / ∑ i, ∑ j, plan K s i j) - m + ∑ i, ∑ j, plan K s i j = dual a b m K (massStep m K s) - dual a b m K s := by
  have ht := tot_pos hK hs
  have hc := hs.c0
  unfold dual
  rw [massStep_mass hK hs, mass_plan]
  change _ = ∑ i, a i * Real.log (s.f i) + ∑ j, b j * Real.log (s.g j) + m * Real.log (m / tot K s) - m - _
  rw [Real.log_div hm.ne' (mul_pos hc ht).ne', Real.log_div hm.ne' ht.ne', Real.log_mul hc.ne' ht.ne']
  ring

/-- **Weak duality.** -/
theorem dual_le (hK : ∀ i j, 0 < K i j) {s : Red I J} (hs : Ok s) {H : I → J → ℝ} (hH : IsPartial a b H) (hHm : mass H = m) :
    dual a b m K s ≤ ∑ i, ∑ j, H i j * Real.log (H i j / K i j) - m - klPlan H (plan K s) := by
  have e1 : ∑ i, a i * Real.log (s.f i) ≤ ∑ i, ∑ j, H i j * Real.log (s.f i) := by
    refine sum_le_sum fun i _ => ?_
    rw [← sum_mul]
    exact mul_le_mul_of_nonpos_right (hH.row i) (Real.log_nonpos (hs.f0 i).le (hs.f1 i))
  have e2 : ∑ j, b j * Real.log (s.g j) ≤ ∑ i, ∑ j, H i j * Real.log (s.g j) := by
    rw [sum_comm]
    refine sum_le_sum fun j _ => ?_
    rw [← sum_mul]
    exact mul_le_mul_of_nonpos_right (hH.col j) (Real.log_nonpos (hs.g0 j).le (hs.g1 j))
  have e3 : m * Real.log s.c = ∑ i, ∑ j, H i j * Real.log s.c := by
    rw [← hHm, mass, sum_mul]
    exact sum_congr rfl fun i _ => sum_mul _ _ _
  have e4 : ∑ i, ∑ j, H i j * Real.log (H i j / K i j) - m - klPlan H (plan K s)
      = ∑ i, ∑ j, H i j * Real.log (s.f i) + ∑ i, ∑ j, H i j * Real.log (s.g j) + ∑ i, ∑ j, H i j * Real.log s.c - ∑ i, ∑ j, plan K s i j := by
    rw [klPlan_eq, ← hHm, mass]
    simp only [← sum_add_distrib, ← sum_sub_distrib]
    refine sum_congr rfl fun i _ => sum_congr rfl fun j _ => ?_
    rcases (hH.nonneg i j).eq_or_lt with h | h
    · rw [← h]; ring
    · have hp := plan_pos hK hs i j
      rw [Real.log_div h.ne' (hK i j).ne', Real.log_div h.ne' hp.ne', plan,
        Real.log_mul (mul_pos (mul_pos (hs.f0 i) (hs.g0 j)) hs.c0).ne' (hK i j).ne', Real.log_mul (mul_pos (hs.f0 i) (hs.g0 j)).ne' hs.c0.ne',
        Real.log_mul (hs.f0 i).ne' (hs.g0 j).ne']
      ring
  rw [e4]
  unfold dual
  linarith

/-- a feasible plan -/
theorem feasible (ha : ∀ i, 0 < a i) (hb : ∀ j, 0 < b j) (hm : 0 ≤ m) (hma : m ≤ ∑ i, a i) (hmb : m ≤ ∑ j, b j) :
    IsPartial a b (fun i j => a i * b j * (m / ((∑ i, a i) * ∑ j, b j))) ∧ mass (fun i j => a i * b j * (m / ((∑ i, a i) * ∑ j, b j))) = m := by
  have hA : 0 < ∑ i, a i := sum_pos (fun i _ => ha i) univ_nonempty
  have hB : 0 < ∑ j, b j := sum_pos (fun j _ => hb j) univ_nonempty
  refine ⟨⟨fun i j => ?_, fun i => ?_, fun j => ?_⟩, ?_⟩
  · have := ha i
    have := hb j
    positivity
  · rw [← sum_mul, ← mul_sum]
    have : a i * ∑ j, b j = a i * (∑ j, b j) := rfl
    have e : a i * (∑ j, b j) * (m / ((∑ i, a i) * ∑ j, b j)) = a i * (m / ∑ i, a i) := by field_simp
    rw [e]
    exact mul_le_of_le_one_right (ha i).le ((div_le_one hA).2 hma)
  · rw [← sum_mul, ← sum_mul]
    have e : (∑ i, a i) * b j * (m / ((∑ i, a i) * ∑ j, b j)) = b j * (m / ∑ j, b j) := by field_simp
    rw [e]
    exact mul_le_of_le_one_right (hb j).le ((div_le_one hB).2 hmb)
  · unfold mass
    simp only [← sum_mul, ← mul_sum]
    field_simp

/-- all three gains of an iteration -/
theorem step_gain (ha : ∀ i, 0 < a i) (hb : ∀ j, 0 < b j) (hm : 0 < m) (hK : ∀ i j, 0 < K i j) {s : Red I J} (hs : Ok s) :
    klDivergence (fun i => ∑ j, plan K (rowStep a K s) i j) (fun i => ∑ j, plan K s i j) +
      klDivergence (fun j => ∑ i, plan K (colStep b K (rowStep a K s)) i j) (fun j => ∑ i, plan K (rowStep a K s) i j) +
      (m * Real.log (m / ∑ i, ∑ j, plan K (colStep b K (rowStep a K s)) i j) - m + ∑ i, ∑ j, plan K (colStep b K (rowStep a K s)) i j)
      ≤ dual a b m K (redStep a b m K s) - dual a b m K s := by
  have h1 := row_gain (b := b) (m := m) ha hK hs
  have h2 := col_gain (a := a) (m := m) hb hK (rowStep_ok ha hK hs)
  have h3 := mass_gain (a := a) (b := b) hm hK (colStep_ok hb hK (rowStep_ok ha hK hs))
  unfold redStep
  linarith

theorem dual_mono (ha : ∀ i, 0 < a i) (hb : ∀ j, 0 < b j) (hm : 0 < m) (hK : ∀ i j, 0 < K i j) {s : Red I J} (hs : Ok s) :
    dual a b m K s ≤ dual a b m K (redStep a b m K s) := by
  have h := step_gain ha hb hm hK hs
  have r := rowStep_ok ha hK hs
  have c := colStep_ok hb hK r
  have h1 : 0 ≤ klDivergence (fun i => ∑ j, plan K (rowStep a K s) i j) (fun i => ∑ j, plan K s i j) :=
    klDivergence_nonneg (fun i => sum_nonneg fun j _ => (plan_pos hK r i j).le) fun i => sum_pos (fun j _ => plan_pos hK hs i j) univ_nonempty
  have h2 : 0 ≤ klDivergence (fun j => ∑ i, plan K (colStep b K (rowStep a K s)) i j) (fun j => ∑ i, plan K (rowStep a K s) i j) :=
    klDivergence_nonneg (fun j => sum_nonneg fun i _ => (plan_pos hK c i j).le) fun j => sum_pos (fun i _ => plan_pos hK r i j) univ_nonempty
  have h3 := kl1_nonneg hm.le (sum_pos (fun i _ => sum_pos (fun j _ => plan_pos hK c i j) univ_nonempty) univ_nonempty :
    0 < ∑ i, ∑ j, plan K (colStep b K (rowStep a K s)) i j)
  linarith

theorem dual_iter_mono (ha : ∀ i, 0 < a i) (hb : ∀ j, 0 < b j) (hm : 0 < m) (hK : ∀ i j, 0 < K i j) {s : Red I J} (hs : Ok s) :
    Monotone fun n => dual a b m K ((redStep a b m K)^[n] s) := by
  refine monotone_nat_of_le_succ fun n => ?_
  rw [Function.iterate_succ_apply']
  exact dual_mono ha hb hm hK (iter_ok ha hb hm hK hs n)

/-- `kl1 (x n) (y n) → 0` with bounded `x` forces `x n - y n → 0`. -/
theorem tendsto_of_kl1 {x y : ℕ → ℝ} {B : ℝ} (hx : ∀ n, 0 ≤ x n) (hxB : ∀ n, x n ≤ B) (hy : ∀ n, 0 < y n)
    (h : Tendsto (fun n => x n * Real.log (x n / y n) - x n + y n) atTop (𝓝 0)) : Tendsto (fun n => x n - y n) atTop (𝓝 0) := by
  have h1 : Tendsto (fun n => (Real.sqrt (x n) - Real.sqrt (y n)) ^ 2) atTop (𝓝 0) :=
    squeeze_zero (fun n => sq_nonneg _) (fun n => kl1_ge (hx n) (hy n)) h
  have h2 : Tendsto (fun n => |Real.sqrt (x n) - Real.sqrt (y n)|) atTop (𝓝 0) := by
    have := h1.sqrt
    rw [Real.sqrt_zero] at this
    exact this.congr fun n => Real.sqrt_sq_eq_abs _
  -- |x - y| = |√x-√y| (√x+√y) ≤ |√x-√y| (2√B + |√x-√y|)
  have h3 : Tendsto (fun n => |Real.sqrt (x n) - Real.sqrt (y n)| * (2 * Real.sqrt B + |Real.sqrt (x n) - Real.sqrt (y n)|)) atTop (𝓝 0) := by
    have := h2.mul (h2.const_add (2 * Real.sqrt B))
    rwa [zero_mul] at this
  rw [tendsto_zero_iff_abs_tendsto_zero]
  refine squeeze_zero (fun n => abs_nonneg _) (fun n => ?_) h3
  have e : x n - y n = (Real.sqrt (x n) - Real.sqrt (y n)) * (Real.sqrt (x n) + Real.sqrt (y n)) := by
    have ex := Real.sq_sqrt (hx n)
    have ey := Real.sq_sqrt (hy n).le
    nlinarith
  have hB := Real.sqrt_le_sqrt (hxB n)
  have hpos : 0 ≤ Real.sqrt (x n) + Real.sqrt (y n) := add_nonneg (Real.sqrt_nonneg _) (Real.sqrt_nonneg _)
  have hle := neg_abs_le (Real.sqrt (x n) - Real.sqrt (y n))
  change |x n - y n| ≤ _
  rw [e, abs_mul, abs_of_nonneg hpos]
  refine mul_le_mul_of_nonneg_left ?_ (abs_nonneg _)
  linarith

/-- sums of capped rows -/
theorem rowStep_le (ha : ∀ i, 0 < a i) (hK : ∀ i j, 0 < K i j) {s : Red I J} (hs : Ok s) (i : I) : ∑ j, plan K (rowStep a K s) i j ≤ a i := by
  have h := rowS_pos hK hs i
  rw [row_plan]
  change min (a i / rowS K s i) 1 * rowS K s i ≤ a i
  calc min (a i / rowS K s i) 1 * rowS K s i ≤ a i / rowS K s i * rowS K s i := mul_le_mul_of_nonneg_right (min_le_left _ _) h.le
    _ = a i := div_mul_cancel₀ _ h.ne'

theorem rowStep_tight (hK : ∀ i j, 0 < K i j) {s : Red I J} (hs : Ok s) (i : I) (h1 : (rowStep a K s).f i < 1) :
    ∑ j, plan K (rowStep a K s) i j = a i := by
  have h := rowS_pos hK hs i
  rw [row_plan]
  change min (a i / rowS K s i) 1 < 1 at h1
  change min (a i / rowS K s i) 1 * rowS K s i = a i
  rw [min_eq_left]
  · exact div_mul_cancel₀ _ h.ne'
  · by_contra hc
    rw [min_eq_right (le_of_not_ge hc)] at h1
    exact lt_irrefl _ h1

theorem colStep_le (hb : ∀ j, 0 < b j) (hK : ∀ i j, 0 < K i j) {s : Red I J} (hs : Ok s) (j : J) : ∑ i, plan K (colStep b K s) i j ≤ b j := by
  have h := colS_pos hK hs j
  rw [col_plan]
  change min (b j / colS K s j) 1 * colS K s j ≤ b j
  calc min (b j / colS K s j) 1 * colS K s j ≤ b j / colS K s j * colS K s j := mul_le_mul_of_nonneg_right (min_le_left _ _) h.le
    _ = b j := div_mul_cancel₀ _ h.ne'

theorem colStep_tight (hK : ∀ i j, 0 < K i j) {s : Red I J} (hs : Ok s) (j : J) (h1 : (colStep b K s).g j < 1) :
    ∑ i, plan K (colStep b K s) i j = b j := by
  have h := colS_pos hK hs j
  rw [col_plan]
  change min (b j / colS K s j) 1 < 1 at h1
  change min (b j / colS K s j) 1 * colS K s j = b j
  rw [min_eq_left]
  · exact div_mul_cancel₀ _ h.ne'
  · by_contra hc
    rw [min_eq_right (le_of_not_ge hc)] at h1
    exact lt_irrefl _ h1

section Seq

variable (ha : ∀ i, 0 < a i) (hb : ∀ j, 0 < b j) (hm : 0 < m) (hma : m ≤ ∑ i, a i) (hmb : m ≤ ∑ j, b j) (hK : ∀ i j, 0 < K i j) {s : Red I J} (hs : Ok s)

include ha hb hm hma hmb hK hs

theorem gain_tendsto : Tendsto (fun n => dual a b m K ((redStep a b m K)^[n + 1] s) - dual a b m K ((redStep a b m K)^[n] s)) atTop (𝓝 0) := by
  obtain ⟨hf, hfm⟩ := feasible ha hb hm.le hma hmb
  obtain ⟨H, hH⟩ : ∃ H, H = (fun i j => a i * b j * (m / ((∑ i, a i) * ∑ j, b j))) := ⟨_, rfl⟩
  rw [← hH] at hf hfm
  have hbd : BddAbove (Set.range fun n => dual a b m K ((redStep a b m K)^[n] s)) := by
    refine ⟨∑ i, ∑ j, H i j * Real.log (H i j / K i j) - m, ?_⟩
    rintro _ ⟨n, rfl⟩
    have hn := iter_ok ha hb hm hK hs n
    have h1 := dual_le hK hn hf hfm
    have h2 := klPlan_nonneg hf.nonneg (plan_pos hK hn)
    dsimp only
    linarith
  have h := tendsto_atTop_ciSup (dual_iter_mono ha hb hm hK hs) hbd
  have h' := (tendsto_add_atTop_iff_nat 1).2 h
  have := h'.sub h
  rwa [sub_self] at this

/-- The three sub-steps change the relevant sums by less and less. -/
theorem sums_tendsto :
    (∀ i, Tendsto (fun n => ∑ j, plan K (rowStep a K ((redStep a b m K)^[n] s)) i j - ∑ j, plan K ((redStep a b m K)^[n] s) i j) atTop (𝓝 0)) ∧
    (∀ j, Tendsto (fun n => ∑ i, plan K (colStep b K (rowStep a K ((redStep a b m K)^[n] s))) i j
      - ∑ i, plan K (rowStep a K ((redStep a b m K)^[n] s)) i j) atTop (𝓝 0)) ∧
    Tendsto (fun n => m - ∑ i, ∑ j, plan K (colStep b K (rowStep a K ((redStep a b m K)^[n] s))) i j) atTop (𝓝 0) := by
  have hg := gain_tendsto ha hb hm hma hmb hK hs
  have ok := iter_ok ha hb hm hK hs
  have okr := fun n => rowStep_ok ha hK (ok n)
  have okc := fun n => colStep_ok hb hK (okr n)
  have hp := fun n => plan_pos hK (ok n)
  have hpr := fun n => plan_pos hK (okr n)
  have hpc := fun n => plan_pos hK (okc n)
  have hgain := fun n => step_gain ha hb hm hK (ok n)
  have k1 : ∀ n i, (∑ j, plan K (rowStep a K ((redStep a b m K)^[n] s)) i j)
      * Real.log ((∑ j, plan K (rowStep a K ((redStep a b m K)^[n] s)) i j) / ∑ j, plan K ((redStep a b m K)^[n] s) i j)
      - ∑ j, plan K (rowStep a K ((redStep a b m K)^[n] s)) i j + ∑ j, plan K ((redStep a b m K)^[n] s) i j
      ≤ klDivergence (fun i => ∑ j, plan K (rowStep a K ((redStep a b m K)^[n] s)) i j) (fun i => ∑ j, plan K ((redStep a b m K)^[n] s) i j) := by
    intro n i
    exact single_le_sum (f := fun i => (∑ j, plan K (rowStep a K ((redStep a b m K)^[n] s)) i j)
      * Real.log ((∑ j, plan K (rowStep a K ((redStep a b m K)^[n] s)) i j) / ∑ j, plan K ((redStep a b m K)^[n] s) i j)
      - ∑ j, plan K (rowStep a K ((redStep a b m K)^[n] s)) i j + ∑ j, plan K ((redStep a b m K)^[n] s) i j)
      (fun i _ => kl1_nonneg (sum_nonneg fun j _ => (hpr n i j).le) (sum_pos (fun j _ => hp n i j) univ_nonempty)) (mem_univ i)
  have k2 : ∀ n j, (∑ i, plan K (colStep b K (rowStep a K ((redStep a b m K)^[n] s))) i j)
      * Real.log ((∑ i, plan K (colStep b K (rowStep a K ((redStep a b m K)^[n] s))) i j) / ∑ i, plan K (rowStep a K ((redStep a b m K)^[n] s)) i j)
      - ∑ i, plan K (colStep b K (rowStep a K ((redStep a b m K)^[n] s))) i j + ∑ i, plan K (rowStep a K ((redStep a b m K)^[n] s)) i j
      ≤ klDivergence (fun j => ∑ i, plan K (colStep b K (rowStep a K ((redStep a b m K)^[n] s))) i j)
        (fun j => ∑ i, plan K (rowStep a K ((redStep a b m K)^[n] s)) i j) := by
    intro n j
    exact single_le_sum (f := fun j => (∑ i, plan K (colStep b K (rowStep a K ((redStep a b m K)^[n] s))) i j)
      * Real.log ((∑ i, plan K (colStep b K (rowStep a K ((redStep a b m K)^[n] s))) i j) / ∑ i, plan K (rowStep a K ((redStep a b m K)^[n] s)) i j)
      - ∑ i, plan K (colStep b K (rowStep a K ((redStep a b m K)^[n] s))) i j + ∑ i, plan K (rowStep a K ((redStep a b m K)^[n] s)) i j)
      (fun j _ => kl1_nonneg (sum_nonneg fun i _ => (hpc n i j).le) (sum_pos (fun i _ => hpr n i j) univ_nonempty)) (mem_univ j)
  have p1 : ∀ n, 0 ≤ klDivergence (fun i => ∑ j, plan K (rowStep a K ((redStep a b m K)^[n] s)) i j) (fun i => ∑ j, plan K ((redStep a b m K)^[n] s) i j) :=
    fun n => klDivergence_nonneg (fun i => sum_nonneg fun j _ => (hpr n i j).le) fun i => sum_pos (fun j _ => hp n i j) univ_nonempty
  have p2 : ∀ n, 0 ≤ klDivergence (fun j => ∑ i, plan K (colStep b K (rowStep a K ((redStep a b m K)^[n] s))) i j)
        (fun j => ∑ i, plan K (rowStep a K ((redStep a b m K)^[n] s)) i j) :=
    fun n => klDivergence_nonneg (fun j => sum_nonneg fun i _ => (hpc n i j).le) fun j => sum_pos (fun i _ => hpr n i j) univ_nonempty
  have q3 : ∀ n, 0 < ∑ i, ∑ j, plan K (colStep b K (rowStep a K ((redStep a b m K)^[n] s))) i j := fun n =>
    sum_pos (fun i _ => sum_pos (fun j _ => hpc n i j) univ_nonempty) univ_nonempty
  have p3 := fun n => kl1_nonneg hm.le (q3 n)
  refine ⟨fun i => ?_, fun j => ?_, ?_⟩
  · refine tendsto_of_kl1 (B := a i) (fun n => sum_nonneg fun j _ => (hpr n i j).le) (fun n => rowStep_le ha hK (ok n) i)
      (fun n => sum_pos (fun j _ => hp n i j) univ_nonempty) ?_
    refine squeeze_zero (fun n => kl1_nonneg (sum_nonneg fun j _ => (hpr n i j).le) (sum_pos (fun j _ => hp n i j) univ_nonempty)) (fun n => ?_) hg
    have := hgain n
    have := k1 n i
    have := p2 n
    have := p3 n
    rw [Function.iterate_succ_apply']
    linarith
  · refine tendsto_of_kl1 (B := b j) (fun n => sum_nonneg fun i _ => (hpc n i j).le) (fun n => colStep_le hb hK (okr n) j)
      (fun n => sum_pos (fun i _ => hpr n i j) univ_nonempty) ?_
    refine squeeze_zero (fun n => kl1_nonneg (sum_nonneg fun i _ => (hpc n i j).le) (sum_pos (fun i _ => hpr n i j) univ_nonempty)) (fun n => ?_) hg
    have := hgain n
    have := k2 n j
    have := p1 n
    have := p3 n
    rw [Function.iterate_succ_apply']
    linarith
  · refine tendsto_of_kl1 (B := m) (fun n => hm.le) (fun n => le_rfl) q3 ?_
    refine squeeze_zero p3 (fun n => ?_) hg
    have := hgain n
    have := p1 n
    have := p2 n
    rw [Function.iterate_succ_apply']
    linarith

/-- Bounds on the column change transfer to rows. -/
theorem row_change (n : ℕ) (i : I) : |∑ j, plan K ((redStep a b m K)^[n + 1] s) i j - ∑ j, plan K (rowStep a K ((redStep a b m K)^[n] s)) i j| ≤
    (∑ j, |∑ i, plan K (colStep b K (rowStep a K ((redStep a b m K)^[n] s))) i j - ∑ i, plan K (rowStep a K ((redStep a b m K)^[n] s)) i j|) +
      |m - ∑ i, ∑ j, plan K (colStep b K (rowStep a K ((redStep a b m K)^[n] s))) i j| := by
  obtain ⟨t, ht⟩ : ∃ t, (redStep a b m K)^[n] s = t := ⟨_, rfl⟩
  have ok : Ok t := ht ▸ iter_ok ha hb hm hK hs n
  rw [Function.iterate_succ_apply', ht]
  obtain ⟨r, hr⟩ : ∃ r, rowStep a K t = r := ⟨_, rfl⟩
  have okr : Ok r := hr ▸ rowStep_ok ha hK ok
  unfold redStep
  rw [hr]
  obtain ⟨c, hc⟩ : ∃ c, colStep b K r = c := ⟨_, rfl⟩
  have okc : Ok c := hc ▸ colStep_ok hb hK okr
  rw [hc]
  have e1 : ∀ i j, plan K c i j - plan K r i j = (c.g j - r.g j) * (r.f i * r.c * K i j) := by
    intro i j
    rw [← hc]
    simp only [plan, colStep]
    ring
  have e2 : ∀ i j, plan K (massStep m K c) i j - plan K c i j = (m / tot K c - c.c) * (c.f i * c.g j * K i j) := by
    intro i j
    simp only [plan, massStep]
    ring
  have hT := tot_pos hK okc
  have s1 : ∀ j, |plan K c i j - plan K r i j| ≤ |∑ i, plan K c i j - ∑ i, plan K r i j| := by
    intro j
    have e : ∑ i, plan K c i j - ∑ i, plan K r i j = (c.g j - r.g j) * ∑ i, r.f i * r.c * K i j := by
      rw [← sum_sub_distrib, mul_sum]
      exact sum_congr rfl fun i _ => e1 i j
    have hp : ∀ i, 0 < r.f i * r.c * K i j := fun i => mul_pos (mul_pos (okr.f0 i) okr.c0) (hK i j)
    rw [e, e1, abs_mul _ (r.f i * r.c * K i j), abs_mul _ (∑ i, r.f i * r.c * K i j), abs_of_pos (hp i), abs_of_pos (sum_pos (fun i _ => hp i) univ_nonempty)]
    exact mul_le_mul_of_nonneg_left (single_le_sum (fun i _ => (hp i).le) (mem_univ i)) (abs_nonneg _)
  have s2 : |∑ j, plan K (massStep m K c) i j - ∑ j, plan K c i j| ≤ |m - ∑ i, ∑ j, plan K c i j| := by
    have hp : ∀ i j, 0 < c.f i * c.g j * K i j := fun i j => mul_pos (mul_pos (okc.f0 i) (okc.g0 j)) (hK i j)
    have e : m - ∑ i, ∑ j, plan K c i j = (m / tot K c - c.c) * tot K c := by
      rw [mass_plan, sub_mul, div_mul_cancel₀ _ hT.ne']
    rw [← sum_sub_distrib, sum_congr rfl fun j _ => e2 i j, ← mul_sum, e, abs_mul, abs_mul, abs_of_pos hT,
      abs_of_pos (sum_pos (fun j _ => hp i j) univ_nonempty)]
    refine mul_le_mul_of_nonneg_left ?_ (abs_nonneg _)
    exact single_le_sum (f := fun i => ∑ j, c.f i * c.g j * K i j) (fun i _ => sum_nonneg fun j _ => (hp i j).le) (mem_univ i)
  have s3 : |∑ j, plan K c i j - ∑ j, plan K r i j| ≤ ∑ j, |∑ i, plan K c i j - ∑ i, plan K r i j| := by
    rw [← sum_sub_distrib]
    exact (abs_sum_le_sum_abs _ _).trans (sum_le_sum fun j _ => s1 j)
  have := abs_sub_le (∑ j, plan K (massStep m K c) i j) (∑ j, plan K c i j) (∑ j, plan K r i j)
  linarith

theorem col_change (n : ℕ) (j : J) : |∑ i, plan K ((redStep a b m K)^[n + 1] s) i j - ∑ i, plan K (colStep b K (rowStep a K ((redStep a b m K)^[n] s))) i j| ≤
      |m - ∑ i, ∑ j, plan K (colStep b K (rowStep a K ((redStep a b m K)^[n] s))) i j| := by
  obtain ⟨t, ht⟩ : ∃ t, (redStep a b m K)^[n] s = t := ⟨_, rfl⟩
  have ok : Ok t := ht ▸ iter_ok ha hb hm hK hs n
  rw [Function.iterate_succ_apply', ht]
  unfold redStep
  obtain ⟨c, hc⟩ : ∃ c, colStep b K (rowStep a K t) = c := ⟨_, rfl⟩
  have okc : Ok c := hc ▸ colStep_ok hb hK (rowStep_ok ha hK ok)
  rw [hc]
  have e2 : ∀ i j, plan K (massStep m K c) i j - plan K c i j = (m / tot K c - c.c) * (c.f i * c.g j * K i j) := by
    intro i j
    simp only [plan, massStep]
    ring
  have hT := tot_pos hK okc
  have hp : ∀ i j, 0 < c.f i * c.g j * K i j := fun i j => mul_pos (mul_pos (okc.f0 i) (okc.g0 j)) (hK i j)
  have e : m - ∑ i, ∑ j, plan K c i j = (m / tot K c - c.c) * tot K c := by
    rw [mass_plan, sub_mul, div_mul_cancel₀ _ hT.ne']
  rw [← sum_sub_distrib, sum_congr rfl fun i _ => e2 i j, ← mul_sum, e, abs_mul, abs_mul, abs_of_pos hT,
    abs_of_pos (sum_pos (fun i _ => hp i j) univ_nonempty)]
  refine mul_le_mul_of_nonneg_left ?_ (abs_nonneg _)
  rw [tot, sum_comm]
  exact single_le_sum (f := fun j => ∑ i, c.f i * c.g j * K i j) (fun j _ => sum_nonneg fun i _ => (hp i j).le) (mem_univ j)

theorem row_change_tendsto (i : I) :
    Tendsto (fun n => |∑ j, plan K ((redStep a b m K)^[n + 1] s) i j - ∑ j, plan K (rowStep a K ((redStep a b m K)^[n] s)) i j|) atTop (𝓝 0) := by
  obtain ⟨-, h2, h3⟩ := sums_tendsto ha hb hm hma hmb hK hs
  refine squeeze_zero (fun n => abs_nonneg _) (fun n => row_change ha hb hm hma hmb hK hs n i) ?_
  have e : (0 : ℝ) = ∑ _j : J, 0 + 0 := by simp
  rw [e]
  refine Tendsto.add (tendsto_finsetSum _ fun j _ => ?_) ?_
  · exact (tendsto_zero_iff_abs_tendsto_zero _).1 (h2 j)
  · exact (tendsto_zero_iff_abs_tendsto_zero _).1 h3

theorem col_change_tendsto (j : J) :
    Tendsto (fun n => |∑ i, plan K ((redStep a b m K)^[n + 1] s) i j - ∑ i, plan K (colStep b K (rowStep a K ((redStep a b m K)^[n] s))) i j|) atTop (𝓝 0) := by
  obtain ⟨-, -, h3⟩ := sums_tendsto ha hb hm hma hmb hK hs
  exact squeeze_zero (fun n => abs_nonneg _) (fun n => col_change ha hb hm hma hmb hK hs n j) ((tendsto_zero_iff_abs_tendsto_zero _).1 h3)

end Seq

/-- Coercivity of the dual, as a statement about numbers. -/
theorem coercive {I J : Type*} [Fintype I] [Fintype J] [Nonempty I] [Nonempty J] {a α : I → ℝ} {b β : J → ℝ} {m γ c1 : ℝ} (ha : ∀ i, 0 < a i) (hb : ∀ j, 0 < b j)
    (hm : 0 < m) (hma : m ≤ ∑ i, a i) (hmb : m ≤ ∑ j, b j) (hα : ∀ i, α i ≤ 0) (hβ : ∀ j, β j ≤ 0) (h : ∀ i j, α i + β j + γ ≤ c1) (i k : I) :
    ∑ i, a i * α i + ∑ j, b j * β j + m * γ ≤ a i * (m / ∑ i, a i) * (α i - α k) + m * c1 := by
  classical
  obtain ⟨A, hA⟩ : ∃ A, A = ∑ i, a i := ⟨_, rfl⟩
  obtain ⟨B, hB⟩ : ∃ B, B = ∑ j, b j := ⟨_, rfl⟩
  have hA0 : 0 < A := hA ▸ sum_pos (fun i _ => ha i) univ_nonempty
  have hB0 : 0 < B := hB ▸ sum_pos (fun j _ => hb j) univ_nonempty
  obtain ⟨bb, hbb⟩ : ∃ bb, bb = ∑ j, b j / B * β j := ⟨_, rfl⟩
  have hX : ∀ i, α i + bb + γ ≤ c1 := by
    intro i
    have h1 : ∑ j, b j / B * (α i + β j + γ) ≤ ∑ j, b j / B * c1 := sum_le_sum fun j _ => mul_le_mul_of_nonneg_left (h i j) (div_pos (hb j) hB0).le
    have h2 : ∑ j, b j / B = 1 := by rw [← sum_div, ← hB, div_self hB0.ne']
    have h3 : ∑ j, b j / B * (α i + β j + γ) = (∑ j, b j / B) * (α i + γ) + bb := by
      rw [hbb, sum_mul, ← sum_add_distrib]
      exact sum_congr rfl fun j _ => by ring
    rw [h3, ← sum_mul, h2] at h1
    linarith
  have hw : ∀ i, 0 < a i * (m / A) := fun i => mul_pos (ha i) (div_pos hm hA0)
  have hsum : ∑ i, a i * (m / A) = m := by rw [← sum_mul, ← hA]; field_simp
  have h4 : ∑ x, a x * (m / A) * (α x + bb + γ) ≤ ∑ x, a x * (m / A) * (c1 + if x = i then α i - α k else 0) := by
    refine sum_le_sum fun x _ => mul_le_mul_of_nonneg_left ?_ (hw x).le
    split_ifs with hx
    · rw [hx]
      have := hX k
      linarith
    · rw [add_zero]
      exact hX x
  have h5 : ∑ x, a x * (m / A) * (c1 + if x = i then α i - α k else 0) = m * c1 + a i * (m / A) * (α i - α k) := by
    simp only [mul_add, sum_add_distrib, mul_ite, mul_zero, sum_ite_eq', mem_univ, if_true]
    rw [← sum_mul, hsum]
  have h6 : ∑ x, a x * (m / A) * (α x + bb + γ) = m / A * ∑ x, a x * α x + m * (bb + γ) := by
    rw [← hsum, mul_sum, sum_mul, ← sum_add_distrib, hsum]
    exact sum_congr rfl fun x _ => by ring
  have h7 : m * bb = m / B * ∑ j, b j * β j := by
    rw [hbb, mul_sum, mul_sum]
    exact sum_congr rfl fun j _ => by ring
  have h8 : ∑ x, a x * α x ≤ m / A * ∑ x, a x * α x := by
    have hn : ∑ x, a x * α x ≤ 0 := sum_nonpos fun x _ => mul_nonpos_of_nonneg_of_nonpos (ha x).le (hα x)
    have h1 : m / A ≤ 1 := (div_le_one hA0).2 (hA ▸ hma)
    nlinarith
  have h9 : ∑ j, b j * β j ≤ m / B * ∑ j, b j * β j := by
    have hn : ∑ j, b j * β j ≤ 0 := sum_nonpos fun x _ => mul_nonpos_of_nonneg_of_nonpos (hb x).le (hβ x)
    have h1 : m / B ≤ 1 := (div_le_one hB0).2 (hB ▸ hmb)
    nlinarith
  rw [← hA]
  have h10 : m * (bb + γ) = m / B * ∑ j, b j * β j + m * γ := by rw [mul_add, h7]
  linarith

/-- Approximate complementary slackness. -/
theorem slack_bound {I : Type*} [Fintype I] [Nonempty I] {α rH rP rQ a : I → ℝ} {C : ℝ} (hsum : ∑ i, rH i = ∑ i, rP i) (hH : ∀ i, rH i ≤ a i)
    (htight : ∀ i k, α i < α k → rQ i = a i) (hC : ∀ i k, α k - α i ≤ C) : -(C * ∑ i, |rP i - rQ i|) ≤ ∑ i, α i * (rH i - rP i) := by
  obtain ⟨k, -, hk⟩ := exists_max_image univ α univ_nonempty
  have e : ∑ i, α i * (rH i - rP i) = ∑ i, (α i - α k) * (rH i - rP i) := by
    have h0 : ∑ i, α k * (rH i - rP i) = 0 := by rw [← mul_sum, sum_sub_distrib, hsum, sub_self, mul_zero]
    simp only [sub_mul (α _) (α k), sum_sub_distrib (fun i => α i * (rH i - rP i)), h0, sub_zero]
  rw [e, mul_sum, ← sum_neg_distrib]
  refine sum_le_sum fun i _ => ?_
  have hCk := hC i k
  have habs := abs_nonneg (rP i - rQ i)
  rcases (hk i (mem_univ i)).eq_or_lt with h | h
  · rw [h, sub_self, zero_mul]
    have := hC i i
    nlinarith
  · have ht := htight i k h
    have h1 := hH i
    have h2 := neg_abs_le (rP i - rQ i)
    have h3 := le_abs_self (rP i - rQ i)
    rw [ht] at *
    nlinarith

/-- relative entropy of a plan with respect to a positive kernel (without mass terms) -/
noncomputable def ent (K P : I → J → ℝ) : ℝ := ∑ i, ∑ j, P i j * Real.log (P i j / K i j)

theorem ent_gap (hK : ∀ i j, 0 < K i j) {s : Red I J} (hs : Ok s) {H : I → J → ℝ} (hH : ∀ i j, 0 ≤ H i j)
    (hm : ∑ i, ∑ j, H i j = ∑ i, ∑ j, plan K s i j) :
    ent K H - ent K (plan K s) = klPlan H (plan K s) + ∑ i, Real.log (s.f i) * (∑ j, H i j - ∑ j, plan K s i j)
      + ∑ j, Real.log (s.g j) * (∑ i, H i j - ∑ i, plan K s i j) := by
  have hl : ∀ i j, Real.log (plan K s i j / K i j) = Real.log (s.f i) + Real.log (s.g j) + Real.log s.c := by
    intro i j
    rw [plan, mul_div_assoc, div_self (hK i j).ne', mul_one, Real.log_mul (mul_pos (hs.f0 i) (hs.g0 j)).ne' hs.c0.ne',
      Real.log_mul (hs.f0 i).ne' (hs.g0 j).ne']
  have e1 : ent K H = klPlan H (plan K s) + ∑ i, ∑ j, H i j * (Real.log (s.f i) + Real.log (s.g j) + Real.log s.c) := by
    have : klPlan H (plan K s) = ∑ i, ∑ j, H i j * Real.log (H i j / plan K s i j) := by
      rw [klPlan_eq]
      simp only [sum_add_distrib, sum_sub_distrib]
      linarith
    rw [this, ent, ← sum_add_distrib]
    refine sum_congr rfl fun i _ => ?_
    rw [← sum_add_distrib]
    refine sum_congr rfl fun j _ => ?_
    rcases (hH i j).eq_or_lt with h | h
    · rw [← h]; ring
    · have hp := plan_pos hK hs i j
      rw [← hl, Real.log_div h.ne' (hK i j).ne', Real.log_div h.ne' hp.ne', Real.log_div hp.ne' (hK i j).ne']
      ring
  have e2 : ∀ Q : I → J → ℝ, ∑ i, ∑ j, Q i j * (Real.log (s.f i) + Real.log (s.g j) + Real.log s.c)
      = ∑ i, Real.log (s.f i) * ∑ j, Q i j + ∑ j, Real.log (s.g j) * ∑ i, Q i j + Real.log s.c * ∑ i, ∑ j, Q i j := by
    intro Q
    have : ∑ j, Real.log (s.g j) * ∑ i, Q i j = ∑ i, ∑ j, Real.log (s.g j) * Q i j := by
      rw [sum_comm]
      exact sum_congr rfl fun j _ => mul_sum _ _ _
    rw [this]
    simp only [mul_sum, ← sum_add_distrib]
    exact sum_congr rfl fun i _ => sum_congr rfl fun j _ => by ring
  have e3 : ent K (plan K s) = ∑ i, ∑ j, plan K s i j * (Real.log (s.f i) + Real.log (s.g j) + Real.log s.c) :=
    sum_congr rfl fun i _ => sum_congr rfl fun j _ => by rw [hl]
  rw [e1, e3, e2, e2, hm]
  simp only [mul_sub, sum_sub_distrib]
  ring

theorem pot_bound (ha : ∀ i, 0 < a i) (hb : ∀ j, 0 < b j) (hm : 0 < m) (hma : m ≤ ∑ i, a i) (hmb : m ≤ ∑ j, b j) (hK : ∀ i j, 0 < K i j)
    (D0 : ℝ) : ∃ C, ∀ t : Red I J, Ok t → ∑ i, ∑ j, plan K t i j = m → D0 ≤ dual a b m K t →
      (∀ i k, Real.log (t.f k) - Real.log (t.f i) ≤ C) ∧ ∀ j k, Real.log (t.g k) - Real.log (t.g j) ≤ C := by
  have hA : 0 < ∑ i, a i := sum_pos (fun i _ => ha i) univ_nonempty
  have hB : 0 < ∑ j, b j := sum_pos (fun j _ => hb j) univ_nonempty
  obtain ⟨c1, hc1⟩ : ∃ c1, ∀ i j, Real.log m - Real.log (K i j) ≤ c1 :=
    ⟨∑ i, ∑ j, |Real.log m - Real.log (K i j)|, fun i j => (le_abs_self _).trans
      ((single_le_sum (f := fun j => |Real.log m - Real.log (K i j)|) (fun _ _ => abs_nonneg _) (mem_univ j)).trans
        (single_le_sum (f := fun i => ∑ j, |Real.log m - Real.log (K i j)|) (fun _ _ => sum_nonneg fun _ _ => abs_nonneg _) (mem_univ i)))⟩
  obtain ⟨E, hE⟩ : ∃ E, E = |m * c1 - m - D0| := ⟨_, rfl⟩
  have hE0 : 0 ≤ E := hE ▸ abs_nonneg _
  have wa : ∀ i, 0 < a i * (m / ∑ i, a i) := fun i => mul_pos (ha i) (div_pos hm hA)
  have wb : ∀ j, 0 < b j * (m / ∑ j, b j) := fun j => mul_pos (hb j) (div_pos hm hB)
  refine ⟨∑ i, E / (a i * (m / ∑ i, a i)) + ∑ j, E / (b j * (m / ∑ j, b j)), fun t ht htm htd => ?_⟩
  have hent : ∀ i j, Real.log (t.f i) + Real.log (t.g j) + Real.log t.c ≤ c1 := by
    intro i j
    have hp := plan_pos hK ht i j
    have h1 : plan K t i j ≤ m := by
      rw [← htm]
      exact (single_le_sum (f := fun j => plan K t i j) (fun j _ => (plan_pos hK ht i j).le) (mem_univ j)).trans
        (single_le_sum (f := fun i => ∑ j, plan K t i j) (fun i _ => sum_nonneg fun j _ => (plan_pos hK ht i j).le) (mem_univ i))
    have h2 := Real.log_le_log hp h1
    rw [plan, Real.log_mul (mul_pos (mul_pos (ht.f0 i) (ht.g0 j)) ht.c0).ne' (hK i j).ne', Real.log_mul (mul_pos (ht.f0 i) (ht.g0 j)).ne' ht.c0.ne',
      Real.log_mul (ht.f0 i).ne' (ht.g0 j).ne'] at h2
    have := hc1 i j
    linarith
  have hf := fun i => Real.log_nonpos (ht.f0 i).le (ht.f1 i)
  have hg := fun j => Real.log_nonpos (ht.g0 j).le (ht.g1 j)
  have hd : dual a b m K t = ∑ i, a i * Real.log (t.f i) + ∑ j, b j * Real.log (t.g j) + m * Real.log t.c - m := by rw [dual, htm]
  have hEle : m * c1 - m - D0 ≤ E := hE ▸ le_abs_self _
  have na : 0 ≤ ∑ i, E / (a i * (m / ∑ i, a i)) := sum_nonneg fun i _ => div_nonneg hE0 (wa i).le
  have nb : 0 ≤ ∑ j, E / (b j * (m / ∑ j, b j)) := sum_nonneg fun j _ => div_nonneg hE0 (wb j).le
  constructor
  · intro i k
    have h := coercive ha hb hm hma hmb hf hg hent i k
    have h1 : Real.log (t.f k) - Real.log (t.f i) ≤ E / (a i * (m / ∑ i, a i)) := by
      rw [le_div_iff₀ (wa i)]
      nlinarith
    have h2 := single_le_sum (f := fun i => E / (a i * (m / ∑ i, a i))) (fun i _ => div_nonneg hE0 (wa i).le) (mem_univ i)
    linarith
  · intro j k
    have h := coercive (γ := Real.log t.c) (c1 := c1) hb ha hm hmb hma hg hf (fun j i => by have := hent i j; linarith) j k
    have h1 : Real.log (t.g k) - Real.log (t.g j) ≤ E / (b j * (m / ∑ j, b j)) := by
      rw [le_div_iff₀ (wb j)]
      nlinarith
    have h2 := single_le_sum (f := fun j => E / (b j * (m / ∑ j, b j))) (fun j _ => div_nonneg hE0 (wb j).le) (mem_univ j)
    linarith

section Seq

variable (ha : ∀ i, 0 < a i) (hb : ∀ j, 0 < b j) (hm : 0 < m) (hma : m ≤ ∑ i, a i) (hmb : m ≤ ∑ j, b j) (hK : ∀ i j, 0 < K i j) {s : Red I J} (hs : Ok s)

include ha hb hm hK hs

theorem iter_mass (n : ℕ) : ∑ i, ∑ j, plan K ((redStep a b m K)^[n + 1] s) i j = m := by
  rw [Function.iterate_succ_apply', redStep]
  exact massStep_mass hK (colStep_ok hb hK (rowStep_ok ha hK (iter_ok ha hb hm hK hs n)))

theorem iter_le (n : ℕ) (i : I) (j : J) : plan K ((redStep a b m K)^[n + 1] s) i j ≤ m := by
  have hp := plan_pos hK (iter_ok ha hb hm hK hs (n + 1))
  refine le_of_le_of_eq ?_ (iter_mass ha hb hm hK hs n)
  exact (single_le_sum (f := fun j => plan K ((redStep a b m K)^[n + 1] s) i j) (fun j _ => (hp i j).le) (mem_univ j)).trans
    (single_le_sum (f := fun i => ∑ j, plan K ((redStep a b m K)^[n + 1] s) i j) (fun i _ => sum_nonneg fun j _ => (hp i j).le) (mem_univ i))

include hma hmb

/-- **Asymptotic optimality.** -/
theorem near : ∃ δ : ℕ → ℝ, Tendsto δ atTop (𝓝 0) ∧ ∀ n (H : I → J → ℝ), IsPartial a b H → mass H = m →
    klPlan H (plan K ((redStep a b m K)^[n + 1] s)) ≤ ent K H - ent K (plan K ((redStep a b m K)^[n + 1] s)) + δ n := by
  obtain ⟨C, hC⟩ := pot_bound ha hb hm hma hmb hK (dual a b m K s)
  refine ⟨fun n => C * (∑ i, |∑ j, plan K ((redStep a b m K)^[n + 1] s) i j - ∑ j, plan K (rowStep a K ((redStep a b m K)^[n] s)) i j|) +
    C * ∑ j, |∑ i, plan K ((redStep a b m K)^[n + 1] s) i j - ∑ i, plan K (colStep b K (rowStep a K ((redStep a b m K)^[n] s))) i j|, ?_, ?_⟩
  · have e : (0 : ℝ) = C * (∑ _i : I, 0) + C * ∑ _j : J, 0 := by simp
    rw [e]
    exact ((tendsto_finsetSum _ fun i _ => row_change_tendsto ha hb hm hma hmb hK hs i).const_mul C).add
      ((tendsto_finsetSum _ fun j _ => col_change_tendsto ha hb hm hma hmb hK hs j).const_mul C)
  · intro n H hH hHm
    have ok0 := iter_ok ha hb hm hK hs n
    have ok1 := iter_ok ha hb hm hK hs (n + 1)
    have hmass := iter_mass ha hb hm hK hs n
    obtain ⟨hC1, hC2⟩ := hC _ ok1 hmass (dual_iter_mono ha hb hm hK hs (Nat.zero_le (n + 1)))
    have hg := ent_gap hK ok1 hH.nonneg (by rw [hmass]; exact hHm)
    have hsum1 : ∑ i, ∑ j, H i j = ∑ i, ∑ j, plan K ((redStep a b m K)^[n + 1] s) i j := by rw [hmass]; exact hHm
    have hsum2 : ∑ j, ∑ i, H i j = ∑ j, ∑ i, plan K ((redStep a b m K)^[n + 1] s) i j := by rw [sum_comm, hsum1, sum_comm]
    have ef : ((redStep a b m K)^[n + 1] s).f = (rowStep a K ((redStep a b m K)^[n] s)).f := by rw [Function.iterate_succ_apply']; rfl
    have eg : ((redStep a b m K)^[n + 1] s).g = (colStep b K (rowStep a K ((redStep a b m K)^[n] s))).g := by rw [Function.iterate_succ_apply']; rfl
    have h1 := slack_bound (α := fun i => Real.log (((redStep a b m K)^[n + 1] s).f i)) (rH := fun i => ∑ j, H i j)
      (rP := fun i => ∑ j, plan K ((redStep a b m K)^[n + 1] s) i j) (rQ := fun i => ∑ j, plan K (rowStep a K ((redStep a b m K)^[n] s)) i j) (a := a) (C := C)
      hsum1 hH.row (fun i k hik => by
        refine rowStep_tight hK ok0 i ?_
        have h1 := Real.log_nonpos (ok1.f0 k).le (ok1.f1 k)
        have h2 := lt_of_lt_of_le hik h1
        rw [← ef]
        exact (Real.log_neg_iff (ok1.f0 i)).1 h2) hC1
    have h2 := slack_bound (α := fun j => Real.log (((redStep a b m K)^[n + 1] s).g j)) (rH := fun j => ∑ i, H i j)
      (rP := fun j => ∑ i, plan K ((redStep a b m K)^[n + 1] s) i j)
      (rQ := fun j => ∑ i, plan K (colStep b K (rowStep a K ((redStep a b m K)^[n] s))) i j) (a := b) (C := C)
      hsum2 hH.col (fun j k hik => by
        refine colStep_tight hK (rowStep_ok ha hK ok0) j ?_
        have h1 := Real.log_nonpos (ok1.g0 k).le (ok1.g1 k)
        have h2 := lt_of_lt_of_le hik h1
        rw [← eg]
        exact (Real.log_neg_iff (ok1.g0 j)).1 h2) hC2
    dsimp only at h1 h2 ⊢
    linarith

theorem cluster {ψ : ℕ → ℕ} (hψ : Tendsto ψ atTop atTop) {P : I → J → ℝ}
    (hP : ∀ i j, Tendsto (fun n => plan K ((redStep a b m K)^[ψ n + 1] s) i j) atTop (𝓝 (P i j))) :
    IsPartial a b P ∧ mass P = m ∧ ∀ H, IsPartial a b H → mass H = m → ent K P ≤ ent K H ∧ (ent K H ≤ ent K P → H = P) := by
  have hpos := fun n => plan_pos hK (iter_ok ha hb hm hK hs n)
  have hP0 : ∀ i j, 0 ≤ P i j := fun i j => ge_of_tendsto' (hP i j) fun n => (hpos _ i j).le
  have hrow : ∀ i, Tendsto (fun n => ∑ j, plan K ((redStep a b m K)^[ψ n + 1] s) i j) atTop (𝓝 (∑ j, P i j)) := fun i =>
    tendsto_finsetSum _ fun j _ => hP i j
  have hcol : ∀ j, Tendsto (fun n => ∑ i, plan K ((redStep a b m K)^[ψ n + 1] s) i j) atTop (𝓝 (∑ i, P i j)) := fun j =>
    tendsto_finsetSum _ fun i _ => hP i j
  have hPp : IsPartial a b P := by
    refine ⟨hP0, fun i => ?_, fun j => ?_⟩
    · have h1 := (hrow i).sub ((row_change_tendsto ha hb hm hma hmb hK hs i).comp hψ)
      rw [sub_zero] at h1
      refine le_of_tendsto' h1 fun n => ?_
      have h2 := rowStep_le ha hK (iter_ok ha hb hm hK hs (ψ n)) i
      have h3 := le_abs_self (∑ j, plan K ((redStep a b m K)^[ψ n + 1] s) i j - ∑ j, plan K (rowStep a K ((redStep a b m K)^[ψ n] s)) i j)
      simp only [Function.comp_apply]
      linarith
    · have h1 := (hcol j).sub ((col_change_tendsto ha hb hm hma hmb hK hs j).comp hψ)
      rw [sub_zero] at h1
      refine le_of_tendsto' h1 fun n => ?_
      have h2 := colStep_le hb hK (rowStep_ok ha hK (iter_ok ha hb hm hK hs (ψ n))) j
      have h3 := le_abs_self (∑ i, plan K ((redStep a b m K)^[ψ n + 1] s) i j - ∑ i, plan K (colStep b K (rowStep a K ((redStep a b m K)^[ψ n] s))) i j)
      simp only [Function.comp_apply]
      linarith
  have hPm : mass P = m := by
    have h1 : Tendsto (fun n => ∑ i, ∑ j, plan K ((redStep a b m K)^[ψ n + 1] s) i j) atTop (𝓝 (∑ i, ∑ j, P i j)) :=
      tendsto_finsetSum _ fun i _ => hrow i
    simp only [iter_mass ha hb hm hK hs] at h1
    exact (tendsto_nhds_unique h1 tendsto_const_nhds)
  have hent : Tendsto (fun n => ent K (plan K ((redStep a b m K)^[ψ n + 1] s))) atTop (𝓝 (ent K P)) := by
    have e : ∀ Q : I → J → ℝ, ent K Q = ∑ i, ∑ j, (Q i j * Real.log (Q i j) - Q i j * Real.log (K i j)) := by
      intro Q
      refine sum_congr rfl fun i _ => sum_congr rfl fun j _ => ?_
      by_cases h : Q i j = 0
      · rw [h]; ring
      · rw [Real.log_div h (hK i j).ne']; ring
    simp only [e]
    refine tendsto_finsetSum _ fun i _ => tendsto_finsetSum _ fun j _ => ?_
    exact (((Real.continuous_mul_log.tendsto (P i j)).comp (hP i j))).sub ((hP i j).mul_const _)
  obtain ⟨δ, hδ, hnear⟩ := near ha hb hm hma hmb hK hs
  have hδψ := hδ.comp hψ
  refine ⟨hPp, hPm, fun H hH hHm => ⟨?_, fun hle => ?_⟩⟩
  · have h1 := (hent.sub hδψ)
    rw [sub_zero] at h1
    refine le_of_tendsto' h1 fun n => ?_
    have h2 := hnear (ψ n) H hH hHm
    have h3 := klPlan_nonneg hH.nonneg (hpos (ψ n + 1))
    simp only [Function.comp_apply]
    linarith
  · have hkl : Tendsto (fun n => klPlan H (plan K ((redStep a b m K)^[ψ n + 1] s))) atTop (𝓝 0) := by
      have h1 : Tendsto (fun n => ent K P - ent K (plan K ((redStep a b m K)^[ψ n + 1] s)) + δ (ψ n)) atTop (𝓝 0) := by
        have := (hent.const_sub (ent K P)).add hδψ
        rw [sub_self, zero_add] at this
        exact this
      refine squeeze_zero (fun n => klPlan_nonneg hH.nonneg (hpos _)) (fun n => ?_) h1
      have := hnear (ψ n) H hH hHm
      linarith
    funext i j
    have h1 : Tendsto (fun n => H i j - plan K ((redStep a b m K)^[ψ n + 1] s) i j) atTop (𝓝 0) := by
      refine tendsto_of_kl1 (B := H i j) (fun _ => hH.nonneg i j) (fun _ => le_rfl) (fun n => hpos _ i j) ?_
      exact squeeze_zero (fun n => kl1_nonneg (hH.nonneg i j) (hpos _ i j)) (fun n => klPlan_entry hH.nonneg (hpos _) i j) hkl
    have h2 := tendsto_nhds_unique h1 ((hP i j).const_sub (H i j))
    linarith

/-- **Convergence** of the reduced iterations to the unique optimum. -/
theorem exists_limit : ∃ P, IsPartial a b P ∧ mass P = m ∧
    (∀ H, IsPartial a b H → mass H = m → ent K P ≤ ent K H ∧ (ent K H ≤ ent K P → H = P)) ∧
    ∀ i j, Tendsto (fun n => plan K ((redStep a b m K)^[n] s) i j) atTop (𝓝 (P i j)) := by
  have hcomp : IsCompact (Set.pi Set.univ fun _ : I => Set.pi Set.univ fun _ : J => Set.Icc (0 : ℝ) m) :=
    isCompact_univ_pi fun _ => isCompact_univ_pi fun _ => isCompact_Icc
  have hmem : ∀ n, plan K ((redStep a b m K)^[n + 1] s) ∈ Set.pi Set.univ fun _ : I => Set.pi Set.univ fun _ : J => Set.Icc (0 : ℝ) m :=
    fun n i _ j _ => ⟨(plan_pos hK (iter_ok ha hb hm hK hs (n + 1)) i j).le, iter_le ha hb hm hK hs n i j⟩
  obtain ⟨P, -, φ, hφ, hlim⟩ := hcomp.tendsto_subseq hmem
  have hlim' : ∀ i j, Tendsto (fun n => plan K ((redStep a b m K)^[φ n + 1] s) i j) atTop (𝓝 (P i j)) := fun i j =>
    (tendsto_pi_nhds.1 ((tendsto_pi_nhds.1 hlim) i)) j
  obtain ⟨h1, h2, h3⟩ := cluster ha hb hm hma hmb hK hs hφ.tendsto_atTop hlim'
  refine ⟨P, h1, h2, h3, fun i j => ?_⟩
  rw [← tendsto_add_atTop_iff_nat 1]
  have hall : Tendsto (fun n => plan K ((redStep a b m K)^[n + 1] s)) atTop (𝓝 P) := by
    refine tendsto_of_subseq_tendsto fun ns hns => ?_
    obtain ⟨Q, -, χ, hχ, hq⟩ := hcomp.tendsto_subseq (fun n => hmem (ns n))
    have hq' : ∀ i j, Tendsto (fun n => plan K ((redStep a b m K)^[(ns ∘ χ) n + 1] s) i j) atTop (𝓝 (Q i j)) := fun i j =>
      (tendsto_pi_nhds.1 ((tendsto_pi_nhds.1 hq) i)) j
    obtain ⟨q1, q2, q3⟩ := cluster ha hb hm hma hmb hK hs (hns.comp hχ.tendsto_atTop) hq'
    have : Q = P := (h3 Q q1 q2).2 (q3 P h1 h2).1
    rw [this] at hq
    exact ⟨χ, hq⟩
  exact (tendsto_pi_nhds.1 ((tendsto_pi_nhds.1 hall) i)) j

end Seq

end POT.PartialEntropic
