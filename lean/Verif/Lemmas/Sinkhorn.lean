import Verif.Lemmas.SinkhornLoop
import Verif.Lemmas.Kl
import Verif.Lemmas.Transport
import Mathlib.Algebra.BigOperators.Field
import Mathlib.Tactic.FieldSimp
import Mathlib.Tactic.Positivity

/-! # The Sinkhorn–Knopp iteration as alternating KL projections -/

set_option linter.unusedSectionVars false

namespace POT.Sinkhorn

open Finset Spec

variable {I J : Type*} [Fintype I] [Fintype J]

theorem kernel_pos (M : I → J → ℝ) (reg : ℝ) (i : I) (j : J) : 0 < kernel M reg i j := Real.exp_pos _

section Knopp

variable {a : I → ℝ} {b : J → ℝ} {K : I → J → ℝ}

theorem ktu_pos (hK : ∀ i j, 0 < K i j) {u : I → ℝ} (hu : ∀ i, 0 ≤ u i) (hu' : ∃ i, 0 < u i) (j : J) : 0 < ktu K u j := by
  obtain ⟨i, hi⟩ := hu'
  exact sum_pos' (fun i _ => mul_nonneg (hK i j).le (hu i)) ⟨i, mem_univ _, mul_pos (hK i j) hi⟩

theorem kv_pos (hK : ∀ i j, 0 < K i j) {v : J → ℝ} (hv : ∀ j, 0 ≤ v j) (hv' : ∃ j, 0 < v j) (i : I) : 0 < ∑ j, K i j * v j := by
  obtain ⟨j, hj⟩ := hv'
  exact sum_pos' (fun j _ => mul_nonneg (hK i j).le (hv j)) ⟨j, mem_univ _, mul_pos (hK i j) hj⟩

theorem kpv_eq (i : I) (v : J → ℝ) : kpv a K v i = (∑ j, K i j * v j) / a i := by
  unfold kpv
  rw [sum_div]
  exact sum_congr rfl fun j _ => by ring

theorem knoppStep_u (s : UV I J) (i : I) : (knoppStep a b K s).u i = a i / ∑ j, K i j * (knoppStep a b K s).v j := by
  have : (knoppStep a b K s).u i = if a i = 0 then 0 else 1 / kpv a K (knoppStep a b K s).v i := rfl
  rw [this]
  split_ifs with h
  · rw [h, zero_div]
  · rw [kpv_eq, one_div_div]

theorem knoppStep_v (s : UV I J) (j : J) : (knoppStep a b K s).v j = b j / ∑ i, K i j * s.u i := rfl

/-- Invariant of the scalings: non-negative, not all zero. -/
structure Good (s : UV I J) : Prop where
  u_nonneg : ∀ i, 0 ≤ s.u i
  u_pos : ∃ i, 0 < s.u i

/-- Admissible weights: non-negative, not all zero. -/
structure Weights {L : Type*} (w : L → ℝ) : Prop where
  nonneg : ∀ l, 0 ≤ w l
  pos : ∃ l, 0 < w l

theorem knoppStep_v_nonneg (hK : ∀ i j, 0 < K i j) (hb : Weights b) {s : UV I J} (hs : Good s) (j : J) :
    0 ≤ (knoppStep a b K s).v j := div_nonneg (hb.nonneg j) (ktu_pos hK hs.u_nonneg hs.u_pos j).le

theorem knoppStep_v_pos (hK : ∀ i j, 0 < K i j) {s : UV I J} (hs : Good s) {j : J} (hj : 0 < b j) :
    0 < (knoppStep a b K s).v j := div_pos hj (ktu_pos hK hs.u_nonneg hs.u_pos j)

theorem knoppStep_kv_pos (hK : ∀ i j, 0 < K i j) (hb : Weights b) {s : UV I J} (hs : Good s) (i : I) :
    0 < ∑ j, K i j * (knoppStep a b K s).v j := by
  obtain ⟨j, hj⟩ := hb.pos
  exact kv_pos hK (knoppStep_v_nonneg hK hb hs) ⟨j, knoppStep_v_pos hK hs hj⟩ i

theorem knoppStep_u_pos (hK : ∀ i j, 0 < K i j) (hb : Weights b) {s : UV I J} (hs : Good s) {i : I} (hi : 0 < a i) :
    0 < (knoppStep a b K s).u i := by
  rw [knoppStep_u]
  exact div_pos hi (knoppStep_kv_pos hK hb hs i)

theorem knoppStep_good (hK : ∀ i j, 0 < K i j) (ha : Weights a) (hb : Weights b) {s : UV I J} (hs : Good s) :
    Good (knoppStep a b K s) := by
  constructor
  · intro i
    rw [knoppStep_u]
    exact div_nonneg (ha.nonneg i) (knoppStep_kv_pos hK hb hs i).le
  · obtain ⟨i, hi⟩ := ha.pos
    exact ⟨i, knoppStep_u_pos hK hb hs hi⟩

theorem knoppIter_good (hK : ∀ i j, 0 < K i j) (ha : Weights a) (hb : Weights b) {s : UV I J} (hs : Good s) (k : ℕ) :
    Good ((knoppStep a b K)^[k] s) := by
  induction k with
  | zero => exact hs
  | succ k ih =>
    rw [Function.iterate_succ_apply']
    exact knoppStep_good hK ha hb ih

theorem not_knoppBad (hK : ∀ i j, 0 < K i j) (hb : Weights b) (hz : (∀ i, 0 < a i) ∨ ∀ j, 0 < b j)
    {s : UV I J} (hs : Good s) : ¬ knoppBad a b K s := by
  rintro (⟨j, hj⟩ | ⟨i, hi, h⟩ | ⟨i, j, hi, hj⟩)
  · exact (ktu_pos hK hs.u_nonneg hs.u_pos j).ne' hj
  · rw [kpv_eq, div_eq_zero_iff] at h
    rcases h with h | h
    · exact (knoppStep_kv_pos (a := a) hK hb hs i).ne' h
    · exact hi h
  · rcases hz with hz | hz
    · exact (hz i).ne' hi
    · exact (hz j).ne' hj

theorem knoppStep_rows (hK : ∀ i j, 0 < K i j) (hb : Weights b) {s : UV I J} (hs : Good s) (i : I) :
    ∑ j, plan K (knoppStep a b K s) i j = a i := by
  have h := (knoppStep_kv_pos (a := a) hK hb hs i).ne'
  unfold plan
  calc ∑ j, (knoppStep a b K s).u i * K i j * (knoppStep a b K s).v j
      = (knoppStep a b K s).u i * ∑ j, K i j * (knoppStep a b K s).v j := by
        rw [mul_sum]
        exact sum_congr rfl fun j _ => by ring
    _ = a i := by rw [knoppStep_u, div_mul_cancel₀ _ h]

theorem knoppInit_pos (warm : Option ((I → ℝ) × (J → ℝ))) [Nonempty I] [Nonempty J] :
    (∀ i, 0 < (knoppInit warm : UV I J).u i) ∧ ∀ j, 0 < (knoppInit warm : UV I J).v j := by
  cases warm with
  | none => exact ⟨fun i => by simp only [knoppInit]; positivity, fun j => by simp only [knoppInit]; positivity⟩
  | some w => exact ⟨fun i => Real.exp_pos _, fun j => Real.exp_pos _⟩

theorem good_of_pos [Nonempty I] {s : UV I J} (h : ∀ i, 0 < s.u i) : Good s :=
  ⟨fun i => (h i).le, ⟨Classical.arbitrary I, h _⟩⟩

/-! ### Positive weights: KL projections -/

/-- Both scalings positive. -/
def Pos (s : UV I J) : Prop := (∀ i, 0 < s.u i) ∧ ∀ j, 0 < s.v j

theorem plan_pos (hK : ∀ i j, 0 < K i j) {s : UV I J} (hs : Pos s) (i : I) (j : J) : 0 < plan K s i j :=
  mul_pos (mul_pos (hs.1 i) (hK i j)) (hs.2 j)

theorem weights_of_pos {L : Type*} [Nonempty L] {w : L → ℝ} (h : ∀ l, 0 < w l) : Weights w :=
  ⟨fun l => (h l).le, ⟨Classical.arbitrary L, h _⟩⟩

theorem knoppStep_pos [Nonempty I] [Nonempty J] (hK : ∀ i j, 0 < K i j) (ha : ∀ i, 0 < a i) (hb : ∀ j, 0 < b j) {s : UV I J}
    (hs : Pos s) : Pos (knoppStep a b K s) :=
  ⟨fun i => knoppStep_u_pos hK (weights_of_pos hb) (good_of_pos hs.1) (ha i), fun j => knoppStep_v_pos hK (good_of_pos hs.1) (hb j)⟩

theorem knoppIter_pos [Nonempty I] [Nonempty J] (hK : ∀ i j, 0 < K i j) (ha : ∀ i, 0 < a i) (hb : ∀ j, 0 < b j) {s : UV I J}
    (hs : Pos s) (k : ℕ) : Pos ((knoppStep a b K)^[k] s) := by
  induction k with
  | zero => exact hs
  | succ k ih =>
    rw [Function.iterate_succ_apply']
    exact knoppStep_pos hK ha hb ih

/-- One iteration is a projection onto the column constraint followed by a projection onto the row constraint. -/
theorem plan_knoppStep [Nonempty I] [Nonempty J] (hK : ∀ i j, 0 < K i j) (ha : ∀ i, 0 < a i) (hb : ∀ j, 0 < b j) {s : UV I J}
    (hs : Pos s) : plan K (knoppStep a b K s)
      = fun i j => (plan K s i j * (b j / ∑ i, plan K s i j)) * (a i / ∑ j, plan K s i j * (b j / ∑ i, plan K s i j)) := by
  have hc : ∀ j, ∑ i, plan K s i j = (∑ i, K i j * s.u i) * s.v j := by
    intro j
    unfold plan
    rw [sum_mul]
    exact sum_congr rfl fun i _ => by ring
  have hk : ∀ j, (∑ i, K i j * s.u i) ≠ 0 := fun j => (ktu_pos hK (good_of_pos hs.1).u_nonneg (good_of_pos hs.1).u_pos j).ne'
  have hp : ∀ i j, plan K s i j * (b j / ∑ i, plan K s i j) = s.u i * (K i j * (knoppStep a b K s).v j) := by
    intro i j
    rw [hc, knoppStep_v]
    unfold plan
    have := (hs.2 j).ne'
    have := hk j
    field_simp
  funext i j
  simp only [hp]
  rw [← mul_sum]
  have h1 := (hs.1 i).ne'
  have h2 := (knoppStep_kv_pos (a := a) hK (weights_of_pos hb) (good_of_pos hs.1) i).ne'
  unfold plan
  rw [knoppStep_u]
  field_simp

/-- Column sums of the plan. -/
def colSum (K : I → J → ℝ) (s : UV I J) : J → ℝ := fun j => ∑ i, plan K s i j

/-- The exact decrease of the divergence from a coupling. -/
theorem kl_step [Nonempty I] [Nonempty J] (hK : ∀ i j, 0 < K i j) (ha : ∀ i, 0 < a i) (hb : ∀ j, 0 < b j) {s : UV I J}
    (hs : Pos s) {Q : I → J → ℝ} (hQ : IsCoupling a b Q) :
    klPlan Q (plan K (knoppStep a b K s)) ≤ klPlan Q (plan K s) - klDivergence b (colSum K s) := by
  have hP := plan_pos hK hs
  have hc : ∀ j, 0 < ∑ i, plan K s i j := fun j => sum_pos (fun i _ => hP i j) univ_nonempty
  have hP' : ∀ i j, 0 < plan K s i j * (b j / ∑ i, plan K s i j) := fun i j => mul_pos (hP i j) (div_pos (hb j) (hc j))
  rw [plan_knoppStep hK ha hb hs, klPlan_rowProj hP' ha hQ.row, klPlan_colProj hP hb hQ.col]
  have : 0 ≤ klDivergence a fun i => ∑ j, plan K s i j * (b j / ∑ i, plan K s i j) :=
    klDivergence_nonneg (fun i => (ha i).le) fun i => sum_pos (fun j _ => hP' i j) univ_nonempty
  change _ ≤ klPlan Q (plan K s) - klDivergence b fun j => ∑ i, plan K s i j
  linarith

end Knopp

end POT.Sinkhorn
