import Verif.Model.LowRank
import Verif.Lemmas.Kl
import Verif.Lemmas.Unbalanced
import Mathlib.Analysis.MeanInequalities
import Mathlib.Topology.Order.Compact
import Mathlib.Tactic.Linarith
import Mathlib.Tactic.Ring
import Mathlib.Tactic.FieldSimp
import Mathlib.Tactic.Positivity
import Mathlib.Tactic.NormNum

/-!
# The low-rank Dykstra iteration is alternating maximisation of a concave dual

The dual variables are `log u₁`, `log u₂`, `-log q ≥ 0` (first block) and `log v₁`, `log v₂` (second block).
-/

set_option linter.unusedSectionVars false

namespace POT.LowRank

open Finset Spec Filter Topology

theorem kl_lin {L : Type*} [Fintype L] {p q r : L → ℝ} (hp : ∀ l, 0 < p l) (hq : ∀ l, 0 ≤ q l) (hr : ∀ l, 0 < r l) :
    klDivergence q r = klDivergence q p + ∑ l, q l * Real.log (p l / r l) - ∑ l, p l + ∑ l, r l := by
  have h := Unbalanced.kl_three hp hq hr
  have e : klDivergence p r = ∑ l, p l * Real.log (p l / r l) - ∑ l, p l + ∑ l, r l := by
    unfold klDivergence; rw [sum_add_distrib, sum_sub_distrib]
  have e2 : ∑ l, (q l - p l) * Real.log (p l / r l) = ∑ l, q l * Real.log (p l / r l) - ∑ l, p l * Real.log (p l / r l) := by
    rw [← sum_sub_distrib]; exact sum_congr rfl fun l _ => by ring
  linarith

theorem kl_self {L : Type*} [Fintype L] {x : L → ℝ} (hx : ∀ l, 0 < x l) : klDivergence x x = 0 := by
  unfold klDivergence
  exact sum_eq_zero fun l _ => by rw [div_self (hx l).ne', Real.log_one]; ring

theorem klPlan_lin {I J : Type*} [Fintype I] [Fintype J] {P Q C : I → J → ℝ} (hP : ∀ i j, 0 < P i j) (hQ : ∀ i j, 0 ≤ Q i j) (hC : ∀ i j, 0 < C i j) :
    klPlan Q C = klPlan Q P + ∑ i, ∑ j, Q i j * Real.log (P i j / C i j) - ∑ i, ∑ j, P i j + ∑ i, ∑ j, C i j := by
  unfold klPlan
  rw [kl_lin (fun x : I × J => hP x.1 x.2) (fun x => hQ x.1 x.2) (fun x => hC x.1 x.2), Fintype.sum_prod_type, Fintype.sum_prod_type, Fintype.sum_prod_type]

variable {I J K : Type*} [Fintype I] [Fintype J] [Fintype K]
variable {E1 : I → K → ℝ} {E2 : J → K → ℝ} {e : K → ℝ} {p1 : I → ℝ} {p2 : J → ℝ} {α : ℝ}

/-- positive kernels and weights, weights of total one -/
structure Data (E1 : I → K → ℝ) (E2 : J → K → ℝ) (e : K → ℝ) (p1 : I → ℝ) (p2 : J → ℝ) : Prop where
  hE1 : ∀ i k, 0 < E1 i k
  hE2 : ∀ j k, 0 < E2 j k
  he : ∀ k, 0 < e k
  h1 : ∀ i, 0 < p1 i
  h2 : ∀ j, 0 < p2 j
  s1 : ∑ i, p1 i = 1
  s2 : ∑ j, p2 j = 1

/-- the dual objective -/
noncomputable def dual (E1 : I → K → ℝ) (E2 : J → K → ℝ) (e : K → ℝ) (p1 : I → ℝ) (p2 : J → ℝ) (α : ℝ) (u1 : I → ℝ) (u2 : J → ℝ) (q v1 v2 : K → ℝ) : ℝ :=
  ∑ i, p1 i * Real.log (u1 i) + ∑ j, p2 j * Real.log (u2 j) + α * ∑ k, -Real.log (q k) - ∑ i, ∑ k, u1 i * E1 i k * v1 k - ∑ j, ∑ k, u2 j * E2 j k * v2 k - ∑ k, e k / (q k * v1 k * v2 k)
    + (∑ i, ∑ k, E1 i k + ∑ j, ∑ k, E2 j k + ∑ k, e k)

theorem factor_lin {I K : Type*} [Fintype I] [Fintype K] {E Q' : I → K → ℝ} {p u : I → ℝ} {g' v : K → ℝ} (hE : ∀ i k, 0 < E i k) (hu : ∀ i, 0 < u i) (hv : ∀ k, 0 < v k) (h : IsCoupling p g' Q') :
    klPlan Q' E = klPlan Q' (fun i k => u i * E i k * v k) + (∑ i, p i * Real.log (u i) + ∑ k, g' k * Real.log (v k)) - ∑ i, ∑ k, u i * E i k * v k + ∑ i, ∑ k, E i k := by
  rw [klPlan_lin (P := fun i k => u i * E i k * v k) (fun i k => mul_pos (mul_pos (hu i) (hE i k)) (hv k)) h.nonneg hE]
  have e1 : ∀ i k, Real.log (u i * E i k * v k / E i k) = Real.log (u i) + Real.log (v k) := fun i k => by
    rw [show u i * E i k * v k / E i k = u i * v k by field_simp [(hE i k).ne'], Real.log_mul (hu i).ne' (hv k).ne']
  have e2 : ∑ i, ∑ k, Q' i k * Real.log (u i * E i k * v k / E i k) = ∑ i, p i * Real.log (u i) + ∑ k, g' k * Real.log (v k) := by
    simp_rw [e1, mul_add, sum_add_distrib]
    congr 1
    · exact sum_congr rfl fun i _ => by rw [← sum_mul, h.row i]
    · rw [sum_comm]; exact sum_congr rfl fun k _ => by rw [← sum_mul, h.col k]
  rw [e2]

/-- **Duality identity.** -/
theorem gap (d : Data E1 E2 e p1 p2) {u1 : I → ℝ} {u2 : J → ℝ} {q v1 v2 : K → ℝ} (hu1 : ∀ i, 0 < u1 i) (hu2 : ∀ j, 0 < u2 j) (hq : ∀ k, 0 < q k) (hv1 : ∀ k, 0 < v1 k) (hv2 : ∀ k, 0 < v2 k)
    {Q' : I → K → ℝ} {R' : J → K → ℝ} {g' : K → ℝ} (hQ : IsCoupling p1 g' Q') (hR : IsCoupling p2 g' R') (hg : ∀ k, 0 ≤ g' k) :
    lrDivergence E1 E2 e Q' R' g' = dual E1 E2 e p1 p2 α u1 u2 q v1 v2 + klPlan Q' (fun i k => u1 i * E1 i k * v1 k) + klPlan R' (fun j k => u2 j * E2 j k * v2 k) +
      klDivergence g' (fun k => e k / (q k * v1 k * v2 k)) + ∑ k, (g' k - α) * -Real.log (q k) := by
  unfold lrDivergence dual
  rw [factor_lin d.hE1 hu1 hv1 hQ, factor_lin d.hE2 hu2 hv2 hR,
    kl_lin (p := fun k => e k / (q k * v1 k * v2 k)) (fun k => div_pos (d.he k) (mul_pos (mul_pos (hq k) (hv1 k)) (hv2 k))) hg d.he]
  have e1 : ∑ k, g' k * Real.log (e k / (q k * v1 k * v2 k) / e k) = ∑ k, g' k * -Real.log (q k) - ∑ k, g' k * Real.log (v1 k) - ∑ k, g' k * Real.log (v2 k) := by
    rw [← sum_sub_distrib, ← sum_sub_distrib]
    refine sum_congr rfl fun k _ => ?_
    rw [show e k / (q k * v1 k * v2 k) / e k = (q k * v1 k * v2 k)⁻¹ by have := (d.he k).ne'; field_simp, Real.log_inv, Real.log_mul (mul_pos (hq k) (hv1 k)).ne' (hv2 k).ne', Real.log_mul (hq k).ne' (hv1 k).ne']
    ring
  have e2 : ∑ k, (g' k - α) * -Real.log (q k) = ∑ k, g' k * -Real.log (q k) - α * ∑ k, -Real.log (q k) := by
    rw [mul_sum, ← sum_sub_distrib]; exact sum_congr rfl fun k _ => by ring
  rw [e1, e2]
  ring

/-- Dual variables with complementarity certify the projection. -/
theorem certificate (d : Data E1 E2 e p1 p2) {u1 : I → ℝ} {u2 : J → ℝ} {q v1 v2 : K → ℝ} (hu1 : ∀ i, 0 < u1 i) (hu2 : ∀ j, 0 < u2 j) (hq : ∀ k, 0 < q k) (hq1 : ∀ k, q k ≤ 1) (hv1 : ∀ k, 0 < v1 k)
    (hv2 : ∀ k, 0 < v2 k) {Q : I → K → ℝ} {R : J → K → ℝ} {g : K → ℝ} (hQ : ∀ i k, Q i k = u1 i * E1 i k * v1 k) (hR : ∀ j k, R j k = u2 j * E2 j k * v2 k) (hg : ∀ k, g k = e k / (q k * v1 k * v2 k))
    (hf : IsLowRank p1 p2 α Q R g) (hc : ∀ k, (g k - α) * Real.log (q k) = 0) : IsLrProjection p1 p2 α E1 E2 e Q R g := by
  have hQ' : Q = fun i k => u1 i * E1 i k * v1 k := by funext i k; exact hQ i k
  have hR' : R = fun j k => u2 j * E2 j k * v2 k := by funext i k; exact hR i k
  have hg' : g = fun k => e k / (q k * v1 k * v2 k) := by funext k; exact hg k
  have hQp : ∀ i k, 0 < Q i k := fun i k => by rw [hQ]; exact mul_pos (mul_pos (hu1 i) (d.hE1 i k)) (hv1 k)
  have hRp : ∀ i k, 0 < R i k := fun i k => by rw [hR]; exact mul_pos (mul_pos (hu2 i) (d.hE2 i k)) (hv2 k)
  have hgp : ∀ k, 0 < g k := fun k => by rw [hg]; exact div_pos (d.he k) (mul_pos (mul_pos (hq k) (hv1 k)) (hv2 k))
  have hself : lrDivergence E1 E2 e Q R g = dual E1 E2 e p1 p2 α u1 u2 q v1 v2 := by
    have h := gap (α := α) d hu1 hu2 hq hv1 hv2 hf.left hf.right (fun k => (hgp k).le)
    rw [← hQ', ← hR', ← hg'] at h
    have z1 : klPlan Q Q = 0 := kl_self fun x => hQp _ _
    have z2 : klPlan R R = 0 := kl_self fun x => hRp _ _
    have z3 : klDivergence g g = 0 := kl_self hgp
    have z4 : ∑ k, (g k - α) * -Real.log (q k) = 0 := sum_eq_zero fun k _ => by have := hc k; linarith
    rw [h, z1, z2, z3, z4]; ring
  refine ⟨hf, fun Q' R' g'' hf' => ?_⟩
  have hg0 : ∀ k, 0 ≤ g'' k := fun k => by rw [← hf'.left.col k]; exact sum_nonneg fun i _ => hf'.left.nonneg i k
  have h := gap (α := α) d hu1 hu2 hq hv1 hv2 hf'.left hf'.right hg0
  rw [← hQ', ← hR', ← hg', ← hself] at h
  have k1 := klPlan_nonneg hf'.left.nonneg hQp
  have k2 := klPlan_nonneg hf'.right.nonneg hRp
  have k3 := klDivergence_nonneg hg0 hgp
  have k4 : 0 ≤ ∑ k, (g'' k - α) * -Real.log (q k) := sum_nonneg fun k _ => mul_nonneg (by linarith [hf'.lower k]) (by linarith [Real.log_nonpos (hq k).le (hq1 k)])
  refine ⟨by linarith, fun hle => ⟨?_, ?_, ?_⟩⟩
  · exact klPlan_eq_zero hf'.left.nonneg hQp (by linarith)
  · exact klPlan_eq_zero hf'.right.nonneg hRp (by linarith)
  · exact klDivergence_eq_zero hg0 hgp (by linarith)

/-! ### the iteration -/

/-- What every state satisfies. -/
structure Inv (e : K → ℝ) (s : Dyk I J K) : Prop where
  g : ∀ k, 0 < s.g k
  v1 : ∀ k, 0 < s.v1 k
  v2 : ∀ k, 0 < s.v2 k
  q : ∀ k, 0 < s.q31 k
  qle : ∀ k, s.q31 k ≤ 1
  q1 : ∀ k, s.v1 k * s.q1 k = 1
  q2 : ∀ k, s.v2 k * s.q2 k = 1
  q32 : ∀ k, s.q32 k = s.v1 k * s.v2 k
  eq : ∀ k, s.g k * s.q31 k * (s.v1 k * s.v2 k) = e k

theorem inv0 (he : ∀ k, 0 < e k) : Inv e (dyk0 e : Dyk I J K) := by
  constructor <;> intro k <;> simp [dyk0, he]

/-- values in the middle of an iteration -/
noncomputable def uh (E : I → K → ℝ) (p : I → ℝ) (v : K → ℝ) : I → ℝ := fun i => p i / ∑ k, E i k * v k
noncomputable def qh (E : I → K → ℝ) (p : I → ℝ) (v : K → ℝ) : I → K → ℝ := fun i k => uh E p v i * E i k * v k
noncomputable def gh (α : ℝ) (s : Dyk I J K) : K → ℝ := fun k => max α (s.g k * s.q31 k)

variable [Nonempty I] [Nonempty J] [Nonempty K]

theorem uh_pos {E : I → K → ℝ} {p : I → ℝ} {v : K → ℝ} (hE : ∀ i k, 0 < E i k) (hp : ∀ i, 0 < p i) (hv : ∀ k, 0 < v k) (i : I) : 0 < uh E p v i :=
  div_pos (hp i) (sum_pos (fun k _ => mul_pos (hE i k) (hv k)) univ_nonempty)

theorem qh_pos {E : I → K → ℝ} {p : I → ℝ} {v : K → ℝ} (hE : ∀ i k, 0 < E i k) (hp : ∀ i, 0 < p i) (hv : ∀ k, 0 < v k) (i : I) (k : K) : 0 < qh E p v i k :=
  mul_pos (mul_pos (uh_pos hE hp hv i) (hE i k)) (hv k)

theorem qh_row {E : I → K → ℝ} {p : I → ℝ} {v : K → ℝ} (hE : ∀ i k, 0 < E i k) (hv : ∀ k, 0 < v k) (i : I) : ∑ k, qh E p v i k = p i := by
  unfold qh uh
  have h : 0 < ∑ k, E i k * v k := sum_pos (fun k _ => mul_pos (hE i k) (hv k)) univ_nonempty
  simp_rw [mul_assoc]
  rw [← mul_sum, div_mul_cancel₀ _ h.ne']

theorem qh_col {E : I → K → ℝ} {p : I → ℝ} {v : K → ℝ} (k : K) : ∑ i, qh E p v i k = v k * ∑ i, E i k * uh E p v i := by
  unfold qh
  rw [mul_sum]; exact sum_congr rfl fun i _ => by ring

theorem gh_pos {s : Dyk I J K} (h : Inv e s) (k : K) : 0 < gh α s k := lt_max_of_lt_right (mul_pos (h.g k) (h.q k))

/-- the new weights are the geometric mean of the three column sums -/
theorem step_g (d : Data E1 E2 e p1 p2) {s : Dyk I J K} (h : Inv e s) (k : K) :
    (dykStep E1 E2 p1 p2 α s).g k = (gh α s k * (∑ i, qh E1 p1 s.v1 i k) * ∑ j, qh E2 p2 s.v2 j k) ^ (1 / 3 : ℝ) := by
  have : (dykStep E1 E2 p1 p2 α s).g k = (gh α s k * s.q32 k * (s.v1 k * s.q1 k * ∑ i, E1 i k * uh E1 p1 s.v1 i) * (s.v2 k * s.q2 k * ∑ j, E2 j k * uh E2 p2 s.v2 j)) ^ (1 / 3 : ℝ) := rfl
  rw [this, h.q1, h.q2, h.q32, qh_col, qh_col]
  congr 1
  ring

theorem step_g_pos (d : Data E1 E2 e p1 p2) {s : Dyk I J K} (h : Inv e s) (k : K) : 0 < (dykStep E1 E2 p1 p2 α s).g k := by
  rw [step_g d h]
  exact Real.rpow_pos_of_pos (mul_pos (mul_pos (gh_pos h k) (sum_pos (fun i _ => qh_pos d.hE1 d.h1 h.v1 i k) univ_nonempty)) (sum_pos (fun i _ => qh_pos d.hE2 d.h2 h.v2 i k) univ_nonempty)) _

theorem step_g_cube (d : Data E1 E2 e p1 p2) {s : Dyk I J K} (h : Inv e s) (k : K) :
    (dykStep E1 E2 p1 p2 α s).g k ^ 3 = gh α s k * (∑ i, qh E1 p1 s.v1 i k) * ∑ j, qh E2 p2 s.v2 j k := by
  rw [step_g d h, ← Real.rpow_natCast, ← Real.rpow_mul]
  · norm_num
  · exact (mul_pos (mul_pos (gh_pos h k) (sum_pos (fun i _ => qh_pos d.hE1 d.h1 h.v1 i k) univ_nonempty)) (sum_pos (fun i _ => qh_pos d.hE2 d.h2 h.v2 i k) univ_nonempty)).le

theorem step_v1 (d : Data E1 E2 e p1 p2) {s : Dyk I J K} (h : Inv e s) (k : K) :
    (dykStep E1 E2 p1 p2 α s).v1 k = s.v1 k * (dykStep E1 E2 p1 p2 α s).g k / ∑ i, qh E1 p1 s.v1 i k := by
  have : (dykStep E1 E2 p1 p2 α s).v1 k = (dykStep E1 E2 p1 p2 α s).g k / ∑ i, E1 i k * uh E1 p1 s.v1 i := rfl
  have hp : 0 < ∑ i, E1 i k * uh E1 p1 s.v1 i := sum_pos (fun i _ => mul_pos (d.hE1 i k) (uh_pos d.hE1 d.h1 h.v1 i)) univ_nonempty
  have hv := h.v1 k
  rw [this, qh_col]
  field_simp

theorem step_v2 (d : Data E1 E2 e p1 p2) {s : Dyk I J K} (h : Inv e s) (k : K) :
    (dykStep E1 E2 p1 p2 α s).v2 k = s.v2 k * (dykStep E1 E2 p1 p2 α s).g k / ∑ j, qh E2 p2 s.v2 j k := by
  have : (dykStep E1 E2 p1 p2 α s).v2 k = (dykStep E1 E2 p1 p2 α s).g k / ∑ i, E2 i k * uh E2 p2 s.v2 i := rfl
  have hp : 0 < ∑ i, E2 i k * uh E2 p2 s.v2 i := sum_pos (fun i _ => mul_pos (d.hE2 i k) (uh_pos d.hE2 d.h2 h.v2 i)) univ_nonempty
  have hv := h.v2 k
  rw [this, qh_col]
  field_simp

theorem inv_step (d : Data E1 E2 e p1 p2) {s : Dyk I J K} (h : Inv e s) : Inv e (dykStep E1 E2 p1 p2 α s) := by
  have hx : ∀ k, 0 < ∑ i, qh E1 p1 s.v1 i k := fun k => sum_pos (fun i _ => qh_pos d.hE1 d.h1 h.v1 i k) univ_nonempty
  have hy : ∀ k, 0 < ∑ i, qh E2 p2 s.v2 i k := fun k => sum_pos (fun i _ => qh_pos d.hE2 d.h2 h.v2 i k) univ_nonempty
  have hg := step_g_pos (α := α) d h
  have hv1 : ∀ k, 0 < (dykStep E1 E2 p1 p2 α s).v1 k := fun k => by rw [step_v1 d h]; exact div_pos (mul_pos (h.v1 k) (hg k)) (hx k)
  have hv2 : ∀ k, 0 < (dykStep E1 E2 p1 p2 α s).v2 k := fun k => by rw [step_v2 d h]; exact div_pos (mul_pos (h.v2 k) (hg k)) (hy k)
  have e31 : ∀ k, (dykStep E1 E2 p1 p2 α s).q31 k = s.g k * s.q31 k / gh α s k := fun _ => rfl
  have hcube := step_g_cube (α := α) d h
  refine ⟨hg, hv1, hv2, fun k => ?_, fun k => ?_, fun k => ?_, fun k => ?_, fun k => ?_, fun k => ?_⟩
  · rw [e31]; exact div_pos (mul_pos (h.g k) (h.q k)) (gh_pos h k)
  · rw [e31]; exact (div_le_one (gh_pos h k)).2 (le_max_right _ _)
  · have : (dykStep E1 E2 p1 p2 α s).q1 k = s.v1 k * s.q1 k / (dykStep E1 E2 p1 p2 α s).v1 k := rfl
    rw [this, h.q1, mul_one_div, div_self (hv1 k).ne']
  · have : (dykStep E1 E2 p1 p2 α s).q2 k = s.v2 k * s.q2 k / (dykStep E1 E2 p1 p2 α s).v2 k := rfl
    rw [this, h.q2, mul_one_div, div_self (hv2 k).ne']
  · have : (dykStep E1 E2 p1 p2 α s).q32 k = gh α s k * s.q32 k / (dykStep E1 E2 p1 p2 α s).g k := rfl
    rw [this, h.q32, step_v1 d h, step_v2 d h]
    have := hcube k
    have h1 := (hg k).ne'
    have h2 := (hx k).ne'
    have h3 := (hy k).ne'
    rw [div_mul_div_comm, div_eq_div_iff h1 (mul_ne_zero h2 h3)]
    linear_combination (-(s.v1 k * s.v2 k)) * this
  · rw [e31, step_v1 d h, step_v2 d h, ← h.eq k]
    have := hcube k
    have h1 := (gh_pos (α := α) h k).ne'
    have h2 := (hx k).ne'
    have h3 := (hy k).ne'
    rw [div_mul_div_comm, mul_div_assoc', div_eq_iff (mul_ne_zero h2 h3), mul_div_assoc', div_mul_eq_mul_div, div_eq_iff h1]
    linear_combination (s.g k * s.q31 k * s.v1 k * s.v2 k) * this

theorem col_after1 (d : Data E1 E2 e p1 p2) {s : Dyk I J K} (h : Inv e s) (k : K) : ∑ i, dykQ E1 (dykStep E1 E2 p1 p2 α s) i k = (dykStep E1 E2 p1 p2 α s).g k := by
  have hx : 0 < ∑ i, qh E1 p1 s.v1 i k := sum_pos (fun i _ => qh_pos d.hE1 d.h1 h.v1 i k) univ_nonempty
  have : ∀ i, dykQ E1 (dykStep E1 E2 p1 p2 α s) i k = qh E1 p1 s.v1 i k * ((dykStep E1 E2 p1 p2 α s).g k / ∑ i, qh E1 p1 s.v1 i k) := fun i => by
    rw [dykQ, step_v1 d h]
    change uh E1 p1 s.v1 i * E1 i k * _ = uh E1 p1 s.v1 i * E1 i k * s.v1 k * _
    ring
  simp_rw [this]
  rw [← sum_mul, mul_div_cancel₀ _ hx.ne']

theorem col_after2 (d : Data E1 E2 e p1 p2) {s : Dyk I J K} (h : Inv e s) (k : K) : ∑ i, dykR E2 (dykStep E1 E2 p1 p2 α s) i k = (dykStep E1 E2 p1 p2 α s).g k := by
  have hx : 0 < ∑ i, qh E2 p2 s.v2 i k := sum_pos (fun i _ => qh_pos d.hE2 d.h2 h.v2 i k) univ_nonempty
  have : ∀ i, dykR E2 (dykStep E1 E2 p1 p2 α s) i k = qh E2 p2 s.v2 i k * ((dykStep E1 E2 p1 p2 α s).g k / ∑ i, qh E2 p2 s.v2 i k) := fun i => by
    rw [dykR, step_v2 d h]
    change uh E2 p2 s.v2 i * E2 i k * _ = uh E2 p2 s.v2 i * E2 i k * s.v2 k * _
    ring
  simp_rw [this]
  rw [← sum_mul, mul_div_cancel₀ _ hx.ne']

/-- dual values after the second and after the first half of an iteration -/
noncomputable def dualF (E1 : I → K → ℝ) (E2 : J → K → ℝ) (e : K → ℝ) (p1 : I → ℝ) (p2 : J → ℝ) (α : ℝ) (s : Dyk I J K) : ℝ := dual E1 E2 e p1 p2 α s.u1 s.u2 s.q31 s.v1 s.v2
noncomputable def dualH (E1 : I → K → ℝ) (E2 : J → K → ℝ) (e : K → ℝ) (p1 : I → ℝ) (p2 : J → ℝ) (α : ℝ) (s : Dyk I J K) : ℝ :=
  dual E1 E2 e p1 p2 α (uh E1 p1 s.v1) (uh E2 p2 s.v2) (dykStep E1 E2 p1 p2 α s).q31 s.v1 s.v2

theorem inv_g {s : Dyk I J K} (h : Inv e s) (k : K) : e k / (s.q31 k * s.v1 k * s.v2 k) = s.g k := by
  have h1 := h.q k
  have h2 := h.v1 k
  have h3 := h.v2 k
  rw [← h.eq k]; field_simp

theorem half_g {s : Dyk I J K} (h : Inv e s) (k : K) : e k / ((dykStep E1 E2 p1 p2 α s).q31 k * s.v1 k * s.v2 k) = gh α s k := by
  have e31 : (dykStep E1 E2 p1 p2 α s).q31 k = s.g k * s.q31 k / gh α s k := rfl
  have h0 := h.g k
  have h1 := h.q k
  have h2 := h.v1 k
  have h3 := h.v2 k
  have h4 := gh_pos (α := α) h k
  rw [e31, ← h.eq k]; field_simp

/-- gain of the second half: the arithmetic minus the geometric mean of the column sums -/
theorem block2 (d : Data E1 E2 e p1 p2) {s : Dyk I J K} (h : Inv e s) :
    dualF E1 E2 e p1 p2 α (dykStep E1 E2 p1 p2 α s) = dualH E1 E2 e p1 p2 α s + ∑ k, (∑ i, qh E1 p1 s.v1 i k + ∑ j, qh E2 p2 s.v2 j k + gh α s k - 3 * (dykStep E1 E2 p1 p2 α s).g k) := by
  unfold dualF dualH dual
  have e1 : ∑ k, e k / ((dykStep E1 E2 p1 p2 α s).q31 k * (dykStep E1 E2 p1 p2 α s).v1 k * (dykStep E1 E2 p1 p2 α s).v2 k) = ∑ k, (dykStep E1 E2 p1 p2 α s).g k := sum_congr rfl fun k _ => inv_g (inv_step d h) k
  have e2 : ∑ k, e k / ((dykStep E1 E2 p1 p2 α s).q31 k * s.v1 k * s.v2 k) = ∑ k, gh α s k := sum_congr rfl fun k _ => half_g h k
  have e3 : ∑ i, ∑ k, (dykStep E1 E2 p1 p2 α s).u1 i * E1 i k * (dykStep E1 E2 p1 p2 α s).v1 k = ∑ k, (dykStep E1 E2 p1 p2 α s).g k := by
    rw [sum_comm]; exact sum_congr rfl fun k _ => col_after1 d h k
  have e4 : ∑ i, ∑ k, (dykStep E1 E2 p1 p2 α s).u2 i * E2 i k * (dykStep E1 E2 p1 p2 α s).v2 k = ∑ k, (dykStep E1 E2 p1 p2 α s).g k := by
    rw [sum_comm]; exact sum_congr rfl fun k _ => col_after2 d h k
  have e5 : ∑ i, ∑ k, uh E1 p1 s.v1 i * E1 i k * s.v1 k = ∑ k, ∑ i, qh E1 p1 s.v1 i k := by rw [sum_comm]; rfl
  have e6 : ∑ i, ∑ k, uh E2 p2 s.v2 i * E2 i k * s.v2 k = ∑ k, ∑ i, qh E2 p2 s.v2 i k := by rw [sum_comm]; rfl
  rw [e1, e2, e3, e4, e5, e6]
  have e7 : (dykStep E1 E2 p1 p2 α s).u1 = uh E1 p1 s.v1 := rfl
  have e8 : (dykStep E1 E2 p1 p2 α s).u2 = uh E2 p2 s.v2 := rfl
  rw [e7, e8, sum_sub_distrib, sum_add_distrib, sum_add_distrib, ← mul_sum]
  ring

theorem log_uh {E : I → K → ℝ} {p u : I → ℝ} {v : K → ℝ} (hE : ∀ i k, 0 < E i k) (hp : ∀ i, 0 < p i) (hv : ∀ k, 0 < v k) (hu : ∀ i, 0 < u i) :
    ∑ i, p i * Real.log (uh E p v i) - ∑ i, ∑ k, uh E p v i * E i k * v k = ∑ i, p i * Real.log (u i) - ∑ i, ∑ k, u i * E i k * v k + klDivergence p (fun i => ∑ k, u i * E i k * v k) := by
  unfold klDivergence
  rw [← sum_sub_distrib, ← sum_sub_distrib, ← sum_add_distrib]
  refine sum_congr rfl fun i _ => ?_
  have h0 : ∑ k, uh E p v i * E i k * v k = p i := qh_row hE hv i
  have hS : 0 < ∑ k, E i k * v k := sum_pos (fun k _ => mul_pos (hE i k) (hv k)) univ_nonempty
  have h1 : ∑ k, u i * E i k * v k = u i * ∑ k, E i k * v k := by rw [mul_sum]; exact sum_congr rfl fun k _ => by ring
  have h2 : uh E p v i = u i * (p i / (u i * ∑ k, E i k * v k)) := by
    unfold uh
    have := hu i
    field_simp
  have h3 : Real.log (uh E p v i) = Real.log (u i) + Real.log (p i / (u i * ∑ k, E i k * v k)) := by
    rw [h2, Real.log_mul (hu i).ne' (div_pos (hp i) (mul_pos (hu i) hS)).ne']
  dsimp only
  rw [h0, h3, h1]
  ring

/-- gain of the first half -/
theorem block1 (d : Data E1 E2 e p1 p2) {s : Dyk I J K} (h : Inv e s) (hu1 : ∀ i, 0 < s.u1 i) (hu2 : ∀ j, 0 < s.u2 j) :
    dualF E1 E2 e p1 p2 α s + klDivergence p1 (fun i => ∑ k, dykQ E1 s i k) + klDivergence p2 (fun j => ∑ k, dykR E2 s j k) + klDivergence (gh α s) s.g ≤ dualH E1 E2 e p1 p2 α s := by
  have e1 := log_uh d.hE1 d.h1 h.v1 hu1
  have e2 := log_uh d.hE2 d.h2 h.v2 hu2
  have e3 : α * ∑ k, -Real.log (s.q31 k) - ∑ k, s.g k + klDivergence (gh α s) s.g ≤ α * ∑ k, -Real.log ((dykStep E1 E2 p1 p2 α s).q31 k) - ∑ k, gh α s k := by
    unfold klDivergence
    rw [mul_sum, mul_sum, ← sum_sub_distrib, ← sum_sub_distrib, ← sum_add_distrib]
    refine sum_le_sum fun k _ => ?_
    have hg := h.g k
    have hq := h.q k
    have hG := gh_pos (α := α) h k
    have e31 : (dykStep E1 E2 p1 p2 α s).q31 k = s.q31 k / (gh α s k / s.g k) := by
      have : (dykStep E1 E2 p1 p2 α s).q31 k = s.g k * s.q31 k / gh α s k := rfl
      rw [this]; field_simp
    rw [e31, Real.log_div hq.ne' (div_pos hG hg).ne']
    have key : (gh α s k - α) * Real.log (gh α s k / s.g k) ≤ 0 := by
      rcases le_total α (s.g k * s.q31 k) with hle | hle
      · have hgk : gh α s k = s.g k * s.q31 k := max_eq_right hle
        refine mul_nonpos_of_nonneg_of_nonpos (by rw [hgk]; linarith) (Real.log_nonpos (div_pos hG hg).le ((div_le_one hg).2 ?_))
        rw [hgk]; nlinarith [h.qle k]
      · have hgk : gh α s k = α := max_eq_left hle
        rw [hgk, sub_self, zero_mul]
    nlinarith
  have e4 : ∑ k, e k / (s.q31 k * s.v1 k * s.v2 k) = ∑ k, s.g k := sum_congr rfl fun k _ => inv_g h k
  have e5 : ∑ k, e k / ((dykStep E1 E2 p1 p2 α s).q31 k * s.v1 k * s.v2 k) = ∑ k, gh α s k := sum_congr rfl fun k _ => half_g h k
  unfold dualF dualH dual
  rw [e4, e5]
  unfold dykQ dykR
  linarith

theorem amgm {x y z w : ℝ} (hx : 0 < x) (hy : 0 < y) (hz : 0 < z) (hw : 0 < w) (h : w ^ 3 = x * y * z) : 0 ≤ y + z + x - 3 * w ∧ (y + z + x - 3 * w = 0 → y = w ∧ z = w ∧ x = w) := by
  -- factor with the cube roots
  have key : ∀ t : ℝ, 0 < t → ∃ r, 0 < r ∧ r ^ 3 = t := fun t ht => ⟨t ^ (1 / 3 : ℝ), Real.rpow_pos_of_pos ht _, by rw [← Real.rpow_natCast, ← Real.rpow_mul ht.le]; norm_num⟩
  obtain ⟨a, ha, rfl⟩ := key x hx
  obtain ⟨b, hb, rfl⟩ := key y hy
  obtain ⟨c, hc, rfl⟩ := key z hz
  have hwe : w = a * b * c := by
    have : w ^ 3 = (a * b * c) ^ 3 := by rw [h]; ring
    exact (pow_left_inj₀ hw.le (by positivity) (by norm_num)).1 this
  subst hwe
  have e : b ^ 3 + c ^ 3 + a ^ 3 - 3 * (a * b * c) = 1 / 2 * (a + b + c) * ((a - b) ^ 2 + (b - c) ^ 2 + (c - a) ^ 2) := by ring
  constructor
  · rw [e]; positivity
  · intro h0
    rw [e] at h0
    have hs : 0 < 1 / 2 * (a + b + c) := by positivity
    have h1 : (a - b) ^ 2 + (b - c) ^ 2 + (c - a) ^ 2 = 0 := (mul_eq_zero.1 h0).resolve_left hs.ne'
    have h2 : a - b = 0 := by nlinarith [sq_nonneg (a - b), sq_nonneg (b - c), sq_nonneg (c - a)]
    have h3 : b - c = 0 := by nlinarith [sq_nonneg (a - b), sq_nonneg (b - c), sq_nonneg (c - a)]
    have h4 : a = b := by linarith
    have h5 : b = c := by linarith
    subst h4; subst h5
    exact ⟨by ring, by ring, by ring⟩

/-! ### convergence -/

/-- the states of the run -/
noncomputable def seq (E1 : I → K → ℝ) (E2 : J → K → ℝ) (e : K → ℝ) (p1 : I → ℝ) (p2 : J → ℝ) (α : ℝ) (n : ℕ) : Dyk I J K := (dykStep E1 E2 p1 p2 α)^[n] (dyk0 e)

theorem seq_succ (n : ℕ) : seq E1 E2 e p1 p2 α (n + 1) = dykStep E1 E2 p1 p2 α (seq E1 E2 e p1 p2 α n) := Function.iterate_succ_apply' _ _ _

theorem seq_inv (d : Data E1 E2 e p1 p2) (n : ℕ) : Inv e (seq E1 E2 e p1 p2 α n) := by
  induction n with
  | zero => exact inv0 d.he
  | succ n ih => rw [seq_succ]; exact inv_step d ih

theorem seq_u1 (n : ℕ) : (seq E1 E2 e p1 p2 α (n + 1)).u1 = uh E1 p1 (seq E1 E2 e p1 p2 α n).v1 := by rw [seq_succ]; rfl
theorem seq_u2 (n : ℕ) : (seq E1 E2 e p1 p2 α (n + 1)).u2 = uh E2 p2 (seq E1 E2 e p1 p2 α n).v2 := by rw [seq_succ]; rfl

/-- the gain between two half states -/
noncomputable def gain (E1 : I → K → ℝ) (E2 : J → K → ℝ) (e : K → ℝ) (p1 : I → ℝ) (p2 : J → ℝ) (α : ℝ) (n : ℕ) : ℝ :=
  ∑ k, (∑ i, qh E1 p1 (seq E1 E2 e p1 p2 α n).v1 i k + ∑ j, qh E2 p2 (seq E1 E2 e p1 p2 α n).v2 j k + gh α (seq E1 E2 e p1 p2 α n) k - 3 * (seq E1 E2 e p1 p2 α (n + 1)).g k)

theorem gain_entry (d : Data E1 E2 e p1 p2) (n : ℕ) (k : K) :
    0 ≤ ∑ i, qh E1 p1 (seq E1 E2 e p1 p2 α n).v1 i k + ∑ j, qh E2 p2 (seq E1 E2 e p1 p2 α n).v2 j k + gh α (seq E1 E2 e p1 p2 α n) k - 3 * (seq E1 E2 e p1 p2 α (n + 1)).g k := by
  have h := seq_inv (α := α) d n
  rw [seq_succ]
  exact (amgm (gh_pos h k) (sum_pos (fun i _ => qh_pos d.hE1 d.h1 h.v1 i k) univ_nonempty) (sum_pos (fun i _ => qh_pos d.hE2 d.h2 h.v2 i k) univ_nonempty) (step_g_pos d h k) (step_g_cube d h k)).1

noncomputable def rowKl (E1 : I → K → ℝ) (E2 : J → K → ℝ) (e : K → ℝ) (p1 : I → ℝ) (p2 : J → ℝ) (α : ℝ) (n : ℕ) : ℝ :=
  klDivergence p1 (fun i => ∑ k, dykQ E1 (seq E1 E2 e p1 p2 α n) i k) + klDivergence p2 (fun j => ∑ k, dykR E2 (seq E1 E2 e p1 p2 α n) j k)

theorem dykQ_pos (d : Data E1 E2 e p1 p2) (n : ℕ) (i : I) (k : K) : 0 < dykQ E1 (seq E1 E2 e p1 p2 α (n + 1)) i k := by
  unfold dykQ
  rw [seq_u1]
  exact mul_pos (mul_pos (uh_pos d.hE1 d.h1 (seq_inv d n).v1 i) (d.hE1 i k)) ((seq_inv d (n + 1)).v1 k)

theorem dykR_pos (d : Data E1 E2 e p1 p2) (n : ℕ) (i : J) (k : K) : 0 < dykR E2 (seq E1 E2 e p1 p2 α (n + 1)) i k := by
  unfold dykR
  rw [seq_u2]
  exact mul_pos (mul_pos (uh_pos d.hE2 d.h2 (seq_inv d n).v2 i) (d.hE2 i k)) ((seq_inv d (n + 1)).v2 k)

theorem rowKl_nonneg (d : Data E1 E2 e p1 p2) (n : ℕ) : 0 ≤ klDivergence p1 (fun i => ∑ k, dykQ E1 (seq E1 E2 e p1 p2 α (n + 1)) i k) ∧ 0 ≤ klDivergence p2 (fun j => ∑ k, dykR E2 (seq E1 E2 e p1 p2 α (n + 1)) j k) :=
  ⟨klDivergence_nonneg (fun i => (d.h1 i).le) fun i => sum_pos (fun k _ => dykQ_pos d n i k) univ_nonempty, klDivergence_nonneg (fun i => (d.h2 i).le) fun i => sum_pos (fun k _ => dykR_pos d n i k) univ_nonempty⟩

theorem dualH_step (d : Data E1 E2 e p1 p2) (n : ℕ) :
    dualH E1 E2 e p1 p2 α (seq E1 E2 e p1 p2 α n) + (gain E1 E2 e p1 p2 α n + rowKl E1 E2 e p1 p2 α (n + 1)) ≤ dualH E1 E2 e p1 p2 α (seq E1 E2 e p1 p2 α (n + 1)) := by
  have h1 := block2 (α := α) d (seq_inv (α := α) d n)
  have h2 := block1 (α := α) d (seq_inv (α := α) d (n + 1)) (by rw [seq_u1]; exact uh_pos d.hE1 d.h1 (seq_inv d n).v1) (by rw [seq_u2]; exact uh_pos d.hE2 d.h2 (seq_inv d n).v2)
  have h3 : 0 ≤ klDivergence (gh α (seq E1 E2 e p1 p2 α (n + 1))) (seq E1 E2 e p1 p2 α (n + 1)).g := klDivergence_nonneg (fun k => (gh_pos (seq_inv d (n + 1)) k).le) (seq_inv d (n + 1)).g
  unfold gain rowKl
  rw [← seq_succ] at h1
  linarith

theorem half_gap (d : Data E1 E2 e p1 p2) (n : ℕ) {Q' : I → K → ℝ} {R' : J → K → ℝ} {g' : K → ℝ} (hf : IsLowRank p1 p2 α Q' R' g') :
    lrDivergence E1 E2 e Q' R' g' = dualH E1 E2 e p1 p2 α (seq E1 E2 e p1 p2 α n) + klPlan Q' (qh E1 p1 (seq E1 E2 e p1 p2 α n).v1) + klPlan R' (qh E2 p2 (seq E1 E2 e p1 p2 α n).v2) +
      klDivergence g' (gh α (seq E1 E2 e p1 p2 α n)) + ∑ k, (g' k - α) * -Real.log ((seq E1 E2 e p1 p2 α (n + 1)).q31 k) := by
  have h := seq_inv (α := α) d n
  have hg0 : ∀ k, 0 ≤ g' k := fun k => by rw [← hf.left.col k]; exact sum_nonneg fun i _ => hf.left.nonneg i k
  have := gap (α := α) d (uh_pos d.hE1 d.h1 h.v1) (uh_pos d.hE2 d.h2 h.v2) (q := (seq E1 E2 e p1 p2 α (n + 1)).q31) (seq_inv d (n + 1)).q h.v1 h.v2 hf.left hf.right hg0
  rw [this]
  have e1 : (fun k => e k / ((seq E1 E2 e p1 p2 α (n + 1)).q31 k * (seq E1 E2 e p1 p2 α n).v1 k * (seq E1 E2 e p1 p2 α n).v2 k)) = gh α (seq E1 E2 e p1 p2 α n) := by
    funext k; rw [seq_succ]; exact half_g h k
  rw [e1]
  unfold dualH
  rw [seq_succ]
  rfl

theorem half_bounds (d : Data E1 E2 e p1 p2) (n : ℕ) {Q' : I → K → ℝ} {R' : J → K → ℝ} {g' : K → ℝ} (hf : IsLowRank p1 p2 α Q' R' g') :
    let B := lrDivergence E1 E2 e Q' R' g' - dualH E1 E2 e p1 p2 α (seq E1 E2 e p1 p2 α n)
    0 ≤ klPlan Q' (qh E1 p1 (seq E1 E2 e p1 p2 α n).v1) ∧ 0 ≤ klPlan R' (qh E2 p2 (seq E1 E2 e p1 p2 α n).v2) ∧ 0 ≤ klDivergence g' (gh α (seq E1 E2 e p1 p2 α n)) ∧
    (∀ k, 0 ≤ (g' k - α) * -Real.log ((seq E1 E2 e p1 p2 α (n + 1)).q31 k)) ∧
    klPlan Q' (qh E1 p1 (seq E1 E2 e p1 p2 α n).v1) ≤ B ∧ klPlan R' (qh E2 p2 (seq E1 E2 e p1 p2 α n).v2) ≤ B ∧ klDivergence g' (gh α (seq E1 E2 e p1 p2 α n)) ≤ B ∧
    ∀ k, (g' k - α) * -Real.log ((seq E1 E2 e p1 p2 α (n + 1)).q31 k) ≤ B := by
  have h := seq_inv (α := α) d n
  have hg0 : ∀ k, 0 ≤ g' k := fun k => by rw [← hf.left.col k]; exact sum_nonneg fun i _ => hf.left.nonneg i k
  have hgap := half_gap (α := α) d n hf
  have k1 := klPlan_nonneg hf.left.nonneg (qh_pos d.hE1 d.h1 h.v1)
  have k2 := klPlan_nonneg hf.right.nonneg (qh_pos d.hE2 d.h2 h.v2)
  have k3 := klDivergence_nonneg hg0 (gh_pos (α := α) h)
  have k5 : ∀ k, 0 ≤ (g' k - α) * -Real.log ((seq E1 E2 e p1 p2 α (n + 1)).q31 k) := fun k =>
    mul_nonneg (by linarith [hf.lower k]) (by linarith [Real.log_nonpos ((seq_inv (α := α) d (n + 1)).q k).le ((seq_inv (α := α) d (n + 1)).qle k)])
  have k4 := sum_nonneg fun k (_ : k ∈ univ) => k5 k
  refine ⟨k1, k2, k3, k5, by linarith, by linarith, by linarith, fun k => ?_⟩
  have := single_le_sum (f := fun k => (g' k - α) * -Real.log ((seq E1 E2 e p1 p2 α (n + 1)).q31 k)) (fun k _ => k5 k) (mem_univ k)
  linarith

theorem tendsto_gain {D c : ℕ → ℝ} {B : ℝ} (hc : ∀ n, 0 ≤ c n) (hD : ∀ n, D n + c n ≤ D (n + 1)) (hB : ∀ n, D n ≤ B) : Tendsto c atTop (𝓝 0) := by
  have hm : Monotone D := monotone_nat_of_le_succ fun n => by linarith [hc n, hD n]
  have h1 := tendsto_atTop_ciSup hm ⟨B, by rintro _ ⟨n, rfl⟩; exact hB n⟩
  have h2 := (h1.comp (tendsto_add_atTop_nat 1)).sub h1
  rw [sub_self] at h2
  exact squeeze_zero hc (fun n => by have := hD n; simp only [Function.comp]; linarith) h2

/-- the independent factors with uniform inner weights -/
theorem uniform_feasible (d : Data E1 E2 e p1 p2) (hα : α ≤ 1 / Fintype.card K) : IsLowRank p1 p2 α (fun i (_ : K) => p1 i * (1 / Fintype.card K)) (fun j _ => p2 j * (1 / Fintype.card K)) fun _ => 1 / Fintype.card K := by
  have hr : 0 < (Fintype.card K : ℝ) := by exact_mod_cast Fintype.card_pos
  refine ⟨⟨fun i k => mul_nonneg (d.h1 i).le (by positivity), fun i => ?_, fun k => ?_⟩, ⟨fun i k => mul_nonneg (d.h2 i).le (by positivity), fun i => ?_, fun k => ?_⟩, fun _ => hα⟩
  · rw [sum_const, card_univ, nsmul_eq_mul]; field_simp
  · rw [← sum_mul, d.s1, one_mul]
  · rw [sum_const, card_univ, nsmul_eq_mul]; field_simp
  · rw [← sum_mul, d.s2, one_mul]

theorem gains_vanish (d : Data E1 E2 e p1 p2) (hα : α ≤ 1 / Fintype.card K) :
    Tendsto (fun n => gain E1 E2 e p1 p2 α n) atTop (𝓝 0) ∧ Tendsto (fun n => klDivergence p1 (fun i => ∑ k, dykQ E1 (seq E1 E2 e p1 p2 α (n + 1)) i k)) atTop (𝓝 0) ∧
      Tendsto (fun n => klDivergence p2 (fun j => ∑ k, dykR E2 (seq E1 E2 e p1 p2 α (n + 1)) j k)) atTop (𝓝 0) := by
  have hg : ∀ n, 0 ≤ gain E1 E2 e p1 p2 α n := fun n => sum_nonneg fun k _ => gain_entry d n k
  have hr := fun n => rowKl_nonneg (α := α) d n
  have h := tendsto_gain (D := fun n => dualH E1 E2 e p1 p2 α (seq E1 E2 e p1 p2 α n)) (c := fun n => gain E1 E2 e p1 p2 α n + rowKl E1 E2 e p1 p2 α (n + 1))
    (fun n => add_nonneg (hg n) (add_nonneg (hr n).1 (hr n).2)) (dualH_step d) (fun n => by
      obtain ⟨k1, k2, k3, k4, k5, -⟩ := half_bounds d n (uniform_feasible d hα)
      linarith)
  refine ⟨squeeze_zero hg (fun n => ?_) h, squeeze_zero (fun n => (hr n).1) (fun n => ?_) h, squeeze_zero (fun n => (hr n).2) (fun n => ?_) h⟩
  · have := hr n; unfold rowKl; linarith [this.1, this.2]
  · have := hr n; have := hg n; unfold rowKl; linarith [(hr n).2]
  · have := hr n; have := hg n; unfold rowKl; linarith [(hr n).1]

/-- a vanishing divergence from a fixed histogram means convergence -/
theorem tendsto_of_kl {L : Type*} [Fintype L] {p : L → ℝ} (hp : ∀ l, 0 ≤ p l) {q : ℕ → L → ℝ} (hq : ∀ n l, 0 < q n l) (h : Tendsto (fun n => klDivergence p (q n)) atTop (𝓝 0)) (l : L) :
    Tendsto (fun n => q n l) atTop (𝓝 (p l)) := by
  have h1 : Tendsto (fun n => (√(p l) - √(q n l)) ^ 2) atTop (𝓝 0) := squeeze_zero (fun n => sq_nonneg _) (fun n => by
    refine (kl1_ge (hp l) (hq n l)).trans ?_
    exact single_le_sum (f := fun l => p l * Real.log (p l / q n l) - p l + q n l) (fun l _ => kl1_nonneg (hp l) (hq n l)) (mem_univ l)) h
  have h2 : Tendsto (fun n => |√(p l) - √(q n l)|) atTop (𝓝 0) := by
    have := h1.sqrt
    simpa [Real.sqrt_sq_eq_abs] using this
  have h3 : Tendsto (fun n => √(p l) - √(q n l)) atTop (𝓝 0) := (tendsto_zero_iff_abs_tendsto_zero _).2 h2
  have h4 : Tendsto (fun n => √(q n l)) atTop (𝓝 (√(p l))) := by
    have := h3.const_sub (√(p l))
    simpa using this
  have h5 := h4.pow 2
  rw [Real.sq_sqrt (hp l)] at h5
  exact h5.congr fun n => Real.sq_sqrt (hq n l).le

theorem err_tendsto (d : Data E1 E2 e p1 p2) (hα : α ≤ 1 / Fintype.card K) : Tendsto (fun n => (seq E1 E2 e p1 p2 α (n + 1)).err) atTop (𝓝 0) := by
  obtain ⟨-, h1, h2⟩ := gains_vanish (α := α) d hα
  have e1 : ∀ n, (seq E1 E2 e p1 p2 α (n + 1)).err = ∑ i, |∑ k, dykQ E1 (seq E1 E2 e p1 p2 α (n + 1)) i k - p1 i| + ∑ j, |∑ k, dykR E2 (seq E1 E2 e p1 p2 α (n + 1)) j k - p2 j| := fun n => by
    have : (seq E1 E2 e p1 p2 α (n + 1)).err = ∑ i, |(seq E1 E2 e p1 p2 α (n + 1)).u1 i * (∑ k, E1 i k * (seq E1 E2 e p1 p2 α (n + 1)).v1 k) - p1 i| +
        ∑ j, |(seq E1 E2 e p1 p2 α (n + 1)).u2 j * (∑ k, E2 j k * (seq E1 E2 e p1 p2 α (n + 1)).v2 k) - p2 j| := by rw [seq_succ]; rfl
    rw [this]
    unfold dykQ dykR
    congr 1
    · exact sum_congr rfl fun i _ => by rw [mul_sum]; simp_rw [mul_assoc]
    · exact sum_congr rfl fun i _ => by rw [mul_sum]; simp_rw [mul_assoc]
  simp_rw [e1]
  have t1 := fun i => tendsto_of_kl (fun i => (d.h1 i).le) (fun n i => sum_pos (fun k _ => dykQ_pos d n i k) univ_nonempty) h1 i
  have t2 := fun i => tendsto_of_kl (fun i => (d.h2 i).le) (fun n i => sum_pos (fun k _ => dykR_pos d n i k) univ_nonempty) h2 i
  have := (tendsto_finsetSum univ fun i (_ : i ∈ univ) => ((t1 i).sub_const (p1 i)).abs).add (tendsto_finsetSum univ fun i (_ : i ∈ univ) => ((t2 i).sub_const (p2 i)).abs)
  simpa using this

theorem kl_coercive {x' x B : ℝ} (hx' : 0 < x') (hx : 0 < x) (h : x' * Real.log (x' / x) - x' + x ≤ B) : x' * Real.exp (-(B / x' + 1)) ≤ x ∧ x ≤ 2 * (B + x') := by
  constructor
  · have h1 : Real.log (x' / x) ≤ B / x' + 1 := by
      have : x' * Real.log (x' / x) ≤ x' * (B / x' + 1) := by rw [mul_add, mul_div_cancel₀ _ hx'.ne']; linarith
      exact le_of_mul_le_mul_left this hx'
    have h2 := Real.exp_le_exp.2 h1
    rw [Real.exp_log (div_pos hx' hx), div_le_iff₀ hx] at h2
    rw [Real.exp_neg, ← div_eq_mul_inv, div_le_iff₀ (Real.exp_pos _)]
    linarith
  · have h1 := Real.log_le_sub_one_of_pos (div_pos (div_pos hx hx') two_pos)
    rw [Real.log_div (div_pos hx hx').ne' two_ne_zero] at h1
    have h2 : Real.log 2 ≤ 1 := by have := Real.log_le_sub_one_of_pos (two_pos (α := ℝ)); linarith
    have h3 : Real.log (x' / x) = -Real.log (x / x') := by rw [← Real.log_inv, inv_div]
    have h4 : Real.log (x / x') ≤ x / x' / 2 := by linarith
    have h5 : x' * Real.log (x / x') ≤ x / 2 := by
      have := mul_le_mul_of_nonneg_left h4 hx'.le
      rwa [show x' * (x / x' / 2) = x / 2 by field_simp] at this
    rw [h3] at h
    linarith

/-- Limits of half states along a subsequence solve the projection problem. -/
theorem limit_optimal (d : Data E1 E2 e p1 p2) (hα : α ≤ 1 / Fintype.card K) {φ : ℕ → ℕ} (hφ : Tendsto φ atTop atTop) {Q : I → K → ℝ} {R : J → K → ℝ} {g l : K → ℝ}
    (hQ : ∀ i k, 0 < Q i k) (hR : ∀ j k, 0 < R j k) (hg : ∀ k, 0 < g k)
    (tQ : ∀ i k, Tendsto (fun n => qh E1 p1 (seq E1 E2 e p1 p2 α (φ n)).v1 i k) atTop (𝓝 (Q i k))) (tR : ∀ j k, Tendsto (fun n => qh E2 p2 (seq E1 E2 e p1 p2 α (φ n)).v2 j k) atTop (𝓝 (R j k)))
    (tg : ∀ k, Tendsto (fun n => gh α (seq E1 E2 e p1 p2 α (φ n)) k) atTop (𝓝 (g k))) (tl : ∀ k, Tendsto (fun n => -Real.log ((seq E1 E2 e p1 p2 α (φ n + 1)).q31 k)) atTop (𝓝 (l k))) :
    IsLrProjection p1 p2 α E1 E2 e Q R g := by
  obtain ⟨i0⟩ := ‹Nonempty I›
  obtain ⟨j0⟩ := ‹Nonempty J›
  obtain ⟨k0⟩ := ‹Nonempty K›
  have inv := fun n => seq_inv (α := α) d n
  -- logarithms of the scaled kernels
  have tA : ∀ i k, Tendsto (fun n => Real.log (uh E1 p1 (seq E1 E2 e p1 p2 α (φ n)).v1 i) + Real.log ((seq E1 E2 e p1 p2 α (φ n)).v1 k)) atTop (𝓝 (Real.log (Q i k / E1 i k))) := fun i k => by
    refine (((tQ i k).div_const (E1 i k)).log (div_pos (hQ i k) (d.hE1 i k)).ne').congr fun n => ?_
    rw [qh, show uh E1 p1 (seq E1 E2 e p1 p2 α (φ n)).v1 i * E1 i k * (seq E1 E2 e p1 p2 α (φ n)).v1 k / E1 i k = uh E1 p1 (seq E1 E2 e p1 p2 α (φ n)).v1 i * (seq E1 E2 e p1 p2 α (φ n)).v1 k by
      have := (d.hE1 i k).ne'; field_simp, Real.log_mul (uh_pos d.hE1 d.h1 (inv _).v1 i).ne' ((inv _).v1 k).ne']
  have tB : ∀ i k, Tendsto (fun n => Real.log (uh E2 p2 (seq E1 E2 e p1 p2 α (φ n)).v2 i) + Real.log ((seq E1 E2 e p1 p2 α (φ n)).v2 k)) atTop (𝓝 (Real.log (R i k / E2 i k))) := fun i k => by
    refine (((tR i k).div_const (E2 i k)).log (div_pos (hR i k) (d.hE2 i k)).ne').congr fun n => ?_
    rw [qh, show uh E2 p2 (seq E1 E2 e p1 p2 α (φ n)).v2 i * E2 i k * (seq E1 E2 e p1 p2 α (φ n)).v2 k / E2 i k = uh E2 p2 (seq E1 E2 e p1 p2 α (φ n)).v2 i * (seq E1 E2 e p1 p2 α (φ n)).v2 k by
      have := (d.hE2 i k).ne'; field_simp, Real.log_mul (uh_pos d.hE2 d.h2 (inv _).v2 i).ne' ((inv _).v2 k).ne']
  have tG : ∀ k, Tendsto (fun n => -Real.log ((seq E1 E2 e p1 p2 α (φ n + 1)).q31 k) - Real.log ((seq E1 E2 e p1 p2 α (φ n)).v1 k) - Real.log ((seq E1 E2 e p1 p2 α (φ n)).v2 k)) atTop (𝓝 (Real.log (g k / e k))) := fun k => by
    refine (((tg k).div_const (e k)).log (div_pos (hg k) (d.he k)).ne').congr fun n => ?_
    have h1 := (inv (φ n + 1)).q k
    have h2 := (inv (φ n)).v1 k
    have h3 := (inv (φ n)).v2 k
    rw [← half_g (E1 := E1) (E2 := E2) (p1 := p1) (p2 := p2) (inv (φ n)) k, ← seq_succ,
      show e k / ((seq E1 E2 e p1 p2 α (φ n + 1)).q31 k * (seq E1 E2 e p1 p2 α (φ n)).v1 k * (seq E1 E2 e p1 p2 α (φ n)).v2 k) / e k =
        ((seq E1 E2 e p1 p2 α (φ n + 1)).q31 k * (seq E1 E2 e p1 p2 α (φ n)).v1 k * (seq E1 E2 e p1 p2 α (φ n)).v2 k)⁻¹ by have := (d.he k).ne'; field_simp,
      Real.log_inv, Real.log_mul (mul_pos h1 h2).ne' h3.ne', Real.log_mul h1.ne' h2.ne']
    ring
  -- the product structure passes to the limit
  have sA : ∀ i k, Real.log (Q i k / E1 i k) = Real.log (Q i k0 / E1 i k0) + (Real.log (Q i0 k / E1 i0 k) - Real.log (Q i0 k0 / E1 i0 k0)) := fun i k =>
    tendsto_nhds_unique (tA i k) (((tA i k0).add ((tA i0 k).sub (tA i0 k0))).congr fun n => by ring)
  have sB : ∀ i k, Real.log (R i k / E2 i k) = Real.log (R i k0 / E2 i k0) + (Real.log (R j0 k / E2 j0 k) - Real.log (R j0 k0 / E2 j0 k0)) := fun i k =>
    tendsto_nhds_unique (tB i k) (((tB i k0).add ((tB j0 k).sub (tB j0 k0))).congr fun n => by ring)
  have sG : ∀ k, Real.log (g k / e k) = l k - (Real.log (Q i0 k / E1 i0 k) - Real.log (Q i0 k0 / E1 i0 k0)) - (Real.log (R j0 k / E2 j0 k) - Real.log (R j0 k0 / E2 j0 k0)) + (Real.log (g k0 / e k0) - l k0) := fun k =>
    tendsto_nhds_unique (tG k) (((((tl k).sub ((tA i0 k).sub (tA i0 k0))).sub ((tB j0 k).sub (tB j0 k0))).add ((tG k0).sub (tl k0))).congr fun n => by ring)
  -- column sums agree in the limit
  obtain ⟨hgain, -, -⟩ := gains_vanish (α := α) d hα
  have hcol : ∀ k, ∑ i, Q i k = g k ∧ ∑ j, R j k = g k := fun k => by
    have tx := tendsto_finsetSum univ fun i (_ : i ∈ univ) => tQ i k
    have ty := tendsto_finsetSum univ fun j (_ : j ∈ univ) => tR j k
    have hx : 0 < ∑ i, Q i k := sum_pos (fun i _ => hQ i k) ⟨i0, mem_univ _⟩
    have hy : 0 < ∑ i, R i k := sum_pos (fun i _ => hR i k) ⟨j0, mem_univ _⟩
    have tw : Tendsto (fun n => (seq E1 E2 e p1 p2 α (φ n + 1)).g k) atTop (𝓝 ((g k * (∑ i, Q i k) * ∑ j, R j k) ^ (1 / 3 : ℝ))) := by
      refine ((((tg k).mul tx).mul ty).rpow_const (Or.inr (by norm_num))).congr fun n => ?_
      rw [seq_succ, step_g d (inv (φ n))]
    have t0 : Tendsto (fun n => ∑ i, qh E1 p1 (seq E1 E2 e p1 p2 α (φ n)).v1 i k + ∑ j, qh E2 p2 (seq E1 E2 e p1 p2 α (φ n)).v2 j k + gh α (seq E1 E2 e p1 p2 α (φ n)) k - 3 * (seq E1 E2 e p1 p2 α (φ n + 1)).g k)
        atTop (𝓝 0) := by
      refine squeeze_zero (fun n => gain_entry d (φ n) k) (fun n => ?_) (hgain.comp hφ)
      exact single_le_sum (f := fun k => ∑ i, qh E1 p1 (seq E1 E2 e p1 p2 α (φ n)).v1 i k + ∑ j, qh E2 p2 (seq E1 E2 e p1 p2 α (φ n)).v2 j k + gh α (seq E1 E2 e p1 p2 α (φ n)) k - 3 * (seq E1 E2 e p1 p2 α (φ n + 1)).g k)
        (fun k _ => gain_entry d (φ n) k) (mem_univ k)
    have h0 := tendsto_nhds_unique (((tx.add ty).add (tg k)).sub (tw.const_mul 3)) t0
    have hprod : 0 < g k * (∑ i, Q i k) * ∑ j, R j k := mul_pos (mul_pos (hg k) hx) hy
    have ham := (amgm (hg k) hx hy (Real.rpow_pos_of_pos hprod (1 / 3)) (by rw [← Real.rpow_natCast, ← Real.rpow_mul hprod.le]; norm_num)).2 h0
    exact ⟨ham.1.trans ham.2.2.symm, ham.2.1.trans ham.2.2.symm⟩
  have hlow : ∀ k, α ≤ g k := fun k => ge_of_tendsto' (tg k) fun n => le_max_left _ _
  have hrow1 : ∀ i, ∑ k, Q i k = p1 i := fun i => by
    have := tendsto_finsetSum univ fun k (_ : k ∈ univ) => tQ i k
    exact tendsto_nhds_unique this (tendsto_const_nhds.congr fun n => (qh_row d.hE1 (inv (φ n)).v1 i).symm)
  have hrow2 : ∀ i, ∑ k, R i k = p2 i := fun i => by
    have := tendsto_finsetSum univ fun k (_ : k ∈ univ) => tR i k
    exact tendsto_nhds_unique this (tendsto_const_nhds.congr fun n => (qh_row d.hE2 (inv (φ n)).v2 i).symm)
  have hl0 : ∀ k, 0 ≤ l k := fun k => ge_of_tendsto' (tl k) fun n => by
    have := Real.log_nonpos ((inv (φ n + 1)).q k).le ((inv (φ n + 1)).qle k)
    linarith
  have hcomp : ∀ k, (g k - α) * l k = 0 := fun k => by
    refine tendsto_nhds_unique (((tg k).sub_const α).mul (tl k)) (tendsto_const_nhds.congr fun n => ?_)
    have e31 : (seq E1 E2 e p1 p2 α (φ n + 1)).q31 k = (seq E1 E2 e p1 p2 α (φ n)).g k * (seq E1 E2 e p1 p2 α (φ n)).q31 k / gh α (seq E1 E2 e p1 p2 α (φ n)) k := by rw [seq_succ]; rfl
    rcases le_total α ((seq E1 E2 e p1 p2 α (φ n)).g k * (seq E1 E2 e p1 p2 α (φ n)).q31 k) with hle | hle
    · have hgk : gh α (seq E1 E2 e p1 p2 α (φ n)) k = (seq E1 E2 e p1 p2 α (φ n)).g k * (seq E1 E2 e p1 p2 α (φ n)).q31 k := max_eq_right hle
      rw [e31, hgk, div_self (mul_pos ((inv (φ n)).g k) ((inv (φ n)).q k)).ne', Real.log_one]; simp
    · have hgk : gh α (seq E1 E2 e p1 p2 α (φ n)) k = α := max_eq_left hle
      rw [hgk]; simp
  -- dual variables of the limit
  obtain ⟨c, hc⟩ : ∃ c, c = Real.log (g k0 / e k0) - l k0 := ⟨_, rfl⟩
  refine certificate d (u1 := fun i => Real.exp (Real.log (Q i k0 / E1 i k0))) (u2 := fun j => Real.exp (Real.log (R j k0 / E2 j k0) + c)) (q := fun k => Real.exp (-l k))
    (v1 := fun k => Real.exp (Real.log (Q i0 k / E1 i0 k) - Real.log (Q i0 k0 / E1 i0 k0))) (v2 := fun k => Real.exp (Real.log (R j0 k / E2 j0 k) - Real.log (R j0 k0 / E2 j0 k0) - c))
    (fun i => Real.exp_pos _) (fun i => Real.exp_pos _) (fun i => Real.exp_pos _) (fun k => Real.exp_le_one_iff.2 (by linarith [hl0 k])) (fun i => Real.exp_pos _) (fun i => Real.exp_pos _) (fun i k => ?_) (fun i k => ?_)
    (fun k => ?_) ⟨⟨fun i k => (hQ i k).le, hrow1, fun k => (hcol k).1⟩, ⟨fun i k => (hR i k).le, hrow2, fun k => (hcol k).2⟩, hlow⟩ (fun k => ?_)
  · rw [mul_right_comm, ← Real.exp_add, ← sA, Real.exp_log (div_pos (hQ i k) (d.hE1 i k)), div_mul_cancel₀ _ (d.hE1 i k).ne']
  · rw [mul_right_comm, ← Real.exp_add, show ∀ x y z : ℝ, x + c + (y - z - c) = x + (y - z) from fun x y z => by ring, ← sB, Real.exp_log (div_pos (hR i k) (d.hE2 i k)), div_mul_cancel₀ _ (d.hE2 i k).ne']
  · rw [← Real.exp_add, ← Real.exp_add, div_eq_mul_inv, ← Real.exp_neg]
    have h1 := sG k
    rw [← hc] at h1
    rw [show -(-l k + (Real.log (Q i0 k / E1 i0 k) - Real.log (Q i0 k0 / E1 i0 k0)) + (Real.log (R j0 k / E2 j0 k) - Real.log (R j0 k0 / E2 j0 k0) - c)) = Real.log (g k / e k) by rw [h1]; ring,
      Real.exp_log (div_pos (hg k) (d.he k)), mul_div_cancel₀ _ (d.he k).ne']
  · rw [Real.log_exp]; have := hcomp k; linarith

theorem entry_le {L : Type*} [Fintype L] {p q : L → ℝ} {B : ℝ} (hp : ∀ l, 0 ≤ p l) (hq : ∀ l, 0 < q l) (h : klDivergence p q ≤ B) (l : L) : p l * Real.log (p l / q l) - p l + q l ≤ B :=
  (single_le_sum (f := fun l => p l * Real.log (p l / q l) - p l + q l) (fun l _ => kl1_nonneg (hp l) (hq l)) (mem_univ l)).trans h

/-- **Convergence of the half states** to the projection. -/
theorem half_converges (d : Data E1 E2 e p1 p2) (hα : α < 1 / Fintype.card K) : ∃ Q R g, IsLrProjection p1 p2 α E1 E2 e Q R g ∧ (∀ i k, 0 < Q i k) ∧ (∀ j k, 0 < R j k) ∧ (∀ k, 0 < g k) ∧
    (∀ i k, Tendsto (fun n => qh E1 p1 (seq E1 E2 e p1 p2 α n).v1 i k) atTop (𝓝 (Q i k))) ∧ (∀ j k, Tendsto (fun n => qh E2 p2 (seq E1 E2 e p1 p2 α n).v2 j k) atTop (𝓝 (R j k))) ∧
    ∀ k, Tendsto (fun n => gh α (seq E1 E2 e p1 p2 α n) k) atTop (𝓝 (g k)) := by
  have hr : 0 < (Fintype.card K : ℝ) := by exact_mod_cast Fintype.card_pos
  have hr' : 0 < 1 / (Fintype.card K : ℝ) := by positivity
  have hf := uniform_feasible (α := α) d hα.le
  obtain ⟨B, hB⟩ : ∃ B, B = lrDivergence E1 E2 e (fun i (_ : K) => p1 i * (1 / Fintype.card K)) (fun j _ => p2 j * (1 / Fintype.card K)) (fun _ => 1 / Fintype.card K) - dualH E1 E2 e p1 p2 α (seq E1 E2 e p1 p2 α 0) := ⟨_, rfl⟩
  have hmono : ∀ n, dualH E1 E2 e p1 p2 α (seq E1 E2 e p1 p2 α 0) ≤ dualH E1 E2 e p1 p2 α (seq E1 E2 e p1 p2 α n) := fun n => by
    induction n with
    | zero => exact le_rfl
    | succ n ih =>
      have h1 := dualH_step (α := α) d n
      have h2 : 0 ≤ gain E1 E2 e p1 p2 α n := sum_nonneg fun k _ => gain_entry d n k
      have h3 := rowKl_nonneg (α := α) d n
      unfold rowKl at h1
      linarith [h3.1, h3.2]
  have inv := fun n => seq_inv (α := α) d n
  -- all half states lie in a box
  have hb1 : ∀ n i k, p1 i * (1 / Fintype.card K) * Real.exp (-(B / (p1 i * (1 / Fintype.card K)) + 1)) ≤ qh E1 p1 (seq E1 E2 e p1 p2 α n).v1 i k ∧
      qh E1 p1 (seq E1 E2 e p1 p2 α n).v1 i k ≤ 2 * (B + p1 i * (1 / Fintype.card K)) := fun n i k => by
    obtain ⟨-, -, -, -, h1, -⟩ := half_bounds (α := α) d n hf
    refine kl_coercive (mul_pos (d.h1 i) hr') (qh_pos d.hE1 d.h1 (inv n).v1 i k) ?_
    exact (klPlan_entry (fun i k => (mul_pos (d.h1 i) hr').le) (qh_pos d.hE1 d.h1 (inv n).v1) i k).trans (by linarith [hmono n])
  have hb2 : ∀ n i k, p2 i * (1 / Fintype.card K) * Real.exp (-(B / (p2 i * (1 / Fintype.card K)) + 1)) ≤ qh E2 p2 (seq E1 E2 e p1 p2 α n).v2 i k ∧
      qh E2 p2 (seq E1 E2 e p1 p2 α n).v2 i k ≤ 2 * (B + p2 i * (1 / Fintype.card K)) := fun n i k => by
    obtain ⟨-, -, -, -, -, h1, -⟩ := half_bounds (α := α) d n hf
    refine kl_coercive (mul_pos (d.h2 i) hr') (qh_pos d.hE2 d.h2 (inv n).v2 i k) ?_
    exact (klPlan_entry (fun i k => (mul_pos (d.h2 i) hr').le) (qh_pos d.hE2 d.h2 (inv n).v2) i k).trans (by linarith [hmono n])
  have hb3 : ∀ n k, 1 / Fintype.card K * Real.exp (-(B / (1 / Fintype.card K) + 1)) ≤ gh α (seq E1 E2 e p1 p2 α n) k ∧ gh α (seq E1 E2 e p1 p2 α n) k ≤ 2 * (B + 1 / Fintype.card K) := fun n k => by
    obtain ⟨-, -, -, -, -, -, h1, -⟩ := half_bounds (α := α) d n hf
    refine kl_coercive hr' (gh_pos (inv n) k) ?_
    exact entry_le (p := fun _ => 1 / (Fintype.card K : ℝ)) (fun _ => hr'.le) (gh_pos (inv n)) (h1.trans (by linarith [hmono n])) k
  have hb4 : ∀ n k, 0 ≤ -Real.log ((seq E1 E2 e p1 p2 α (n + 1)).q31 k) ∧ -Real.log ((seq E1 E2 e p1 p2 α (n + 1)).q31 k) ≤ B / (1 / Fintype.card K - α) := fun n k => by
    obtain ⟨-, -, -, -, -, -, -, h1⟩ := half_bounds (α := α) d n hf
    have h2 := Real.log_nonpos ((inv (n + 1)).q k).le ((inv (n + 1)).qle k)
    refine ⟨by linarith, ?_⟩
    rw [le_div_iff₀ (by linarith), mul_comm]
    exact (h1 k).trans (by linarith [hmono n])
  obtain ⟨z, hz⟩ : ∃ z : ℕ → (I → K → ℝ) × (J → K → ℝ) × (K → ℝ) × (K → ℝ), z = fun n => (qh E1 p1 (seq E1 E2 e p1 p2 α n).v1, qh E2 p2 (seq E1 E2 e p1 p2 α n).v2, gh α (seq E1 E2 e p1 p2 α n),
      fun k => -Real.log ((seq E1 E2 e p1 p2 α (n + 1)).q31 k)) := ⟨_, rfl⟩
  obtain ⟨lo, hlo⟩ : ∃ lo : (I → K → ℝ) × (J → K → ℝ) × (K → ℝ) × (K → ℝ), lo = (fun i _ => p1 i * (1 / Fintype.card K) * Real.exp (-(B / (p1 i * (1 / Fintype.card K)) + 1)),
      fun i _ => p2 i * (1 / Fintype.card K) * Real.exp (-(B / (p2 i * (1 / Fintype.card K)) + 1)), fun _ => 1 / Fintype.card K * Real.exp (-(B / (1 / Fintype.card K) + 1)), fun _ => 0) := ⟨_, rfl⟩
  obtain ⟨hi, hhi⟩ : ∃ hi : (I → K → ℝ) × (J → K → ℝ) × (K → ℝ) × (K → ℝ), hi = (fun i _ => 2 * (B + p1 i * (1 / Fintype.card K)), fun i _ => 2 * (B + p2 i * (1 / Fintype.card K)), fun _ => 2 * (B + 1 / Fintype.card K),
      fun _ => B / (1 / Fintype.card K - α)) := ⟨_, rfl⟩
  have hmem : ∀ n, z n ∈ Set.Icc lo hi := fun n => by
    rw [hz, hlo, hhi]
    exact ⟨⟨fun i k => (hb1 n i k).1, fun i k => (hb2 n i k).1, fun k => (hb3 n k).1, fun k => (hb4 n k).1⟩, ⟨fun i k => (hb1 n i k).2, fun i k => (hb2 n i k).2, fun k => (hb3 n k).2, fun k => (hb4 n k).2⟩⟩
  -- limits along subsequences are projections
  have hsub : ∀ ns : ℕ → ℕ, Tendsto ns atTop atTop → ∃ w, ∃ ms : ℕ → ℕ, Tendsto (fun n => z (ns (ms n))) atTop (𝓝 w) ∧ IsLrProjection p1 p2 α E1 E2 e w.1 w.2.1 w.2.2.1 ∧ (∀ i k, 0 < w.1 i k) ∧ (∀ j k, 0 < w.2.1 j k) ∧ ∀ k, 0 < w.2.2.1 k := by
    intro ns hns
    obtain ⟨w, hw, ms, hms, hlim⟩ := (isCompact_Icc (a := lo) (b := hi)).tendsto_subseq (x := fun n => z (ns n)) fun n => hmem _
    have hlow := hw.1
    rw [hlo] at hlow
    have p1' : ∀ i k, 0 < w.1 i k := fun i k => lt_of_lt_of_le (mul_pos (mul_pos (d.h1 i) hr') (Real.exp_pos _)) (hlow.1 i k)
    have p2' : ∀ i k, 0 < w.2.1 i k := fun i k => lt_of_lt_of_le (mul_pos (mul_pos (d.h2 i) hr') (Real.exp_pos _)) (hlow.2.1 i k)
    have p3' : ∀ k, 0 < w.2.2.1 k := fun k => lt_of_lt_of_le (mul_pos hr' (Real.exp_pos _)) (hlow.2.2.1 k)
    refine ⟨w, ms, hlim, ?_, p1', p2', p3'⟩
    rw [hz] at hlim
    have l1 := (continuous_fst.tendsto w).comp hlim
    have l2 := (continuous_snd.tendsto w).comp hlim
    have l3 := (continuous_fst.tendsto _).comp l2
    have l4 := (continuous_snd.tendsto _).comp l2
    have l5 := (continuous_fst.tendsto _).comp l4
    have l6 := (continuous_snd.tendsto _).comp l4
    exact limit_optimal d hα.le (hns.comp hms.tendsto_atTop) p1' p2' p3' (fun i k => tendsto_pi_nhds.1 (tendsto_pi_nhds.1 l1 i) k) (fun i k => tendsto_pi_nhds.1 (tendsto_pi_nhds.1 l3 i) k)
      (fun k => tendsto_pi_nhds.1 l5 k) (fun k => tendsto_pi_nhds.1 l6 k)
  obtain ⟨w0, -, -, hw0, q1, q2, q3⟩ := hsub id tendsto_id
  have huniq : ∀ w : (I → K → ℝ) × (J → K → ℝ) × (K → ℝ) × (K → ℝ), IsLrProjection p1 p2 α E1 E2 e w.1 w.2.1 w.2.2.1 → w.1 = w0.1 ∧ w.2.1 = w0.2.1 ∧ w.2.2.1 = w0.2.2.1 := fun w hw =>
    (hw0.2 _ _ _ hw.1).2 (hw.2 _ _ _ hw0.1).1
  refine ⟨w0.1, w0.2.1, w0.2.2.1, hw0, q1, q2, q3, fun i k => ?_, fun i k => ?_, fun k => ?_⟩
  · refine tendsto_of_subseq_tendsto fun ns hns => ?_
    obtain ⟨w, ms, hlim, hw, -⟩ := hsub ns hns
    refine ⟨ms, ?_⟩
    rw [← (huniq w hw).1]
    rw [hz] at hlim
    exact tendsto_pi_nhds.1 (tendsto_pi_nhds.1 ((continuous_fst.tendsto w).comp hlim) i) k
  · refine tendsto_of_subseq_tendsto fun ns hns => ?_
    obtain ⟨w, ms, hlim, hw, -⟩ := hsub ns hns
    refine ⟨ms, ?_⟩
    rw [← (huniq w hw).2.1]
    rw [hz] at hlim
    exact tendsto_pi_nhds.1 (tendsto_pi_nhds.1 ((continuous_fst.tendsto _).comp ((continuous_snd.tendsto w).comp hlim)) i) k
  · refine tendsto_of_subseq_tendsto fun ns hns => ?_
    obtain ⟨w, ms, hlim, hw, -⟩ := hsub ns hns
    refine ⟨ms, ?_⟩
    rw [← (huniq w hw).2.2]
    rw [hz] at hlim
    exact tendsto_pi_nhds.1 ((continuous_fst.tendsto _).comp ((continuous_snd.tendsto _).comp ((continuous_snd.tendsto w).comp hlim))) k

/-- **Convergence of the states** that the loop may return. -/
theorem converges (d : Data E1 E2 e p1 p2) (hα : α < 1 / Fintype.card K) : ∃ Q R g, IsLrProjection p1 p2 α E1 E2 e Q R g ∧
    (∀ i k, Tendsto (fun n => dykQ E1 (seq E1 E2 e p1 p2 α (n + 1)) i k) atTop (𝓝 (Q i k))) ∧ (∀ j k, Tendsto (fun n => dykR E2 (seq E1 E2 e p1 p2 α (n + 1)) j k) atTop (𝓝 (R j k))) ∧
    ∀ k, Tendsto (fun n => (seq E1 E2 e p1 p2 α (n + 1)).g k) atTop (𝓝 (g k)) := by
  obtain ⟨Q, R, g, hp, q1, q2, q3, t1, t2, t3⟩ := half_converges d hα
  have inv := fun n => seq_inv (α := α) d n
  have tx := fun k => tendsto_finsetSum univ fun i (_ : i ∈ univ) => t1 i k
  have ty := fun k => tendsto_finsetSum univ fun i (_ : i ∈ univ) => t2 i k
  have tg : ∀ k, Tendsto (fun n => (seq E1 E2 e p1 p2 α (n + 1)).g k) atTop (𝓝 (g k)) := fun k => by
    have h := (((t3 k).mul (tx k)).mul (ty k)).rpow_const (p := (1 / 3 : ℝ)) (Or.inr (by norm_num))
    rw [hp.1.left.col k, hp.1.right.col k, show g k * g k * g k = g k ^ (3 : ℝ) by rw [show (3 : ℝ) = ((3 : ℕ) : ℝ) by norm_num, Real.rpow_natCast]; ring, ← Real.rpow_mul (q3 k).le] at h
    norm_num at h
    refine h.congr fun n => ?_
    rw [seq_succ, step_g d (inv n)]
  refine ⟨Q, R, g, hp, fun i k => ?_, fun j k => ?_, tg⟩
  · have h := ((t1 i k).mul (tg k)).div (tx k) (by rw [hp.1.left.col k]; exact (q3 k).ne')
    rw [hp.1.left.col k, mul_div_assoc, div_self (q3 k).ne', mul_one] at h
    refine h.congr fun n => ?_
    simp only [Pi.div_apply]
    rw [dykQ, seq_u1, seq_succ, step_v1 d (inv n)]
    unfold qh
    ring
  · have h := ((t2 j k).mul (tg k)).div (ty k) (by rw [hp.1.right.col k]; exact (q3 k).ne')
    rw [hp.1.right.col k, mul_div_assoc, div_self (q3 k).ne', mul_one] at h
    refine h.congr fun n => ?_
    simp only [Pi.div_apply]
    rw [dykR, seq_u2, seq_succ, step_v2 d (inv n)]
    unfold qh
    ring

/-! ### the loop -/

theorem dykLoop_spec {stopThr : ℝ} (n m : ℕ) : ∃ k ≤ n, dykLoop E1 E2 p1 p2 α stopThr n (seq E1 E2 e p1 p2 α m) = seq E1 E2 e p1 p2 α (m + k) ∧ (∀ l < k, stopThr < (seq E1 E2 e p1 p2 α (m + l)).err) ∧
    (k < n → (seq E1 E2 e p1 p2 α (m + k)).err ≤ stopThr) := by
  induction n generalizing m with
  | zero => exact ⟨0, le_rfl, rfl, fun l hl => absurd hl (Nat.not_lt_zero _), fun h => absurd h (Nat.not_lt_zero _)⟩
  | succ n ih =>
    unfold dykLoop
    split_ifs with h
    · obtain ⟨k, hk, h1, h2, h3⟩ := ih (m + 1)
      rw [← seq_succ]
      refine ⟨k + 1, by omega, by rw [h1]; congr 1; omega, fun l hl => ?_, fun hl => ?_⟩
      · rcases l with - | l
        · exact h
        · have := h2 l (by omega)
          rwa [show m + 1 + l = m + (l + 1) by omega] at this
      · have := h3 (by omega)
        rwa [show m + 1 + k = m + (k + 1) by omega] at this
    · exact ⟨0, by omega, rfl, fun l hl => absurd hl (Nat.not_lt_zero _), fun _ => not_lt.1 h⟩

theorem dykstra_spec {stopThr : ℝ} (hs : stopThr < 1) {n : ℕ} (hn : 0 < n) : ∃ k, k < n ∧
    dykstra E1 E2 e p1 p2 α stopThr n = some (dykQ E1 (seq E1 E2 e p1 p2 α (k + 1)), dykR E2 (seq E1 E2 e p1 p2 α (k + 1)), (seq E1 E2 e p1 p2 α (k + 1)).g) ∧
    (∀ l < k, stopThr < (seq E1 E2 e p1 p2 α (l + 1)).err) ∧ (k + 1 < n → (seq E1 E2 e p1 p2 α (k + 1)).err ≤ stopThr) := by
  obtain ⟨k, hk, h1, h2, h3⟩ := dykLoop_spec (E1 := E1) (E2 := E2) (e := e) (p1 := p1) (p2 := p2) (α := α) (stopThr := stopThr) n 0
  simp only [Nat.zero_add] at h1 h2 h3
  rcases k with - | k
  · have := h3 hn
    have e0 : (seq E1 E2 e p1 p2 α 0).err = 1 := rfl
    rw [e0] at this
    exact absurd hs (not_lt.2 this)
  · refine ⟨k, by omega, ?_, fun l hl => h2 (l + 1) (by omega), h3⟩
    unfold dykstra
    rw [if_neg (by push Not; exact ⟨by omega, hs⟩)]
    have : dykLoop E1 E2 p1 p2 α stopThr n (dyk0 e) = seq E1 E2 e p1 p2 α (k + 1) := h1
    simp only [this]

theorem err_eq (n : ℕ) : (seq E1 E2 e p1 p2 α (n + 1)).err = ∑ i, |∑ k, dykQ E1 (seq E1 E2 e p1 p2 α (n + 1)) i k - p1 i| + ∑ j, |∑ k, dykR E2 (seq E1 E2 e p1 p2 α (n + 1)) j k - p2 j| := by
  have : (seq E1 E2 e p1 p2 α (n + 1)).err = ∑ i, |(seq E1 E2 e p1 p2 α (n + 1)).u1 i * (∑ k, E1 i k * (seq E1 E2 e p1 p2 α (n + 1)).v1 k) - p1 i| +
      ∑ j, |(seq E1 E2 e p1 p2 α (n + 1)).u2 j * (∑ k, E2 j k * (seq E1 E2 e p1 p2 α (n + 1)).v2 k) - p2 j| := by rw [seq_succ]; rfl
  rw [this]
  unfold dykQ dykR
  congr 1
  · exact sum_congr rfl fun i _ => by rw [mul_sum]; simp_rw [mul_assoc]
  · exact sum_congr rfl fun i _ => by rw [mul_sum]; simp_rw [mul_assoc]

end POT.LowRank
