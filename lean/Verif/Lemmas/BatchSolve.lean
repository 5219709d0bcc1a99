import Verif.Model.BatchSolve
import Verif.Lemmas.SinkhornConv
import Verif.Lemmas.SinkhornOpt

/-! # A batch of problems is a family of transposed Sinkhorn–Knopp iterations -/

set_option linter.unusedSectionVars false

namespace POT.BatchSolve

open Finset Spec Sinkhorn Filter Topology

variable {B I J : Type*} [Fintype B] [Fintype I] [Fintype J] [Nonempty I] [Nonempty J]
variable {K : B → I → J → ℝ} {a : B → I → ℝ} {b : B → J → ℝ}

/-- the scalings of problem `t`, for the transposed kernel -/
def toUV (s : Batch B I J) (t : B) : UV J I := ⟨s.g t, s.f t⟩

/-- the starting scalings -/
def ones : Batch B I J := { f := fun _ _ => 1, g := fun _ _ => 1 }

theorem toUV_step (s : Batch B I J) (t : B) : toUV (batchStep K a b s) t = knoppStep (b t) (a t) (fun j i => K t i j) (toUV s t) := by
  have hv : ∀ i, (batchStep K a b s).f t i = (knoppStep (b t) (a t) (fun j i => K t i j) (toUV s t)).v i := fun i => rfl
  refine UV.ext (funext fun j => ?_) (funext hv)
  rw [knoppStep_u]
  change b t j / ∑ i, K t i j * (batchStep K a b s).f t i = _
  simp only [hv]

theorem toUV_iter (s : Batch B I J) (t : B) (k : ℕ) : toUV ((batchStep K a b)^[k] s) t = (knoppStep (b t) (a t) fun j i => K t i j)^[k] (toUV s t) := by
  induction k with
  | zero => rfl
  | succ k ih => rw [Function.iterate_succ_apply', Function.iterate_succ_apply', toUV_step, ih]

theorem plan_toUV (s : Batch B I J) (t : B) (i : I) (j : J) : batchPlan K s t i j = plan (fun j i => K t i j) (toUV s t) j i := by
  unfold batchPlan plan toUV
  ring

theorem ones_pos (t : B) : Pos (toUV (ones : Batch B I J) t) := ⟨fun _ => one_pos, fun _ => one_pos⟩

theorem err_toUV (s : Batch B I J) (t : B) : norm2 (fun i => ∑ j, batchPlan K s t i j - a t i) = colErr (a t) (fun j i => K t i j) (toUV s t) := by
  unfold colErr
  simp only [plan_toUV]
  rfl

theorem pos_iter (hK : ∀ t i j, 0 < K t i j) (ha : ∀ t i, 0 < a t i) (hb : ∀ t j, 0 < b t j) (t : B) (k : ℕ) : Pos (toUV ((batchStep K a b)^[k] ones) t) := by
  rw [toUV_iter]
  exact knoppIter_pos (fun j i => hK t i j) (hb t) (ha t) (ones_pos t) k

theorem col_exact (hK : ∀ t i j, 0 < K t i j) (ha : ∀ t i, 0 < a t i) (hb : ∀ t j, 0 < b t j) (t : B) (k : ℕ) (j : J) :
    ∑ i, batchPlan K ((batchStep K a b)^[k + 1] ones) t i j = b t j := by
  simp only [plan_toUV, toUV_iter]
  exact iter_rows (fun j i => hK t i j) (hb t) (ha t) (ones_pos t) k j

/-- One iteration does not increase the `ℓ¹` error of the row sums. -/
theorem l1_step (hK : ∀ t i j, 0 < K t i j) (ha : ∀ t i, 0 < a t i) (hb : ∀ t j, 0 < b t j) (t : B) {s : Batch B I J} (hs : Pos (toUV s t))
    (hcol : ∀ j, ∑ i, batchPlan K s t i j = b t j) :
    ∑ i, |∑ j, batchPlan K (batchStep K a b s) t i j - a t i| ≤ ∑ i, |∑ j, batchPlan K s t i j - a t i| := by
  obtain ⟨f, hf⟩ : ∃ f, f = (batchStep K a b s).f t := ⟨_, rfl⟩
  obtain ⟨g, hg⟩ : ∃ g, g = (batchStep K a b s).g t := ⟨_, rfl⟩
  have p1 : ∀ i, 0 < ∑ j, K t i j * s.g t j := fun i => sum_pos (fun j _ => mul_pos (hK t i j) (hs.1 j)) univ_nonempty
  have ef : ∀ i, f i = a t i / ∑ j, K t i j * s.g t j := fun i => by rw [hf]; rfl
  have pf : ∀ i, 0 < f i := fun i => by rw [ef]; exact div_pos (ha t i) (p1 i)
  have p2 : ∀ j, 0 < ∑ i, K t i j * f i := fun j => sum_pos (fun i _ => mul_pos (hK t i j) (pf i)) univ_nonempty
  have eg : ∀ j, g j = b t j / ∑ i, K t i j * f i := fun j => by rw [hg, hf]; rfl
  have hrow : ∀ i, ∑ j, K t i j * f i * s.g t j = a t i := fun i => by
    have e : ∑ j, K t i j * f i * s.g t j = f i * ∑ j, K t i j * s.g t j := by
      rw [mul_sum]
      exact sum_congr rfl fun j _ => by ring
    rw [e, ef, div_mul_cancel₀ _ (p1 i).ne']
  have hnew : ∀ j, ∑ i, K t i j * f i * g j = b t j := fun j => by
    rw [← sum_mul, eg, mul_div_cancel₀ _ (p2 j).ne']
  have e1 : ∀ i, ∑ j, batchPlan K (batchStep K a b s) t i j - a t i = ∑ j, K t i j * f i * (g j - s.g t j) := fun i => by
    rw [← hrow i, ← sum_sub_distrib]
    refine sum_congr rfl fun j _ => ?_
    unfold batchPlan
    rw [← hf, ← hg]
    ring
  have e2 : ∀ i, ∑ j, batchPlan K s t i j - a t i = (s.f t i - f i) * ∑ j, K t i j * s.g t j := fun i => by
    have h := hrow i
    rw [← h, ← sum_sub_distrib, mul_sum]
    refine sum_congr rfl fun j _ => ?_
    unfold batchPlan
    ring
  calc ∑ i, |∑ j, batchPlan K (batchStep K a b s) t i j - a t i|
      ≤ ∑ i, ∑ j, K t i j * f i * |g j - s.g t j| := by
        refine sum_le_sum fun i _ => ?_
        rw [e1]
        refine (abs_sum_le_sum_abs _ _).trans (le_of_eq (sum_congr rfl fun j _ => ?_))
        rw [abs_mul, abs_of_pos (mul_pos (hK t i j) (pf i))]
    _ = ∑ j, |∑ i, K t i j * (s.f t i - f i) * s.g t j| := by
        rw [sum_comm]
        refine sum_congr rfl fun j _ => ?_
        rw [← sum_mul, ← abs_of_pos (p2 j), ← abs_mul]
        congr 1
        have h1 := hnew j
        have h2 := hcol j
        unfold batchPlan at h2
        rw [← sum_mul] at h1
        have h3 : ∑ i, K t i j * (s.f t i - f i) * s.g t j = ∑ i, K t i j * s.f t i * s.g t j - (∑ i, K t i j * f i) * s.g t j := by
          rw [sum_mul, ← sum_sub_distrib]
          exact sum_congr rfl fun i _ => by ring
        rw [h3, h2, ← h1]
        ring
    _ ≤ ∑ j, ∑ i, K t i j * s.g t j * |s.f t i - f i| := by
        refine sum_le_sum fun j _ => (abs_sum_le_sum_abs _ _).trans (le_of_eq (sum_congr rfl fun i _ => ?_))
        rw [abs_mul, abs_mul, abs_of_pos (hK t i j), abs_of_pos (show 0 < s.g t j from hs.1 j)]
        ring
    _ = ∑ i, |∑ j, batchPlan K s t i j - a t i| := by
        rw [sum_comm]
        refine sum_congr rfl fun i _ => ?_
        rw [e2, ← sum_mul, abs_mul, abs_of_pos (p1 i), mul_comm]

/-- Some check sees all problems of the batch below the threshold at the same time. -/
theorem some_check_batch (hK : ∀ t i j, 0 < K t i j) (ha : ∀ t i, 0 < a t i) (hb : ∀ t j, 0 < b t j) (hS : ∀ t, ∑ i, a t i = ∑ j, b t j) {D : B → ℝ}
    (hD : ∀ t, klPlan (fun j i => b t j * a t i / ∑ j, b t j) (plan (fun j i => K t i j) (toUV (batchStep K a b ones) t)) ≤ D t) {tol : ℝ} (htol : 0 < tol) (T : ℕ)
    (hT : ∑ t, 4 * (∑ j, b t j) * D t < T * tol ^ 2) :
    ∃ l < T, ∀ t, norm2 (fun i => ∑ j, batchPlan K ((batchStep K a b)^[10 * l + 1] ones) t i j - a t i) < tol := by
  obtain ⟨E, hE⟩ : ∃ E : ℕ → B → ℝ, E = fun l t => norm2 (fun i => ∑ j, batchPlan K ((batchStep K a b)^[10 * l + 1] ones) t i j - a t i) := ⟨_, rfl⟩
  have hsum : ∀ t, ∑ l ∈ range T, E l t ^ 2 ≤ 4 * (∑ j, b t j) * D t := by
    intro t
    have hK' : ∀ j i, 0 < (fun j i => K t i j) j i := fun j i => hK t i j
    have hS0 : 0 < ∑ j, b t j := sum_pos (fun j _ => hb t j) univ_nonempty
    obtain ⟨X, hX⟩ : ∃ X : ℕ → UV J I, X = fun k => (knoppStep (b t) (a t) fun j i => K t i j)^[k] (toUV ones t) := ⟨_, rfl⟩
    have hsc := prod_coupling (hb t) (ha t) (hS t).symm
    have key : ∀ n, klPlan (fun j i => b t j * a t i / ∑ j, b t j) (plan (fun j i => K t i j) (X (10 * n + 1))) + ∑ l ∈ range n, E l t ^ 2 / (4 * ∑ j, b t j) ≤ D t := by
      intro n
      induction n with
      | zero =>
        have := hD t
        rw [toUV_step] at this
        rw [hX]
        simpa using this
      | succ n ih =>
        have h4 := err_le hK' (hb t) (ha t) (hS t).symm (ones_pos t) (10 * n)
        have hEn : E n t ^ 2 = ∑ i, (Sinkhorn.colSum (fun j i => K t i j) ((knoppStep (b t) (a t) fun j i => K t i j)^[10 * n + 1] (toUV ones t)) i - a t i) ^ 2 := by
          rw [hE]
          simp only
          rw [err_toUV, toUV_iter, colErr_eq, Real.sq_sqrt (sum_nonneg fun _ _ => sq_nonneg _)]
        have h5 : E n t ^ 2 / (4 * ∑ j, b t j) ≤ klDivergence (a t) (Sinkhorn.colSum (fun j i => K t i j) (X (10 * n + 1))) := by
          rw [div_le_iff₀ (by positivity), hEn, hX]
          linarith
        have h6 := kl_step hK' (hb t) (ha t) (knoppIter_pos hK' (hb t) (ha t) (ones_pos t) (10 * n + 1)) hsc
        rw [← Function.iterate_succ_apply' (knoppStep (b t) (a t) fun j i => K t i j)] at h6
        have h7 := kl_antitone hK' (hb t) (ha t) (ones_pos t) hsc (show (10 * n + 1).succ ≤ 10 * (n + 1) + 1 by omega)
        dsimp only at h7
        rw [sum_range_succ]
        rw [hX] at ih h5 ⊢
        simp only at ih h5 ⊢
        linarith
    have h1 := key T
    have h2 : 0 ≤ klPlan (fun j i => b t j * a t i / ∑ j, b t j) (plan (fun j i => K t i j) (X (10 * T + 1))) := by
      rw [hX]
      exact klPlan_nonneg hsc.nonneg (plan_pos hK' (knoppIter_pos hK' (hb t) (ha t) (ones_pos t) _))
    rw [← sum_div] at h1
    have h3 : (∑ l ∈ range T, E l t ^ 2) / (4 * ∑ j, b t j) ≤ D t := by linarith
    rw [div_le_iff₀ (by positivity)] at h3
    linarith
  by_contra hcon
  push Not at hcon
  have h1 : ∑ l ∈ range T, ∑ t, E l t ^ 2 ≤ ∑ t, 4 * (∑ j, b t j) * D t := by
    rw [sum_comm]
    exact sum_le_sum fun t _ => hsum t
  have h2 : (T : ℝ) * tol ^ 2 ≤ ∑ l ∈ range T, ∑ t, E l t ^ 2 := by
    have : ∑ _l ∈ range T, tol ^ 2 ≤ ∑ l ∈ range T, ∑ t, E l t ^ 2 := by
      refine sum_le_sum fun l hl => ?_
      obtain ⟨t, ht⟩ := hcon l (mem_range.1 hl)
      have h3 : tol ^ 2 ≤ E l t ^ 2 := by
        rw [hE]
        exact pow_le_pow_left₀ htol.le ht 2
      exact h3.trans (single_le_sum (f := fun t => E l t ^ 2) (fun t _ => sq_nonneg _) (mem_univ t))
    rwa [sum_const, card_range, nsmul_eq_mul] at this
  linarith

end POT.BatchSolve
