import Verif.Lemmas.Sinkhorn
import Mathlib.Topology.Algebra.InfiniteSum.Real
import Mathlib.Topology.Algebra.InfiniteSum.Order
import Mathlib.Topology.Order.Compact
import Mathlib.Topology.Sequences
import Mathlib.Topology.MetricSpace.Bounded
import Mathlib.Analysis.SpecialFunctions.Log.Basic

/-! # Convergence of the Sinkhorn–Knopp iteration -/

set_option linter.unusedSectionVars false

namespace POT.Sinkhorn

open Finset Spec Filter Topology

variable {I J : Type*} [Fintype I] [Fintype J] [Nonempty I] [Nonempty J]
variable {a : I → ℝ} {b : J → ℝ} {K : I → J → ℝ}

theorem colSum_pos (hK : ∀ i j, 0 < K i j) {s : UV I J} (hs : Pos s) (j : J) : 0 < colSum K s j :=
  sum_pos (fun i _ => plan_pos hK hs i j) univ_nonempty

theorem kl_col_nonneg (hK : ∀ i j, 0 < K i j) (hb : ∀ j, 0 < b j) {s : UV I J} (hs : Pos s) :
    0 ≤ klDivergence b (colSum K s) := klDivergence_nonneg (fun j => (hb j).le) (colSum_pos hK hs)

theorem kl_antitone (hK : ∀ i j, 0 < K i j) (ha : ∀ i, 0 < a i) (hb : ∀ j, 0 < b j) {s : UV I J} (hs : Pos s)
    {Q : I → J → ℝ} (hQ : IsCoupling a b Q) :
    Antitone fun k => klPlan Q (plan K ((knoppStep a b K)^[k] s)) := by
  refine antitone_nat_of_succ_le fun k => ?_
  have hk := knoppIter_pos hK ha hb hs k
  have h1 := kl_step hK ha hb hk hQ
  have h2 := kl_col_nonneg hK hb hk
  rw [Function.iterate_succ_apply']
  linarith

theorem kl_sum (hK : ∀ i j, 0 < K i j) (ha : ∀ i, 0 < a i) (hb : ∀ j, 0 < b j) {s : UV I J} (hs : Pos s)
    {Q : I → J → ℝ} (hQ : IsCoupling a b Q) (n : ℕ) :
    ∑ l ∈ range n, klDivergence b (colSum K ((knoppStep a b K)^[l] s)) ≤ klPlan Q (plan K s) := by
  suffices h : klPlan Q (plan K ((knoppStep a b K)^[n] s)) +
      ∑ l ∈ range n, klDivergence b (colSum K ((knoppStep a b K)^[l] s)) ≤ klPlan Q (plan K s) by
    have := klPlan_nonneg hQ.nonneg (plan_pos hK (knoppIter_pos hK ha hb hs n))
    linarith
  induction n with
  | zero => simp
  | succ n ih =>
    have h1 := kl_step hK ha hb (knoppIter_pos hK ha hb hs n) hQ
    rw [sum_range_succ, Function.iterate_succ_apply']
    linarith

/-- Row sums of every iterate after the first update. -/
theorem iter_rows (hK : ∀ i j, 0 < K i j) (ha : ∀ i, 0 < a i) (hb : ∀ j, 0 < b j) {s : UV I J} (hs : Pos s) (k : ℕ) (i : I) :
    ∑ j, plan K ((knoppStep a b K)^[k + 1] s) i j = a i := by
  rw [Function.iterate_succ_apply']
  exact knoppStep_rows hK (weights_of_pos hb) (good_of_pos (knoppIter_pos hK ha hb hs k).1) i

theorem iter_le (hK : ∀ i j, 0 < K i j) (ha : ∀ i, 0 < a i) (hb : ∀ j, 0 < b j) {s : UV I J} (hs : Pos s) (k : ℕ) (i : I) (j : J) :
    plan K ((knoppStep a b K)^[k + 1] s) i j ≤ ∑ i, a i := by
  have h1 : plan K ((knoppStep a b K)^[k + 1] s) i j ≤ a i := by
    rw [← iter_rows hK ha hb hs k i]
    exact single_le_sum (f := fun j => plan K ((knoppStep a b K)^[k + 1] s) i j)
      (fun j _ => (plan_pos hK (knoppIter_pos hK ha hb hs (k + 1)) i j).le) (mem_univ j)
  exact h1.trans (single_le_sum (fun i _ => (ha i).le) (mem_univ i))

theorem iter_col_le (hK : ∀ i j, 0 < K i j) (ha : ∀ i, 0 < a i) (hb : ∀ j, 0 < b j) {s : UV I J} (hs : Pos s) (k : ℕ) (j : J) :
    colSum K ((knoppStep a b K)^[k + 1] s) j ≤ ∑ i, a i := by
  refine sum_le_sum fun i _ => ?_
  rw [← iter_rows hK ha hb hs k i]
  exact single_le_sum (f := fun j => plan K ((knoppStep a b K)^[k + 1] s) i j)
    (fun j _ => (plan_pos hK (knoppIter_pos hK ha hb hs (k + 1)) i j).le) (mem_univ j)

/-- The marginal error is controlled by the decrease of the divergence. -/
theorem err_le (hK : ∀ i j, 0 < K i j) (ha : ∀ i, 0 < a i) (hb : ∀ j, 0 < b j) (hS : ∑ i, a i = ∑ j, b j) {s : UV I J}
    (hs : Pos s) (k : ℕ) :
    ∑ j, (colSum K ((knoppStep a b K)^[k + 1] s) j - b j) ^ 2
      ≤ 4 * (∑ i, a i) * klDivergence b (colSum K ((knoppStep a b K)^[k + 1] s)) := by
  refine sq_dist_le_kl (fun j => (hb j).le) (colSum_pos hK (knoppIter_pos hK ha hb hs (k + 1))) (fun j => ?_)
    (iter_col_le hK ha hb hs k) (sum_nonneg fun i _ => (ha i).le)
  rw [hS]
  exact single_le_sum (fun j _ => (hb j).le) (mem_univ j)

/-- The product coupling. -/
theorem prod_coupling (ha : ∀ i, 0 < a i) (hb : ∀ j, 0 < b j) (hS : ∑ i, a i = ∑ j, b j) :
    IsCoupling a b fun i j => a i * b j / ∑ i, a i := by
  have h : 0 < ∑ i, a i := sum_pos (fun i _ => ha i) univ_nonempty
  refine ⟨fun i j => div_nonneg (mul_nonneg (ha i).le (hb j).le) h.le, fun i => ?_, fun j => ?_⟩
  · rw [← sum_div, ← mul_sum, ← hS, mul_div_assoc, div_self h.ne', mul_one]
  · rw [← sum_div, ← sum_mul, mul_comm, mul_div_assoc, div_self h.ne', mul_one]

theorem colErr_eq (s : UV I J) : colErr b K s = Real.sqrt (∑ j, (colSum K s j - b j) ^ 2) := rfl

/-- After `10 (T - 1) + 1` iterations some check has seen an error below the threshold. -/
theorem some_check (hK : ∀ i j, 0 < K i j) (ha : ∀ i, 0 < a i) (hb : ∀ j, 0 < b j) (hS : ∑ i, a i = ∑ j, b j) {s : UV I J}
    (hs : Pos s) {Q : I → J → ℝ} (hQ : IsCoupling a b Q) {D thr : ℝ} (hD : klPlan Q (plan K (knoppStep a b K s)) ≤ D)
    (hthr : 0 < thr) (T : ℕ) (hT : 4 * (∑ i, a i) * D < T * thr ^ 2) :
    ∃ t < T, colErr b K ((knoppStep a b K)^[10 * t + 1] s) < thr := by
  by_contra hcon
  push Not at hcon
  have hS0 : 0 < ∑ i, a i := sum_pos (fun i _ => ha i) univ_nonempty
  have key : ∀ n ≤ T, klPlan Q (plan K ((knoppStep a b K)^[10 * n + 1] s)) + n * (thr ^ 2 / (4 * ∑ i, a i)) ≤ D := by
    intro n
    induction n with
    | zero => simpa using hD
    | succ n ih =>
      intro hn
      have h1 := ih (by omega)
      have h2 := hcon n (by omega)
      rw [colErr_eq] at h2
      have h3 : thr ^ 2 ≤ ∑ j, (colSum K ((knoppStep a b K)^[10 * n + 1] s) j - b j) ^ 2 := by
        have := Real.le_sqrt' hthr |>.1 h2
        exact this
      have h4 := h3.trans (err_le hK ha hb hS hs (10 * n))
      have h5 : thr ^ 2 / (4 * ∑ i, a i) ≤ klDivergence b (colSum K ((knoppStep a b K)^[10 * n + 1] s)) := by
        rw [div_le_iff₀ (by positivity)]
        linarith
      have h6 := kl_step hK ha hb (knoppIter_pos hK ha hb hs (10 * n + 1)) hQ
      rw [← Function.iterate_succ_apply' (knoppStep a b K)] at h6
      have h7 := kl_antitone hK ha hb hs hQ (show (10 * n + 1).succ ≤ 10 * (n + 1) + 1 by omega)
      dsimp only at h7
      push_cast
      linarith
  have h1 := key T le_rfl
  have h2 := klPlan_nonneg hQ.nonneg (plan_pos hK (knoppIter_pos hK ha hb hs (10 * T + 1)))
  have h3 : (T : ℝ) * (thr ^ 2 / (4 * ∑ i, a i)) ≤ D := by linarith
  rw [← mul_div_assoc, div_le_iff₀ (by positivity)] at h3
  linarith

/-- Explicit divergence after one iteration from constant scalings. -/
theorem kl_first (hK : ∀ i j, 0 < K i j) (ha : ∀ i, 0 < a i) (hb : ∀ j, 0 < b j) (hS : ∑ i, a i = ∑ j, b j) {lo hi c : ℝ}
    (hlo : 0 < lo) (hKlo : ∀ i j, lo ≤ K i j) (hKhi : ∀ i j, K i j ≤ hi) (hc : 0 < c) {s : UV I J} (hs : ∀ i, s.u i = c) :
    klPlan (fun i j => a i * b j / ∑ i, a i) (plan K (knoppStep a b K s)) ≤ (∑ i, a i) * (2 * Real.log (hi / lo)) := by
  have hS0 : 0 < ∑ i, a i := sum_pos (fun i _ => ha i) univ_nonempty
  have hn : (0 : ℝ) < Fintype.card I := by positivity
  have hhi : 0 < hi := (hK (Classical.arbitrary I) (Classical.arbitrary J)).trans_le (hKhi _ _)
  have hg : Good s := good_of_pos fun i => by rw [hs]; exact hc
  obtain ⟨v, hv⟩ : ∃ v, (knoppStep a b K s).v = v := ⟨_, rfl⟩
  have hv1 : ∀ j, b j / (Fintype.card I * c * hi) ≤ v j ∧ v j ≤ b j / (Fintype.card I * c * lo) := by
    intro j
    rw [← hv, knoppStep_v]
    have e : ∑ i, K i j * s.u i = (∑ i, K i j) * c := by
      rw [sum_mul]; exact sum_congr rfl fun i _ => by rw [hs]
    have e1 : ∑ i, K i j ≤ Fintype.card I * hi := by
      calc ∑ i, K i j ≤ ∑ _i : I, hi := sum_le_sum fun i _ => hKhi i j
        _ = _ := by simp
    have e2 : Fintype.card I * lo ≤ ∑ i, K i j := by
      calc Fintype.card I * lo = ∑ _i : I, lo := by simp
        _ ≤ _ := sum_le_sum fun i _ => hKlo i j
    have e3 : 0 < ∑ i, K i j := lt_of_lt_of_le (by positivity) e2
    rw [e]
    constructor
    · refine div_le_div_of_nonneg_left (hb j).le (by positivity) ?_
      nlinarith
    · refine div_le_div_of_nonneg_left (hb j).le (by positivity) ?_
      nlinarith
  have hkv : ∀ i, ∑ j, K i j * v j ≤ hi * ((∑ i, a i) / (Fintype.card I * c * lo)) := by
    intro i
    calc ∑ j, K i j * v j ≤ ∑ j, hi * (b j / (Fintype.card I * c * lo)) := by
          refine sum_le_sum fun j _ => mul_le_mul (hKhi i j) (hv1 j).2 ?_ hhi.le
          exact le_trans (div_nonneg (hb j).le (by positivity)) (hv1 j).1
      _ = _ := by rw [← mul_sum, ← sum_div, hS]
  have hkv0 : ∀ i, 0 < ∑ j, K i j * v j := by
    intro i
    rw [← hv]
    exact knoppStep_kv_pos hK (weights_of_pos hb) hg i
  have hP : ∀ i j, a i * b j / (∑ i, a i) * (lo / hi) ^ 2 ≤ plan K (knoppStep a b K s) i j := by
    intro i j
    have e : plan K (knoppStep a b K s) i j = a i * (K i j * v j) / ∑ j, K i j * v j := by
      unfold plan
      rw [knoppStep_u, hv]
      ring
    rw [e, le_div_iff₀ (hkv0 i)]
    have h1 : lo * (b j / (Fintype.card I * c * hi)) ≤ K i j * v j :=
      mul_le_mul (hKlo i j) (hv1 j).1 (div_nonneg (hb j).le (by positivity)) (hK i j).le
    calc a i * b j / (∑ i, a i) * (lo / hi) ^ 2 * ∑ j, K i j * v j
        ≤ a i * b j / (∑ i, a i) * (lo / hi) ^ 2 * (hi * ((∑ i, a i) / (Fintype.card I * c * lo))) := by
          refine mul_le_mul_of_nonneg_left (hkv i) ?_
          have := ha i
          have := hb j
          positivity
      _ = a i * (lo * (b j / (Fintype.card I * c * hi))) := by
          field_simp
      _ ≤ a i * (K i j * v j) := mul_le_mul_of_nonneg_left h1 (ha i).le
  have hrow : ∀ i, ∑ j, plan K (knoppStep a b K s) i j = a i := knoppStep_rows hK (weights_of_pos hb) hg
  rw [klPlan_eq]
  have h0 : ∀ i j, 0 < a i * b j / ∑ i, a i := fun i j => div_pos (mul_pos (ha i) (hb j)) hS0
  have hlr : 0 < lo / hi := div_pos hlo hhi
  have hbound : ∀ i j, (a i * b j / ∑ i, a i) * Real.log ((a i * b j / ∑ i, a i) / plan K (knoppStep a b K s) i j)
      - (a i * b j / ∑ i, a i) + plan K (knoppStep a b K s) i j
      ≤ (a i * b j / ∑ i, a i) * (2 * Real.log (hi / lo)) - (a i * b j / ∑ i, a i) + plan K (knoppStep a b K s) i j := by
    intro i j
    have h1 := hP i j
    have h2 : 0 < plan K (knoppStep a b K s) i j := lt_of_lt_of_le (mul_pos (h0 i j) (by positivity)) h1
    have h3 : Real.log ((a i * b j / ∑ i, a i) / plan K (knoppStep a b K s) i j) ≤ 2 * Real.log (hi / lo) := by
      have e : 2 * Real.log (hi / lo) = Real.log ((hi / lo) ^ 2) := by
        rw [Real.log_pow]; norm_num
      rw [e]
      refine Real.log_le_log (div_pos (h0 i j) h2) ?_
      rw [div_le_iff₀ h2]
      calc a i * b j / ∑ i, a i = (hi / lo) ^ 2 * (a i * b j / (∑ i, a i) * (lo / hi) ^ 2) := by
            field_simp
        _ ≤ _ := mul_le_mul_of_nonneg_left h1 (by positivity)
    have := mul_le_mul_of_nonneg_left h3 (h0 i j).le
    linarith
  calc _ ≤ ∑ i, ∑ j, ((a i * b j / ∑ i, a i) * (2 * Real.log (hi / lo)) - (a i * b j / ∑ i, a i)
          + plan K (knoppStep a b K s) i j) := sum_le_sum fun i _ => sum_le_sum fun j _ => hbound i j
    _ = (∑ i, a i) * (2 * Real.log (hi / lo)) := by
      have e := prod_coupling ha hb hS
      have : ∀ i, ∑ j, ((a i * b j / ∑ i, a i) * (2 * Real.log (hi / lo)) - (a i * b j / ∑ i, a i)
          + plan K (knoppStep a b K s) i j) = a i * (2 * Real.log (hi / lo)) := by
        intro i
        rw [sum_add_distrib, sum_sub_distrib, hrow, ← sum_mul, e.row i]
        ring
      rw [sum_congr rfl fun i _ => this i, ← sum_mul]

/-- The marginal error tends to zero. -/
theorem col_tendsto (hK : ∀ i j, 0 < K i j) (ha : ∀ i, 0 < a i) (hb : ∀ j, 0 < b j) (hS : ∑ i, a i = ∑ j, b j) {s : UV I J}
    (hs : Pos s) (j : J) : Tendsto (fun k => colSum K ((knoppStep a b K)^[k + 1] s) j) atTop (𝓝 (b j)) := by
  have hsum : Summable fun k => klDivergence b (colSum K ((knoppStep a b K)^[k] s)) :=
    summable_of_sum_range_le (fun k => kl_col_nonneg hK hb (knoppIter_pos hK ha hb hs k))
      (kl_sum hK ha hb hs (prod_coupling ha hb hS))
  have h0 := (hsum.tendsto_atTop_zero).comp (tendsto_add_atTop_nat 1)
  have h1 : Tendsto (fun k => 4 * (∑ i, a i) * klDivergence b (colSum K ((knoppStep a b K)^[k + 1] s))) atTop (𝓝 0) := by
    have := h0.const_mul (4 * ∑ i, a i)
    rw [mul_zero] at this
    exact this
  have h2 : Tendsto (fun k => (colSum K ((knoppStep a b K)^[k + 1] s) j - b j) ^ 2) atTop (𝓝 0) := by
    refine squeeze_zero (fun k => sq_nonneg _) (fun k => ?_) h1
    refine le_trans ?_ (err_le hK ha hb hS hs k)
    exact single_le_sum (f := fun j => (colSum K ((knoppStep a b K)^[k + 1] s) j - b j) ^ 2) (fun j _ => sq_nonneg _) (mem_univ j)
  have h3 := h2.sqrt
  rw [Real.sqrt_zero] at h3
  have h4 : Tendsto (fun k => colSum K ((knoppStep a b K)^[k + 1] s) j - b j) atTop (𝓝 0) := by
    rw [tendsto_zero_iff_abs_tendsto_zero]
    refine h3.congr fun k => ?_
    rw [Real.sqrt_sq_eq_abs]
    rfl
  have := h4.add_const (b j)
  simpa using this

/-- A uniform lower bound on the entries of the iterates. -/
theorem iter_ge (hK : ∀ i j, 0 < K i j) (ha : ∀ i, 0 < a i) (hb : ∀ j, 0 < b j) (hS : ∑ i, a i = ∑ j, b j) {s : UV I J}
    (hs : Pos s) (i : I) (j : J) : ∃ δ > 0, ∀ k, δ ≤ plan K ((knoppStep a b K)^[k] s) i j := by
  have hS0 : 0 < ∑ i, a i := sum_pos (fun i _ => ha i) univ_nonempty
  obtain ⟨q, hq⟩ : ∃ q, a i * b j / ∑ i, a i = q := ⟨_, rfl⟩
  have hq0 : 0 < q := hq ▸ div_pos (mul_pos (ha i) (hb j)) hS0
  obtain ⟨D, hD⟩ : ∃ D, klPlan (fun i j => a i * b j / ∑ i, a i) (plan K s) = D := ⟨_, rfl⟩
  refine ⟨Real.exp (Real.log q - (D + q) / q), Real.exp_pos _, fun k => ?_⟩
  have hp := knoppIter_pos hK ha hb hs k
  have hpl := plan_pos hK hp i j
  have h1 := klPlan_entry (prod_coupling ha hb hS).nonneg (plan_pos hK hp) i j
  have h2 := kl_antitone hK ha hb hs (prod_coupling ha hb hS) (Nat.zero_le k)
  dsimp only [Function.iterate_zero, id] at h1 h2
  rw [hD] at h2
  rw [hq] at h1
  have h3 : q * Real.log (q / plan K ((knoppStep a b K)^[k] s) i j) ≤ D + q := by linarith
  have h4 : Real.log (q / plan K ((knoppStep a b K)^[k] s) i j) ≤ (D + q) / q := by
    rw [le_div_iff₀ hq0]
    linarith
  rw [Real.log_div hq0.ne' hpl.ne'] at h4
  rw [← Real.le_log_iff_exp_le hpl]
  linarith

/-- **Convergence.** The plans converge entrywise to a positive coupling of the same diagonal-scaling form. -/
theorem exists_limit (hK : ∀ i j, 0 < K i j) (ha : ∀ i, 0 < a i) (hb : ∀ j, 0 < b j) (hS : ∑ i, a i = ∑ j, b j) {s : UV I J}
    (hs : Pos s) : ∃ P : I → J → ℝ, IsCoupling a b P ∧ (∀ i j, 0 < P i j) ∧
      (∃ (x : I → ℝ) (y : J → ℝ), ∀ i j, Real.log (P i j) = x i + y j + Real.log (K i j)) ∧
      ∀ i j, Tendsto (fun k => plan K ((knoppStep a b K)^[k] s) i j) atTop (𝓝 (P i j)) := by
  have hcomp : IsCompact (Set.pi Set.univ fun _ : I => Set.pi Set.univ fun _ : J => Set.Icc (0 : ℝ) (∑ i, a i)) :=
    isCompact_univ_pi fun _ => isCompact_univ_pi fun _ => isCompact_Icc
  obtain ⟨P, -, φ, hφ, hlim⟩ := hcomp.tendsto_subseq (x := fun k => plan K ((knoppStep a b K)^[k + 1] s))
    (fun k => fun i _ j _ => ⟨(plan_pos hK (knoppIter_pos hK ha hb hs (k + 1)) i j).le, iter_le hK ha hb hs k i j⟩)
  have hlim' : ∀ i j, Tendsto (fun n => plan K ((knoppStep a b K)^[φ n + 1] s) i j) atTop (𝓝 (P i j)) := by
    intro i j
    exact (tendsto_pi_nhds.1 ((tendsto_pi_nhds.1 hlim) i)) j
  have hPpos : ∀ i j, 0 < P i j := by
    intro i j
    obtain ⟨δ, hδ, hge⟩ := iter_ge hK ha hb hS hs i j
    exact lt_of_lt_of_le hδ (ge_of_tendsto' (hlim' i j) fun n => hge _)
  have hrow : ∀ i, ∑ j, P i j = a i := by
    intro i
    have h1 : Tendsto (fun n => ∑ j, plan K ((knoppStep a b K)^[φ n + 1] s) i j) atTop (𝓝 (∑ j, P i j)) :=
      tendsto_finsetSum _ fun j _ => hlim' i j
    refine tendsto_nhds_unique h1 ?_
    simp only [iter_rows hK ha hb hs]
    exact tendsto_const_nhds
  have hcol : ∀ j, ∑ i, P i j = b j := by
    intro j
    have h1 : Tendsto (fun n => ∑ i, plan K ((knoppStep a b K)^[φ n + 1] s) i j) atTop (𝓝 (∑ i, P i j)) :=
      tendsto_finsetSum _ fun i _ => hlim' i j
    exact tendsto_nhds_unique h1 ((col_tendsto hK ha hb hS hs j).comp hφ.tendsto_atTop)
  have hPc : IsCoupling a b P := ⟨fun i j => (hPpos i j).le, hrow, hcol⟩
  refine ⟨P, hPc, hPpos, ?_, ?_⟩
  · -- the four-point condition is closed
    have hW : ∀ i j, Tendsto (fun n => Real.log (plan K ((knoppStep a b K)^[φ n + 1] s) i j) - Real.log (K i j)) atTop
        (𝓝 (Real.log (P i j) - Real.log (K i j))) := fun i j => ((hlim' i j).log (hPpos i j).ne').sub_const _
    have hf : ∀ n i j, Real.log (plan K ((knoppStep a b K)^[n] s) i j) - Real.log (K i j)
        = Real.log (((knoppStep a b K)^[n] s).u i) + Real.log (((knoppStep a b K)^[n] s).v j) := by
      intro n i j
      have hp := knoppIter_pos hK ha hb hs n
      unfold plan
      rw [Real.log_mul (mul_pos (hp.1 i) (hK i j)).ne' (hp.2 j).ne', Real.log_mul (hp.1 i).ne' (hK i j).ne']
      ring
    let i0 := Classical.arbitrary I
    let j0 := Classical.arbitrary J
    refine ⟨fun i => Real.log (P i j0) - Real.log (K i j0),
      fun j => (Real.log (P i0 j) - Real.log (K i0 j)) - (Real.log (P i0 j0) - Real.log (K i0 j0)), fun i j => ?_⟩
    have h1 := (hW i j).add (hW i0 j0)
    have h2 := (hW i j0).add (hW i0 j)
    have h3 := tendsto_nhds_unique h1 (h2.congr fun n => by simp only [hf]; ring)
    linarith
  · -- monotone divergence from the limit
    have hmono := kl_antitone hK ha hb hs hPc
    have hsub : Tendsto (fun n => klPlan P (plan K ((knoppStep a b K)^[φ n + 1] s))) atTop (𝓝 0) := by
      have h0 : (0 : ℝ) = ∑ i, ∑ j, (P i j * Real.log (P i j / P i j) - P i j + P i j) := by
        symm
        refine sum_eq_zero fun i _ => sum_eq_zero fun j _ => ?_
        rw [div_self (hPpos i j).ne', Real.log_one]
        ring
      rw [h0]
      simp only [klPlan_eq]
      refine tendsto_finsetSum _ fun i _ => tendsto_finsetSum _ fun j _ => ?_
      have h1 : Tendsto (fun n => P i j / plan K ((knoppStep a b K)^[φ n + 1] s) i j) atTop (𝓝 (P i j / P i j)) :=
        tendsto_const_nhds.div (hlim' i j) (hPpos i j).ne'
      have h2 := h1.log (div_pos (hPpos i j) (hPpos i j)).ne'
      exact ((h2.const_mul (P i j)).sub_const _).add (hlim' i j)
    have hall : Tendsto (fun k => klPlan P (plan K ((knoppStep a b K)^[k] s))) atTop (𝓝 0) := by
      rw [Metric.tendsto_atTop] at hsub ⊢
      intro ε hε
      obtain ⟨N, hN⟩ := hsub ε hε
      refine ⟨φ N + 1, fun k hk => ?_⟩
      have h1 := hN N le_rfl
      have h2 := hmono hk
      have h3 := klPlan_nonneg hPc.nonneg (plan_pos hK (knoppIter_pos hK ha hb hs k))
      rw [Real.dist_eq, sub_zero] at h1 ⊢
      rw [abs_of_nonneg h3]
      exact lt_of_le_of_lt h2 (lt_of_le_of_lt (le_abs_self _) h1)
    intro i j
    rw [← tendsto_add_atTop_iff_nat 1]
    have hall1 := (tendsto_add_atTop_iff_nat 1).2 hall
    have h1 : Tendsto (fun k => 4 * (∑ i, a i) * klPlan P (plan K ((knoppStep a b K)^[k + 1] s))) atTop (𝓝 0) := by
      have := hall1.const_mul (4 * ∑ i, a i)
      rw [mul_zero] at this
      exact this
    have h2 : Tendsto (fun k => (plan K ((knoppStep a b K)^[k + 1] s) i j - P i j) ^ 2) atTop (𝓝 0) := by
      refine squeeze_zero (fun k => sq_nonneg _) (fun k => ?_) h1
      refine le_trans ?_ (sq_dist_le_kl (p := fun x : I × J => P x.1 x.2)
        (q := fun x : I × J => plan K ((knoppStep a b K)^[k + 1] s) x.1 x.2) (S := ∑ i, a i) (fun x => (hPpos _ _).le)
        (fun x => plan_pos hK (knoppIter_pos hK ha hb hs (k + 1)) _ _)
        (fun x => (hPc.le_left x.1 x.2).trans (single_le_sum (fun i _ => (ha i).le) (mem_univ x.1)))
        (fun x => iter_le hK ha hb hs k _ _) (sum_nonneg fun i _ => (ha i).le))
      exact single_le_sum (f := fun x : I × J => (plan K ((knoppStep a b K)^[k + 1] s) x.1 x.2 - P x.1 x.2) ^ 2)
        (fun x _ => sq_nonneg _) (mem_univ (i, j))
    have h3 := h2.sqrt
    rw [Real.sqrt_zero] at h3
    have h4 : Tendsto (fun k => plan K ((knoppStep a b K)^[k + 1] s) i j - P i j) atTop (𝓝 0) := by
      rw [tendsto_zero_iff_abs_tendsto_zero]
      refine h3.congr fun k => ?_
      rw [Real.sqrt_sq_eq_abs]
      rfl
    have := h4.add_const (P i j)
    simpa using this

end POT.Sinkhorn
