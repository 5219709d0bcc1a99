import Verif.Props.SinkhornLog

/-!
# Several target histograms in one call (C32)
-/

set_option linter.unusedSectionVars false

namespace POT.Props

open Finset Spec Sinkhorn

variable {I J H : Type*} [Fintype I] [Fintype J] [Fintype H]

/-- Column `h` of the scalings. -/
def column (s : UVH I J H) (h : H) : UV I J := ⟨fun i => s.u i h, fun j => s.v j h⟩

theorem column_step (a : I → ℝ) (b : J → H → ℝ) (K : I → J → ℝ) (s : UVH I J H) (h : H) :
    column (knoppStepH a b K s) h = knoppStep a (fun j => b j h) K (column s h) := rfl

theorem column_iter (a : I → ℝ) (b : J → H → ℝ) (K : I → J → ℝ) (s : UVH I J H) (h : H) (k : ℕ) :
    column ((knoppStepH a b K)^[k] s) h = (knoppStep a (fun j => b j h) K)^[k] (column s h) := by
  induction k with
  | zero => rfl
  | succ k ih => rw [Function.iterate_succ_apply', Function.iterate_succ_apply', column_step, ih]

theorem colErrH_ge (b : J → H → ℝ) (K : I → J → ℝ) (s : UVH I J H) (h : H) :
    colErr (fun j => b j h) K (column s h) ≤ colErrH b K s := by
  unfold colErr colErrH norm2
  refine Real.sqrt_le_sqrt ?_
  rw [Fintype.sum_prod_type_right]
  exact single_le_sum (f := fun h => ∑ j, (∑ i, s.u i h * K i j * s.v j h - b j h) ^ 2)
    (fun h _ => sum_nonneg fun j _ => sq_nonneg _) (mem_univ h)

variable [Nonempty I] [Nonempty J] [Nonempty H]

/-- **C32, `sinkhorn_knopp` (partial).** With positive weights and `b` of shape `(m, h)`, every `h ≥ 1`: all histograms run through exactly the iterates of their
separate runs, for one common number `k` of iterations; no numerical error occurs; the returned loss of each histogram is the cost of its plan
after `k` iterations, whose row sums are exactly `a`; and if the call ends by its test, each histogram's own error is below the
threshold. What fails is that `k` is the number of iterations of the separate call, see `C32_joint_stopping_refuted`. -/
theorem C32_knopp_partial (a : I → ℝ) (b : J → H → ℝ) (M : I → J → ℝ) (reg : ℝ) (n : ℕ) (hn : 0 < n) (thr : ℝ)
    (ha : ∀ i, 0 < a i) (hb : ∀ j h, 0 < b j h) :
    let r := sinkhornKnoppH a b M reg n thr
    r.exit ≠ .numerical ∧ ∃ k, 1 ≤ k ∧ k ≤ n ∧ ∀ h,
      let t := (knoppStep a (fun j => b j h) (kernel M reg))^[k] (knoppInit none)
      (∀ i, r.s.u i h = t.u i) ∧ (∀ j, r.s.v j h = t.v j) ∧ lossH (kernel M reg) M r.s h = cost M (plan (kernel M reg) t) ∧
      (∀ i, ∑ j, plan (kernel M reg) t i j = a i) ∧
      (r.exit = .converged → norm2 (fun j => ∑ i, plan (kernel M reg) t i j - b j h) < thr) := by
  intro r
  have hK := kernel_pos M reg
  obtain ⟨k, hk, e, -, -, x1, x2, x3⟩ := loop_spec (step := knoppStepH a b (kernel M reg)) (bad := knoppBadH a b (kernel M reg))
    (stop := fun ii _ s => ii % 10 = 0 ∧ colErrH b (kernel M reg) s < thr) n 0
    { u := fun _ _ => 1 / (Fintype.card I : ℝ), v := fun _ _ => 1 / (Fintype.card J : ℝ) }
  have e' : r.s = _ := e
  have hcol : ∀ k h, column ((knoppStepH a b (kernel M reg))^[k]
      { u := fun _ _ => 1 / (Fintype.card I : ℝ), v := fun _ _ => 1 / (Fintype.card J : ℝ) }) h
      = (knoppStep a (fun j => b j h) (kernel M reg))^[k] (knoppInit none) := fun k h => column_iter a b _ _ h k
  have hpos : ∀ k h, Pos ((knoppStep a (fun j => b j h) (kernel M reg))^[k] (knoppInit none)) := fun k h =>
    knoppIter_pos hK ha (fun j => hb j h) (knoppInit_pos none) k
  have hnum : r.exit ≠ .numerical := by
    intro h
    have hbad := (x3 h).2
    have hnb : ∀ h', ¬ knoppBad a (fun j => b j h') (kernel M reg) (column ((knoppStepH a b (kernel M reg))^[k]
      { u := fun _ _ => 1 / (Fintype.card I : ℝ), v := fun _ _ => 1 / (Fintype.card J : ℝ) }) h') := by
      intro h'
      rw [hcol]
      exact not_knoppBad hK (weights_of_pos fun j => hb j h') (Or.inl ha) (good_of_pos (hpos k h').1)
    rcases hbad with ⟨j, h', hz⟩ | ⟨i, h', hi, hz⟩ | ⟨i, j, h', hi, -⟩
    · exact hnb h' (Or.inl ⟨j, hz⟩)
    · exact hnb h' (Or.inr (Or.inl ⟨i, hi, hz⟩))
    · exact (ha i).ne' hi
  refine ⟨hnum, k, ?_, hk, fun h => ?_⟩
  · rcases h : r.exit with _ | _ | _
    · obtain ⟨m, hm, -⟩ := x2 h
      omega
    · rw [x1 h]; omega
    · exact absurd h hnum
  · intro t
    have hc : column r.s h = t := by rw [e']; exact hcol k h
    refine ⟨fun i => by rw [← hc]; rfl, fun j => by rw [← hc]; rfl, ?_, ?_, fun hcv => ?_⟩
    · rw [← hc]; rfl
    · have hk1 : ∃ m, k = m + 1 := by
        rcases h : r.exit with _ | _ | _
        · obtain ⟨m, hm, -⟩ := x2 h
          exact ⟨m, hm⟩
        · exact ⟨n - 1, by rw [x1 h]; omega⟩
        · exact absurd h hnum
      obtain ⟨m, rfl⟩ := hk1
      exact iter_rows hK ha (fun j => hb j h) (knoppInit_pos none) m
    · obtain ⟨m, rfl, -, -, h4⟩ := x2 hcv
      have := colErrH_ge b (kernel M reg) r.s h
      rw [hc] at this
      refine lt_of_le_of_lt this ?_
      rw [e']
      exact h4

/-- **C32, `sinkhorn_log`, at least two histograms.** The result is exactly the list of results of the separate calls. -/
theorem C32_log_several (a : I → ℝ) (bs : List (J → ℝ)) (M : I → J → ℝ) (reg : ℝ) (n : ℕ) (thr : ℝ) (h : 2 ≤ bs.length) :
    sinkhornLogH a bs M reg n thr = some (bs.map fun b => cost M (logPlan M reg (sinkhornLog a b M reg n thr none).s)) := by
  unfold sinkhornLogH
  rw [if_pos (by omega)]
  simp only [Option.some.injEq]
  clear h
  induction bs with
  | nil => rfl
  | cons b bs ih =>
    simp only [List.length_cons, List.replicate_succ, List.zipWith_cons_cons, List.map_cons]
    rw [ih]

/-- **C32 refuted for `sinkhorn_log` with one histogram.** `b` of shape `(m, 1)` without warm start raises an exception, for every input. -/
theorem C32_log_single_histogram_fails (a : I → ℝ) (b : J → ℝ) (M : I → J → ℝ) (reg : ℝ) (n : ℕ) (thr : ℝ) :
    sinkhornLogH a [b] M reg n thr = none := by
  simp [sinkhornLogH]

end POT.Props

namespace POT.Props

open Finset Spec Sinkhorn

/-- The cost used in the counterexample: `M = [[0, log 2], [0, 0]]`, so that the kernel for `reg = 1` is `[[1, 1/2], [1, 1]]`. -/
noncomputable def exM : Fin 2 → Fin 2 → ℝ := ![![0, Real.log 2], ![0, 0]]

theorem exK : kernel exM 1 = ![![1, 1 / 2], ![1, 1]] := by
  have hk : Real.exp (-Real.log 2) = 1 / 2 := by rw [Real.exp_neg, Real.exp_log two_pos]; norm_num
  funext i j
  fin_cases i <;> fin_cases j <;> simp [kernel, exM, hk, div_neg]

/-- **C32 refuted for the stopping of `sinkhorn_knopp`.** Uniform `a` on two points, histograms `(1/2, 1/2)` and `(1/10, 9/10)`, threshold `11/500`, at most two
iterations: called alone the first histogram stops after one iteration with loss `(1/5) log 2`; in the joint call the combined error has not yet
passed the test, a second iteration is made and the loss is another number. -/
theorem C32_joint_stopping_refuted :
    cost exM (plan (kernel exM 1) (sinkhornKnopp (fun _ => 1 / 2) (fun _ : Fin 2 => (1 / 2 : ℝ)) exM 1 2 (11 / 500) none).s)
      ≠ lossH (kernel exM 1) exM (sinkhornKnoppH (fun _ => 1 / 2) (fun (j h : Fin 2) => if h = 0 then 1 / 2 else ![1 / 10, 9 / 10] j) exM 1 2
          (11 / 500)).s 0 := by
  have hlog : Real.log 2 ≠ 0 := (Real.log_pos (by norm_num)).ne'
  have c1 : Fintype.card (Fin 2) = 2 := by simp
  -- first histogram: one iteration
  have v1 : ∀ j, (knoppStep (fun _ : Fin 2 => (1 / 2 : ℝ)) (fun _ : Fin 2 => (1 / 2 : ℝ)) (kernel exM 1) (knoppInit none)).v j = ![1 / 2, 2 / 3] j := by
    intro j
    rw [knoppStep_v, exK]
    fin_cases j <;> simp [knoppInit, Fin.sum_univ_two] <;> norm_num
  have u1 : ∀ i, (knoppStep (fun _ : Fin 2 => (1 / 2 : ℝ)) (fun _ : Fin 2 => (1 / 2 : ℝ)) (kernel exM 1) (knoppInit none)).u i = ![3 / 5, 3 / 7] i := by
    intro i
    rw [knoppStep_u]
    simp only [v1, Fin.sum_univ_two]
    simp only [exK]
    fin_cases i <;> simp <;> norm_num
  have hbad : ∀ (b : Fin 2 → ℝ), (∀ j, 0 < b j) → ∀ s : UV (Fin 2) (Fin 2), (∀ i, 0 < s.u i) →
      ¬ knoppBad (fun _ : Fin 2 => (1 / 2 : ℝ)) b (kernel exM 1) s := fun b hb s hs =>
    not_knoppBad (kernel_pos _ _) (weights_of_pos hb) (Or.inl fun _ => by norm_num) (good_of_pos hs)
  have hb1 : ∀ _j : Fin 2, (0 : ℝ) < 1 / 2 := fun _ => by norm_num
  have err1 : colErr (fun _ : Fin 2 => (1 / 2 : ℝ)) (kernel exM 1)
      (knoppStep (fun _ : Fin 2 => (1 / 2 : ℝ)) (fun _ : Fin 2 => (1 / 2 : ℝ)) (kernel exM 1) (knoppInit none)) < 11 / 500 := by
    unfold colErr norm2
    rw [Real.sqrt_lt' (by norm_num)]
    simp only [u1, v1, Fin.sum_univ_two]
    simp only [exK]
    simp
    norm_num
  have hinit : ∀ i, 0 < (knoppInit none : UV (Fin 2) (Fin 2)).u i := (knoppInit_pos none).1
  have run1 : (sinkhornKnopp (fun _ => 1 / 2) (fun _ : Fin 2 => (1 / 2 : ℝ)) exM 1 2 (11 / 500) none).s
      = knoppStep (fun _ : Fin 2 => (1 / 2 : ℝ)) (fun _ : Fin 2 => (1 / 2 : ℝ)) (kernel exM 1) (knoppInit none) := by
    unfold sinkhornKnopp loop
    dsimp only
    rw [if_neg (hbad _ hb1 _ hinit), if_pos ⟨by norm_num, err1⟩]
  -- the joint run: two iterations
  obtain ⟨b, hbdef⟩ : ∃ b : Fin 2 → Fin 2 → ℝ, b = fun (j h : Fin 2) => if h = 0 then 1 / 2 else ![1 / 10, 9 / 10] j := ⟨_, rfl⟩
  rw [← hbdef]
  have hb0 : (fun j => b j 0) = fun _ : Fin 2 => (1 / 2 : ℝ) := by funext j; rw [hbdef]; simp
  have hb1' : (fun j => b j 1) = ![1 / 10, 9 / 10] := by funext j; rw [hbdef]; simp
  have hbpos : ∀ j h, 0 < b j h := by
    intro j h
    rw [hbdef]
    fin_cases j <;> fin_cases h <;> norm_num
  obtain ⟨s0, hs0⟩ : ∃ s0 : UVH (Fin 2) (Fin 2) (Fin 2), s0 = { u := fun _ _ => 1 / (Fintype.card (Fin 2) : ℝ), v := fun _ _ => 1 / (Fintype.card (Fin 2) : ℝ) } := ⟨_, rfl⟩
  have hc0 : ∀ h, column s0 h = knoppInit none := fun h => by rw [hs0]; rfl
  have hnb : ∀ s : UVH (Fin 2) (Fin 2) (Fin 2), (∀ h i, 0 < (column s h).u i) → ¬ knoppBadH (fun _ : Fin 2 => (1 / 2 : ℝ)) b (kernel exM 1) s := by
    intro s hs hz
    rcases hz with ⟨j, h, hz⟩ | ⟨i, h, hi, hz⟩ | ⟨i, j, h, hi, -⟩
    · exact hbad _ (fun j => hbpos j h) (column s h) (hs h) (Or.inl ⟨j, hz⟩)
    · exact hbad _ (fun j => hbpos j h) (column s h) (hs h) (Or.inr (Or.inl ⟨i, hi, hz⟩))
    · norm_num at hi
  have v2 : ∀ j, (knoppStep (fun _ : Fin 2 => (1 / 2 : ℝ)) ![1 / 10, 9 / 10] (kernel exM 1) (knoppInit none)).v j = ![1 / 10, 6 / 5] j := by
    intro j
    rw [knoppStep_v, exK]
    fin_cases j <;> simp [knoppInit, Fin.sum_univ_two] <;> norm_num
  have u2 : ∀ i, (knoppStep (fun _ : Fin 2 => (1 / 2 : ℝ)) ![1 / 10, 9 / 10] (kernel exM 1) (knoppInit none)).u i = ![5 / 7, 5 / 13] i := by
    intro i
    rw [knoppStep_u]
    simp only [v2, Fin.sum_univ_two]
    simp only [exK]
    fin_cases i <;> simp <;> norm_num
  have hcol1 : column (knoppStepH (fun _ : Fin 2 => (1 / 2 : ℝ)) b (kernel exM 1) s0) 0
      = knoppStep (fun _ : Fin 2 => (1 / 2 : ℝ)) (fun _ : Fin 2 => (1 / 2 : ℝ)) (kernel exM 1) (knoppInit none) := by
    rw [column_step, hb0, hc0]
  have hcol2 : column (knoppStepH (fun _ : Fin 2 => (1 / 2 : ℝ)) b (kernel exM 1) s0) 1
      = knoppStep (fun _ : Fin 2 => (1 / 2 : ℝ)) ![1 / 10, 9 / 10] (kernel exM 1) (knoppInit none) := by
    rw [column_step, hb1', hc0]
  have errH : ¬ colErrH b (kernel exM 1) (knoppStepH (fun _ : Fin 2 => (1 / 2 : ℝ)) b (kernel exM 1) s0) < 11 / 500 := by
    unfold colErrH norm2
    rw [Real.sqrt_lt' (by norm_num), not_lt, Fintype.sum_prod_type_right, Fin.sum_univ_two]
    have e1 : ∀ i, (knoppStepH (fun _ : Fin 2 => (1 / 2 : ℝ)) b (kernel exM 1) s0).u i 0 = ![3 / 5, 3 / 7] i := fun i => by
      rw [← u1, ← hcol1]; rfl
    have e2 : ∀ j, (knoppStepH (fun _ : Fin 2 => (1 / 2 : ℝ)) b (kernel exM 1) s0).v j 0 = ![1 / 2, 2 / 3] j := fun j => by
      rw [← v1, ← hcol1]; rfl
    have e3 : ∀ i, (knoppStepH (fun _ : Fin 2 => (1 / 2 : ℝ)) b (kernel exM 1) s0).u i 1 = ![5 / 7, 5 / 13] i := fun i => by
      rw [← u2, ← hcol2]; rfl
    have e4 : ∀ j, (knoppStepH (fun _ : Fin 2 => (1 / 2 : ℝ)) b (kernel exM 1) s0).v j 1 = ![1 / 10, 6 / 5] j := fun j => by
      rw [← v2, ← hcol2]; rfl
    simp only [e1, e2, e3, e4, Fin.sum_univ_two]
    simp only [exK, hbdef]
    simp
    norm_num
  have runH : (sinkhornKnoppH (fun _ => 1 / 2) b exM 1 2 (11 / 500)).s
      = knoppStepH (fun _ : Fin 2 => (1 / 2 : ℝ)) b (kernel exM 1) (knoppStepH (fun _ : Fin 2 => (1 / 2 : ℝ)) b (kernel exM 1) s0) := by
    unfold sinkhornKnoppH
    dsimp only
    rw [← hs0]
    unfold loop
    rw [if_neg (hnb s0 fun h i => by rw [hc0]; exact hinit i), if_neg (fun h => errH h.2)]
    unfold loop
    rw [if_neg (hnb _ fun h i => ?_), if_neg (by norm_num)]
    · unfold loop
      rfl
    · rw [column_step, hc0]
      exact knoppStep_u_pos (kernel_pos _ _) (weights_of_pos fun j => hbpos j h) (good_of_pos hinit) (by norm_num)
  rw [run1, runH]
  have hl : ∀ s : UVH (Fin 2) (Fin 2) (Fin 2), lossH (kernel exM 1) exM s 0 = cost exM (plan (kernel exM 1) (column s 0)) := fun s => rfl
  rw [hl, column_step, hcol1, hb0]
  obtain ⟨t, ht⟩ : ∃ t, knoppStep (fun _ : Fin 2 => (1 / 2 : ℝ)) (fun _ : Fin 2 => (1 / 2 : ℝ)) (kernel exM 1) (knoppInit none) = t := ⟨_, rfl⟩
  rw [ht] at u1 v1 ⊢
  have v3 : ∀ j, (knoppStep (fun _ : Fin 2 => (1 / 2 : ℝ)) (fun _ : Fin 2 => (1 / 2 : ℝ)) (kernel exM 1) t).v j = ![35 / 72, 35 / 51] j := by
    intro j
    rw [knoppStep_v, exK]
    simp only [u1, Fin.sum_univ_two]
    fin_cases j <;> simp <;> norm_num
  have u3 : ∀ i, (knoppStep (fun _ : Fin 2 => (1 / 2 : ℝ)) (fun _ : Fin 2 => (1 / 2 : ℝ)) (kernel exM 1) t).u i
      = 1 / 2 / (![35 / 72 + 35 / 102, 35 / 72 + 35 / 51] : Fin 2 → ℝ) i := by
    intro i
    rw [knoppStep_u]
    simp only [v3, Fin.sum_univ_two]
    simp only [exK]
    fin_cases i <;> simp <;> norm_num
  unfold cost plan
  simp only [u1, v1, u3, v3, Fin.sum_univ_two]
  simp only [exK]
  simp [exM]
  norm_num

/-- Non-vacuity of C32: three histograms, one of them not uniform. -/
example : (sinkhornKnoppH (fun _ : Fin 2 => (1 / 2 : ℝ)) (fun (j : Fin 2) (h : Fin 3) => if h = 0 then 1 / 2 else ![1 / 10, 9 / 10] j) exM 1 20
    (1 / 1000)).exit ≠ .numerical :=
  (C32_knopp_partial _ _ exM 1 20 (by norm_num) (1 / 1000) (fun _ => by norm_num) (by
    intro j h
    fin_cases j <;> fin_cases h <;> norm_num)).1

end POT.Props
