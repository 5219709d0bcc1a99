import Verif.Model.Scaler
import Verif.Props.Sliced
import Mathlib.Tactic.Linarith
import Mathlib.Tactic.FieldSimp
import Mathlib.Tactic.Ring
import Mathlib.Tactic.NormNum
import Mathlib.Order.ConditionallyCompleteLattice.Basic
import Mathlib.Algebra.Order.BigOperators.Group.List

/-!
# C128: data scaling

`DataScaler` and `apply_scaler`, and the sliced distances with a scaler. Specification: `Verif/Spec/Scaler.lean`.
-/

set_option linter.unusedSectionVars false

namespace POT.Props

open Finset Spec Scaler

section

variable {B D : Type*} [DecidableEq B] [Fintype D]

/-! ## Columns -/

theorem colMean_eq (X : List (D → ℝ)) : colMean X = columnMean X := rfl

theorem colStd_eq (X : List (D → ℝ)) (d : D) : colStd X d = Real.sqrt (columnVar X d) := rfl

theorem columnVar_nonneg (X : List (D → ℝ)) (d : D) : 0 ≤ columnVar X d :=
  div_nonneg (List.sum_nonneg fun v hv => by obtain ⟨x, -, rfl⟩ := List.mem_map.1 hv; exact sq_nonneg _) (Nat.cast_nonneg _)

theorem colMin_spec : ∀ {X : List (D → ℝ)}, X ≠ [] → ∀ d, (∃ x ∈ X, x d = colMin X d) ∧ ∀ x ∈ X, colMin X d ≤ x d
  | [], h, _ => absurd rfl h
  | [x], _, d => ⟨⟨x, by simp, rfl⟩, fun y hy => by simp at hy; rw [hy]; exact le_rfl⟩
  | x :: y :: X, _, d => by
    obtain ⟨⟨z, hz, he⟩, hle⟩ := colMin_spec (X := y :: X) (by simp) d
    refine ⟨?_, fun w hw => ?_⟩
    · rcases le_total (x d) (colMin (y :: X) d) with h | h
      · exact ⟨x, by simp, by simp only [colMin]; rw [min_eq_left h]⟩
      · exact ⟨z, List.mem_cons_of_mem _ hz, by simp only [colMin]; rw [min_eq_right h, he]⟩
    · simp only [colMin]
      rcases List.mem_cons.1 hw with rfl | hw
      · exact min_le_left _ _
      · exact (min_le_right _ _).trans (hle w hw)

theorem colMax_spec : ∀ {X : List (D → ℝ)}, X ≠ [] → ∀ d, (∃ x ∈ X, x d = colMax X d) ∧ ∀ x ∈ X, x d ≤ colMax X d
  | [], h, _ => absurd rfl h
  | [x], _, d => ⟨⟨x, by simp, rfl⟩, fun y hy => by simp at hy; rw [hy]; exact le_rfl⟩
  | x :: y :: X, _, d => by
    obtain ⟨⟨z, hz, he⟩, hle⟩ := colMax_spec (X := y :: X) (by simp) d
    refine ⟨?_, fun w hw => ?_⟩
    · rcases le_total (x d) (colMax (y :: X) d) with h | h
      · exact ⟨z, List.mem_cons_of_mem _ hz, by simp only [colMax]; rw [max_eq_right h, he]⟩
      · exact ⟨x, by simp, by simp only [colMax]; rw [max_eq_left h]⟩
    · simp only [colMax]
      rcases List.mem_cons.1 hw with rfl | hw
      · exact le_max_left _ _
      · exact (hle w hw).trans (le_max_right _ _)

theorem colMin_eq (X : List (D → ℝ)) : colMin X = columnMin X := by
  funext d
  by_cases h : X = []
  · subst h; simp [columnMin, colMin]
  · obtain ⟨⟨z, hz, he⟩, hle⟩ := colMin_spec h d
    have : IsLeast {v | ∃ x ∈ X, x d = v} (colMin X d) := ⟨⟨z, hz, he⟩, by rintro v ⟨x, hx, rfl⟩; exact hle x hx⟩
    exact this.csInf_eq.symm

theorem colMax_eq (X : List (D → ℝ)) : colMax X = columnMax X := by
  funext d
  by_cases h : X = []
  · subst h; simp [columnMax, colMax]
  · obtain ⟨⟨z, hz, he⟩, hle⟩ := colMax_spec h d
    have : IsGreatest {v | ∃ x ∈ X, x d = v} (colMax X d) := ⟨⟨z, hz, he⟩, by rintro v ⟨x, hx, rfl⟩; exact hle x hx⟩
    exact this.csSup_eq.symm

open Classical in
/-- what scaling by the statistics of `rows` does to a row: constant features are shifted only, rows of length 0 are left alone -/
noncomputable def scaleRow (nm : Norm) (rows : List (D → ℝ)) (x : D → ℝ) : D → ℝ := fun d =>
  match nm with
  | .standard => if columnVar rows d = 0 then x d - columnMean rows d else (x d - columnMean rows d) / Real.sqrt (columnVar rows d)
  | .minmax => if columnMin rows d = columnMax rows d then x d - columnMin rows d else (x d - columnMin rows d) / (columnMax rows d - columnMin rows d)
  | .l2 => if x = 0 then 0 else x d / rowNorm x

theorem rowNorm_eq_zero (x : D → ℝ) : rowNorm x = 0 ↔ x = 0 := by
  unfold rowNorm
  rw [Real.sqrt_eq_zero (sum_nonneg fun _ _ => sq_nonneg _), sum_eq_zero_iff_of_nonneg fun _ _ => sq_nonneg _]
  constructor
  · intro h; funext d; simpa using h d (mem_univ d)
  · rintro rfl; simp

theorem l2Row_eq (rows : List (D → ℝ)) (x : D → ℝ) : l2Row x = scaleRow .l2 rows x := by
  funext d
  unfold l2Row scaleRow
  dsimp only
  by_cases h : x = 0
  · subst h; simp
  · have := (rowNorm_eq_zero x).not.2 h
    rw [if_neg h, if_neg (by exact this)]
    rfl

/-! ## The object -/

theorem concat_ok {X : Batch B D} {be : B} (h : X.hasBackend be) : concat X = .ok (be, X.rows) := by
  rcases X with ⟨b, X⟩ | Xs
  · have h : b = be := h
    subst h; rfl
  · obtain ⟨h1, h2⟩ : Xs ≠ [] ∧ ∀ e ∈ Xs, e.1 = be := h
    cases Xs with
    | nil => exact absurd rfl h1
    | cons e Xs =>
      have he : e.1 = be := h2 e (by simp)
      simp only [concat, List.length_cons, Nat.succ_ne_zero, if_false, List.map_cons, getBackend]
      rw [if_pos]
      · rw [he]; rfl
      · intro b hb
        obtain ⟨e', he', rfl⟩ := List.mem_map.1 hb
        rw [he, h2 e' (List.mem_cons_of_mem _ he')]

theorem concat_error {X : Batch B D} (h : ¬ ∃ be, X.hasBackend be) : concat X = .error .value := by
  rcases X with ⟨b, X⟩ | Xs
  · exact absurd ⟨b, rfl⟩ h
  · cases Xs with
    | nil => rfl
    | cons e Xs =>
      simp only [concat, List.length_cons, Nat.succ_ne_zero, if_false, List.map_cons, getBackend]
      rw [if_neg]
      · rfl
      · intro hall
        refine h ⟨e.1, by simp, fun e' he' => ?_⟩
        rcases List.mem_cons.1 he' with rfl | he'
        · rfl
        · exact hall e'.1 (List.mem_map_of_mem he')

theorem fit_error {X : Batch B D} (h : ¬ ∃ be, X.hasBackend be) (s : State B D) : fit s X = .error .value := by
  unfold fit; rw [concat_error h]; rfl

/-- the state is as after a fit on `F` -/
def FittedOn (F : Batch B D) (s : State B D) : Prop :=
  ∀ be, F.hasBackend be → s.fitted = true ∧ s.nx = some be ∧ ∀ X, applyOne s be X = .ok (X.map (scaleRow s.norm F.rows))

theorem fit_ok {F : Batch B D} {be : B} (h : F.hasBackend be) (s : State B D) : ∃ s', fit s F = .ok s' ∧ s'.norm = s.norm ∧ FittedOn F s' := by
  unfold fit
  rw [concat_ok h]
  refine ⟨_, rfl, ?_, ?_⟩
  · dsimp only; cases hn : s.norm <;> simp [hn]
  · intro be' h'
    have hb : be' = be := by
      rcases F with ⟨b, X⟩ | Xs
      · exact (h' : b = be').symm.trans h
      · obtain ⟨h1, h2⟩ : Xs ≠ [] ∧ ∀ e ∈ Xs, e.1 = be := h
        obtain ⟨h3, h4⟩ : Xs ≠ [] ∧ ∀ e ∈ Xs, e.1 = be' := h'
        obtain ⟨e, he⟩ := List.exists_mem_of_ne_nil _ h1
        rw [← h4 e he, h2 e he]
    subst hb
    dsimp only
    cases hn : s.norm
    · refine ⟨rfl, rfl, fun X => ?_⟩
      simp only [applyOne, ne_eq, not_true_eq_false, and_false, if_false, hn]
      refine congrArg _ (List.map_congr_left fun x _ => funext fun d => ?_)
      simp only [scaleRow, colStd_eq, colMean_eq, Real.sqrt_eq_zero (columnVar_nonneg _ d)]
      split_ifs <;> simp
    · refine ⟨rfl, rfl, fun X => ?_⟩
      simp only [applyOne, ne_eq, not_true_eq_false, and_false, if_false, hn]
      refine congrArg _ (List.map_congr_left fun x _ => funext fun d => ?_)
      simp only [scaleRow, colMin_eq, colMax_eq, eq_comm (a := columnMax _ d)]
      split_ifs <;> simp
    · refine ⟨rfl, rfl, fun X => ?_⟩
      simp only [applyOne, ne_eq, not_true_eq_false, and_false, if_false, hn]
      exact congrArg _ (List.map_congr_left fun x _ => l2Row_eq _ x)

theorem applyMany_ok {s : State B D} {f : (D → ℝ) → (D → ℝ)} (Xs : List (B × List (D → ℝ))) (h : ∀ e ∈ Xs, applyOne s e.1 e.2 = .ok (e.2.map f)) : applyMany s Xs = .ok (Xs.map fun e => (e.1, e.2.map f)) := by
  induction Xs with
  | nil => rfl
  | cons e Xs ih => simp only [applyMany, h e (by simp), ih fun e' he' => h e' (List.mem_cons_of_mem _ he'), List.map_cons]

theorem applyMany_error {s : State B D} {f : (D → ℝ) → (D → ℝ)} (Xs : List (B × List (D → ℝ))) (be : B) (h1 : ∀ X, applyOne s be X = .ok (X.map f)) (h2 : ∀ b, b ≠ be → ∀ X, applyOne s b X = .error .value) (h : ¬ ∀ e ∈ Xs, e.1 = be) : applyMany s Xs = .error .value := by
  induction Xs with
  | nil => exact absurd (by simp) h
  | cons e Xs ih =>
    by_cases he : e.1 = be
    · have : ¬ ∀ e ∈ Xs, e.1 = be := fun hall => h fun e' he' => by
        rcases List.mem_cons.1 he' with rfl | he'
        · exact he
        · exact hall e' he'
      simp only [applyMany, he, h1, ih this]
    · simp only [applyMany, h2 _ he]

/-- `transform` after a fit -/
theorem transform_fitted {F : Batch B D} {be : B} (h : F.hasBackend be) {s : State B D} (hs : FittedOn F s) (X : Batch B D) :
    (X.uses be → transform s X = .ok (X.mapRows (scaleRow s.norm F.rows)) ∧ applyTransform s X = .ok (X.mapRows (scaleRow s.norm F.rows))) ∧ (¬ X.uses be → transform s X = .error .value) := by
  obtain ⟨hf, hnx, happ⟩ := hs be h
  have herr : ∀ b, b ≠ be → ∀ X, applyOne s b X = .error .value := fun b hb X => by
    unfold applyOne
    rw [if_pos]
    rw [hnx]
    exact ⟨by simp, fun e => hb (Option.some.inj e).symm⟩
  have htr : transform s X = applyTransform s X := if_neg fun hh => by simp [hf] at hh
  rw [htr]
  rcases X with ⟨b, X⟩ | Xs
  · constructor
    · intro hb
      have hb : b = be := hb
      subst hb
      simp only [applyTransform, happ]
      exact ⟨rfl, rfl⟩
    · intro hb
      simp only [applyTransform, herr b hb]
      rfl
  · constructor
    · intro hb
      have := applyMany_ok (s := s) (f := scaleRow s.norm F.rows) Xs fun e he => by rw [hb e he]; exact happ _
      simp only [applyTransform, this]
      exact ⟨rfl, rfl⟩
    · intro hb
      simp only [applyTransform, applyMany_error Xs be happ herr hb]
      rfl

/-! ## Histories -/

open Classical in
/-- the batch a call fits on, if it does -/
noncomputable def fittedBatch : Call B D → Option (Batch B D)
  | .fit X | .fitTransform X => if ∃ be, X.hasBackend be then some X else none
  | .transform _ => none

open Classical in
/-- C128: after any history of calls, `transform` depends on the last successful fit only. Before it, `'l2'` scales rows and the others raise a `RuntimeError`; after it every array of the same backend is scaled row by row with the statistics of the rows
fitted on, and arrays of another backend raise a `ValueError`. Failed calls, transforms and earlier fits leave no trace. -/
theorem C128_history (norm : String) {s0 : State B D} (h0 : create norm = .ok s0) (h : List (Call B D)) (X : Batch B D) :
    transform (h.foldl after s0) X = match (h.filterMap fittedBatch).getLast? with
      | none => if s0.norm = .l2 then .ok (X.mapRows (scaleRow .l2 [])) else .error .runtime
      | some F => if ∃ be, F.hasBackend be ∧ X.uses be then .ok (X.mapRows (scaleRow s0.norm F.rows)) else .error .value := by
  have hinit : s0.nx = none ∧ s0.fitted = false := by
    unfold create at h0
    split_ifs at h0 <;> first | (injection h0 with h0; rw [← h0]; exact ⟨rfl, rfl⟩) | cases h0
  have key : (h.foldl after s0).norm = s0.norm ∧ match (h.filterMap fittedBatch).getLast? with
      | none => h.foldl after s0 = s0
      | some F => (∃ be, F.hasBackend be) ∧ FittedOn F (h.foldl after s0) := by
    induction h using List.reverseRecOn with
    | nil => exact ⟨rfl, rfl⟩
    | append_singleton h c ih =>
      rw [List.foldl_append, List.filterMap_append]
      have hc : (∃ F, (fittedBatch c = if ∃ be, F.hasBackend be then some F else none) ∧ ∀ s : State B D, after s c = match fit s F with | .ok s' => s' | .error _ => s) ∨ (fittedBatch c = none ∧ ∀ s : State B D, after s c = s) := by
        cases c with
        | fit F => exact .inl ⟨F, rfl, fun _ => rfl⟩
        | fitTransform F => exact .inl ⟨F, rfl, fun _ => rfl⟩
        | transform Y => exact .inr ⟨rfl, fun _ => rfl⟩
      rcases hc with ⟨F, h1, h2⟩ | ⟨h1, h2⟩
      · by_cases hF : ∃ be, F.hasBackend be
        · rw [if_pos hF] at h1
          obtain ⟨be, hbe⟩ := hF
          obtain ⟨s', hs', hn, hfo⟩ := fit_ok hbe (h.foldl after s0)
          have e1 : [c].foldl after (h.foldl after s0) = s' := by
            simp only [List.foldl_cons, List.foldl_nil, h2, hs']
          have e2 : ([c].filterMap fittedBatch) = [F] := by simp [h1]
          rw [e1, e2, List.getLast?_concat]
          exact ⟨hn.trans ih.1, ⟨be, hbe⟩, hfo⟩
        · have e1 : [c].foldl after (h.foldl after s0) = h.foldl after s0 := by
            simp only [List.foldl_cons, List.foldl_nil, h2, fit_error hF]
          rw [if_neg hF] at h1
          have e2 : ([c].filterMap fittedBatch) = [] := by simp [h1]
          rw [e1, e2, List.append_nil]
          exact ih
      · have e1 : [c].foldl after (h.foldl after s0) = h.foldl after s0 := by simp only [List.foldl_cons, List.foldl_nil, h2]
        have e2 : ([c].filterMap fittedBatch) = [] := by simp [h1]
        rw [e1, e2, List.append_nil]
        exact ih
  obtain ⟨hn, hk⟩ := key
  cases hl : (h.filterMap fittedBatch).getLast? with
  | none =>
    rw [hl] at hk
    dsimp only at hk ⊢
    rw [hk]
    unfold transform
    by_cases hl2 : s0.norm = .l2
    · rw [if_pos hl2, if_neg (by simp [hl2])]
      have happ : ∀ be X, applyOne s0 be X = .ok (X.map (scaleRow .l2 [])) := fun be X => by
        simp only [applyOne, hinit.1, hl2]
        simp only [ne_eq, not_true_eq_false, false_and, if_false]
        exact congrArg _ (List.map_congr_left fun x _ => l2Row_eq _ x)
      rcases X with ⟨b, X⟩ | Xs
      · simp only [applyTransform, happ]; rfl
      · simp only [applyTransform, applyMany_ok Xs fun e _ => happ e.1 e.2]; rfl
    · rw [if_neg hl2, if_pos ⟨hl2, hinit.2⟩]
  | some F =>
    rw [hl] at hk
    dsimp only at hk ⊢
    obtain ⟨⟨be, hbe⟩, hfo⟩ := hk
    have hx := transform_fitted hbe hfo X
    rw [hn] at hx
    by_cases hu : X.uses be
    · rw [if_pos ⟨be, hbe, hu⟩, (hx.1 hu).1]
    · rw [if_neg, hx.2 hu]
      rintro ⟨be', h1, h2⟩
      have : be' = be := by
        obtain ⟨-, e1, -⟩ := hfo be hbe
        obtain ⟨-, e2, -⟩ := hfo be' h1
        rw [e1] at e2
        exact (Option.some.inj e2).symm
      exact hu (this ▸ h2)

/-! ## What scaled data look like -/

theorem rows_mapRows (F : Batch B D) (f : (D → ℝ) → (D → ℝ)) : (F.mapRows f).rows = F.rows.map f := by
  rcases F with ⟨b, X⟩ | Xs
  · rfl
  · simp [Batch.mapRows, Batch.rows, List.map_flatten, Function.comp_def]

theorem uses_of_hasBackend {F : Batch B D} {be : B} (h : F.hasBackend be) : F.uses be := by
  rcases F with ⟨b, X⟩ | Xs
  · exact h
  · exact h.2

theorem hasBackend_mapRows {F : Batch B D} {be : B} (h : F.hasBackend be) (f : (D → ℝ) → (D → ℝ)) : (F.mapRows f).hasBackend be := by
  rcases F with ⟨b, X⟩ | Xs
  · exact h
  · exact ⟨by simpa [Batch.mapRows] using h.1, fun e he => by obtain ⟨e', he', rfl⟩ := List.mem_map.1 he; exact h.2 e' he'⟩

/-- fitting, then transforming a batch of the same backend -/
theorem fit_then {F : Batch B D} {be : B} (h : F.hasBackend be) (s : State B D) : ∃ s', fit s F = .ok s' ∧ (∀ X : Batch B D, X.uses be → transform s' X = .ok (X.mapRows (scaleRow s.norm F.rows))) ∧ fitTransform s F = .ok (F.mapRows (scaleRow s.norm F.rows)) := by
  obtain ⟨s', h1, h2, h3⟩ := fit_ok h s
  refine ⟨s', h1, fun X hX => ?_, ?_⟩
  · rw [((transform_fitted h h3 X).1 hX).1, h2]
  · unfold fitTransform
    rw [h1]
    dsimp only
    rw [((transform_fitted h h3 F).1 (uses_of_hasBackend h)).2, h2]

theorem sum_map_div (l : List (D → ℝ)) (f : (D → ℝ) → ℝ) (c : ℝ) : (l.map fun x => f x / c).sum = (l.map f).sum / c := by
  simp only [div_eq_mul_inv]
  exact List.sum_map_mul_right ..

theorem sum_map_sub_const (l : List (D → ℝ)) (f : (D → ℝ) → ℝ) (c : ℝ) : (l.map fun x => f x - c).sum = (l.map f).sum - l.length * c := by
  induction l with
  | nil => simp
  | cons x l ih => simp only [List.map_cons, List.sum_cons, ih, List.length_cons]; push_cast; ring

theorem sum_dev (l : List (D → ℝ)) (h : l ≠ []) (d : D) : (l.map fun x => x d - columnMean l d).sum = 0 := by
  have hl : (l.length : ℝ) ≠ 0 := by simpa using h
  rw [sum_map_sub_const l (fun x => x d), columnMean]
  field_simp
  ring

theorem dev_of_var_zero {l : List (D → ℝ)} (h : l ≠ []) {d : D} (hv : columnVar l d = 0) {x : D → ℝ} (hx : x ∈ l) : x d - columnMean l d = 0 := by
  have hl : (l.length : ℝ) ≠ 0 := by simpa using h
  have hs : (l.map fun x => (x d - columnMean l d) ^ 2).sum = 0 := by
    have := (div_eq_zero_iff.1 hv).resolve_right hl
    exact this
  have := List.single_le_sum (l := l.map fun x => (x d - columnMean l d) ^ 2) (fun v hv => by obtain ⟨x, -, rfl⟩ := List.mem_map.1 hv; exact sq_nonneg _) _ (List.mem_map_of_mem (f := fun x => (x d - columnMean l d) ^ 2) hx)
  rw [hs] at this
  exact pow_eq_zero_iff (two_ne_zero) |>.1 (le_antisymm this (sq_nonneg _))

/-- C128: `norm='standard'`: over all arrays fitted on together, every feature has mean 0 after scaling, and variance 1 unless it is constant, when it becomes 0. -/
theorem C128_standard {F : Batch B D} {be : B} (h : F.hasBackend be) (hne : F.rows ≠ []) {s : State B D} (hs : s.norm = .standard) : ∃ Y, fitTransform s F = .ok Y ∧ Y.hasBackend be ∧
    ∀ d, columnMean Y.rows d = 0 ∧ (columnVar F.rows d ≠ 0 → columnVar Y.rows d = 1) ∧ (columnVar F.rows d = 0 → ∀ y ∈ Y.rows, y d = 0) := by
  obtain ⟨s', -, -, h3⟩ := fit_then h s
  refine ⟨_, h3, hasBackend_mapRows h _, fun d => ?_⟩
  rw [rows_mapRows, hs]
  have hl : (F.rows.length : ℝ) ≠ 0 := by simpa using hne
  have hmean : columnMean (F.rows.map (scaleRow .standard F.rows)) d = 0 := by
    unfold columnMean
    rw [List.map_map, div_eq_zero_iff]
    left
    by_cases hv : columnVar F.rows d = 0
    · have : ((fun x : D → ℝ => x d) ∘ scaleRow .standard F.rows) = fun x => x d - columnMean F.rows d := by funext x; simp [scaleRow, hv]
      rw [this, sum_dev _ hne]
    · have : ((fun x : D → ℝ => x d) ∘ scaleRow .standard F.rows) = fun x => (x d - columnMean F.rows d) / Real.sqrt (columnVar F.rows d) := by funext x; simp [scaleRow, hv]
      rw [this, sum_map_div F.rows (fun x => x d - columnMean F.rows d), sum_dev _ hne, zero_div]
  refine ⟨hmean, fun hv => ?_, fun hv y hy => ?_⟩
  · unfold columnVar
    rw [hmean, List.map_map, List.length_map]
    have : ((fun x : D → ℝ => (x d - 0) ^ 2) ∘ scaleRow .standard F.rows) = fun x => (x d - columnMean F.rows d) ^ 2 / columnVar F.rows d := by
      funext x
      simp only [Function.comp, scaleRow, hv, if_false, sub_zero, div_pow, Real.sq_sqrt (columnVar_nonneg _ _)]
    rw [this, sum_map_div F.rows (fun x => (x d - columnMean F.rows d) ^ 2), div_right_comm]
    exact div_self hv
  · obtain ⟨x, hx, rfl⟩ := List.mem_map.1 hy
    simp only [scaleRow, hv, if_true]
    exact dev_of_var_zero hne hv hx

/-- C128: `norm='minmax'`: over all arrays fitted on together, every feature has smallest value 0 and largest value 1 after scaling, unless it is constant, when it becomes 0. -/
theorem C128_minmax {F : Batch B D} {be : B} (h : F.hasBackend be) (hne : F.rows ≠ []) {s : State B D} (hs : s.norm = .minmax) : ∃ Y, fitTransform s F = .ok Y ∧ Y.hasBackend be ∧
    ∀ d, (∀ y ∈ Y.rows, 0 ≤ y d ∧ y d ≤ 1) ∧ (∃ y ∈ Y.rows, y d = 0) ∧ ((∃ x ∈ F.rows, ∃ x' ∈ F.rows, x d ≠ x' d) → ∃ y ∈ Y.rows, y d = 1) ∧ ((∀ x ∈ F.rows, ∀ x' ∈ F.rows, x d = x' d) → ∀ y ∈ Y.rows, y d = 0) := by
  obtain ⟨s', -, -, h3⟩ := fit_then h s
  refine ⟨_, h3, hasBackend_mapRows h _, fun d => ?_⟩
  rw [rows_mapRows, hs]
  obtain ⟨⟨xl, hxl, el⟩, hlo⟩ := colMin_spec hne d
  obtain ⟨⟨xh, hxh, eh⟩, hhi⟩ := colMax_spec hne d
  rw [colMin_eq] at el hlo
  rw [colMax_eq] at eh hhi
  have hle : columnMin F.rows d ≤ columnMax F.rows d := (hlo _ hxl).trans (hhi _ hxl)
  by_cases hc : columnMin F.rows d = columnMax F.rows d
  · have hx0 : ∀ x ∈ F.rows, scaleRow .minmax F.rows x d = 0 := fun x hx => by
      simp only [scaleRow, hc, if_true]
      linarith [hlo x hx, hhi x hx]
    have hall : ∀ y ∈ F.rows.map (scaleRow .minmax F.rows), y d = 0 := fun y hy => by
      obtain ⟨x, hx, rfl⟩ := List.mem_map.1 hy; exact hx0 x hx
    refine ⟨fun y hy => by rw [hall y hy]; norm_num, ⟨_, List.mem_map_of_mem hxl, hx0 _ hxl⟩, ?_, fun _ => hall⟩
    rintro ⟨x, hx, x', hx', hn⟩
    exact absurd (by linarith [hlo x hx, hhi x hx, hlo x' hx', hhi x' hx']) hn
  · have hpos : 0 < columnMax F.rows d - columnMin F.rows d := sub_pos.2 (lt_of_le_of_ne hle hc)
    have hval : ∀ x, scaleRow .minmax F.rows x d = (x d - columnMin F.rows d) / (columnMax F.rows d - columnMin F.rows d) := fun x => by simp only [scaleRow, hc, if_false]
    refine ⟨fun y hy => ?_, ⟨_, List.mem_map_of_mem hxl, by rw [hval, el, sub_self, zero_div]⟩, fun _ => ⟨_, List.mem_map_of_mem hxh, by rw [hval, eh, div_self hpos.ne']⟩, fun hall => ?_⟩
    · obtain ⟨x, hx, rfl⟩ := List.mem_map.1 hy
      rw [hval]
      exact ⟨div_nonneg (by linarith [hlo x hx]) hpos.le, (div_le_one hpos).2 (by linarith [hhi x hx])⟩
    · exact absurd (by rw [← el, ← eh]; exact hall xl hxl xh hxh) hc

/-- C128: `norm='l2'`, fitted or not: every row is divided by a positive number, to length 1 unless it is zero, when it is left alone. -/
theorem C128_l2 {s : State B D} (hs : s.norm = .l2) {X : Batch B D} (hX : ∀ be, s.nx = some be → X.uses be) : ∃ f : (D → ℝ) → (D → ℝ), transform s X = .ok (X.mapRows f) ∧
    ∀ x, (∃ c : ℝ, 0 < c ∧ f x = fun d => x d / c) ∧ (x ≠ 0 → rowNorm (f x) = 1) ∧ (x = 0 → f x = 0) := by
  refine ⟨scaleRow .l2 [], ?_, fun x => ?_⟩
  · unfold transform
    rw [if_neg (by simp [hs])]
    have happ : ∀ be X, (s.nx = none ∨ s.nx = some be) → applyOne s be X = .ok (X.map (scaleRow .l2 [])) := fun be X h => by
      have h1 : ¬ (s.nx ≠ none ∧ s.nx ≠ some be) := fun hh => h.elim hh.1 hh.2
      simp only [applyOne, hs]
      rw [if_neg h1]
      exact congrArg _ (List.map_congr_left fun x _ => l2Row_eq _ x)
    have hnx : ∀ be, (∀ be', s.nx = some be' → be = be') → s.nx = none ∨ s.nx = some be := fun be h => by
      cases hn : s.nx with
      | none => exact .inl rfl
      | some b => exact .inr (by rw [h b hn])
    rcases X with ⟨b, X⟩ | Xs
    · simp only [applyTransform, happ b X (hnx b fun be' h => hX be' h)]; rfl
    · simp only [applyTransform, applyMany_ok Xs fun e he => happ e.1 e.2 (hnx e.1 fun be' h => hX be' h e he)]; rfl
  have h0 : 0 ≤ rowNorm x := Real.sqrt_nonneg _
  by_cases hx : x = 0
  · subst hx
    exact ⟨⟨1, one_pos, by funext d; simp [scaleRow]⟩, fun h => absurd rfl h, fun _ => by funext d; simp [scaleRow]⟩
  · have hn : rowNorm x ≠ 0 := (rowNorm_eq_zero x).not.2 hx
    have he : scaleRow .l2 [] x = fun d => x d / rowNorm x := by funext d; simp only [scaleRow, hx, if_false]
    refine ⟨⟨rowNorm x, lt_of_le_of_ne h0 (Ne.symm hn), he⟩, fun _ => ?_, fun h => absurd h hx⟩
    have e2 : ∑ d, x d ^ 2 = rowNorm x ^ 2 := (Real.sq_sqrt (sum_nonneg fun _ _ => sq_nonneg _)).symm
    have : ∑ d, scaleRow .l2 [] x d ^ 2 = 1 := by
      rw [he]
      simp only [div_pow]
      rw [← sum_div, e2, div_self (pow_ne_zero 2 hn)]
    rw [rowNorm, this, Real.sqrt_one]

/-- C128: the order of the rows, and of the arrays in a list, does not matter for the fit. -/
theorem C128_order {F G : Batch B D} {be : B} (hF : F.hasBackend be) (hG : G.hasBackend be) (hp : F.rows.Perm G.rows) (s : State B D) : ∃ s1 s2, fit s F = .ok s1 ∧ fit s G = .ok s2 ∧ ∀ X : Batch B D, X.uses be → transform s1 X = transform s2 X := by
  obtain ⟨s1, h1, h2, -⟩ := fit_then hF s
  obtain ⟨s2, g1, g2, -⟩ := fit_then hG s
  refine ⟨s1, s2, h1, g1, fun X hX => ?_⟩
  rw [h2 X hX, g2 X hX]
  congr 2
  have hm : columnMean F.rows = columnMean G.rows := by
    funext d; unfold columnMean; rw [(hp.map _).sum_eq, hp.length_eq]
  have hv : columnVar F.rows = columnVar G.rows := by
    funext d; unfold columnVar; rw [hm, (hp.map _).sum_eq, hp.length_eq]
  have hlo : columnMin F.rows = columnMin G.rows := by
    funext d; unfold columnMin; congr 1; ext v; simp only [Set.mem_setOf_eq, hp.mem_iff]
  have hhi : columnMax F.rows = columnMax G.rows := by
    funext d; unfold columnMax; congr 1; ext v; simp only [Set.mem_setOf_eq, hp.mem_iff]
  funext x d
  cases s.norm <;> simp only [scaleRow, hm, hv, hlo, hhi]

/-- change of units: every feature is multiplied by a positive number and shifted -/
def changeUnits (u v : D → ℝ) (x : D → ℝ) : D → ℝ := fun d => u d * x d + v d

theorem columnMean_units (u v : D → ℝ) {l : List (D → ℝ)} (h : l ≠ []) (d : D) : columnMean (l.map (changeUnits u v)) d = u d * columnMean l d + v d := by
  have hl : (l.length : ℝ) ≠ 0 := by simpa using h
  have : (l.map fun x => u d * x d + v d).sum = u d * (l.map fun x => x d).sum + l.length * v d := by
    clear h hl
    induction l with
    | nil => simp
    | cons x l ih => simp only [List.map_cons, List.sum_cons, ih, List.length_cons]; push_cast; ring
  unfold columnMean
  rw [List.map_map, List.length_map]
  show (l.map fun x => u d * x d + v d).sum / _ = _
  rw [this]
  field_simp

theorem columnVar_units (u v : D → ℝ) {l : List (D → ℝ)} (h : l ≠ []) (d : D) : columnVar (l.map (changeUnits u v)) d = u d ^ 2 * columnVar l d := by
  unfold columnVar
  rw [List.map_map, List.length_map, columnMean_units u v h]
  have : ((fun x : D → ℝ => (x d - (u d * columnMean l d + v d)) ^ 2) ∘ changeUnits u v) = fun x => u d ^ 2 * (x d - columnMean l d) ^ 2 := by
    funext x; simp only [Function.comp, changeUnits]; ring
  rw [this, List.sum_map_mul_left, mul_div_assoc]

theorem columnMinMax_units {u v : D → ℝ} (hu : ∀ d, 0 < u d) {l : List (D → ℝ)} (h : l ≠ []) (d : D) :
    columnMin (l.map (changeUnits u v)) d = u d * columnMin l d + v d ∧ columnMax (l.map (changeUnits u v)) d = u d * columnMax l d + v d := by
  obtain ⟨⟨xl, hxl, el⟩, hlo⟩ := colMin_spec h d
  obtain ⟨⟨xh, hxh, eh⟩, hhi⟩ := colMax_spec h d
  rw [colMin_eq] at el hlo
  rw [colMax_eq] at eh hhi
  constructor
  · have : IsLeast {w | ∃ x ∈ l.map (changeUnits u v), x d = w} (u d * columnMin l d + v d) := by
      refine ⟨⟨_, List.mem_map_of_mem hxl, by simp only [changeUnits, el]⟩, ?_⟩
      rintro w ⟨x, hx, rfl⟩
      obtain ⟨y, hy, rfl⟩ := List.mem_map.1 hx
      have := mul_le_mul_of_nonneg_left (hlo y hy) (hu d).le
      simp only [changeUnits]; linarith
    exact this.csInf_eq
  · have : IsGreatest {w | ∃ x ∈ l.map (changeUnits u v), x d = w} (u d * columnMax l d + v d) := by
      refine ⟨⟨_, List.mem_map_of_mem hxh, by simp only [changeUnits, eh]⟩, ?_⟩
      rintro w ⟨x, hx, rfl⟩
      obtain ⟨y, hy, rfl⟩ := List.mem_map.1 hx
      have := mul_le_mul_of_nonneg_left (hhi y hy) (hu d).le
      simp only [changeUnits]; linarith
    exact this.csSup_eq

/-- C128: for `'standard'` and `'minmax'` the scaled data do not depend on the units in which the features are measured (constant features aside). -/
theorem C128_units {F : Batch B D} {be : B} (hF : F.hasBackend be) (hne : F.rows ≠ []) {u v : D → ℝ} (hu : ∀ d, 0 < u d) {s : State B D} (hs : s.norm ≠ .l2) : ∃ s1 s2, fit s F = .ok s1 ∧ fit s (F.mapRows (changeUnits u v)) = .ok s2 ∧
    ∀ X : Batch B D, X.uses be → ∃ f g : (D → ℝ) → (D → ℝ), transform s1 X = .ok (X.mapRows f) ∧ transform s2 (X.mapRows (changeUnits u v)) = .ok ((X.mapRows (changeUnits u v)).mapRows g) ∧
      ∀ x d, columnVar F.rows d ≠ 0 → g (changeUnits u v x) d = f x d := by
  obtain ⟨s1, h1, h2, -⟩ := fit_then hF s
  obtain ⟨s2, g1, g2, -⟩ := fit_then (hasBackend_mapRows hF (changeUnits u v)) s
  refine ⟨s1, s2, h1, g1, fun X hX => ⟨_, _, h2 X hX, g2 _ ?_, fun x d hv => ?_⟩⟩
  · rcases X with ⟨b, X⟩ | Xs
    · exact hX
    · exact fun e he => by obtain ⟨e', he', rfl⟩ := List.mem_map.1 he; exact hX e' he'
  · rw [rows_mapRows]
    have hud := (hu d).ne'
    cases hn : s.norm
    · have hv' : columnVar (F.rows.map (changeUnits u v)) d ≠ 0 := by rw [columnVar_units u v hne]; exact mul_ne_zero (pow_ne_zero 2 hud) hv
      simp only [scaleRow, hv, hv', if_false]
      rw [columnVar_units u v hne, columnMean_units u v hne, Real.sqrt_mul (sq_nonneg _), Real.sqrt_sq (hu d).le]
      simp only [changeUnits]
      rw [show u d * x d + v d - (u d * columnMean F.rows d + v d) = u d * (x d - columnMean F.rows d) by ring, mul_div_mul_left _ _ hud]
    · obtain ⟨e1, e2⟩ := columnMinMax_units (v := v) hu hne d
      simp only [scaleRow, e1, e2]
      have hiff : (u d * columnMin F.rows d + v d = u d * columnMax F.rows d + v d) ↔ columnMin F.rows d = columnMax F.rows d := by
        rw [add_left_inj]; exact mul_right_inj' hud
      have hc : columnMin F.rows d ≠ columnMax F.rows d := fun hc => hv (by
        obtain ⟨-, hlo⟩ := colMin_spec hne d
        obtain ⟨-, hhi⟩ := colMax_spec hne d
        rw [colMin_eq] at hlo
        rw [colMax_eq] at hhi
        have hall : ∀ y ∈ F.rows, y d = columnMin F.rows d := fun y hy => le_antisymm (hc ▸ hhi y hy) (hlo y hy)
        have hl : (F.rows.length : ℝ) ≠ 0 := by simpa using hne
        have hm : columnMean F.rows d = columnMin F.rows d := by
          unfold columnMean
          rw [List.map_congr_left hall, List.map_const', List.sum_replicate, nsmul_eq_mul]
          field_simp
        unfold columnVar
        rw [hm, List.map_congr_left (g := fun _ => (0 : ℝ)) fun y hy => by rw [hall y hy]; ring]
        simp)
      rw [if_neg (hiff.not.2 hc), if_neg hc]
      simp only [changeUnits]
      rw [show u d * x d + v d - (u d * columnMin F.rows d + v d) = u d * (x d - columnMin F.rows d) by ring, show u d * columnMax F.rows d + v d - (u d * columnMin F.rows d + v d) = u d * (columnMax F.rows d - columnMin F.rows d) by ring, mul_div_mul_left _ _ hud]
    · exact absurd hn hs

/-- C128: `apply_scaler` with a fitted scaler applies one and the same row transformation to both samples; without a scaler it returns them; an unfitted scaler that needs a fit is a `RuntimeError`, and so is not ignored. -/
theorem C128_apply {F : Batch B D} {be : B} (hF : F.hasBackend be) (s : State B D) (Xs Xt : Batch B D) (h1 : Xs.uses be) (h2 : Xt.uses be) : applyScaler Xs Xt .none = .ok (Xs, Xt) ∧
    (∃ s' f, fit s F = .ok s' ∧ applyScaler Xs Xt (.object (transform s')) = .ok (Xs.mapRows f, Xt.mapRows f)) ∧ (s.norm ≠ .l2 → s.fitted = false → applyScaler Xs Xt (.object (transform s)) = .error .runtime) := by
  refine ⟨rfl, ?_, fun hn hf => ?_⟩
  · obtain ⟨s', h3, h4, -⟩ := fit_then hF s
    exact ⟨s', scaleRow s.norm F.rows, h3, by simp only [applyScaler, h4 Xs h1, h4 Xt h2]⟩
  · have : ∀ X : Batch B D, transform s X = .error .runtime := fun X => if_pos ⟨hn, hf⟩
    simp only [applyScaler, this]

/-- the divisor of a feature -/
theorem scaleRow_affine (nm : Norm) (hnm : nm ≠ .l2) {rows : List (D → ℝ)} (hne : rows ≠ []) : ∃ m c : D → ℝ, (∀ d, 0 < c d) ∧ ∀ x, scaleRow nm rows x = fun d => (x d - m d) / c d := by
  classical
  cases nm
  · refine ⟨columnMean rows, fun d => if columnVar rows d = 0 then 1 else Real.sqrt (columnVar rows d), fun d => ?_, fun x => funext fun d => ?_⟩
    · dsimp only
      split_ifs with h
      · exact one_pos
      · exact Real.sqrt_pos.2 (lt_of_le_of_ne (columnVar_nonneg _ _) (Ne.symm h))
    · simp only [scaleRow]; split_ifs <;> simp
  · refine ⟨columnMin rows, fun d => if columnMin rows d = columnMax rows d then 1 else columnMax rows d - columnMin rows d, fun d => ?_, fun x => funext fun d => ?_⟩
    · dsimp only
      split_ifs with h
      · exact one_pos
      · obtain ⟨⟨xl, hxl, el⟩, -⟩ := colMin_spec hne d
        obtain ⟨-, hhi⟩ := colMax_spec hne d
        rw [colMin_eq] at el
        rw [colMax_eq] at hhi
        exact sub_pos.2 (lt_of_le_of_ne (el ▸ hhi xl hxl) h)
    · simp only [scaleRow]; split_ifs <;> simp
  · exact absurd rfl hnm

open Sliced in
/-- C128: the sliced distances of samples scaled with a fitted `'standard'` or `'minmax'` scaler are the sliced distances of the original samples for directions rescaled feature by feature; the shift has no influence. -/
theorem C128_sliced {F : Batch B D} {be : B} (hF : F.hasBackend be) (hne : F.rows ≠ []) {s : State B D} (hs : s.norm ≠ .l2) : ∃ s' f, ∃ c : D → ℝ, fit s F = .ok s' ∧ (∀ X, transform s' (.one be X) = .ok (.one be (X.map f))) ∧ (∀ d, 0 < c d) ∧
    ∀ {n m L : ℕ} (p : ℝ) (_ : 1 ≤ p) (X : Fin n → D → ℝ) (Y : Fin m → D → ℝ) (a : Fin n → ℝ) (b : Fin m → ℝ) (_ : SlicedWeights a b) (θ : Fin (L + 1) → D → ℝ) (σ : Sorters n m (L + 1)),
      σ.Sorts (fun i => f (X i)) (fun j => f (Y j)) θ →
      IsSliced p X Y a b (fun k d => θ k d / c d) (slicedWasserstein p (fun i => f (X i)) (fun j => f (Y j)) a b θ σ) ∧
      IsMaxSliced p X Y a b (fun k d => θ k d / c d) (maxSlicedWasserstein p (fun i => f (X i)) (fun j => f (Y j)) a b θ σ) := by
  obtain ⟨s', h1, h2, -⟩ := fit_then hF s
  obtain ⟨m', c, hc, hf⟩ := scaleRow_affine s.norm hs hne
  refine ⟨s', scaleRow s.norm F.rows, c, h1, fun X => h2 (.one be X) rfl, hc, fun p hp X Y a b hw θ σ hσ => ?_⟩
  have e : ∀ i j k, |dotP (scaleRow s.norm F.rows (X i)) (θ k) - dotP (scaleRow s.norm F.rows (Y j)) (θ k)| = |dotP (X i) (fun d => θ k d / c d) - dotP (Y j) (fun d => θ k d / c d)| := fun i j k => by
    congr 1
    unfold dotP
    rw [← sum_sub_distrib, ← sum_sub_distrib]
    refine sum_congr rfl fun d _ => ?_
    rw [hf, hf]
    have := (hc d).ne'
    field_simp
    ring
  constructor
  · obtain ⟨w, h3, h4⟩ := C75_sliced_value p hp _ _ a b hw θ σ hσ
    refine ⟨w, fun k => ?_, h4⟩
    have := h3 k
    simp only [e] at this
    exact this
  · obtain ⟨h3, h4⟩ := C75_max_sliced_value p hp _ _ a b hw θ σ hσ
    simp only [e] at h3 h4
    exact ⟨h3, h4⟩

/-- the example of the documentation of the class: two samples with two features, fitted together -/
noncomputable def exBatch : Batch Unit (Fin 2) := .many [((), [fun d => if d = 0 then 1 else 100, fun d => if d = 0 then 2 else 200]), ((), [fun d => if d = 0 then 3 else 300, fun d => if d = 0 then 4 else 400])]

example : exBatch.hasBackend () ∧ exBatch.rows ≠ [] ∧ columnVar exBatch.rows 0 = 5 / 4 ∧ columnMean exBatch.rows 1 = 250 ∧ (∃ s : State Unit (Fin 2), create "standard" = .ok s ∧ s.norm = .standard) ∧ (∃ s : State Unit (Fin 2), create "minmax" = .ok s ∧ s.norm = .minmax) ∧
    (∃ s : State Unit (Fin 2), create "l2" = .ok s ∧ s.norm = .l2) := by
  refine ⟨⟨by simp, fun _ _ => rfl⟩, by simp [exBatch, Batch.rows], ?_, ?_, ⟨_, rfl, rfl⟩, ⟨_, rfl, rfl⟩, ⟨_, rfl, rfl⟩⟩
  · simp [columnVar, columnMean, exBatch, Batch.rows]; norm_num
  · simp [columnMean, exBatch, Batch.rows]; norm_num

/-- an unknown name is refused -/
example : create (B := Unit) (D := Fin 2) "max" = .error .value := by
  unfold create
  rw [if_neg (by decide), if_neg (by decide), if_neg (by decide)]

end

end POT.Props
