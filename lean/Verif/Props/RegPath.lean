import Verif.Lemmas.RegPath
import Mathlib.Tactic.NormNum
import Mathlib.Tactic.FinCases
import Mathlib.Data.Fintype.Sum

/-!
# C99: the regularisation path of quadratically penalised unbalanced transport

`recast_ot_as_lasso`, `complement_schur`, `fully_relaxed_path` (`regularization_path` with `semi_relaxed=False`), `compute_transport_plan`. Specification: `Verif/Spec/RegPath.lean`.
-/

set_option linter.unusedSectionVars false

namespace POT.Props

open Finset Spec RegPath

section generic

variable {X R : Type*} [Fintype X] [DecidableEq X] [Fintype R]

/-- C99: adding a column with `complement_schur` gives the inverse of the enlarged Gram matrix as long as the Schur complement is not zero, and deleting an index gives the inverse of the reduced one (the
pivot is never zero). `IsInv` says that the matrix is symmetric and is the inverse of the Gram matrix of the active columns. -/
theorem C99_schur {p : Lasso X R} {S : Finset X} {B : X → X → ℝ} (h : IsInv p S B) :
    (∀ i ∉ S, ss p B S i ≠ 0 → IsInv p (insert i S) (schurAdd B S i (fun k => p.HtH k i) (p.HtH i i))) ∧ ∀ i ∈ S, 0 < B i i ∧ IsInv p (S.erase i) (schurPop B i) :=
  ⟨fun _ hi hs => add_inv h hi hs, fun _ hi => ⟨h.diag_pos hi, pop_inv h hi⟩⟩

/-- linear interpolation between two pairs, as in the code -/
noncomputable def interp (γ : ℝ) (later earlier : ℝ × (X → ℝ)) : X → ℝ := fun i => earlier.2 i + (later.2 i - earlier.2 i) * (γ - earlier.1) / (later.1 - earlier.1)

/-- every stretch of the path between two neighbours is optimal, and so is zero from the first parameter on -/
def Chain (p : Lasso X R) : ℝ × (X → ℝ) → List (ℝ × (X → ℝ)) → Prop
  | last, [] => ∀ γ, last.1 ≤ γ → IsMin p γ last.2
  | last, e :: rest => last.1 < e.1 ∧ (∀ γ, last.1 ≤ γ → γ ≤ e.1 → IsMin p γ (interp γ last e)) ∧ Chain p e rest

theorem interp_seg {p : Lasso X R} (s : State X) {γ γ' g : ℝ} (hne : γ' ≠ g) : interp γ (γ', seg p s γ') (g, seg p s g) = seg p s γ := by
  funext i
  simp only [interp, seg]
  have : γ' - g ≠ 0 := sub_ne_zero.2 hne
  field_simp
  ring

theorem interp_last {e last : ℝ × (X → ℝ)} (hne : last.1 ≠ e.1) : interp last.1 last e = last.2 := by
  funext i
  simp only [interp]
  rw [mul_div_assoc, div_self (sub_ne_zero.2 hne)]
  ring

variable {tol : Tol} {arg : (X → ℝ) → X}

/-- The run meets no coincidences: in every iteration that is carried out, only the index of the last event sits on the boundary (a zero entry of the plan in the active set, a zero component of the gradient
outside), and no breakpoint below the current parameter is so close to it that the tolerances of the code hide it. -/
def NonDegenerate (p : Lasso X R) (tol : Tol) (arg : (X → ℝ) → X) (reg : ℝ) : Prop :=
  ∀ n, (∀ m ≤ n, reg < ((step p tol arg)^[m] (start p arg)).γ) → Simple p ((step p tol arg)^[n] (start p arg)) ∧ Gap p tol ((step p tol arg)^[n] (start p arg))

theorem loop_chain {p : Lasso X R} (he : tol.eps = 0) (ha : 0 < tol.add) (hr : 0 < tol.rem) (harg : ∀ M : X → ℝ, ∀ i, M i ≤ M (arg M)) (h2 : ∀ i, p.HtH i i = 2) (hc : ∀ i, 0 < p.c i)
    {reg : ℝ} (hreg : 0 ≤ reg) (hnd : NonDegenerate p tol arg reg) (k n : ℕ) (hn : ∀ m < n, reg < ((step p tol arg)^[m] (start p arg)).γ)
    (hready : reg < ((step p tol arg)^[n] (start p arg)).γ → Ready p ((step p tol arg)^[n] (start p arg)))
    (hch : Chain p (((step p tol arg)^[n] (start p arg)).γ, ((step p tol arg)^[n] (start p arg)).t) ((step p tol arg)^[n] (start p arg)).past)
    (hpast : ∀ g ∈ ((step p tol arg)^[n] (start p arg)).past, reg < g.1) :
    let f := loop p tol arg reg k ((step p tol arg)^[n] (start p arg))
    Chain p (f.γ, f.t) f.past ∧ ∀ g ∈ f.past, reg < g.1 := by
  induction k generalizing n with
  | zero => exact ⟨hch, hpast⟩
  | succ k ih =>
    obtain ⟨s, hs⟩ : ∃ s, s = (step p tol arg)^[n] (start p arg) := ⟨_, rfl⟩
    simp only [← hs] at hready hch hpast ⊢
    unfold loop
    by_cases hγ : s.γ > reg
    · rw [if_pos hγ]
      have hn' : ∀ m < n + 1, reg < ((step p tol arg)^[m] (start p arg)).γ := fun m hm => by
        rcases Nat.lt_succ_iff_lt_or_eq.1 hm with h | h
        · exact hn m h
        · rw [h, ← hs]; exact hγ
      have hrdy := hready hγ
      have hgap := (hnd n fun m hm => hn' m (Nat.lt_succ_of_le hm)).2
      rw [← hs] at hgap
      have hes : (step p tol arg)^[n + 1] (start p arg) = step p tol arg s := by rw [Function.iterate_succ_apply', hs]
      have hb := step_γ_bounds he ha hr harg hrdy
      have := ih (n + 1) hn'
      rw [hes] at this
      refine this (fun hγ' => ?_) ?_ ?_
      · refine ready_step he ha hr harg h2 hc hrdy hgap (by linarith) ?_
        have := (hnd (n + 1) fun m hm => by
          rcases Nat.le_succ_iff.1 hm with h | h
          · exact hn' m (Nat.lt_succ_of_le h)
          · rw [h, hes]; exact hγ').1
        rwa [hes] at this
      · rw [step_past]
        refine ⟨hb.2, fun γ h1 h3 => ?_, hch⟩
        have hst : s.t = seg p s s.γ := hrdy.cont
        rw [step_t, hst, interp_seg s hb.2.ne]
        exact (segment he harg hrdy hgap h1 h3).2.2
      · rw [step_past]
        intro g hg
        rcases List.mem_cons.1 hg with rfl | hg
        · exact hγ
        · exact hpast g hg
    · rw [if_neg hγ]
      exact ⟨hch, hpast⟩

theorem chain_seek {p : Lasso X R} {γ : ℝ} (rest : List (ℝ × (X → ℝ))) : ∀ later : ℝ × (X → ℝ), Chain p later rest → later.1 < γ → γ < ((later :: rest).getLast (List.cons_ne_nil _ _)).1 →
    IsMin p γ (seek γ later rest) := by
  induction rest with
  | nil => intro later _ h1 h2; exact absurd (h1.trans h2) (lt_irrefl _)
  | cons e rest ih =>
    intro later hch h1 h2
    unfold seek
    split_ifs with h
    · exact hch.2.1 γ h1.le h
    · exact ih e hch.2.2 (not_le.1 h) (by simpa using h2)

theorem chain_last {p : Lasso X R} (rest : List (ℝ × (X → ℝ))) : ∀ later : ℝ × (X → ℝ), Chain p later rest → ∀ γ, ((later :: rest).getLast (List.cons_ne_nil _ _)).1 ≤ γ →
    IsMin p γ ((later :: rest).getLast (List.cons_ne_nil _ _)).2 := by
  induction rest with
  | nil => intro later h γ hγ; exact h γ hγ
  | cons e rest ih => intro later h γ hγ; simpa using ih e h.2.2 γ (by simpa using hγ)

theorem chain_plan {p : Lasso X R} {γ reg : ℝ} (t : X → ℝ) (rest : List (ℝ × (X → ℝ))) (hch : Chain p (reg, t) rest) (h : reg ≤ γ) : IsMin p γ (planAt γ ((reg, t) :: rest)) := by
  unfold planAt
  dsimp only
  split_ifs with h1 h2
  · exact chain_last rest _ hch γ h1
  · have e : γ = reg := le_antisymm h2 h
    subst e
    cases rest with
    | nil => exact hch γ le_rfl
    | cons e rest =>
      have := hch.2.1 γ le_rfl hch.1.le
      rwa [interp_last (last := (γ, t)) hch.1.ne] at this
  · exact chain_seek rest _ hch (not_le.1 h2) (not_le.1 h1)

theorem chain_sorted {p : Lasso X R} (rest : List (ℝ × (X → ℝ))) : ∀ later : ℝ × (X → ℝ), Chain p later rest → ((later :: rest).map Prod.fst).Pairwise (· < ·) := by
  induction rest with
  | nil => intro later _; simp
  | cons e rest ih =>
    intro later h
    have h1 := ih e h.2.2
    rw [List.map_cons, List.pairwise_cons]
    refine ⟨fun g hg => ?_, h1⟩
    rw [List.map_cons, List.mem_cons] at hg
    rcases hg with rfl | hg
    · exact h.1
    · rw [List.map_cons, List.pairwise_cons] at h1
      exact h.1.trans (h1.1 g hg)

theorem chain_head {p : Lasso X R} {reg : ℝ} {t : X → ℝ} (rest : List (ℝ × (X → ℝ))) (hch : Chain p (reg, t) rest) : IsMin p reg t := by
  cases rest with
  | nil => exact hch reg le_rfl
  | cons e rest =>
    have := hch.2.1 reg le_rfl hch.1.le
    rwa [interp_last (last := (reg, t)) hch.1.ne] at this

/-- The path is optimal, for a general design matrix with columns of squared norm 2. -/
theorem path_chain {p : Lasso X R} (he : tol.eps = 0) (ha : 0 < tol.add) (hr : 0 < tol.rem) (harg : ∀ M : X → ℝ, ∀ i, M i ≤ M (arg M)) (h2 : ∀ i, p.HtH i i = 2) (hc : ∀ i, 0 < p.c i)
    {reg : ℝ} (hreg : 0 ≤ reg) (hnd : NonDegenerate p tol arg reg) (itmax : ℕ) (hit : (loop p tol arg reg (itmax - 1) (start p arg)).γ ≤ reg) :
    ∃ t rest, path p tol arg reg itmax = (reg, t) :: rest ∧ Chain p (reg, t) rest := by
  have hstart : ∀ γ, (start p arg).γ ≤ γ → IsMin p γ (start p arg).t := fun γ h => by
    refine kkt (fun i => le_rfl) (fun i => ?_) fun i hi => absurd rfl hi
    unfold resid
    have h1 : (start p arg).t = fun _ => 0 := rfl
    simp only [h1, mul_zero, sum_const_zero, zero_sub]
    have h3 := harg (fun i => p.Hty i / p.c i) i
    have h4 : p.Hty i / p.c i ≤ γ := h3.trans h
    have := (div_le_iff₀ (hc i)).1 h4
    linarith
  have hl := loop_chain he ha hr harg h2 hc hreg hnd (itmax - 1) 0 (fun m hm => absurd hm (Nat.not_lt_zero _))
    (fun h => ready_start harg h2 hc (by simpa using lt_of_le_of_lt hreg h) (hnd 0 fun m hm => by rw [Nat.le_zero.1 hm]; exact h).1) hstart (by simp [start])
  simp only [Function.iterate_zero, id] at hl
  unfold path finish
  obtain ⟨f, hf⟩ : ∃ f, f = loop p tol arg reg (itmax - 1) (start p arg) := ⟨_, rfl⟩
  rw [← hf] at hl hit ⊢
  obtain ⟨hch, hpast⟩ := hl
  cases hp : f.past with
  | nil =>
    rw [hp] at hch
    exact ⟨_, _, rfl, fun γ h => hch γ (hit.trans h)⟩
  | cons e rest =>
    rw [hp] at hch hpast
    obtain ⟨g0, t0⟩ := e
    obtain ⟨h1, h3, h4⟩ := hch
    have hg0 : reg < g0 := hpast (g0, t0) (List.mem_cons_self ..)
    simp only at h1 h3
    refine ⟨_, _, rfl, hg0, fun γ h5 h6 => ?_, h4⟩
    have := h3 γ (hit.trans h5) h6
    have e : interp γ (reg, fun i => t0 i + (f.t i - t0 i) * (reg - g0) / (f.γ - g0)) (g0, t0) = interp γ (f.γ, f.t) (g0, t0) := by
      funext i
      simp only [interp]
      have a1 : reg - g0 ≠ 0 := sub_ne_zero.2 hg0.ne
      have a2 : f.γ - g0 ≠ 0 := sub_ne_zero.2 h1.ne
      field_simp
      ring
    rw [e]
    exact this

end generic

variable {I J : Type*} [Fintype I] [Fintype J] [DecidableEq I] [DecidableEq J]

/-- C99: the regression problem that the code builds is the penalised transport problem. -/
theorem C99_recast (a : I → ℝ) (b : J → ℝ) (C : I → J → ℝ) (γ : ℝ) (t : I × J → ℝ) : obj (recast a b C) γ t = l2Unbalanced a b C γ fun i j => t (i, j) := by
  unfold obj l2Unbalanced
  rw [Fintype.sum_sum_type]
  have e1 : ∀ i, ∑ x : I × J, (recast a b C).H (.inl i) x * t x = ∑ j, t (i, j) := fun i => by
    rw [Fintype.sum_prod_type]
    simp [recast]
  have e2 : ∀ j, ∑ x : I × J, (recast a b C).H (.inr j) x * t x = ∑ i, t (i, j) := fun j => by
    rw [Fintype.sum_prod_type]
    simp [recast]
  simp_rw [e1, e2]
  rw [show ∑ x : I × J, (recast a b C).c x * t x = ∑ i, ∑ j, C i j * t (i, j) by rw [Fintype.sum_prod_type]; rfl]
  simp only [recast, Sum.elim_inl, Sum.elim_inr]
  ring

theorem recast_diag (a : I → ℝ) (b : J → ℝ) (C : I → J → ℝ) (x : I × J) : (recast a b C).HtH x x = 2 := by
  unfold Lasso.HtH
  rw [Fintype.sum_sum_type]
  simp [recast]
  norm_num

theorem isMin_iff (a : I → ℝ) (b : J → ℝ) (C : I → J → ℝ) (γ : ℝ) (t : I × J → ℝ) : IsMin (recast a b C) γ t ↔ IsL2Optimal a b C γ fun i j => t (i, j) := by
  unfold RegPath.IsMin IsL2Optimal
  constructor
  · rintro ⟨h1, h2⟩
    refine ⟨fun i j => h1 _, fun T' hT' => ?_⟩
    have := h2 (fun x => T' x.1 x.2) fun x => hT' _ _
    rwa [C99_recast, C99_recast] at this
  · rintro ⟨h1, h2⟩
    refine ⟨fun x => h1 x.1 x.2, fun t' ht' => ?_⟩
    rw [C99_recast, C99_recast]
    exact h2 _ fun i j => ht' _

/-- C99: for positive costs, and a run without coincidences that ends before the iteration limit, the plan that `compute_transport_plan` reads off the lists is a minimiser of the penalised transport problem for
every parameter from `reg` on; the returned plan is one for `reg`; the listed parameters are strictly decreasing in time (the list has the newest first) and end with `reg`.  (`1e-16` is taken as zero; the other
two tolerances are any positive numbers.) -/
theorem C99_path_partial {a : I → ℝ} {b : J → ℝ} {C : I → J → ℝ} (hC : ∀ i j, 0 < C i j) {tol : Tol} (he : tol.eps = 0) (ha : 0 < tol.add) (hr : 0 < tol.rem)
    {arg : (I × J → ℝ) → I × J} (harg : ∀ M : I × J → ℝ, ∀ x, M x ≤ M (arg M)) {reg : ℝ} (hreg : 0 ≤ reg) (hnd : NonDegenerate (recast a b C) tol arg reg) (itmax : ℕ)
    (hit : (loop (recast a b C) tol arg reg (itmax - 1) (start (recast a b C) arg)).γ ≤ reg) :
    ∃ t rest, path (recast a b C) tol arg reg itmax = (reg, t) :: rest ∧ (IsL2Optimal a b C reg fun i j => t (i, j)) ∧ (((reg, t) :: rest).map Prod.fst).Pairwise (· < ·) ∧
      ∀ γ, reg ≤ γ → IsL2Optimal a b C γ fun i j => planAt γ (path (recast a b C) tol arg reg itmax) (i, j) := by
  obtain ⟨t, rest, h1, h2⟩ := path_chain he ha hr harg (recast_diag a b C) (fun x => hC _ _) hreg hnd itmax hit
  refine ⟨t, rest, h1, (isMin_iff ..).1 (chain_head rest h2), chain_sorted rest _ h2, fun γ hγ => (isMin_iff ..).1 ?_⟩
  rw [h1]
  exact chain_plan t rest h2 hγ

section examples

theorem start_phi {X R : Type*} [Fintype X] [DecidableEq X] [Fintype R] (p : Lasso X R) (arg : (X → ℝ) → X) {i0 : X} (h : arg (fun i => p.Hty i / p.c i) = i0) :
    (start p arg).S = {i0} ∧ (start p arg).γ = p.Hty i0 / p.c i0 ∧ (∀ i, phi p (start p arg) i = if i = i0 then p.Hty i0 / 2 else 0) ∧ ∀ i, delta p (start p arg) i = if i = i0 then p.c i0 / 2 else 0 := by
  subst h
  refine ⟨rfl, rfl, fun i => ?_, fun i => ?_⟩
  · simp only [phi, start, inverse, mem_singleton, sum_singleton]
    split_ifs <;> ring
  · simp only [delta, start, inverse, mem_singleton, sum_singleton]
    split_ifs <;> ring

/-- two sources of weight 1, one target of weight 1, costs 1 and 3 -/
noncomputable abbrev exP : Lasso (Bool × Unit) (Bool ⊕ Unit) := recast (fun _ : Bool => 1) (fun _ : Unit => 1) fun i _ => if i then 3 else 1

theorem exP_HtH (i j : Bool × Unit) : exP.HtH i j = if i = j then 2 else 1 := by
  obtain ⟨i, ⟨⟩⟩ := i
  obtain ⟨j, ⟨⟩⟩ := j
  cases i <;> cases j <;> simp [exP, Lasso.HtH, recast, Fintype.sum_sum_type] <;> norm_num

theorem exP_Hty (i : Bool × Unit) : exP.Hty i = 2 := by
  obtain ⟨i, ⟨⟩⟩ := i
  cases i <;> simp [exP, Lasso.Hty, recast, Fintype.sum_sum_type] <;> norm_num

theorem exP_c (i : Bool × Unit) : exP.c i = if i.1 then 3 else 1 := rfl

theorem exP_all {P : Bool × Unit → Prop} (h1 : P (false, ())) (h2 : P (true, ())) : ∀ i, P i := fun i => by
  obtain ⟨i, ⟨⟩⟩ := i
  cases i
  · exact h1
  · exact h2

variable {arg : (Bool × Unit → ℝ) → Bool × Unit} (harg : ∀ M : Bool × Unit → ℝ, ∀ x, M x ≤ M (arg M))

include harg

theorem exP_arg_false {M : Bool × Unit → ℝ} (h : M (true, ()) < M (false, ())) : arg M = (false, ()) := by
  have h1 := harg M (false, ())
  have : ∀ i, M (false, ()) ≤ M i → i = (false, ()) := exP_all (fun _ => rfl) fun h2 => absurd h2 (not_le.2 h)
  exact this _ h1

theorem exP_arg_true {M : Bool × Unit → ℝ} (h : M (false, ()) < M (true, ())) : arg M = (true, ()) := by
  have h1 := harg M (true, ())
  have : ∀ i, M (true, ()) ≤ M i → i = (true, ()) := exP_all (fun h2 => absurd h2 (not_le.2 h)) fun _ => rfl
  exact this _ h1

theorem exP_start : (start exP arg).S = {(false, ())} ∧ (start exP arg).γ = 2 ∧ (∀ i, phi exP (start exP arg) i = if i = (false, ()) then 1 else 0) ∧
    ∀ i, delta exP (start exP arg) i = if i = (false, ()) then 1 / 2 else 0 := by
  have h0 : arg (fun i => exP.Hty i / exP.c i) = (false, ()) := exP_arg_false harg (by simp only [exP_Hty, exP_c]; norm_num)
  obtain ⟨h1, h2, h3, h4⟩ := start_phi exP arg h0
  refine ⟨h1, ?_, fun i => ?_, fun i => ?_⟩
  · rw [h2, exP_Hty, exP_c]; norm_num
  · rw [h3, exP_Hty]; norm_num
  · rw [h4, exP_c]; norm_num

variable {tol : Tol} (he : tol.eps = 0) (ha : 0 < tol.add) (ha1 : tol.add ≤ 1 / 2) (hr : 0 < tol.rem) (hr1 : tol.rem ≤ 1 / 2)

include he ha ha1 hr hr1

theorem exP_step1 : (step exP tol arg (start exP arg)).S = univ ∧ (step exP tol arg (start exP arg)).γ = 2 / 5 ∧ (step exP tol arg (start exP arg)).ev = .add (true, ()) ∧
    (∀ i, (step exP tol arg (start exP arg)).B i (false, ()) = 1 / 2) ∧ (∀ i, (step exP tol arg (start exP arg)).t i = if i = (false, ()) then 4 / 5 else 0) ∧
    (step exP tol arg (start exP arg)).past = [(2, fun _ => 0)] := by
  obtain ⟨h1, h2, h3, h4⟩ := exP_start harg
  have hG : ∀ i, nextGamma exP tol (start exP arg) i = if i = (false, ()) then 0 else 2 / 5 := exP_all
    (by rw [nextGamma_eq he, h1]; simp)
    (by
      rw [nextGamma_eq he, h1, rp, rq, h1, sum_singleton, sum_singleton, h2, h3, h4, exP_HtH, exP_Hty, exP_c]
      rw [if_neg (by simp), if_neg]
      · norm_num
      · norm_num; linarith)
  have hR : ∀ i, nextRemoval exP tol (start exP arg) i = 0 := exP_all
    (by
      rw [nextRemoval_eq he, h1, h2, h3, h4]
      rw [if_pos (by simp), if_pos]
      norm_num; linarith)
    (by rw [nextRemoval_eq he, h1]; simp)
  have hg : arg (nextGamma exP tol (start exP arg)) = (true, ()) := exP_arg_true harg (by rw [hG, hG]; norm_num)
  have hcond : ¬ nextRemoval exP tol (start exP arg) (arg (nextRemoval exP tol (start exP arg))) > nextGamma exP tol (start exP arg) (arg (nextGamma exP tol (start exP arg))) := by
    rw [hR, hg, hG]; norm_num
  have hst : step exP tol arg (start exP arg) = { S := insert (true, ()) (start exP arg).S, B := inverse exP (start exP arg), ev := .add (true, ()), γ := nextGamma exP tol (start exP arg) (true, ()), t := fun i => phi exP (start exP arg) i - nextGamma exP tol (start exP arg) (true, ()) * delta exP (start exP arg) i, past := ((start exP arg).γ, (start exP arg).t) :: (start exP arg).past } := by
    rw [step, if_neg hcond, hg]
  rw [hst]
  refine ⟨?_, ?_, rfl, fun i => ?_, exP_all ?_ ?_, ?_⟩
  · change insert (true, ()) (start exP arg).S = univ
    rw [h1]; decide
  · rw [hG]; norm_num
  · simp [start, inverse]
  · dsimp only; rw [h3, h4, hG]; norm_num
  · dsimp only; rw [h3, h4, hG]; norm_num
  · dsimp only; rw [h2]; rfl

theorem exP_seg1 : (∀ i, phi exP (step exP tol arg (start exP arg)) i = 2 / 3) ∧ ∀ i, delta exP (step exP tol arg (start exP arg)) i = if i = (false, ()) then -(1 / 3) else 5 / 3 := by
  obtain ⟨h1, h2, h3, h4, h5, h6⟩ := exP_step1 harg he ha ha1 hr hr1
  have hu : ∀ f : Bool × Unit → ℝ, ∑ i, f i = f (true, ()) + f (false, ()) := fun f => by
    rw [Fintype.sum_prod_type]; simp
  have her : (univ : Finset (Bool × Unit)).erase (true, ()) = {(false, ())} := by decide
  have hinv : ∀ i j, inverse exP (step exP tol arg (start exP arg)) i j = if i = j then 2 / 3 else -(1 / 3) := by
    have e : inverse exP (step exP tol arg (start exP arg)) = schurAdd (step exP tol arg (start exP arg)).B ((step exP tol arg (start exP arg)).S.erase (true, ())) (true, ()) (fun k => exP.HtH k (true, ())) 2 := by
      unfold inverse; rw [h3]
    rw [e, h1, her]
    unfold schurAdd
    simp only [sum_singleton, h4, exP_HtH]
    refine exP_all (exP_all ?_ ?_) (exP_all ?_ ?_)
    · norm_num [h4]
    · norm_num
    · norm_num
    · norm_num
  constructor
  · intro i
    unfold phi
    rw [h1, if_pos (mem_univ _), hu, hinv, hinv, exP_Hty, exP_Hty]
    revert i
    exact exP_all (by norm_num) (by norm_num)
  · intro i
    unfold delta
    rw [h1, if_pos (mem_univ _), hu, hinv, hinv, exP_c, exP_c]
    revert i
    exact exP_all (by norm_num) (by norm_num)

theorem exP_step2 : (step exP tol arg (step exP tol arg (start exP arg))).γ = 0 := by
  obtain ⟨h1, h2, h3, h4, h5, h6⟩ := exP_step1 harg he ha ha1 hr hr1
  obtain ⟨h7, h8⟩ := exP_seg1 harg he ha ha1 hr hr1
  have hG : ∀ i, nextGamma exP tol (step exP tol arg (start exP arg)) i = 0 := fun i => by rw [nextGamma_eq he, h1, if_pos (mem_univ _)]
  have hR : ∀ i, nextRemoval exP tol (step exP tol arg (start exP arg)) i = if i = (false, ()) then -2 else 0 := fun i => by
    rw [nextRemoval_eq he, h1, if_pos (mem_univ _), h2, h7, h8]
    revert i
    refine exP_all ?_ ?_
    · rw [if_neg]
      · norm_num
      · norm_num; linarith
    · rw [if_pos]
      · norm_num
      · norm_num; linarith
  have : arg (nextRemoval exP tol (step exP tol arg (start exP arg))) = (true, ()) := exP_arg_true harg (by rw [hR, hR]; norm_num)
  rw [step_γ, this, hR, hG]
  norm_num

/-- C99: the hypotheses of `C99_path_partial` hold on an example with two segments -/
theorem C99_path_example {reg : ℝ} (hreg : 0 ≤ reg) (itmax : ℕ) : NonDegenerate exP tol arg reg ∧ (loop exP tol arg reg (itmax + 3 - 1) (start exP arg)).γ ≤ reg := by
  obtain ⟨g1, g2, g3, g4⟩ := exP_start harg
  obtain ⟨h1, h2, h3, h4, h5, h6⟩ := exP_step1 harg he ha ha1 hr hr1
  obtain ⟨h7, h8⟩ := exP_seg1 harg he ha ha1 hr hr1
  have h9 := exP_step2 harg he ha ha1 hr hr1
  constructor
  · intro n hn
    rcases n with - | - | n
    · simp only [Function.iterate_zero, id]
      refine ⟨⟨?_, ?_⟩, ⟨?_, ?_⟩⟩
      · intro i hi _
        rw [g1, mem_singleton] at hi
        left
        rw [hi]
        have : (start exP arg).S = {arg (fun i => exP.Hty i / exP.c i)} := rfl
        rw [g1] at this
        exact congrArg Event.first (singleton_injective this).symm
      · rw [g1]
        refine exP_all (fun h => absurd (mem_singleton_self _) h) fun _ h => ?_
        rw [resid_seg, rp, rq, g1, sum_singleton, sum_singleton, g2, g3, g4, exP_HtH, exP_Hty, exP_c] at h
        norm_num at h
      · rw [g1, g2]
        refine exP_all ?_ ?_
        · rw [g3, g4]; intro _ _ h; norm_num at h
        · intro h; simp at h
      · rw [g1, g2]
        refine exP_all ?_ ?_
        · intro h; simp at h
        · rw [rp, rq, g1, sum_singleton, sum_singleton, g3, g4, exP_HtH, exP_Hty, exP_c]
          intro _ _ _
          norm_num; linarith
    · rw [Function.iterate_one]
      refine ⟨⟨?_, ?_⟩, ⟨?_, ?_⟩⟩
      · rw [h2, h3]
        refine exP_all ?_ ?_
        · intro _ h
          rw [seg, h7, h8] at h
          norm_num at h
        · intro _ _; exact Or.inr rfl
      · rw [h1]; intro i hi; exact absurd (mem_univ _) hi
      · rw [h1, h2]
        refine exP_all ?_ ?_
        · rw [h7, h8]; intro _ _ _; norm_num; linarith
        · rw [h7, h8]; intro _ _ h; norm_num at h
      · rw [h1]; intro i hi; exact absurd (mem_univ _) hi
    · have := hn 2 (by omega)
      rw [show (step exP tol arg)^[2] (start exP arg) = step exP tol arg (step exP tol arg (start exP arg)) from rfl, h9] at this
      exact absurd this (not_lt.2 hreg)
  · rw [show itmax + 3 - 1 = itmax + 1 + 1 by omega]
    unfold loop
    split_ifs with a1
    · unfold loop
      split_ifs with a2
      · cases itmax with
        | zero => unfold loop; rw [h9]; exact hreg
        | succ k => unfold loop; rw [if_neg (by rw [h9]; exact not_lt.2 hreg), h9]; exact hreg
      · exact not_lt.1 a2
    · exact not_lt.1 a1

/-- C99 fails when the iteration limit is reached: with `itmax = 2` the last pair is extrapolated beyond the breakpoint and labelled with `reg`.  Here the returned plan for `reg = 1/10` is `(19/20, 0)` and not
optimal. -/
theorem C99_itmax_refuted : ∃ t rest, path exP tol arg (1 / 10) 2 = (1 / 10, t) :: rest ∧ t (false, ()) = 19 / 20 ∧ t (true, ()) = 0 ∧
    ¬ IsL2Optimal (fun _ : Bool => 1) (fun _ : Unit => 1) (fun i _ => if i then 3 else 1) (1 / 10) fun i j => t (i, j) := by
  obtain ⟨g1, g2, g3, g4⟩ := exP_start harg
  obtain ⟨h1, h2, h3, h4, h5, h6⟩ := exP_step1 harg he ha ha1 hr hr1
  have hl : loop exP tol arg (1 / 10) (2 - 1) (start exP arg) = step exP tol arg (start exP arg) := by
    change loop exP tol arg (1 / 10) (0 + 1) (start exP arg) = _
    unfold loop
    rw [if_pos (by rw [g2]; norm_num)]
    rfl
  unfold path finish
  rw [hl, h6]
  refine ⟨_, _, rfl, ?_, ?_, fun h => ?_⟩
  · rw [h5, h2]; norm_num
  · rw [h5]; norm_num
  · have := h.2 (fun i _ => if i then 1 / 10 else 19 / 20) fun i _ => by split_ifs <;> norm_num
    unfold l2Unbalanced at this
    simp only [Fintype.sum_bool, univ_unique, sum_singleton, h5, h2] at this
    norm_num at this

end examples

section tie

/-- two points on each side with weights `1/2`, cost 1 between partners and 2 otherwise -/
noncomputable abbrev exQ : Lasso (Bool × Bool) (Bool ⊕ Bool) := recast (fun _ : Bool => 1 / 2) (fun _ : Bool => 1 / 2) fun i j => if i = j then 1 else 2

theorem exQ_HtH (i j : Bool × Bool) : exQ.HtH i j = (if i.1 = j.1 then 1 else 0) + if i.2 = j.2 then 1 else 0 := by
  obtain ⟨i, i'⟩ := i
  obtain ⟨j, j'⟩ := j
  cases i <;> cases j <;> cases i' <;> cases j' <;> simp [exQ, Lasso.HtH, recast, Fintype.sum_sum_type]

theorem exQ_Hty (i : Bool × Bool) : exQ.Hty i = 1 := by
  obtain ⟨i, i'⟩ := i
  cases i <;> cases i' <;> simp [exQ, Lasso.Hty, recast, Fintype.sum_sum_type] <;> norm_num

theorem exQ_c (i : Bool × Bool) : exQ.c i = if i.1 = i.2 then 1 else 2 := rfl

/-- C99 fails when two indices become active at the same time, for instance on symmetric inputs: the second index is masked by the tolerance and never enters.  With two points on each side, equal weights
and the costs of `exQ`, the returned plan for `reg = 1/2` has a single positive entry `1/4`, and the other diagonal entry is zero, whatever rule `argmax` uses for ties. -/
theorem C99_tie_refuted {tol : Tol} (he : tol.eps = 0) (ha : 0 < tol.add) (ha1 : tol.add ≤ 1 / 2) (hr : 0 < tol.rem) (hr1 : tol.rem ≤ 1 / 2)
    {arg : (Bool × Bool → ℝ) → Bool × Bool} (harg : ∀ M : Bool × Bool → ℝ, ∀ x, M x ≤ M (arg M)) (itmax : ℕ) :
    ∃ t rest, path exQ tol arg (1 / 2) (itmax + 2) = (1 / 2, t) :: rest ∧ (∃ i, t (i, i) = 1 / 4 ∧ ∀ x, x ≠ (i, i) → t x = 0) ∧
      ¬ IsL2Optimal (fun _ : Bool => 1 / 2) (fun _ : Bool => 1 / 2) (fun i j => if i = j then 1 else 2) (1 / 2) fun i j => t (i, j) := by
  obtain ⟨d, hd⟩ : ∃ d, arg (fun i => exQ.Hty i / exQ.c i) = (d, d) := by
    have h := harg (fun i => exQ.Hty i / exQ.c i) (true, true)
    obtain ⟨x, hx⟩ : ∃ x, arg (fun i => exQ.Hty i / exQ.c i) = x := ⟨_, rfl⟩
    rw [hx] at h ⊢
    obtain ⟨x1, x2⟩ := x
    simp only [exQ_Hty, exQ_c] at h
    refine ⟨x1, ?_⟩
    by_cases e : x1 = x2
    · rw [e]
    · rw [if_neg e] at h; norm_num at h
  obtain ⟨h1, h2, h3, h4⟩ := start_phi exQ arg hd
  rw [exQ_Hty, exQ_c, if_pos rfl, div_one] at h2
  simp only [exQ_Hty, exQ_c, if_pos] at h3 h4
  have hG : ∀ i, nextGamma exQ tol (start exQ arg) i = if i.1 = i.2 then 0 else 1 / 3 := fun i => by
    rw [nextGamma_eq he, h1, rp, rq, h1, sum_singleton, sum_singleton, h2, h3, h4, exQ_HtH, exQ_Hty, exQ_c]
    obtain ⟨i, j⟩ := i
    cases d <;> cases i <;> cases j <;> norm_num <;> first | done | (intro; linarith) | linarith
  have hR : ∀ i, nextRemoval exQ tol (start exQ arg) i = 0 := fun i => by
    rw [nextRemoval_eq he, h1, h2, h3, h4]
    by_cases e : i = (d, d)
    · rw [if_pos (by simp [e]), if_pos e, if_pos]
      norm_num; linarith
    · rw [if_neg (by simpa using e)]
  have hs1 : (step exQ tol arg (start exQ arg)).γ = 1 / 3 := by
    rw [step_γ, hR]
    have := harg (nextGamma exQ tol (start exQ arg)) (true, false)
    rw [hG, hG] at this
    rw [hG]
    simp only [reduceCtorEq, if_false] at this
    split_ifs at this ⊢ with e
    · norm_num at this
    · norm_num
  have hl : loop exQ tol arg (1 / 2) (itmax + 2 - 1) (start exQ arg) = step exQ tol arg (start exQ arg) := by
    change loop exQ tol arg (1 / 2) (itmax + 1) (start exQ arg) = _
    unfold loop
    rw [if_pos (by rw [h2]; norm_num)]
    cases itmax with
    | zero => rfl
    | succ k => unfold loop; rw [if_neg (by rw [hs1]; norm_num)]
  have ht : ∀ x, (step exQ tol arg (start exQ arg)).t x = if x = (d, d) then 1 / 3 else 0 := fun x => by
    rw [step_t, hs1, seg, h3, h4]
    split_ifs <;> norm_num
  have hp : (step exQ tol arg (start exQ arg)).past = [(1, fun _ => 0)] := by rw [step_past, h2]; rfl
  unfold path finish
  rw [hl, hp]
  refine ⟨_, _, rfl, ⟨d, ?_, fun x hx => ?_⟩, fun h => ?_⟩
  · rw [ht, hs1, if_pos rfl]; norm_num
  · rw [ht, if_neg hx]; norm_num
  · have := h.2 (fun i j => if i = j then 1 / 4 else 0) fun i j => by split_ifs <;> norm_num
    unfold l2Unbalanced at this
    simp only [Fintype.sum_bool, ht, hs1] at this
    cases d <;> norm_num at this

end tie

end POT.Props
