import Verif.Lemmas.SemiPath
import Verif.Props.RegPath
import Mathlib.Tactic.NormNum
import Mathlib.Tactic.FinCases

/-!
# C127: the regularisation path of semi-relaxed quadratically penalised transport

`recast_semi_relaxed_as_lasso`, `construct_augmented_H`, `semi_relaxed_path` (`regularization_path` with `semi_relaxed=True`), `compute_transport_plan`. Specification: `Verif/Spec/SemiPath.lean`.
-/

set_option linter.unusedSectionVars false

namespace POT.Props

open Finset Spec SemiPath
open RegPath (Tol planAt seek)

/-- `inv` inverts: whenever `N` is the two-sided inverse of `M` on the indices `A`, `inv A M` is `N` there. -/
def Inverts {Z : Type*} [DecidableEq Z] (inv : Finset Z → (Z → Z → ℝ) → (Z → Z → ℝ)) : Prop :=
  ∀ (A : Finset Z) (M N : Z → Z → ℝ), (∀ i ∈ A, ∀ k ∈ A, ∑ j ∈ A, M i j * N j k = if i = k then 1 else 0) → (∀ i ∈ A, ∀ k ∈ A, ∑ j ∈ A, N i j * M j k = if i = k then 1 else 0) → ∀ i ∈ A, ∀ k ∈ A, inv A M i k = N i k

section generic

variable {X R J : Type*} [Fintype X] [DecidableEq X] [Fintype R] [Fintype J] [DecidableEq J] {p : Prob X R J} {inv : Finset (J ⊕ X) → (J ⊕ X → J ⊕ X → ℝ) → (J ⊕ X → J ⊕ X → ℝ)} {tol : Tol} {arg : (X → ℝ) → X}

/-- every stretch of the path between two neighbours is optimal, and so is the first plan from the first parameter on -/
def ChainOf (Opt : ℝ → (X → ℝ) → Prop) : ℝ × (X → ℝ) → List (ℝ × (X → ℝ)) → Prop
  | last, [] => ∀ γ, last.1 ≤ γ → Opt γ last.2
  | last, e :: rest => last.1 < e.1 ∧ (∀ γ, last.1 ≤ γ → γ ≤ e.1 → Opt γ (interp γ last e)) ∧ ChainOf Opt e rest

variable {Opt : ℝ → (X → ℝ) → Prop}

theorem chainOf_seek {γ : ℝ} (rest : List (ℝ × (X → ℝ))) : ∀ later : ℝ × (X → ℝ), ChainOf Opt later rest → later.1 < γ → γ < ((later :: rest).getLast (List.cons_ne_nil _ _)).1 → Opt γ (seek γ later rest) := by
  induction rest with
  | nil => intro later _ h1 h2; exact absurd (h1.trans h2) (lt_irrefl _)
  | cons e rest ih =>
    intro later hch h1 h2
    unfold seek
    split_ifs with h
    · exact hch.2.1 γ h1.le h
    · exact ih e hch.2.2 (not_le.1 h) (by simpa using h2)

theorem chainOf_last (rest : List (ℝ × (X → ℝ))) : ∀ later : ℝ × (X → ℝ), ChainOf Opt later rest → ∀ γ, ((later :: rest).getLast (List.cons_ne_nil _ _)).1 ≤ γ → Opt γ ((later :: rest).getLast (List.cons_ne_nil _ _)).2 := by
  induction rest with
  | nil => intro later h γ hγ; exact h γ hγ
  | cons e rest ih => intro later h γ hγ; simpa using ih e h.2.2 γ (by simpa using hγ)

theorem chainOf_head {reg : ℝ} {t : X → ℝ} (rest : List (ℝ × (X → ℝ))) (hch : ChainOf Opt (reg, t) rest) : Opt reg t := by
  cases rest with
  | nil => exact hch reg le_rfl
  | cons e rest =>
    have := hch.2.1 reg le_rfl hch.1.le
    rwa [interp_last (last := (reg, t)) hch.1.ne] at this

theorem chainOf_plan {γ reg : ℝ} (t : X → ℝ) (rest : List (ℝ × (X → ℝ))) (hch : ChainOf Opt (reg, t) rest) (h : reg ≤ γ) : Opt γ (planAt γ ((reg, t) :: rest)) := by
  unfold planAt
  dsimp only
  split_ifs with h1 h2
  · exact chainOf_last rest _ hch γ h1
  · have e : γ = reg := le_antisymm h2 h
    subst e
    exact chainOf_head rest hch
  · exact chainOf_seek rest _ hch (not_le.1 h2) (not_le.1 h1)

theorem chainOf_sorted (rest : List (ℝ × (X → ℝ))) : ∀ later : ℝ × (X → ℝ), ChainOf Opt later rest → ((later :: rest).map Prod.fst).Pairwise (· < ·) := by
  induction rest with
  | nil => intro later _; simp
  | cons e rest ih =>
    intro later h
    have h1 := ih e h.2.2
    rw [List.map_cons, List.pairwise_cons]
    refine ⟨fun g hg => ?_, h1⟩
    rw [List.map_cons, List.mem_cons] at hg
    rcases hg with rfl | hg
    · exact h.1
    · rw [List.map_cons, List.pairwise_cons] at h1
      exact h.1.trans (h1.1 g hg)

/-- state, parameter and plan after `n + 1` iterations -/
noncomputable def iterate (p : Prob X R J) (inv : Finset (J ⊕ X) → (J ⊕ X → J ⊕ X → ℝ) → (J ⊕ X → J ⊕ X → ℝ)) (tol : Tol) (arg : (X → ℝ) → X) (s : State X J) : ℕ → State X J × ℝ × (X → ℝ)
  | 0 => step p inv tol arg none s
  | n + 1 => step p inv tol arg (some (iterate p inv tol arg s n).2.1) (iterate p inv tol arg s n).1

/-- The run meets no coincidences: after every iteration that does not end the loop, only the index of the last event sits on the boundary (a zero entry of the plan in the active set, a zero component of the reduced gradient
outside), and no breakpoint below the current parameter is so close to it that the tolerances of the code hide it. -/
def SemiNonDegenerate (p : Prob X R J) (inv : Finset (J ⊕ X) → (J ⊕ X → J ⊕ X → ℝ) → (J ⊕ X → J ⊕ X → ℝ)) (tol : Tol) (arg : (X → ℝ) → X) (reg : ℝ) (s : State X J) : Prop :=
  ∀ n, (∀ m ≤ n, reg < (iterate p inv tol arg s m).2.1) → Simple p inv (iterate p inv tol arg s n).1 (iterate p inv tol arg s n).2.1 ∧ Gap p inv tol (iterate p inv tol arg s n).1 (iterate p inv tol arg s n).2.1

theorem interp_semi (s : State X J) {γ γ' g : ℝ} (hne : γ' ≠ g) : interp γ (γ', fun i => seg p inv s γ' (.inr i)) (g, fun i => seg p inv s g (.inr i)) = fun i => seg p inv s γ (.inr i) := by
  funext i
  simp only [interp, seg]
  have : γ' - g ≠ 0 := sub_ne_zero.2 hne
  field_simp
  ring

theorem semi_loop_chain (he : tol.eps = 0) (ha : 0 < tol.add) (hr : 0 < tol.rem) (harg : ∀ M : X → ℝ, ∀ i, M i ≤ M (arg M)) (h2 : ∀ i, p.HrHr i i = 1) (hE : ∀ i, ∃ j, p.E j i ≠ 0) {reg : ℝ} (hreg : 0 ≤ reg) {s0 : State X J}
    (hnd : SemiNonDegenerate p inv tol arg reg s0) (k n : ℕ) (hn : ∀ m < n, reg < (iterate p inv tol arg s0 m).2.1) (out : List (ℝ × (X → ℝ)))
    (hready : reg < (iterate p inv tol arg s0 n).2.1 → Ready p inv (iterate p inv tol arg s0 n).1 (iterate p inv tol arg s0 n).2.1 ∧
      (iterate p inv tol arg s0 n).2.2 = fun i => seg p inv (iterate p inv tol arg s0 n).1 (iterate p inv tol arg s0 n).2.1 (.inr i))
    (hch : ChainOf (IsMin p) (iterate p inv tol arg s0 n).2 out) (hpast : ∀ g ∈ out, reg < g.1) :
    ∃ last rest, loop p inv tol arg reg k (iterate p inv tol arg s0 n).1 ((iterate p inv tol arg s0 n).2 :: out) = last :: rest ∧ ChainOf (IsMin p) last rest ∧ ∀ g ∈ rest, reg < g.1 := by
  induction k generalizing n out with
  | zero => exact ⟨_, _, rfl, hch, hpast⟩
  | succ k ih =>
    obtain ⟨x, hx⟩ : ∃ x, x = iterate p inv tol arg s0 n := ⟨_, rfl⟩
    have hes : iterate p inv tol arg s0 (n + 1) = step p inv tol arg (some x.2.1) x.1 := by rw [hx]; rfl
    rw [← hx] at hready hch ⊢
    obtain ⟨s, g, t⟩ := x
    dsimp only at hready hch hes ⊢
    unfold loop
    by_cases hγ : g > reg
    · rw [if_pos hγ]
      have hn' : ∀ m < n + 1, reg < (iterate p inv tol arg s0 m).2.1 := fun m hm => by
        rcases Nat.lt_succ_iff_lt_or_eq.1 hm with h | h
        · exact hn m h
        · rw [h, ← hx]; exact hγ
      obtain ⟨hrdy, hst⟩ := hready hγ
      have hgap := (hnd n fun m hm => hn' m (Nat.lt_succ_of_le hm)).2
      rw [← hx] at hgap
      have hb := step_γ_bounds he ha hr harg hrdy
      have := ih (n + 1) hn' ((g, t) :: out)
      rw [hes] at this
      refine this (fun hγ' => ?_) ?_ ?_
      · refine ready_step he ha hr harg h2 hE hrdy hgap rfl (by linarith) ?_
        have := (hnd (n + 1) fun m hm => by
          rcases Nat.le_succ_iff.1 hm with h | h
          · exact hn' m (Nat.lt_succ_of_le h)
          · rw [h, hes]; exact hγ').1
        rwa [hes] at this
      · refine ⟨hb.2, fun γ h1 h3 => ?_, hch⟩
        have : (step p inv tol arg (some g) s).2 = ((step p inv tol arg (some g) s).2.1, fun i => seg p inv s (step p inv tol arg (some g) s).2.1 (.inr i)) := by rw [← step_t]
        rw [this, hst, interp_semi s hb.2.ne]
        exact (segment he harg hrdy hgap h1 h3).2.2
      · intro e he'
        rcases List.mem_cons.1 he' with rfl | he'
        · exact hγ
        · exact hpast e he'
    · rw [if_neg hγ]
      exact ⟨_, _, rfl, hch, hpast⟩

end generic

/-! ## The first iteration -/

section first

variable {I J : Type*} [Fintype I] [Fintype J] [DecidableEq I] [DecidableEq J] {inv : Finset (J ⊕ I × J) → (J ⊕ I × J → J ⊕ I × J → ℝ) → (J ⊕ I × J → J ⊕ I × J → ℝ)} {a : I → ℝ} {b : J → ℝ} {C : I → J → ℝ}

theorem semi_diag (x : I × J) : (recastSemi a b C).HrHr x x = 1 := by simp [Prob.HrHr, recastSemi]

/-- the state before the loop, for the choice `σ` of one row in each column -/
def semiStart (σ : J → I) : State (I × J) J := { S := univ.image fun j => (σ j, j), B := fun _ _ => 0, ev := .first }

theorem mem_semiStart (σ : J → I) (x : I × J) : x ∈ (semiStart σ).S ↔ x.1 = σ x.2 := by
  obtain ⟨i, j⟩ := x
  simp [semiStart, eq_comm]

theorem sum_semiStart (σ : J → I) (f : I × J → ℝ) : ∑ x ∈ (semiStart σ).S, f x = ∑ j, f (σ j, j) := by
  unfold semiStart
  rw [sum_image]
  intro x _ y _ h
  exact (Prod.mk.inj h).2

/-- the inverse of the augmented matrix of the first iteration -/
def semiInv (σ : J → I) : J ⊕ I × J → J ⊕ I × J → ℝ
  | .inl j, .inl k => if σ j = σ k then -1 else 0
  | .inl j, .inr x => if j = x.2 then 1 else 0
  | .inr x, .inl j => if x.2 = j then 1 else 0
  | .inr _, .inr _ => 0

theorem semi_HrHr (x y : I × J) : (recastSemi a b C).HrHr x y = if x.1 = y.1 then 1 else 0 := by
  simp [Prob.HrHr, recastSemi, eq_comm]

theorem semiInv_symm (σ : J → I) (z w : J ⊕ I × J) : semiInv σ z w = semiInv σ w z := by
  rcases z with j | x <;> rcases w with k | y <;> simp [semiInv, eq_comm]

theorem semiInv_right (σ : J → I) : ∀ z ∈ active (J := J) (semiStart σ).S, ∀ w ∈ active (J := J) (semiStart σ).S, ∑ u ∈ active (J := J) (semiStart σ).S, (recastSemi a b C).aug z u * semiInv σ u w = if z = w then 1 else 0 := by
  intro z hz w hw
  rw [sum_active, sum_semiStart]
  have hEe : ∀ j (x : I × J), (recastSemi a b C).E j x = if x.2 = j then 1 else 0 := fun _ _ => rfl
  rcases z with j | ⟨i, j⟩
  · rcases w with k | ⟨l, k⟩
    · simp only [Prob.aug, semiInv, hEe, zero_mul, sum_const_zero, zero_add, ite_mul, one_mul, sum_ite_eq', mem_univ, if_true, Sum.inl.injEq]
    · simp [Prob.aug, semiInv]
  · have hi : i = σ j := (mem_semiStart σ _).1 ((mem_inr _ _).1 hz)
    subst hi
    rcases w with k | ⟨l, k⟩
    · have e1 : ∑ x, (if j = x then (1 : ℝ) else 0) * (if σ x = σ k then -1 else 0) = if σ j = σ k then -1 else 0 := by
        simp only [ite_mul, one_mul, zero_mul, sum_ite_eq, mem_univ, if_true]
      have e2 : ∑ x, (if σ j = σ x then (1 : ℝ) else 0) * (if x = k then 1 else 0) = if σ j = σ k then 1 else 0 := by simp
      simp only [Prob.aug, semiInv, semi_HrHr, hEe]
      rw [e1, e2]
      split_ifs <;> simp_all
    · have hl : l = σ k := (mem_semiStart σ _).1 ((mem_inr _ _).1 hw)
      subst hl
      simp only [Prob.aug, semiInv, semi_HrHr, hEe, ite_mul, one_mul, zero_mul, mul_zero, sum_const_zero, add_zero, sum_ite_eq, mem_univ, if_true, Sum.inr.injEq, Prod.mk.injEq]
      by_cases h : j = k
      · subst h; simp
      · simp [h]

theorem semi_first_inv (hinv : Inverts inv) (σ : J → I) : InvOn (recastSemi a b C).aug (active (semiStart σ).S) (inverse (recastSemi a b C) inv (semiStart σ)) ∧
    ∀ z ∈ active (J := J) (semiStart σ).S, ∀ w ∈ active (J := J) (semiStart σ).S, inverse (recastSemi a b C) inv (semiStart σ) z w = semiInv σ z w := by
  have hr := semiInv_right (a := a) (b := b) (C := C) σ
  have hl : ∀ z ∈ active (J := J) (semiStart σ).S, ∀ w ∈ active (J := J) (semiStart σ).S, ∑ u ∈ active (J := J) (semiStart σ).S, semiInv σ z u * (recastSemi a b C).aug u w = if z = w then 1 else 0 := fun z hz w hw => by
    have := hr w hw z hz
    rw [show (if z = w then (1 : ℝ) else 0) = if w = z then 1 else 0 by simp [eq_comm], ← this]
    exact sum_congr rfl fun u _ => by rw [semiInv_symm σ z u, aug_symm u w]; ring
  have he : ∀ z ∈ active (J := J) (semiStart σ).S, ∀ w ∈ active (J := J) (semiStart σ).S, inverse (recastSemi a b C) inv (semiStart σ) z w = semiInv σ z w := by
    intro z hz w hw
    exact hinv (active (semiStart σ).S) (recastSemi a b C).aug (semiInv σ) (fun i hi k hk => by convert hr i hi k hk) (fun i hi k hk => by convert hl i hi k hk) z hz w hw
  refine ⟨⟨fun z hz w hw => ?_, fun z hz w hw => ?_⟩, he⟩
  · rw [← hr z hz w hw]
    exact sum_congr rfl fun u hu => by rw [he u hu w hw]
  · rw [he z hz w hw, he w hw z hz, semiInv_symm]

variable {σ : J → I}

theorem semi_first_delta (hinv : Inverts inv) : (∀ x, delta (recastSemi a b C) inv (semiStart σ) (.inr x) = 0) ∧ ∀ j, delta (recastSemi a b C) inv (semiStart σ) (.inl j) = C (σ j) j := by
  obtain ⟨-, he⟩ := semi_first_inv (a := a) (b := b) (C := C) hinv σ
  constructor
  · intro x
    unfold delta
    split_ifs with hx
    · exact sum_eq_zero fun y hy => by rw [he _ hx _ ((mem_inr _ _).2 hy)]; simp [semiInv]
    · rfl
  · intro j
    unfold delta
    rw [if_pos (mem_inl _ j), sum_congr rfl fun y hy => by rw [he _ (mem_inl _ j) _ ((mem_inr _ _).2 hy)], sum_semiStart]
    simp [semiInv, recastSemi]

theorem semi_first_phi (hinv : Inverts inv) (j : J) : phi (recastSemi a b C) inv (semiStart σ) (.inr (σ j, j)) = b j := by
  obtain ⟨-, he⟩ := semi_first_inv (a := a) (b := b) (C := C) hinv σ
  have hx : (Sum.inr (σ j, j) : J ⊕ I × J) ∈ active (semiStart σ).S := (mem_inr _ _).2 ((mem_semiStart σ _).2 rfl)
  rw [phi_in hx, sum_congr rfl fun w hw => by rw [he _ hx _ hw], sum_active]
  simp [semiInv, Prob.rhs, recastSemi]

theorem semi_first_rq (hinv : Inverts inv) (x : I × J) : rq (recastSemi a b C) inv (semiStart σ) (.inr x) = C (σ x.2) x.2 - C x.1 x.2 := by
  obtain ⟨h1, h2⟩ := semi_first_delta (a := a) (b := b) (C := C) (σ := σ) hinv
  rw [rq, sum_active]
  simp only [h1, h2, mul_zero, sum_const_zero, add_zero, Prob.aug]
  simp [recastSemi, cst]

/-- from every large parameter on, the first state is as it should be -/
theorem semi_first_ready [Nonempty J] (hinv : Inverts inv) (hb : ∀ j, 0 < b j) (hσ : ∀ j i, i ≠ σ j → C (σ j) j < C i j) {tol : Tol} (ha1 : tol.add < 1) :
    ∃ g0, ∀ g, g0 ≤ g → Ready (recastSemi a b C) inv (semiStart σ) g ∧ Gap (recastSemi a b C) inv tol (semiStart σ) g := by
  obtain ⟨h1, -⟩ := semi_first_delta (a := a) (b := b) (C := C) (σ := σ) hinv
  have hseg : ∀ g, ∀ x ∈ (semiStart σ).S, 0 < seg (recastSemi a b C) inv (semiStart σ) g (.inr x) := fun g x hx => by
    obtain ⟨i, j⟩ := x
    have hi : i = σ j := (mem_semiStart σ _).1 hx
    subst hi
    rw [seg, h1, semi_first_phi hinv]
    simpa using hb j
  have hrq : ∀ x ∉ (semiStart σ).S, rq (recastSemi a b C) inv (semiStart σ) (.inr x) < 0 := fun x hx => by
    rw [semi_first_rq hinv]
    have := hσ x.2 x.1 fun e => hx ((mem_semiStart σ x).2 e)
    linarith
  let m : ℝ := ∑ x, |rp (recastSemi a b C) inv (semiStart σ) (.inr x) / rq (recastSemi a b C) inv (semiStart σ) (.inr x)|
  have hm : ∀ x, rp (recastSemi a b C) inv (semiStart σ) (.inr x) / rq (recastSemi a b C) inv (semiStart σ) (.inr x) ≤ m := fun x =>
    (le_abs_self _).trans (single_le_sum (f := fun x => |rp (recastSemi a b C) inv (semiStart σ) (.inr x) / rq (recastSemi a b C) inv (semiStart σ) (.inr x)|) (fun _ _ => abs_nonneg _) (mem_univ x))
  have hm0 : 0 ≤ m := sum_nonneg fun _ _ => abs_nonneg _
  refine ⟨max (m + 1) (m / (1 - tol.add)), fun g hg => ?_⟩
  have hg1 : m < g := by linarith [(le_max_left _ _).trans hg]
  have hg2 : m ≤ g - tol.add * g := by
    have := (div_le_iff₀ (by linarith)).1 ((le_max_right _ _).trans hg)
    linarith
  have hres : ∀ x ∉ (semiStart σ).S, 0 < resid (recastSemi a b C) g (seg (recastSemi a b C) inv (semiStart σ) g) (.inr x) := fun x hx => by
    rw [resid_seg]
    have := (div_lt_iff_of_neg (hrq x hx)).1 ((hm x).trans_lt hg1)
    linarith
  refine ⟨⟨?_, (semi_first_inv hinv σ).1, hm0.trans_lt hg1, fun x hx => (hseg g x hx).le, fun x hx h0 => absurd h0 (hseg g x hx).ne', fun x hx => (hres x hx).le, fun x hx h0 => absurd h0 (hres x hx).ne'⟩,
    ⟨fun x _ hd => absurd (h1 x) hd, fun x _ _ _ => (hm x).trans hg2⟩⟩
  obtain ⟨j⟩ := ‹Nonempty J›
  exact ⟨(σ j, j), (mem_semiStart σ _).2 rfl⟩

/-- C127: the regression problem with constraints that the code builds is the semi-relaxed problem. -/
theorem C127_recast (γ : ℝ) (t : I × J → ℝ) : IsMin (recastSemi a b C) γ t ↔ IsSemiL2Optimal a b C γ fun i j => t (i, j) := by
  have hobj : ∀ t : I × J → ℝ, SemiPath.obj (recastSemi a b C) γ t = semiRelaxedL2 a C γ fun i j => t (i, j) := fun t => by
    unfold SemiPath.obj semiRelaxedL2
    simp only [recastSemi, Fintype.sum_prod_type, ite_mul, one_mul, zero_mul]
    congr 2
    refine sum_congr rfl fun i _ => ?_
    congr 2
    rw [sum_comm]
    refine sum_congr rfl fun j _ => ?_
    simp
  have hfe : ∀ t : I × J → ℝ, Feas (recastSemi a b C) t ↔ IsColumnPlan b fun i j => t (i, j) := fun t => by
    unfold Feas IsColumnPlan
    refine and_congr ⟨fun h i j => h _, fun h x => h x.1 x.2⟩ (forall_congr' fun j => ?_)
    simp [recastSemi, Fintype.sum_prod_type]
  unfold SemiPath.IsMin IsSemiL2Optimal
  rw [hfe, hobj]
  refine and_congr Iff.rfl ⟨fun h T' hT' => ?_, fun h t' ht' => ?_⟩
  · have := h (fun x => T' x.1 x.2) ((hfe _).2 hT')
    rwa [hobj] at this
  · rw [hobj]
    exact h _ ((hfe _).1 ht')

/-- C127: for positive target weights and costs with a unique smallest entry in every column, and a run without coincidences that ends before the iteration limit, the plan that `compute_transport_plan` reads off the lists
is optimal for the semi-relaxed problem for every parameter from `reg` on; the returned plan is optimal for `reg`; the listed parameters are strictly decreasing in time (the list has the newest first) and end with `reg`.
(`1e-16` is taken as zero; the other two tolerances are any numbers between 0 and 1.) -/
theorem C127_path_partial [Nonempty J] (hinv : Inverts inv) (hb : ∀ j, 0 < b j) {argmin : (I → ℝ) → I} (hmin : ∀ j i, i ≠ argmin (fun i => C i j) → C (argmin fun i => C i j) j < C i j) {tol : Tol} (he : tol.eps = 0)
    (ha : 0 < tol.add) (ha1 : tol.add < 1) (hr : 0 < tol.rem) (hr1 : tol.rem < 1) {arg : (I × J → ℝ) → I × J} (harg : ∀ M : I × J → ℝ, ∀ x, M x ≤ M (arg M)) {reg : ℝ} (hreg : 0 ≤ reg)
    (hnd : SemiNonDegenerate (recastSemi a b C) inv tol arg reg { S := startSet argmin C, B := fun _ _ => 0, ev := .first }) (itmax : ℕ) (hit1 : 2 ≤ itmax)
    (hit : ∀ e ∈ (SemiPath.loop (recastSemi a b C) inv tol arg reg (itmax - 1) { S := startSet argmin C, B := fun _ _ => 0, ev := .first } []).head?, e.1 ≤ reg) :
    ∃ t rest, semiPath inv argmin tol arg a b C reg itmax = some ((reg, t) :: rest) ∧ (IsSemiL2Optimal a b C reg fun i j => t (i, j)) ∧ (((reg, t) :: rest).map Prod.fst).Pairwise (· < ·) ∧
      ∀ γ, reg ≤ γ → IsSemiL2Optimal a b C γ fun i j => planAt γ ((reg, t) :: rest) (i, j) := by
  obtain ⟨k, rfl⟩ : ∃ k, itmax = k + 2 := ⟨itmax - 2, by omega⟩
  let σ : J → I := fun j => argmin fun i => C i j
  have hs0 : ({ S := startSet argmin C, B := fun _ _ => 0, ev := .first } : State (I × J) J) = semiStart σ := rfl
  rw [hs0] at hnd hit
  suffices h : ∃ t rest, semiPath inv argmin tol arg a b C reg (k + 2) = some ((reg, t) :: rest) ∧ ChainOf (IsMin (recastSemi a b C)) (reg, t) rest by
    obtain ⟨t, rest, h1, h2⟩ := h
    exact ⟨t, rest, h1, (C127_recast ..).1 (chainOf_head rest h2), chainOf_sorted rest _ h2, fun γ hγ => (C127_recast ..).1 (chainOf_plan t rest h2 hγ)⟩
  obtain ⟨g1, hg1⟩ := semi_first_ready (a := a) (b := b) (C := C) (σ := σ) hinv hb (fun j i => hmin j i) (tol := tol) ha1
  obtain ⟨g2, hg2⟩ := step_none (p := recastSemi a b C) (inv := inv) (arg := arg) he ha1 hr1 (semiStart σ)
  have hdel := (semi_first_delta (a := a) (b := b) (C := C) (σ := σ) hinv).1
  have hconst : ∀ γ γ', (fun x => seg (recastSemi a b C) inv (semiStart σ) γ (.inr x)) = fun x => seg (recastSemi a b C) inv (semiStart σ) γ' (.inr x) := fun γ γ' => by
    funext x; rw [seg, seg, hdel]; simp
  have hE : ∀ x : I × J, ∃ j, (recastSemi a b C).E j x ≠ 0 := fun x => ⟨x.2, by simp [recastSemi]⟩
  have hl := semi_loop_chain (inv := inv) he ha hr harg (semi_diag (a := a) (b := b) (C := C)) hE hreg hnd k 0 (fun m hm => absurd hm (Nat.not_lt_zero _)) []
  simp only [iterate] at hl
  obtain ⟨last, rest, hloop, hch, hpast⟩ := hl (fun hγ => by
      obtain ⟨h3, h4⟩ := hg1 (max g1 g2) (le_max_left _ _)
      have h5 := hg2 (max g1 g2) (le_max_right _ _)
      refine ready_step he ha hr harg (semi_diag (a := a) (b := b) (C := C)) hE h3 h4 (by rw [← h5]) (by linarith) ?_
      exact (hnd 0 fun m hm => by rw [Nat.le_zero.1 hm]; exact hγ).1)
    (fun γ hγ => by
      obtain ⟨h3, h4⟩ := hg1 (max γ (max g1 g2)) ((le_max_left _ _).trans (le_max_right _ _))
      have h5 := hg2 (max γ (max g1 g2)) ((le_max_right _ _).trans (le_max_right _ _))
      have h6 := (segment he harg h3 h4 (arg := arg) (γ := γ) (by rw [← h5]; exact hγ) (le_max_left _ _)).2.2
      rw [step_t, hconst _ γ]
      exact h6) (by simp)
  have hloop' : SemiPath.loop (recastSemi a b C) inv tol arg reg (k + 2 - 1) (semiStart σ) [] = last :: rest := by
    rw [← hloop]; rfl
  rw [hloop'] at hit
  have hlast : last.1 ≤ reg := hit last (by simp)
  have e : semiPath inv argmin tol arg a b C reg (k + 2) = SemiPath.finish reg (last :: rest) := by
    rw [← hloop']; rfl
  rw [e]
  clear e hloop hloop' hit
  obtain ⟨g, t⟩ := last
  cases rest with
  | nil => exact ⟨t, [], rfl, fun γ h => hch γ (hlast.trans h)⟩
  | cons e rest =>
    obtain ⟨g0, t0⟩ := e
    obtain ⟨h1, h3, h4⟩ := hch
    have hg0 : reg < g0 := hpast (g0, t0) (List.mem_cons_self ..)
    simp only at h1 h3 hlast
    refine ⟨_, _, rfl, hg0, fun γ h5 h6 => ?_, h4⟩
    have := h3 γ (hlast.trans h5) h6
    have e : interp γ (reg, fun i => t0 i + (t i - t0 i) * (reg - g0) / (g - g0)) (g0, t0) = interp γ (g, t) (g0, t0) := by
      funext i
      simp only [interp]
      have a1 : reg - g0 ≠ 0 := sub_ne_zero.2 hg0.ne
      have a2 : g - g0 ≠ 0 := sub_ne_zero.2 h1.ne
      field_simp
      ring
    rw [e]
    exact this

theorem semi_first_phi_inl (hinv : Inverts inv) (j : J) : phi (recastSemi a b C) inv (semiStart σ) (.inl j) = a (σ j) - ∑ k, if σ j = σ k then b k else 0 := by
  obtain ⟨-, he⟩ := semi_first_inv (a := a) (b := b) (C := C) hinv σ
  rw [phi_in (mem_inl _ j), sum_congr rfl fun w hw => by rw [he _ (mem_inl _ j) _ hw], sum_active, sum_semiStart]
  have e1 : ∀ k, (recastSemi a b C).rhs (.inr (σ k, k)) = a (σ k) := fun k => by simp [Prob.rhs, Prob.Hra, recastSemi]
  have e2 : ∀ k, (recastSemi a b C).rhs (.inl k) = b k := fun k => rfl
  simp only [e1, e2, semiInv, ite_mul, one_mul, zero_mul, sum_ite_eq, mem_univ, if_true, neg_mul]
  rw [add_comm, sub_eq_add_neg, ← sum_neg_distrib]
  congr 1
  exact sum_congr rfl fun k _ => by split_ifs <;> simp

theorem semi_first_rp (hinv : Inverts inv) (x : I × J) :
    rp (recastSemi a b C) inv (semiStart σ) (.inr x) = (a (σ x.2) - ∑ k, if σ x.2 = σ k then b k else 0) + (∑ k, if x.1 = σ k then b k else 0) - a x.1 := by
  rw [rp, sum_active, sum_semiStart]
  simp only [semi_first_phi hinv, semi_first_phi_inl hinv, Prob.aug, semi_HrHr, ite_mul, one_mul, zero_mul]
  have e1 : (recastSemi a b C).rhs (.inr x) = a x.1 := by simp [Prob.rhs, Prob.Hra, recastSemi]
  have e2 : ∀ f : J → ℝ, ∑ j, (recastSemi a b C).E j x * f j = f x.2 := fun f => by simp [recastSemi]
  rw [e1, e2]

open Classical in
theorem nextGamma_eps {tol : Tol} (cur : Option ℝ) (s : State (I × J) J) (x : I × J) :
    nextGamma (recastSemi a b C) inv tol cur s x = if x ∈ s.S then 0 else if tooLarge tol.add cur (rp (recastSemi a b C) inv s (.inr x) / (rq (recastSemi a b C) inv s (.inr x) + tol.eps)) then 0
      else rp (recastSemi a b C) inv s (.inr x) / (rq (recastSemi a b C) inv s (.inr x) + tol.eps) := by
  have e1 : ∑ k ∈ s.S, (recastSemi a b C).HrHr x k * phi (recastSemi a b C) inv s (.inr k) - (recastSemi a b C).Hra x + ∑ j, (recastSemi a b C).E j x * phi (recastSemi a b C) inv s (.inl j) = rp (recastSemi a b C) inv s (.inr x) := by
    rw [rp, sum_active]; simp only [Prob.aug, Prob.rhs, Sum.elim_inr]; ring
  have e2 : ∑ k ∈ s.S, (recastSemi a b C).HrHr x k * delta (recastSemi a b C) inv s (.inr k) - (recastSemi a b C).c x + ∑ j, (recastSemi a b C).E j x * delta (recastSemi a b C) inv s (.inl j) = rq (recastSemi a b C) inv s (.inr x) := by
    rw [rq, sum_active]; simp only [Prob.aug, cst, Sum.elim_inr]; ring
  unfold nextGamma
  rw [e1, e2]

end first

/-! ## Refutations and example -/

section examples

variable {inv : Finset (Unit ⊕ Fin 2 × Unit) → (Unit ⊕ Fin 2 × Unit → Unit ⊕ Fin 2 × Unit → ℝ) → (Unit ⊕ Fin 2 × Unit → Unit ⊕ Fin 2 × Unit → ℝ)} {argmin : (Fin 2 → ℝ) → Fin 2} {tol : Tol} {arg : (Fin 2 × Unit → ℝ) → Fin 2 × Unit}

/-- the first row, in every column -/
def first0 : Unit → Fin 2 := fun _ => 0

/-- source weights 1/4 and 3/4 -/
noncomputable def exSrc : Fin 2 → ℝ := fun i => if i = 0 then 1 / 4 else 3 / 4

theorem exSemi_removal (hinv : Inverts inv) (heps : 0 ≤ tol.eps) (C : Fin 2 → Unit → ℝ) (x : Fin 2 × Unit) : nextRemoval (recastSemi exSrc (fun _ => 1) C) inv tol none (semiStart first0) x ≤ 0 := by
  unfold nextRemoval
  dsimp only
  split_ifs with h1 h2
  · exact le_rfl
  · obtain ⟨i, j⟩ := x
    have hi : i = 0 := (mem_semiStart first0 _).1 h1
    subst hi
    have := semi_first_phi (a := exSrc) (b := fun _ => (1 : ℝ)) (C := C) (σ := first0) hinv j
    rw [show ((0 : Fin 2), j) = (first0 j, j) from rfl, this, (semi_first_delta hinv).1, zero_sub]
    exact div_nonpos_of_nonneg_of_nonpos zero_le_one (by linarith)
  · exact le_rfl

/-- **Equal smallest costs in a column** (as for repeated or symmetric points): the reduced gradient of the second candidate does not depend on the parameter, its sign is not looked at, and the candidate is never added.
With two sources of weights 1/4 and 3/4, one target and equal costs, the plan that matches the sources exactly is optimal for every parameter; the returned plan takes everything from the first. -/
theorem C127_column_tie_refuted (hinv : Inverts inv) (heps : 0 ≤ tol.eps) (harg : ∀ M : Fin 2 × Unit → ℝ, ∀ x, M x ≤ M (arg M)) (hargmin : argmin (fun _ => 1) = 0) {reg : ℝ} (hreg : 0 ≤ reg) {itmax : ℕ} (hit : 2 ≤ itmax) :
    ∃ t, semiPath inv argmin tol arg exSrc (fun _ => 1) (fun _ _ => 1) reg itmax = some [(reg, t)] ∧ t (0, ()) = 1 ∧ t (1, ()) = 0 ∧
      ∀ γ, ¬ IsSemiL2Optimal exSrc (fun _ : Unit => 1) (fun _ _ => 1) γ fun i j => t (i, j) := by
  obtain ⟨k, rfl⟩ : ∃ k, itmax = k + 2 := ⟨itmax - 2, by omega⟩
  have hs0 : ({ S := startSet argmin fun (_ : Fin 2) (_ : Unit) => (1 : ℝ), B := fun _ _ => 0, ev := .first } : State (Fin 2 × Unit) Unit) = semiStart first0 := by
    simp only [startSet, semiStart, hargmin, first0]
  let p : Prob (Fin 2 × Unit) (Fin 2) Unit := recastSemi exSrc (fun _ => 1) fun _ _ => 1
  have hng : ∀ x, nextGamma p inv tol none (semiStart first0) x ≤ 0 := fun x => by
    rw [nextGamma_eps]
    split_ifs with h1 h2
    · exact le_rfl
    · exact le_rfl
    · obtain ⟨i, j⟩ := x
      have hi : i = 1 := by
        have := fun h => h1 ((mem_semiStart first0 (i, j)).2 h)
        fin_cases i
        · exact absurd rfl this
        · rfl
      subst hi
      rw [semi_first_rq hinv, semi_first_rp hinv, sub_self, zero_add]
      refine div_nonpos_of_nonpos_of_nonneg ?_ heps
      simp [exSrc, first0]
      norm_num
  have hn0 : nextGamma p inv tol none (semiStart first0) (0, ()) = 0 := by
    rw [nextGamma_eps, if_pos ((mem_semiStart first0 (0, ())).2 rfl)]
  have hng1 : nextGamma p inv tol none (semiStart first0) (arg (nextGamma p inv tol none (semiStart first0))) = 0 := le_antisymm (hng _) (by rw [← hn0]; exact harg _ _)
  have hstep : (step p inv tol arg none (semiStart first0)).2 = (0, fun x => phi p inv (semiStart first0) (.inr x)) := by
    unfold step
    dsimp only
    rw [hng1, if_neg (not_lt.2 (exSemi_removal hinv heps _ _))]
    simp
  refine ⟨fun x => phi p inv (semiStart first0) (.inr x), ?_, ?_, ?_, ?_⟩
  · unfold semiPath
    rw [hs0, show k + 2 - 1 = k + 1 by omega]
    show SemiPath.finish reg (SemiPath.loop p inv tol arg reg (k + 1) (semiStart first0) []) = _
    unfold SemiPath.loop
    rw [hstep]
    cases k with
    | zero => rfl
    | succ k => unfold SemiPath.loop; rw [if_neg (not_lt.2 hreg)]; rfl
  · exact semi_first_phi hinv ()
  · exact if_neg fun h => by simpa [first0] using (mem_semiStart first0 (1, ())).1 ((mem_inr _ _).1 h)
  · intro γ h
    have h2 := h.2 (fun i _ => exSrc i) ⟨fun i _ => by simp only [exSrc]; split_ifs <;> norm_num, fun j => by simp [exSrc, Fin.sum_univ_two]; norm_num⟩
    have e0 : phi p inv (semiStart first0) (.inr (0, ())) = 1 := semi_first_phi hinv ()
    have e1 : phi p inv (semiStart first0) (.inr (1, ())) = 0 := if_neg fun h => by simpa [first0] using (mem_semiStart first0 (1, ())).1 ((mem_inr _ _).1 h)
    simp [semiRelaxedL2, Fin.sum_univ_two, exSrc, e0, e1] at h2
    norm_num at h2

/-- costs 1 and 2 -/
noncomputable def exCost : Fin 2 → Unit → ℝ := fun i _ => if i = 0 then 1 else 2

theorem exCost_step (hinv : Inverts inv) (he : tol.eps = 0) (harg : ∀ M : Fin 2 × Unit → ℝ, ∀ x, M x ≤ M (arg M)) :
    step (recastSemi exSrc (fun _ => 1) exCost) inv tol arg none (semiStart first0) =
      ({ S := insert (1, ()) (semiStart first0).S, B := inverse (recastSemi exSrc (fun _ => 1) exCost) inv (semiStart first0), ev := .add (1, ()) }, 3 / 2, fun x => phi (recastSemi exSrc (fun _ => 1) exCost) inv (semiStart first0) (.inr x)) := by
  let p : Prob (Fin 2 × Unit) (Fin 2) Unit := recastSemi exSrc (fun _ => 1) exCost
  have hn0 : nextGamma p inv tol none (semiStart first0) (0, ()) = 0 := by
    rw [nextGamma_eps, if_pos ((mem_semiStart first0 (0, ())).2 rfl)]
  have hn1 : nextGamma p inv tol none (semiStart first0) (1, ()) = 3 / 2 := by
    rw [nextGamma_eps, if_neg (fun h => by simpa [first0] using (mem_semiStart first0 (1, ())).1 h), if_neg (c := tooLarge tol.add none _) (fun h => h), semi_first_rq hinv, semi_first_rp hinv, he]
    simp [exSrc, exCost, first0]
    norm_num
  have hik : arg (nextGamma p inv tol none (semiStart first0)) = (1, ()) := by
    have := harg (nextGamma p inv tol none (semiStart first0)) (1, ())
    rw [hn1] at this
    obtain ⟨x, hx⟩ : ∃ x, x = arg (nextGamma p inv tol none (semiStart first0)) := ⟨_, rfl⟩
    rw [← hx] at this ⊢
    obtain ⟨i, j⟩ := x
    fin_cases i
    · exfalso
      have h0 : nextGamma p inv tol none (semiStart first0) ((⟨0, by norm_num⟩ : Fin 2), j) = 0 := hn0
      rw [h0] at this
      norm_num at this
    · rfl
  unfold step
  dsimp only
  rw [hik, hn1, if_neg (not_lt.2 ((exSemi_removal hinv he.ge _ _).trans (by norm_num)))]
  simp only [(semi_first_delta hinv).1, mul_zero, sub_zero]

/-- **Iteration limit**: with `itmax=2` the first plan is returned as the one for `reg`, below the first breakpoint 3/2, where it is not optimal. -/
theorem C127_itmax_refuted (hinv : Inverts inv) (he : tol.eps = 0) (harg : ∀ M : Fin 2 × Unit → ℝ, ∀ x, M x ≤ M (arg M)) (hargmin : argmin (fun i => exCost i ()) = 0) {reg : ℝ} (hreg : 0 ≤ reg) (hreg1 : reg < 3 / 2) :
    ∃ t, semiPath inv argmin tol arg exSrc (fun _ => 1) exCost reg 2 = some [(reg, t)] ∧ ¬ IsSemiL2Optimal exSrc (fun _ : Unit => 1) exCost reg fun i j => t (i, j) := by
  have hs0 : ({ S := startSet argmin exCost, B := fun _ _ => 0, ev := .first } : State (Fin 2 × Unit) Unit) = semiStart first0 := by
    have : ∀ j : Unit, argmin (fun i => exCost i j) = 0 := fun j => hargmin
    simp only [startSet, semiStart, this, first0]
  refine ⟨fun x => phi (recastSemi exSrc (fun _ => 1) exCost) inv (semiStart first0) (.inr x), ?_, ?_⟩
  · unfold semiPath
    rw [hs0]
    show SemiPath.finish reg [(step _ inv tol arg none (semiStart first0)).2] = _
    rw [exCost_step hinv he harg]
    rfl
  · intro h
    have h2 := h.2 (fun i _ => if i = 0 then 1 / 4 + reg / 2 else 3 / 4 - reg / 2) ⟨fun i _ => by dsimp only; split_ifs <;> linarith, fun j => by simp [Fin.sum_univ_two]; ring⟩
    have e0 : phi (recastSemi exSrc (fun _ => 1) exCost) inv (semiStart first0) (.inr (0, ())) = 1 := semi_first_phi hinv ()
    have e1 : phi (recastSemi exSrc (fun _ => 1) exCost) inv (semiStart first0) (.inr (1, ())) = 0 := if_neg fun h => by simpa [first0] using (mem_semiStart first0 (1, ())).1 ((mem_inr _ _).1 h)
    simp [semiRelaxedL2, Fin.sum_univ_two, exSrc, exCost, e0, e1] at h2
    nlinarith [mul_pos (sub_pos.2 hreg1) (sub_pos.2 hreg1)]

/-- the state after the first iteration of the example -/
noncomputable def exState (inv : Finset (Unit ⊕ Fin 2 × Unit) → (Unit ⊕ Fin 2 × Unit → Unit ⊕ Fin 2 × Unit → ℝ) → (Unit ⊕ Fin 2 × Unit → Unit ⊕ Fin 2 × Unit → ℝ)) : State (Fin 2 × Unit) Unit :=
  { S := insert (1, ()) (semiStart first0).S, B := inverse (recastSemi exSrc (fun _ => 1) exCost) inv (semiStart first0), ev := .add (1, ()) }

theorem exState_mem (x : Fin 2 × Unit) : x ∈ (exState inv).S := by
  obtain ⟨i, j⟩ := x
  fin_cases i
  · exact mem_insert_of_mem ((mem_semiStart first0 _).2 rfl)
  · exact mem_insert_self _ _

theorem exState_sum (f : Fin 2 × Unit → ℝ) : ∑ x ∈ (exState inv).S, f x = f (0, ()) + f (1, ()) := by
  rw [show (exState inv).S = univ from eq_univ_of_forall exState_mem, Fintype.sum_prod_type, Fin.sum_univ_two]
  simp

theorem exState_inv (hinv : Inverts inv) : InvOn (recastSemi exSrc (fun _ => 1) exCost).aug (active (exState inv).S) (inverse (recastSemi exSrc (fun _ => 1) exCost) inv (exState inv)) := by
  obtain ⟨h0, he⟩ := semi_first_inv (a := exSrc) (b := fun _ => (1 : ℝ)) (C := exCost) hinv first0
  have hn : ((1, ()) : Fin 2 × Unit) ∉ (semiStart first0).S := fun h => by simpa [first0] using (mem_semiStart first0 (1, ())).1 h
  have hnA : (Sum.inr (1, ()) : Unit ⊕ Fin 2 × Unit) ∉ active (semiStart first0).S := fun h => hn ((mem_inr _ _).1 h)
  have hs : ss (recastSemi exSrc (fun _ => 1) exCost).aug (inverse (recastSemi exSrc (fun _ => 1) exCost) inv (semiStart first0)) (active (semiStart first0).S) (.inr (1, ())) ≠ 0 := by
    unfold ss sx
    rw [sum_congr rfl fun k hk => by rw [sum_congr rfl fun w hw => by rw [he k hk w hw]]]
    simp only [sum_active, sum_semiStart]
    simp only [Prob.aug, semi_HrHr, semiInv]
    simp [recastSemi, first0]
    norm_num
  have := add_inv (aug_symm (p := recastSemi exSrc (fun _ => 1) exCost)) h0 hnA hs
  rw [← active_insert] at this
  have e : inverse (recastSemi exSrc (fun _ => 1) exCost) inv (exState inv) = RegPath.schurAdd (inverse (recastSemi exSrc (fun _ => 1) exCost) inv (semiStart first0)) (active (semiStart first0).S) (.inr (1, ())) (fun k => (recastSemi exSrc (fun _ => 1) exCost).aug k (.inr (1, ()))) ((recastSemi exSrc (fun _ => 1) exCost).aug (.inr (1, ())) (.inr (1, ()))) := by
    have h1 : (recastSemi exSrc (fun _ : Unit => 1) exCost).aug (.inr (1, ())) (.inr (1, ())) = 1 := semi_diag _
    rw [h1]
    unfold exState inverse
    dsimp only
    rw [erase_insert hn]
  rw [e]
  exact this

theorem exState_phi (hinv : Inverts inv) : phi (recastSemi exSrc (fun _ => 1) exCost) inv (exState inv) (.inr (0, ())) = 1 / 4 ∧ phi (recastSemi exSrc (fun _ => 1) exCost) inv (exState inv) (.inr (1, ())) = 3 / 4 := by
  have hx : ∀ z ∈ active (J := Unit) (exState inv).S, ∑ w ∈ active (exState inv).S, (recastSemi exSrc (fun _ => 1) exCost).aug z w * (Sum.elim (fun _ => 0) fun x : Fin 2 × Unit => exSrc x.1) w = (recastSemi exSrc (fun _ => 1) exCost).rhs z := fun z _ => by
    rw [sum_active, exState_sum]
    rcases z with j | ⟨i, j⟩
    · simp [Prob.aug, Prob.rhs, recastSemi, exSrc]; norm_num
    · fin_cases i <;> simp [Prob.aug, Prob.rhs, Prob.Hra, semi_HrHr] <;> simp [recastSemi, exSrc]
  constructor
  · rw [phi_in ((mem_inr _ _).2 (exState_mem _)), ← (exState_inv hinv).unique aug_symm hx ((mem_inr _ _).2 (exState_mem _))]; simp [exSrc]
  · rw [phi_in ((mem_inr _ _).2 (exState_mem _)), ← (exState_inv hinv).unique aug_symm hx ((mem_inr _ _).2 (exState_mem _))]; simp [exSrc]

theorem exState_delta (hinv : Inverts inv) : delta (recastSemi exSrc (fun _ => 1) exCost) inv (exState inv) (.inr (0, ())) = -(1 / 2) ∧ delta (recastSemi exSrc (fun _ => 1) exCost) inv (exState inv) (.inr (1, ())) = 1 / 2 := by
  have hx : ∀ z ∈ active (J := Unit) (exState inv).S, ∑ w ∈ active (exState inv).S, (recastSemi exSrc (fun _ => 1) exCost).aug z w * (Sum.elim (fun _ => 3 / 2) fun x : Fin 2 × Unit => if x.1 = 0 then -(1 / 2) else 1 / 2) w = cst (recastSemi exSrc (fun _ => 1) exCost) z := fun z _ => by
    rw [sum_active, exState_sum]
    rcases z with j | ⟨i, j⟩
    · simp [Prob.aug, cst, recastSemi]
    · fin_cases i <;> simp [Prob.aug, cst, semi_HrHr] <;> simp [recastSemi, exCost] <;> norm_num
  constructor
  · rw [delta_in ((mem_inr _ _).2 (exState_mem _)), ← (exState_inv hinv).unique aug_symm hx ((mem_inr _ _).2 (exState_mem _))]; simp
  · rw [delta_in ((mem_inr _ _).2 (exState_mem _)), ← (exState_inv hinv).unique aug_symm hx ((mem_inr _ _).2 (exState_mem _))]; simp

theorem exState_step (hinv : Inverts inv) (he : tol.eps = 0) (hr : 0 < tol.rem) : (step (recastSemi exSrc (fun _ => 1) exCost) inv tol arg (some (3 / 2)) (exState inv)).2.1 ≤ 0 := by
  rw [step_γ]
  refine max_le ?_ ?_
  · obtain ⟨x, hx⟩ : ∃ x, x = arg (nextRemoval (recastSemi exSrc (fun _ => 1) exCost) inv tol (some (3 / 2)) (exState inv)) := ⟨_, rfl⟩
    rw [← hx, nextRemoval_eq he, if_pos (exState_mem x)]
    obtain ⟨i, j⟩ := x
    fin_cases i
    · have e1 := (exState_phi hinv).1
      have e2 := (exState_delta hinv).1
      simp only [Fin.zero_eta, e1, e2]
      split_ifs <;> norm_num
    · have e1 := (exState_phi hinv).2
      have e2 := (exState_delta hinv).2
      simp only [Fin.mk_one, e1, e2]
      split_ifs with h
      · exact le_rfl
      · exact absurd h (by nlinarith)
  · rw [nextGamma_eq he, if_pos (exState_mem _)]

/-- The hypotheses of `C127_path_partial` are met: two sources of weights 1/4 and 3/4 at costs 1 and 2 from one target; the path has one breakpoint at 3/2. -/
theorem C127_path_example (hinv : Inverts inv) (hargmin : argmin (fun i => exCost i ()) = 0) (he : tol.eps = 0) (ha : 0 < tol.add) (ha1 : tol.add < 1) (hr : 0 < tol.rem) (hr1 : tol.rem < 1) (harg : ∀ M : Fin 2 × Unit → ℝ, ∀ x, M x ≤ M (arg M)) {reg : ℝ} (hreg : 0 ≤ reg) :
    ∃ t rest, semiPath inv argmin tol arg exSrc (fun _ => 1) exCost reg 3 = some ((reg, t) :: rest) ∧ (IsSemiL2Optimal exSrc (fun _ => 1) exCost reg fun i j => t (i, j)) ∧ (((reg, t) :: rest).map Prod.fst).Pairwise (· < ·) ∧
      ∀ γ, reg ≤ γ → IsSemiL2Optimal exSrc (fun _ => 1) exCost γ fun i j => planAt γ ((reg, t) :: rest) (i, j) := by
  have hargmin' : ∀ j : Unit, argmin (fun i => exCost i j) = 0 := fun j => hargmin
  have hs0 : ({ S := startSet argmin exCost, B := fun _ _ => 0, ev := .first } : State (Fin 2 × Unit) Unit) = semiStart first0 := by
    simp only [startSet, semiStart, hargmin', first0]
  have hst : step (recastSemi exSrc (fun _ => 1) exCost) inv tol arg none (semiStart first0) = (exState inv, 3 / 2, fun x => phi (recastSemi exSrc (fun _ => 1) exCost) inv (semiStart first0) (.inr x)) := exCost_step hinv he harg
  refine C127_path_partial hinv (fun _ => one_pos) ?_ he ha ha1 hr hr1 harg hreg ?_ 3 (by norm_num) ?_
  · intro j i hi
    rw [hargmin'] at hi ⊢
    simp only [exCost, if_true, if_neg hi]
    norm_num
  · rw [hs0]
    intro n hn
    cases n with
    | zero =>
      show Simple _ inv (step _ inv tol arg none (semiStart first0)).1 (step _ inv tol arg none (semiStart first0)).2.1 ∧ Gap _ inv tol (step _ inv tol arg none (semiStart first0)).1 (step _ inv tol arg none (semiStart first0)).2.1
      rw [hst]
      refine ⟨⟨fun x _ h0 => ?_, fun x hx => absurd (exState_mem x) hx⟩, ⟨fun x _ _ hlt => ?_, fun x hx => absurd (exState_mem x) hx⟩⟩
      · obtain ⟨i, j⟩ := x
        fin_cases i
        · exfalso
          have e1 := (exState_phi hinv).1
          have e2 := (exState_delta hinv).1
          simp only [Fin.zero_eta, seg, e1, e2] at h0
          norm_num at h0
        · rfl
      · obtain ⟨i, j⟩ := x
        fin_cases i
        · have e1 := (exState_phi hinv).1
          have e2 := (exState_delta hinv).1
          simp only [Fin.zero_eta, e1, e2]
          norm_num
          linarith
        · exfalso
          have e1 := (exState_phi hinv).2
          have e2 := (exState_delta hinv).2
          simp only [Fin.mk_one, e1, e2] at hlt
          norm_num at hlt
    | succ n =>
      exfalso
      have h1 := hn 1 (by omega)
      have h2 : (iterate (recastSemi exSrc (fun _ => 1) exCost) inv tol arg (semiStart first0) 1).2.1 ≤ 0 := by
        show (step _ inv tol arg (some (step _ inv tol arg none (semiStart first0)).2.1) (step _ inv tol arg none (semiStart first0)).1).2.1 ≤ 0
        rw [hst]
        exact exState_step hinv he hr
      linarith
  · rw [hs0]
    intro e he'
    change e ∈ (if (step _ inv tol arg none (semiStart first0)).2.1 > reg then _ else _ : List (ℝ × (Fin 2 × Unit → ℝ))).head? at he'
    rw [hst] at he'
    split_ifs at he' with h
    · have : e = (step (recastSemi exSrc (fun _ => 1) exCost) inv tol arg (some (3 / 2)) (exState inv)).2 := by
        have := Option.mem_some_iff.1 he'
        exact this.symm
      rw [this]
      exact (exState_step hinv he hr).trans hreg
    · have := Option.mem_some_iff.1 he'
      rw [← this]
      exact not_lt.1 h

/-- An inverting function, an `argmin` and an `argmax` exist. -/
theorem inverts_exists {Z : Type*} [DecidableEq Z] : ∃ inv : Finset Z → (Z → Z → ℝ) → (Z → Z → ℝ), Inverts inv := by
  classical
  refine ⟨fun A M => if h : ∃ N : Z → Z → ℝ, (∀ i ∈ A, ∀ k ∈ A, ∑ j ∈ A, M i j * N j k = if i = k then 1 else 0) ∧ ∀ i ∈ A, ∀ k ∈ A, ∑ j ∈ A, N i j * M j k = if i = k then 1 else 0 then h.choose else fun _ _ => 0, ?_⟩
  intro A M N h1 h2 i hi k hk
  have h : ∃ N : Z → Z → ℝ, (∀ i ∈ A, ∀ k ∈ A, ∑ j ∈ A, M i j * N j k = if i = k then 1 else 0) ∧ ∀ i ∈ A, ∀ k ∈ A, ∑ j ∈ A, N i j * M j k = if i = k then 1 else 0 := ⟨N, h1, h2⟩
  dsimp only
  rw [dif_pos h]
  obtain ⟨-, g2⟩ := h.choose_spec
  set N' := h.choose
  have e1 : ∑ j ∈ A, ∑ l ∈ A, N' i j * M j l * N l k = N' i k := by
    have : ∀ j ∈ A, ∑ l ∈ A, N' i j * M j l * N l k = if j = k then N' i j else 0 := fun j hj => by
      simp_rw [mul_assoc]
      rw [← mul_sum, h1 j hj k hk]; simp
    rw [sum_congr rfl this]; simp [hk]
  have e2 : ∑ j ∈ A, ∑ l ∈ A, N' i j * M j l * N l k = N i k := by
    rw [sum_comm]
    have : ∀ l ∈ A, ∑ j ∈ A, N' i j * M j l * N l k = if i = l then N l k else 0 := fun l hl => by
      rw [← sum_mul, g2 i hi l hl]; simp
    rw [sum_congr rfl this]; simp [hi]
  rw [← e1, e2]

example : ∃ (inv : Finset (Unit ⊕ Fin 2 × Unit) → (Unit ⊕ Fin 2 × Unit → Unit ⊕ Fin 2 × Unit → ℝ) → (Unit ⊕ Fin 2 × Unit → Unit ⊕ Fin 2 × Unit → ℝ)) (argmin : (Fin 2 → ℝ) → Fin 2) (arg : (Fin 2 × Unit → ℝ) → Fin 2 × Unit),
    Inverts inv ∧ argmin (fun i => exCost i ()) = 0 ∧ argmin (fun _ => 1) = 0 ∧ (∀ M : Fin 2 × Unit → ℝ, ∀ x, M x ≤ M (arg M)) := by
  obtain ⟨inv, hinv⟩ := inverts_exists (Z := Unit ⊕ Fin 2 × Unit)
  have hmax : ∀ M : Fin 2 × Unit → ℝ, ∃ x, ∀ y, M y ≤ M x := fun M => by
    obtain ⟨x, -, hx⟩ := exists_max_image univ M univ_nonempty
    exact ⟨x, fun y => hx y (mem_univ y)⟩
  exact ⟨inv, fun _ => 0, fun M => (hmax M).choose, hinv, rfl, rfl, fun M => (hmax M).choose_spec⟩

/-- **No iteration**: with `itmax=1` there is nothing to return (an `IndexError`). -/
theorem C127_no_iteration_refuted {I J : Type*} [Fintype I] [Fintype J] [DecidableEq I] [DecidableEq J] (inv) (argmin : (I → ℝ) → I) (tol : Tol) (arg) (a : I → ℝ) (b : J → ℝ) (C : I → J → ℝ) (reg : ℝ) :
    semiPath inv argmin tol arg a b C reg 1 = none := rfl

end examples

end POT.Props
