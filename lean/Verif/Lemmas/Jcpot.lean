import Verif.Model.Jcpot
import Verif.Spec.Jcpot
import Verif.Lemmas.Unmix
import Verif.Lemmas.SinkhornOpt

/-! # Lemmas: `jcpot_barycenter` -/

set_option linter.unusedSectionVars false

namespace POT.Jcpot

open Finset Spec Classical POT.Unmix

variable {Δ : Type*} {X : Δ → Type*} {C J : Type*} [Fintype Δ] [∀ d, Fintype (X d)] [Fintype C] [Fintype J]

theorem classSum_sum {X : Type*} [Fintype X] (ℓ : X → C) (w : X → ℝ) : ∑ c, classSum ℓ w c = ∑ i, w i := by
  unfold classSum
  rw [sum_comm]
  exact sum_congr rfl fun i _ => by simp

theorem classSum_nonneg {X : Type*} [Fintype X] (ℓ : X → C) {w : X → ℝ} (hw : ∀ i, 0 ≤ w i) (c : C) : 0 ≤ classSum ℓ w c :=
  sum_nonneg fun i _ => by split_ifs; exacts [hw i, le_rfl]

theorem classSum_pos {X : Type*} [Fintype X] {ℓ : X → C} {w : X → ℝ} (hw : ∀ i, 0 ≤ w i) {c : C} (hc : ∃ i, ℓ i = c ∧ 0 < w i) : 0 < classSum ℓ w c := by
  obtain ⟨i, hi, hp⟩ := hc
  refine sum_pos' (fun i _ => by split_ifs; exacts [hw i, le_rfl]) ⟨i, mem_univ _, ?_⟩
  rw [if_pos hi]
  exact hp

theorem classSum_absent {X : Type*} [Fintype X] {ℓ : X → C} {w : X → ℝ} {c : C} (hc : ∀ i, ℓ i ≠ c) : classSum ℓ w c = 0 :=
  sum_eq_zero fun i _ => if_neg (hc i)

/-- spreading and collecting again -/
theorem classSum_spread {X : Type*} [Fintype X] {ℓ : X → C} {h : C → ℝ} {c : C} (hc : ∃ i, ℓ i = c) : classSum ℓ (spread ℓ h) c = h c := by
  obtain ⟨i, hi⟩ := hc
  have hne : ((univ.filter fun i' => ℓ i' = c).card : ℝ) ≠ 0 := Nat.cast_ne_zero.2 (card_ne_zero_of_mem (mem_filter.2 ⟨mem_univ i, hi⟩))
  unfold classSum
  rw [← sum_filter, sum_congr rfl fun i' hi' => show spread ℓ h i' = h c / ((univ.filter fun i' => ℓ i' = c).card : ℝ) from ?_]
  · rw [sum_const, nsmul_eq_mul]
    field_simp
  · have := (mem_filter.1 hi').2
    unfold spread
    rw [this]

theorem spread_pos {X : Type*} [Fintype X] {ℓ : X → C} {h : C → ℝ} {i : X} (hh : 0 < h (ℓ i)) : 0 < spread ℓ h i :=
  div_pos hh (Nat.cast_pos.2 (card_pos.2 ⟨i, mem_filter.2 ⟨mem_univ i, rfl⟩⟩))

theorem spread_nonneg {X : Type*} [Fintype X] {ℓ : X → C} {h : C → ℝ} (hh : ∀ c, 0 ≤ h c) (i : X) : 0 ≤ spread ℓ h i := div_nonneg (hh _) (Nat.cast_nonneg _)

theorem target_pos [Nonempty J] (j : J) : 0 < (target : J → ℝ) j := by unfold target; positivity

theorem target_sum [Nonempty J] : ∑ j, (target : J → ℝ) j = 1 := by
  unfold target
  rw [sum_const, card_univ, nsmul_eq_mul]
  field_simp

section step

variable {ℓ : ∀ d, X d → C} {K : ∀ d, X d → J → ℝ}

theorem baryOf_nonneg (c : C) : 0 ≤ baryOf ℓ K c := by
  unfold baryOf
  split_ifs
  · exact le_rfl
  · exact (Real.exp_pos _).le

theorem projC_nonneg {I : Type*} [Fintype I] [Nonempty J] {G : I → J → ℝ} (hG : ∀ i j, 0 ≤ G i j) (i : I) (j : J) : 0 ≤ projC G target i j :=
  div_nonneg (mul_nonneg (hG i j) (target_pos j).le) (max_pos _).le

theorem step_nonneg [Nonempty J] (hK : ∀ d i j, 0 ≤ K d i j) (d : Δ) (i : X d) (j : J) : 0 ≤ step ℓ K d i j :=
  div_nonneg (mul_nonneg (projC_nonneg (hK d) i j) (spread_nonneg baryOf_nonneg i)) (max_pos _).le

theorem rows_nonneg {I : Type*} [Fintype I] [Nonempty J] {G : I → J → ℝ} (hG : ∀ i j, 0 ≤ G i j) (i : I) : 0 ≤ rows (projC G target) i :=
  sum_nonneg fun j _ => projC_nonneg hG i j

/-- positive entries at the samples of the class `c` -/
def PosAt (ℓ : ∀ d, X d → C) (K : ∀ d, X d → J → ℝ) (c : C) : Prop := ∀ d i, ℓ d i = c → ∀ j, 0 < K d i j

theorem rows_posAt [Nonempty J] {c : C} (hp : PosAt ℓ K c) {d : Δ} {i : X d} (hi : ℓ d i = c) : 0 < rows (projC (K d) target) i :=
  sum_pos (fun j _ => div_pos (mul_pos (hp d i hi j) (target_pos j)) (max_pos _)) univ_nonempty

theorem classSum_posAt [Nonempty J] (hK : ∀ d i j, 0 ≤ K d i j) {c : C} (hp : PosAt ℓ K c) (hc : ∀ d, ∃ i, ℓ d i = c) (d : Δ) :
    0 < classSum (ℓ d) (rows (projC (K d) target)) c := by
  obtain ⟨i, hi⟩ := hc d
  exact classSum_pos (rows_nonneg (hK d)) ⟨i, hi, rows_posAt hp hi⟩

theorem baryOf_eq [Nonempty J] (hK : ∀ d i j, 0 ≤ K d i j) {c : C} (hp : PosAt ℓ K c) (hc : ∀ d, ∃ i, ℓ d i = c) :
    baryOf ℓ K c = Real.exp (∑ d, Real.log (classSum (ℓ d) (rows (projC (K d) target)) c) / Fintype.card Δ) := by
  unfold baryOf
  rw [if_neg]
  rintro ⟨d, hd⟩
  exact (classSum_posAt hK hp hc d).ne' hd

theorem baryOf_pos [Nonempty J] (hK : ∀ d i j, 0 ≤ K d i j) {c : C} (hp : PosAt ℓ K c) (hc : ∀ d, ∃ i, ℓ d i = c) : 0 < baryOf ℓ K c := by
  rw [baryOf_eq hK hp hc]
  exact Real.exp_pos _

theorem step_posAt [Nonempty J] (hK : ∀ d i j, 0 ≤ K d i j) {c : C} (hp : PosAt ℓ K c) (hc : ∀ d, ∃ i, ℓ d i = c) : PosAt ℓ (step ℓ K) c := by
  intro d i hi j
  refine div_pos (mul_pos (div_pos (mul_pos (hp d i hi j) (target_pos j)) (max_pos _)) (spread_pos ?_)) (max_pos _)
  rw [hi]
  exact baryOf_pos hK hp hc

theorem baryOf_absent {c : C} {d : Δ} (hc : ∀ i, ℓ d i ≠ c) : baryOf ℓ K c = 0 := if_pos ⟨d, classSum_absent hc⟩

theorem iter_nonneg [Nonempty J] (hK : ∀ d i j, 0 ≤ K d i j) (n : ℕ) : ∀ d i j, 0 ≤ ((step ℓ)^[n] K) d i j := by
  induction n with
  | zero => exact hK
  | succ n ih => rw [Function.iterate_succ_apply']; exact step_nonneg ih

theorem iter_posAt [Nonempty J] (hK : ∀ d i j, 0 ≤ K d i j) {c : C} (hp : PosAt ℓ K c) (hc : ∀ d, ∃ i, ℓ d i = c) (n : ℕ) : PosAt ℓ ((step ℓ)^[n] K) c := by
  induction n with
  | zero => exact hp
  | succ n ih => rw [Function.iterate_succ_apply']; exact step_posAt (iter_nonneg hK n) ih hc

/-- mass of the unnormalised proportions -/
theorem baryOf_sum_le [Nonempty J] [Nonempty Δ] (hK : ∀ d i j, 0 ≤ K d i j) : ∑ c, baryOf ℓ K c ≤ 1 := by
  have hn : (0 : ℝ) < Fintype.card Δ := Nat.cast_pos.2 Fintype.card_pos
  have h1 : ∀ c, baryOf ℓ K c ≤ ∑ d, classSum (ℓ d) (rows (projC (K d) target)) c / Fintype.card Δ := by
    intro c
    have hnn : ∀ d, 0 ≤ classSum (ℓ d) (rows (projC (K d) target)) c := fun d => classSum_nonneg _ (rows_nonneg (hK d)) c
    unfold baryOf
    split_ifs with h
    · exact sum_nonneg fun d _ => div_nonneg (hnn d) hn.le
    · push Not at h
      have hpos : ∀ d, 0 < classSum (ℓ d) (rows (projC (K d) target)) c := fun d => lt_of_le_of_ne (hnn d) (h d).symm
      have hj := convexOn_exp.map_sum_le (t := univ) (w := fun _ : Δ => 1 / (Fintype.card Δ : ℝ)) (p := fun d => Real.log (classSum (ℓ d) (rows (projC (K d) target)) c))
        (fun _ _ => by positivity) (by rw [sum_const, card_univ, nsmul_eq_mul]; field_simp) (fun _ _ => Set.mem_univ _)
      simp only [smul_eq_mul, one_div_mul_eq_div, Real.exp_log (hpos _)] at hj
      exact hj
  refine (sum_le_sum fun c _ => h1 c).trans ?_
  rw [sum_comm]
  have h2 : ∀ d : Δ, ∑ c, classSum (ℓ d) (rows (projC (K d) target)) c / Fintype.card Δ ≤ 1 / (Fintype.card Δ : ℝ) := by
    intro d
    rw [← sum_div, classSum_sum, sum_rows]
    refine div_le_div_of_nonneg_right ?_ hn.le
    rw [← target_sum (J := J)]
    exact sum_le_sum fun j _ => cols_projC_le (fun j => (target_pos j).le) j
  refine (sum_le_sum fun d _ => h2 d).trans (le_of_eq ?_)
  rw [sum_const, card_univ, nsmul_eq_mul]
  field_simp

/-- the loop returns the plans and proportions of some iteration -/
theorem loop_eq (thr : ℝ) (n : ℕ) (K : ∀ d, X d → J → ℝ) (old : C → ℝ) (hn : 0 < n) : ∃ m < n, loop ℓ thr n K old = ((step ℓ)^[m + 1] K, baryOf ℓ ((step ℓ)^[m] K)) ∧
    (∀ r, r + 1 < m → thr ≤ norm2 fun c => baryOf ℓ ((step ℓ)^[r + 1] K) c - baryOf ℓ ((step ℓ)^[r] K) c) ∧ (0 < m → thr ≤ norm2 fun c => baryOf ℓ K c - old c) ∧
    (m + 1 = n ∨ (m = 0 ∧ norm2 (fun c => baryOf ℓ K c - old c) < thr) ∨
      ∃ r, m = r + 1 ∧ norm2 (fun c => baryOf ℓ ((step ℓ)^[r + 1] K) c - baryOf ℓ ((step ℓ)^[r] K) c) < thr) := by
  induction n generalizing K old with
  | zero => omega
  | succ n ih =>
    unfold loop
    by_cases h : norm2 (fun c => baryOf ℓ K c - old c) < thr
    · rw [if_pos h]
      exact ⟨0, by omega, rfl, fun r hr => by omega, fun h => by omega, Or.inr (Or.inl ⟨rfl, h⟩)⟩
    · rw [if_neg h]
      rcases Nat.eq_zero_or_pos n with rfl | hn'
      · exact ⟨0, by omega, rfl, fun r hr => by omega, fun h => by omega, Or.inl rfl⟩
      · obtain ⟨m, h1, h2, h3, h4, h5⟩ := ih (step ℓ K) (baryOf ℓ K) hn'
        refine ⟨m + 1, by omega, h2, fun r hr => ?_, fun _ => not_lt.1 h, ?_⟩
        · cases r with
          | zero => exact h4 (by omega)
          | succ r => exact h3 r (by omega)
        · rcases h5 with h5 | ⟨h5, h6⟩ | ⟨r, h5, h6⟩
          · exact Or.inl (by omega)
          · exact Or.inr (Or.inr ⟨0, by omega, h6⟩)
          · exact Or.inr (Or.inr ⟨r + 1, by omega, h6⟩)

theorem rows_projR {I : Type*} [Fintype I] {G : I → J → ℝ} {p : I → ℝ} {i : I} (h : guard ≤ rows G i) : rows (projR G p) i = p i := by
  unfold rows projR
  rw [← sum_div, ← sum_mul]
  change rows G i * p i / max (rows G i) guard = _
  rw [max_eq_left h]
  field_simp [(guard_pos.trans_le h).ne']

end step

/-! ### scalings -/

section scal

variable {ℓ : ∀ d, X d → C} {M : ∀ d, X d → J → ℝ} {reg : ℝ}

/-- diagonal scalings of the kernels -/
def Scaled (M : ∀ d, X d → J → ℝ) (reg : ℝ) (K : ∀ d, X d → J → ℝ) (x : ∀ d, X d → ℝ) : Prop :=
  ∀ d, ∃ y : J → ℝ, ∀ i j, Real.log (K d i j) = x d i + y j - M d i j / reg

theorem kernels_scaled : Scaled M reg (kernels M reg) 0 := fun d => ⟨0, fun i j => by
  change Real.log (Real.exp _) = _
  rw [Real.log_exp, neg_div]; simp⟩

theorem step_scaled [Nonempty J] {K : ∀ d, X d → J → ℝ} (hℓ : ∀ d c, ∃ i, ℓ d i = c) (hK : ∀ d i j, 0 < K d i j)
    (hg : ∀ d i, guard ≤ rows (projC (K d) target) i) {x : ∀ d, X d → ℝ} (h : Scaled M reg K x) :
    Scaled M reg (step ℓ K) fun d i => x d i + Real.log (spread (ℓ d) (baryOf ℓ K) i) - Real.log (rows (projC (K d) target) i) := by
  intro d
  obtain ⟨y, hy⟩ := h d
  refine ⟨fun j => y j + (Real.log (target j) - Real.log (max (cols (K d) j) guard)), fun i j => ?_⟩
  have hb := baryOf_pos (fun d i j => (hK d i j).le) (fun d i _ j => hK d i j) (fun d' => hℓ d' (ℓ d i))
  have hsp : 0 < spread (ℓ d) (baryOf ℓ K) i := spread_pos hb
  have hp := projC_pos (hK d) (target_pos (J := J)) i j
  have hr : 0 < rows (projC (K d) target) i := guard_pos.trans_le (hg d i)
  change Real.log (_ * _ / max (rows (projC (K d) target) i) guard) = _
  rw [max_eq_left (hg d i), Real.log_div (mul_pos hp hsp).ne' hr.ne', Real.log_mul hp.ne' hsp.ne', log_projC (hK d) (target_pos (J := J)), hy]
  ring

theorem iter_pos [Nonempty J] (hℓ : ∀ d c, ∃ i, ℓ d i = c) {K : ∀ d, X d → J → ℝ} (hK : ∀ d i j, 0 < K d i j) (n : ℕ) : ∀ d i j, 0 < ((step ℓ)^[n] K) d i j :=
  fun d i j => iter_posAt (fun d i j => (hK d i j).le) (c := ℓ d i) (fun d i _ j => hK d i j) (fun d => hℓ d _) n d i rfl j

theorem iter_scaled [Nonempty J] (hℓ : ∀ d c, ∃ i, ℓ d i = c) (n : ℕ) (hg : ∀ m < n, ∀ d i, guard ≤ rows (projC (((step ℓ)^[m] (kernels M reg)) d) target) i) :
    ∃ x, Scaled M reg ((step ℓ)^[n] (kernels M reg)) x := by
  induction n with
  | zero => exact ⟨0, kernels_scaled⟩
  | succ n ih =>
    obtain ⟨x, hx⟩ := ih fun m hm => hg m (by omega)
    rw [Function.iterate_succ_apply']
    exact ⟨_, step_scaled hℓ (iter_pos hℓ (fun _ _ _ => Real.exp_pos _) n) (hg n (Nat.lt_succ_self n)) hx⟩

/-- one sample per class: the potentials of a class cancel over the domains -/
theorem iter_balanced [Nonempty J] [Nonempty Δ] (hbij : ∀ d, Function.Bijective (ℓ d)) (n : ℕ) (hg : ∀ m < n, ∀ d i, guard ≤ rows (projC (((step ℓ)^[m] (kernels M reg)) d) target) i) :
    ∃ x, Scaled M reg ((step ℓ)^[n] (kernels M reg)) x ∧ ∀ i : ∀ d, X d, (∃ c, ∀ d, ℓ d (i d) = c) → ∑ d, x d (i d) = 0 := by
  have hℓ : ∀ d c, ∃ i, ℓ d i = c := fun d => (hbij d).2
  induction n with
  | zero => exact ⟨0, kernels_scaled, fun i _ => by simp⟩
  | succ n ih =>
    obtain ⟨x, hx, hb⟩ := ih fun m hm => hg m (by omega)
    rw [Function.iterate_succ_apply']
    have hp := iter_pos hℓ (K := kernels M reg) (fun _ _ _ => Real.exp_pos _) n
    refine ⟨_, step_scaled hℓ hp (hg n (Nat.lt_succ_self n)) hx, fun i hi => ?_⟩
    have h0 := hb i hi
    obtain ⟨c, hc⟩ := hi
    have hcs : ∀ (d : Δ) (w : X d → ℝ), classSum (ℓ d) w c = w (i d) := by
      intro d w
      unfold classSum
      rw [sum_eq_single (i d) (fun i' _ hne => if_neg fun e => hne ((hbij d).1 (e.trans (hc d).symm))) (fun h => absurd (mem_univ _) h), if_pos (hc d)]
    have hsp : ∀ (d : Δ) (h : C → ℝ), spread (ℓ d) h (i d) = h c := by
      intro d h
      have := classSum_spread (h := h) (hℓ d c)
      rwa [hcs] at this
    have hbar := baryOf_eq (fun d i j => (hp d i j).le) (c := c) (fun d i _ j => hp d i j) (fun d => hℓ d c)
    simp only [hcs] at hbar
    have hlog := congrArg Real.log hbar
    rw [Real.log_exp, ← sum_div] at hlog
    simp only [hsp, sum_sub_distrib, sum_add_distrib]
    rw [h0, sum_const, card_univ, nsmul_eq_mul, hlog]
    have : (Fintype.card Δ : ℝ) ≠ 0 := Nat.cast_ne_zero.2 Fintype.card_ne_zero
    field_simp
    ring

theorem optimal_of_balanced [Nonempty J] [Nonempty Δ] (hbij : ∀ d, Function.Bijective (ℓ d)) (hreg : 0 < reg) {K : ∀ d, X d → J → ℝ} (hK : ∀ d i j, 0 < K d i j) {x : ∀ d, X d → ℝ}
    (hx : Scaled M reg K x) (hb : ∀ i : ∀ d, X d, (∃ c, ∀ d, ℓ d (i d) = c) → ∑ d, x d (i d) = 0) {h : C → ℝ}
    (hc : ∀ d j, guard ≤ cols (K d) j) (hag : ∀ d i, rows (projC (K d) target) i = spread (ℓ d) h i) : IsProportions ℓ M target reg h := by
  have hP : ∀ d, IsCoupling (spreadProportions (ℓ d) h) (target : J → ℝ) (projC (K d) target) := fun d =>
    ⟨fun i j => (projC_pos (hK d) (target_pos (J := J)) i j).le, hag d, fun j => cols_projC_eq (hc d j)⟩
  refine ⟨fun d => projC (K d) target, hP, fun q Q hQ => ?_⟩
  have hn : (0 : ℝ) < Fintype.card Δ := Nat.cast_pos.2 Fintype.card_pos
  refine div_le_div_of_nonneg_right ?_ hn.le
  choose y hy using hx
  have g : ∀ d, entropicObjective (M d) reg (Q d) - entropicObjective (M d) reg (projC (K d) target)
      = reg * (klPlan (Q d) (projC (K d) target) + ∑ i, x d i * (spreadProportions (ℓ d) q i - spreadProportions (ℓ d) h i)) := fun d =>
    entropic_gap_free (y := fun j => y d j + (Real.log ((target : J → ℝ) j) - Real.log (max (cols (K d) j) guard)))
      (fun i j => by rw [log_projC (hK d) (target_pos (J := J)), hy]; ring) (projC_pos (hK d) (target_pos (J := J))) hreg.ne' (hP d) (hQ d)
  have hsum : ∑ d, ∑ i, x d i * (spreadProportions (ℓ d) q i - spreadProportions (ℓ d) h i) = 0 := by
    have e : ∀ d, ∑ i, x d i * (spreadProportions (ℓ d) q i - spreadProportions (ℓ d) h i) = ∑ c, x d ((Equiv.ofBijective _ (hbij d)).symm c) * (q c - h c) := by
      intro d
      rw [← (Equiv.ofBijective _ (hbij d)).sum_comp]
      refine sum_congr rfl fun i _ => ?_
      have hs : ∀ f : C → ℝ, spreadProportions (ℓ d) f i = f (ℓ d i) := by
        intro f
        have hcard : (univ.filter fun i' => ℓ d i' = ℓ d i) = {i} := by
          ext i'
          simp [(hbij d).1.eq_iff]
        unfold spreadProportions
        rw [hcard, card_singleton, Nat.cast_one, div_one]
      rw [hs, hs, Equiv.symm_apply_apply]
      rfl
    rw [sum_congr rfl fun d _ => e d, sum_comm]
    refine sum_eq_zero fun c _ => ?_
    rw [← sum_mul, hb _ ⟨c, fun d => (Equiv.ofBijective _ (hbij d)).apply_symm_apply c⟩, zero_mul]
  have tot : ∑ d, entropicObjective (M d) reg (Q d) - ∑ d, entropicObjective (M d) reg (projC (K d) target) = reg * ∑ d, klPlan (Q d) (projC (K d) target) := by
    rw [← sum_sub_distrib, sum_congr rfl fun d _ => g d, ← mul_sum, sum_add_distrib, hsum, add_zero]
  have : 0 ≤ reg * ∑ d, klPlan (Q d) (projC (K d) target) :=
    mul_nonneg hreg.le (sum_nonneg fun d _ => klPlan_nonneg (hQ d).nonneg (projC_pos (hK d) (target_pos (J := J))))
  linarith

end scal

end POT.Jcpot
