import Verif.Lemmas.CircleCut
import Mathlib.Tactic.Positivity
import Mathlib.Algebra.Order.Archimedean.Basic

/-! # The search of `binary_search_circle` -/

set_option linter.unusedSectionVars false

namespace POT.Circle

open Finset Spec

variable {K : Type*} [Field K] [LinearOrder K] [IsStrictOrderedRing K] [FloorRing K]

section
variable {n m : ℕ} (h : K → K) {u uw : Fin (n + 1) → K} {v vw : Fin (m + 1) → K}
  (hh : ∀ a b x x', a ≤ b → x ≤ x' → h (x' - b) - h (x' - a) ≤ h (x - b) - h (x - a)) (habs : ∀ x y, |x| ≤ |y| → h x ≤ h y)
  (hu : Monotone u) (hu0 : ∀ i, 0 ≤ u i) (hu1 : ∀ i, u i < 1) (hv : Monotone v) (hv0 : ∀ j, 0 ≤ v j) (hv1 : ∀ j, v j < 1)
  (huw : ∀ i, 0 ≤ uw i) (huw1 : ∑ i, uw i = 1) (hvw : ∀ j, 0 ≤ vw j) (hvw1 : ∑ j, vw j = 1)

/-- rotation and cost of a lifted plan: mass `δ t` goes from atom `i t` to atom `j t` raised by `z t` turns -/
def IsLift (h : K → K) (u uw : Fin (n + 1) → K) (v vw : Fin (m + 1) → K) (ρ c : K) : Prop :=
  ∃ (N : ℕ) (δ : Fin N → K) (i : Fin N → Fin (n + 1)) (j : Fin N → Fin (m + 1)) (z : Fin N → ℤ), (∀ t, 0 ≤ δ t) ∧
    (∀ i', ∑ t ∈ univ.filter (fun t => i t = i'), δ t = uw i') ∧ (∀ j', ∑ t ∈ univ.filter (fun t => j t = j'), δ t = vw j') ∧
    ∑ t, δ t * (z t : K) = ρ ∧ ∑ t, δ t * h (u (i t) - v (j t) - z t) = c

include hu1 hu0 in
theorem wrapU : u (Fin.last n) ≤ u 0 + 1 := by linarith [hu1 (Fin.last n), hu0 0]

include hh hu hu0 hu1 hv hv0 hv1 huw huw1 hvw hvw1 in
theorem lift_sub {ρ c : K} (hl : IsLift h u uw v vw ρ c) (θ g : K) (hg : g = dCp h (cdfs uw) u (cdfs vw) v θ ∨ g = dCm h (cdfs uw) u (cdfs vw) v θ) :
    otCost h (cdfs uw) u (cdfs vw) v θ + g * (ρ - θ) ≤ c := by
  obtain ⟨N, δ, i, j, z, h1, h2, h3, rfl, rfl⟩ := hl
  exact otCost_le h hh hu (wrapU hu0 hu1) hv (wrapU hv0 hv1) huw huw1 hvw hvw1 θ δ h1 i j z h2 h3 g hg

include huw huw1 hvw hvw1 in
/-- `otCost` at `θ` is the cost of a lifted plan of rotation `θ` -/
theorem lift_self (θ : K) : IsLift h u uw v vw θ (otCost h (cdfs uw) u (cdfs vw) v θ) := by
  refine ⟨n + 1 + m + 1, cutDelta (cdfs uw) (cdfs vw) θ, fun t => leftIdx (cdfs uw) (cutAxis (cdfs uw) (cdfs vw) θ t),
    fun t => rollPerm vw θ (ix ((cutIdx (cdfs vw) θ (cutAxis (cdfs uw) (cdfs vw) θ t) : ℕ) : ℤ)),
    fun t => qt m ((cutIdx (cdfs vw) θ (cutAxis (cdfs uw) (cdfs vw) θ t) : ℕ) : ℤ) + rollTurn vw θ (ix ((cutIdx (cdfs vw) θ (cutAxis (cdfs uw) (cdfs vw) θ t) : ℕ) : ℤ)),
    cutDelta_nonneg huw huw1 hvw hvw1 θ, cut_row huw huw1 hvw hvw1 θ, fun j => ?_, cut_rot huw huw1 hvw hvw1 θ, ?_⟩
  · have := cut_col huw huw1 hvw hvw1 θ ((rollPerm vw θ).symm j)
    rw [Equiv.apply_symm_apply] at this
    rw [← this]
    exact sum_congr (filter_congr fun t _ => by rw [Equiv.eq_symm_apply]) fun _ _ => rfl
  · rw [otCost_eq]
    refine sum_congr rfl fun t _ => ?_
    congr 2
    unfold unr
    rw [cutY_eq' hvw hvw1]
    push_cast; ring

include habs in
/-- projecting a lifted plan on the circle -/
theorem lift_coupling {ρ c : K} (hl : IsLift h u uw v vw ρ c) : ∃ P, IsCoupling uw vw P ∧ cost (fun i j => h (circDist (u i) (v j))) P ≤ c := by
  obtain ⟨N, δ, i, j, z, h1, h2, h3, -, rfl⟩ := hl
  refine ⟨fun a b => ∑ t ∈ univ.filter (fun t => i t = a ∧ j t = b), δ t, ⟨fun a b => sum_nonneg fun t _ => h1 t, fun a => ?_, fun b => ?_⟩, ?_⟩
  · rw [← h2 a, sum_filter]
    simp only [sum_filter]
    rw [sum_comm]
    refine sum_congr rfl fun t _ => ?_
    by_cases ha : i t = a
    · simp [ha]
    · simp [ha]
  · rw [← h3 b, sum_filter]
    simp only [sum_filter]
    rw [sum_comm]
    refine sum_congr rfl fun t _ => ?_
    by_cases hb : j t = b
    · simp [hb]
    · simp [hb]
  · have e : cost (fun i j => h (circDist (u i) (v j))) (fun a b => ∑ t ∈ univ.filter (fun t => i t = a ∧ j t = b), δ t) = ∑ t, δ t * h (circDist (u (i t)) (v (j t))) := by
      unfold cost
      simp only [sum_filter, sum_mul]
      have : ∀ a : Fin (n + 1), ∑ b : Fin (m + 1), ∑ t, (if i t = a ∧ j t = b then δ t else 0) * h (circDist (u a) (v b)) = ∑ t, ∑ b, (if i t = a ∧ j t = b then δ t else 0) * h (circDist (u a) (v b)) :=
        fun a => sum_comm
      simp only [this]
      rw [sum_comm]
      refine sum_congr rfl fun t _ => ?_
      rw [sum_eq_single (i t), sum_eq_single (j t)]
      · simp
      · intro b _ hb; rw [if_neg (by rintro ⟨-, h⟩; exact hb h.symm), zero_mul]
      · simp
      · intro a _ ha; exact sum_eq_zero fun b _ => by rw [if_neg (by rintro ⟨h, -⟩; exact ha h.symm), zero_mul]
      · simp
    rw [e]
    refine sum_le_sum fun t _ => mul_le_mul_of_nonneg_left (habs _ _ ?_) (h1 t)
    rw [abs_of_nonneg (circDist_nonneg _ _)]
    exact circDist_le _ _ _

include habs in
/-- lifting a plan of the circle along shortest arcs -/
theorem coupling_lift {P : Fin (n + 1) → Fin (m + 1) → K} (hP : IsCoupling uw vw P) : ∃ ρ, IsLift h u uw v vw ρ (cost (fun i j => h (circDist (u i) (v j))) P) := by
  choose k hk using fun (i : Fin (n + 1)) (j : Fin (m + 1)) => circDist_att (u i) (v j)
  have e : ∀ i j, h (circDist (u i) (v j)) = h (u i - v j - k i j) := fun i j =>
    le_antisymm (habs _ _ (by rw [hk, abs_abs])) (habs _ _ (by rw [hk, abs_abs]))
  obtain ⟨f⟩ : Nonempty (Fin (Fintype.card (Fin (n + 1) × Fin (m + 1))) ≃ Fin (n + 1) × Fin (m + 1)) := ⟨(Fintype.equivFin _).symm⟩
  have hsum : ∀ F : Fin (n + 1) × Fin (m + 1) → K, ∑ t, F (f t) = ∑ i, ∑ j, F (i, j) := fun F => by
    rw [Equiv.sum_comp f F, Fintype.sum_prod_type]
  refine ⟨_, Fintype.card (Fin (n + 1) × Fin (m + 1)), fun t => P (f t).1 (f t).2, fun t => (f t).1, fun t => (f t).2, fun t => k (f t).1 (f t).2, fun t => hP.nonneg _ _, fun i' => ?_, fun j' => ?_, rfl, ?_⟩
  · rw [sum_filter, hsum fun q => if q.1 = i' then P q.1 q.2 else 0]
    simp only
    rw [sum_eq_single i' (fun a _ ha => by simp [ha]) (by simp)]
    simp [hP.row]
  · rw [sum_filter, hsum fun q => if q.2 = j' then P q.1 q.2 else 0]
    simp [hP.col]
  · rw [hsum fun q => P q.1 q.2 * h (u q.1 - v q.2 - k q.1 q.2)]
    unfold cost
    simp only [e]

/-! ### slopes at the ends of the search and their size -/

theorem start_int (hvw : ∀ j, 0 ≤ vw j) (hvw1 : ∑ j, vw j = 1) {θ : K} (hθ : Int.fract θ = 0) : start vw θ = 0 := by
  obtain ⟨-, h2, -⟩ := start_spec hvw hvw1 θ
  by_contra hne
  have := h2 0 (Fin.pos_iff_ne_zero.2 hne)
  rw [hθ] at this
  linarith [cdfs_nonneg hvw (0 : Fin (m + 1))]

include hvw hvw1 in
theorem unr_cutY (θ : K) (l : ℤ) : unr (cutY θ (cdfs vw) v) l = unr v ((start vw θ : ℕ) + l) + ⌊θ⌋ := by
  have h1 := ix_qt_eq (n := m) l
  unfold unr
  rw [cutY_eq hvw hvw1]
  have h2 := unr_add v ((start vw θ : ℕ) + ((ix (n := m) l : Fin (m + 1)) : ℕ) : ℤ) (qt m l)
  rw [show ((start vw θ : ℕ) + ((ix (n := m) l : Fin (m + 1)) : ℕ) : ℤ) + ((m + 1 : ℕ) : ℤ) * qt m l = (start vw θ : ℕ) + l by omega] at h2
  unfold unr at h2 ⊢
  linarith

include hv hv0 hv1 in
theorem unr_v_mono : Monotone (unr v) := unr_mono v hv (wrapU hv0 hv1)

include habs hu1 hv hv0 hv1 hvw hvw1 in
/-- the upper end of the search lies to the right of the optimum -/
theorem dCp_one : 0 ≤ dCp h (cdfs uw) u (cdfs vw) v 1 := by
  have hs : start vw (1 : K) = 0 := start_int hvw hvw1 (by simp)
  unfold dCp
  refine sum_nonneg fun k _ => sub_nonneg.2 (habs _ _ ?_)
  simp only [wrap_eq, unr_cutY hvw hvw1, hs, Fin.val_zero, Nat.cast_zero, zero_add, Int.floor_one, Int.cast_one, Fin.val_succ, Fin.val_castSucc]
  have h1 := unr_v_mono hv hv0 hv1 (show ((k : ℕ) : ℤ) ≤ ((k + 1 : ℕ) : ℤ) by omega)
  have h2 := hu1 (leftIdx (cdfs uw) (cutW 1 (cdfs vw) k))
  have h3 := hv0 k
  rw [unr_val] at h1 ⊢
  rw [abs_of_nonpos (by linarith), abs_of_nonpos (by linarith)]
  linarith

include habs hu0 hv hv0 hv1 huw huw1 hvw hvw1 in
/-- the lower end of the search lies to the left of the optimum -/
theorem dCm_neg_one : dCm h (cdfs uw) u (cdfs vw) v (-1) ≤ 0 := by
  have hfr : Int.fract (-1 : K) = 0 := by
    have := Int.fract_intCast (R := K) (-1)
    simpa using this
  have hfl : ⌊(-1 : K)⌋ = -1 := by
    have := Int.floor_intCast (R := K) (-1)
    simpa using this
  have hs : start vw (-1 : K) = 0 := start_int hvw hvw1 hfr
  unfold dCm
  refine sum_nonpos fun k _ => sub_nonpos.2 (habs _ _ ?_)
  simp only [wrap_eq, unr_cutY hvw hvw1, hs, Fin.val_zero, Nat.cast_zero, zero_add, hfl, Int.cast_neg, Int.cast_one, Fin.val_succ, Fin.val_castSucc]
  have h1 := unr_v_mono hv hv0 hv1 (show ((k : ℕ) : ℤ) ≤ ((k + 1 : ℕ) : ℤ) by omega)
  obtain ⟨r, hr⟩ : ∃ r, r = rightIdx (cdfs uw) (cutW (-1) (cdfs vw) k) := ⟨_, rfl⟩
  rw [← hr]
  have key : unr v ((k + 1 : ℕ) : ℤ) - 1 ≤ unr u ((r : ℕ) : ℤ) := by
    have hr0 : 0 ≤ unr u ((r : ℕ) : ℤ) := by
      rw [← wrap_eq]; unfold wrap
      refine Fin.lastCases ?_ (fun i => ?_) r
      · rw [Fin.snoc_last]; linarith [hu0 0]
      · rw [Fin.snoc_castSucc]; exact hu0 i
    by_cases hk : (k : ℕ) < m
    · have := unr_val v ⟨k + 1, by omega⟩
      simp only at this
      rw [this]
      linarith [hv1 ⟨k + 1, by omega⟩]
    · have hkm : k = Fin.last m := Fin.ext (by simp; omega)
      have hW : cutW (-1) (cdfs vw) k = 1 := by
        rw [cutW_eq hvw hvw1, hs, hfr, hkm]
        simp only [Fin.val_zero, Nat.cast_zero, zero_add, unr_val, cdfs_last hvw1, sub_zero]
      have hrn : (r : ℕ) = n + 1 := by
        rw [hr, hW]
        have hmono : Monotone (wrap (cdfs uw)) := fun a b h => by
          rw [wrap_eq, wrap_eq]
          exact unr_cdfs_mono huw huw1 (by exact_mod_cast h)
        have : ¬ (univ.filter fun i => wrap (cdfs uw) i ≤ 1).card ≤ n := fun hc => by
          have := (card_le_le_iff hmono 1 (Fin.last n).castSucc).1 (by simpa using hc)
          unfold wrap at this
          rw [Fin.snoc_castSucc, cdfs_last huw1] at this
          exact lt_irrefl _ this
        unfold rightIdx
        simp only
        omega
      have e1 := unr_of v 0 1
      have e2 := unr_of u 0 1
      rw [show ((m + 1 : ℕ) : ℤ) * 1 + ((0 : Fin (m + 1)) : ℕ) = ((k + 1 : ℕ) : ℤ) by rw [hkm]; simp] at e1
      rw [show ((n + 1 : ℕ) : ℤ) * 1 + ((0 : Fin (n + 1)) : ℕ) = ((r : ℕ) : ℤ) by rw [hrn]; simp] at e2
      rw [e1, e2]
      push_cast
      linarith [hv1 0, hu0 0]
  rw [abs_of_nonneg (by linarith), abs_of_nonneg (by linarith)]
  linarith

include hu0 hu1 hv hv0 hv1 hvw hvw1 in
/-- size of the slope on the search interval -/
theorem dCp_bound {Λ : K} (hΛ : ∀ x y, |x| ≤ 3 → |y| ≤ 3 → |h x - h y| ≤ Λ * |x - y|) {θ : K} (h1 : -1 ≤ θ) (h2 : θ ≤ 1) : |dCp h (cdfs uw) u (cdfs vw) v θ| ≤ Λ := by
  have hfl : -1 ≤ ⌊θ⌋ ∧ ⌊θ⌋ ≤ 1 := ⟨Int.le_floor.2 (by push_cast; exact h1), by
    have := Int.floor_le θ
    have : (⌊θ⌋ : K) ≤ 1 := this.trans h2
    exact_mod_cast this⟩
  have hfl1 : (-1 : K) ≤ ⌊θ⌋ := by exact_mod_cast hfl.1
  have hfl2 : (⌊θ⌋ : K) ≤ 1 := by exact_mod_cast hfl.2
  have hmono := unr_v_mono hv hv0 hv1
  -- range of the values after the cut
  have hY : ∀ k : ℕ, k ≤ m + 1 → -1 ≤ unr (cutY θ (cdfs vw) v) k ∧ unr (cutY θ (cdfs vw) v) k ≤ 3 := by
    intro k hk
    rw [unr_cutY hvw hvw1]
    have hs := (start vw θ).2
    have a := hmono (show (((0 : Fin (m + 1)) : ℕ) : ℤ) ≤ (start vw θ : ℕ) + (k : ℤ) by simp; omega)
    rw [unr_val] at a
    have hv00 := hv0 0
    by_cases h0 : (start vw θ : ℕ) + k < 2 * (m + 1)
    · have b := hmono (show ((start vw θ : ℕ) + (k : ℤ)) ≤ ((m + 1 : ℕ) : ℤ) * 1 + ((Fin.last m : Fin (m + 1)) : ℕ) by simp; omega)
      rw [unr_of] at b
      have := hv1 (Fin.last m)
      push_cast at b
      constructor <;> linarith
    · omega
  have hterm : ∀ k : Fin (m + 1), |h (u (leftIdx (cdfs uw) (cutW θ (cdfs vw) k)) - wrap (cutY θ (cdfs vw) v) k.succ) - h (u (leftIdx (cdfs uw) (cutW θ (cdfs vw) k)) - wrap (cutY θ (cdfs vw) v) k.castSucc)| ≤
      Λ * (unr (cutY θ (cdfs vw) v) ((k : ℕ) + 1 : ℕ) - unr (cutY θ (cdfs vw) v) (k : ℕ)) := by
    intro k
    rw [wrap_eq, wrap_eq, Fin.val_succ, Fin.val_castSucc]
    have hk := k.2
    have b1 := hY (k + 1) (by omega)
    have b2 := hY k (by omega)
    have c0 := hu0 (leftIdx (cdfs uw) (cutW θ (cdfs vw) k))
    have c1 := hu1 (leftIdx (cdfs uw) (cutW θ (cdfs vw) k))
    refine (hΛ _ _ (abs_le.2 ⟨by linarith, by linarith⟩) (abs_le.2 ⟨by linarith, by linarith⟩)).trans (le_of_eq ?_)
    have hm2 : unr (cutY θ (cdfs vw) v) (k : ℕ) ≤ unr (cutY θ (cdfs vw) v) ((k : ℕ) + 1 : ℕ) := by
      rw [unr_cutY hvw hvw1, unr_cutY hvw hvw1]
      exact add_le_add_left (hmono (by push_cast; omega)) _
    rw [abs_of_nonpos (by linarith)]
    ring
  unfold dCp
  refine (abs_sum_le_sum_abs _ _).trans ((sum_le_sum fun k _ => hterm k).trans (le_of_eq ?_))
  rw [← mul_sum, Fin.sum_univ_eq_sum_range (fun k => unr (cutY θ (cdfs vw) v) (((k : ℕ) + 1 : ℕ) : ℤ) - unr (cutY θ (cdfs vw) v) ((k : ℕ) : ℤ)) (m + 1), sum_range_sub fun k : ℕ => unr (cutY θ (cdfs vw) v) ((k : ℕ) : ℤ)]
  have e := unr_add (cutY θ (cdfs vw) v) 0 1
  rw [zero_add, mul_one] at e
  rw [e, Nat.cast_zero]
  push_cast; ring

/-! ### the loop -/

/-- the loop ends: the interval is halved at each turn -/
theorem search_some (U u' : Fin (n + 1) → K) (V v' : Fin (m + 1) → K) {eps L : K} (N : ℕ) (tm tp : K) (hw : tp - tm < eps / L * 2 ^ N) :
    ∃ r, search h U u' V v' eps L (N + 1) tm tp ((tm + tp) / 2) = some r := by
  induction N generalizing tm tp with
  | zero =>
    unfold search
    split_ifs with h1 h2 h3
    · exact ⟨_, rfl⟩
    · exact ⟨_, rfl⟩
    · rw [pow_zero, mul_one] at hw; exact absurd hw h2
    · rw [pow_zero, mul_one] at hw; exact absurd hw h2
  | succ N ih =>
    unfold search
    rw [pow_succ] at hw
    split_ifs with h1 h2 h3
    · exact ⟨_, rfl⟩
    · exact ⟨_, rfl⟩
    · refine ih _ _ ?_
      linarith
    · refine ih _ _ ?_
      linarith

theorem search_ends (U u' : Fin (n + 1) → K) (V v' : Fin (m + 1) → K) {eps L : K} (he : 0 < eps) (hL : 0 < L) (tm tp : K) :
    ∃ fuel r, search h U u' V v' eps L fuel tm tp ((tm + tp) / 2) = some r := by
  have hpos : 0 < eps / L := by positivity
  obtain ⟨N, hN⟩ := pow_unbounded_of_one_lt ((tp - tm) / (eps / L)) (one_lt_two (α := K))
  exact ⟨N + 1, search_some h U u' V v' N tm tp (by rwa [div_lt_iff₀ hpos, mul_comm] at hN)⟩

include hh habs hu hu0 hu1 hv hv0 hv1 huw huw1 hvw hvw1 in
theorem search_spec {Λ : K} (hΛ0 : 0 ≤ Λ) (hΛ : ∀ x y, |x| ≤ 3 → |y| ≤ 3 → |h x - h y| ≤ Λ * |x - y|) {eps L : K} (he : 0 < eps) (hL : 0 < L) (fuel : ℕ) :
    ∀ (tm tp tc : K) (r : K × Bool), -1 ≤ tm → tm ≤ tc → tc ≤ tp → tp ≤ 1 →
      (∃ g ≤ 0, g = dCp h (cdfs uw) u (cdfs vw) v tm ∨ g = dCm h (cdfs uw) u (cdfs vw) v tm) → (∃ g ≥ 0, g = dCp h (cdfs uw) u (cdfs vw) v tp ∨ g = dCm h (cdfs uw) u (cdfs vw) v tp) →
      search h (cdfs uw) u (cdfs vw) v eps L fuel tm tp tc = some r →
      (∀ ρ c, IsLift h u uw v vw ρ c → otCost h (cdfs uw) u (cdfs vw) v r.1 ≤ c + Λ * (eps / L)) ∧ (r.2 = true → ∀ ρ c, IsLift h u uw v vw ρ c → otCost h (cdfs uw) u (cdfs vw) v r.1 ≤ c) := by
  have hpos : 0 < eps / L := by positivity
  have hΛe : 0 ≤ Λ * (eps / L) := by positivity
  have hsub := fun ρ c (hl : IsLift h u uw v vw ρ c) θ g hg => lift_sub h hh hu hu0 hu1 hv hv0 hv1 huw huw1 hvw hvw1 hl θ g hg
  have hself := lift_self h (u := u) (v := v) huw huw1 hvw hvw1
  induction fuel with
  | zero => intro tm tp tc r _ _ _ _ _ _ hs; simp [search] at hs
  | succ fuel ih =>
    intro tm tp tc r hm1 hmc hcp hp1 hgm hgp hs
    unfold search at hs
    split_ifs at hs with h1 h2 h3
    · -- the slopes have opposite signs
      rw [Option.some.injEq] at hs
      subst hs
      have hex : ∀ ρ c, IsLift h u uw v vw ρ c → otCost h (cdfs uw) u (cdfs vw) v tc ≤ c := by
        intro ρ c hl
        have ha := hsub ρ c hl tc _ (Or.inl rfl)
        have hb := hsub ρ c hl tc _ (Or.inr rfl)
        by_contra hcon
        rw [not_le] at hcon
        have ha' : dCp h (cdfs uw) u (cdfs vw) v tc * (ρ - tc) < 0 := by linarith
        have hb' : dCm h (cdfs uw) u (cdfs vw) v tc * (ρ - tc) < 0 := by linarith
        have := mul_pos_of_neg_of_neg ha' hb'
        nlinarith [mul_self_nonneg (ρ - tc), mul_nonneg (mul_self_nonneg (ρ - tc)) (neg_nonneg.2 h1)]
      exact ⟨fun ρ c hl => (hex ρ c hl).trans (by linarith), fun _ => hex⟩
    · -- the interval is short
      rw [Option.some.injEq] at hs
      obtain ⟨t, ht⟩ : ∃ t, t = (if 1 / 1000 < |dCp h (cdfs uw) u (cdfs vw) v tm - dCm h (cdfs uw) u (cdfs vw) v tp| then
        (otCost h (cdfs uw) u (cdfs vw) v tp - otCost h (cdfs uw) u (cdfs vw) v tm + tm * dCp h (cdfs uw) u (cdfs vw) v tm - tp * dCm h (cdfs uw) u (cdfs vw) v tp) / (dCp h (cdfs uw) u (cdfs vw) v tm - dCm h (cdfs uw) u (cdfs vw) v tp) else tc) := ⟨_, rfl⟩
      simp only [← ht] at hs
      subst hs
      have htb : tm ≤ t ∧ t ≤ tp := by
        rw [ht]
        split_ifs with hbig
        · have hA := hsub tp _ (hself tp) tm _ (Or.inl rfl)
          have hB := hsub tm _ (hself tm) tp _ (Or.inr rfl)
          obtain ⟨a, ha⟩ : ∃ a, a = dCp h (cdfs uw) u (cdfs vw) v tm := ⟨_, rfl⟩
          obtain ⟨b, hb⟩ : ∃ b, b = dCm h (cdfs uw) u (cdfs vw) v tp := ⟨_, rfl⟩
          rw [← ha] at hA hbig ⊢
          rw [← hb] at hB hbig ⊢
          have hab : a - b < 0 := by
            rcases lt_trichotomy (a - b) 0 with hlt | heq | hgt
            · exact hlt
            · rw [heq, abs_zero] at hbig; linarith
            · exfalso
              have hd : 0 ≤ (a - b) * (tp - tm) := mul_nonneg hgt.le (by linarith)
              have hd2 : (a - b) * (tp - tm) ≤ 0 := by linarith
              rcases eq_or_lt_of_le (show tm ≤ tp by linarith) with he2 | hlt2
              · -- degenerate interval: the first test has already succeeded there
                have hc : tc = tm := le_antisymm (by rw [he2]; exact hcp) hmc
                have hc2 : tc = tp := by rw [hc, he2]
                obtain ⟨g1, hg1, hg1'⟩ := hgm
                obtain ⟨g2, hg2, hg2'⟩ := hgp
                rw [← hc] at hg1'
                rw [← hc2] at hg2'
                apply h1
                rcases hg1' with e1 | e1 <;> rcases hg2' with e2 | e2
                · rw [show dCp h (cdfs uw) u (cdfs vw) v tc = 0 by linarith, zero_mul]
                · rw [← e1, ← e2]; exact mul_nonpos_of_nonpos_of_nonneg hg1 hg2
                · rw [← e1, ← e2]; exact mul_nonpos_of_nonneg_of_nonpos hg2 hg1
                · rw [show dCm h (cdfs uw) u (cdfs vw) v tc = 0 by linarith, mul_zero]
              · nlinarith [mul_pos hgt (sub_pos.2 hlt2)]
          constructor
          · rw [le_div_iff_of_neg hab]; nlinarith
          · rw [div_le_iff_of_neg hab]; nlinarith
        · exact ⟨hmc, hcp⟩
      refine ⟨fun ρ c hl => ?_, fun hf => absurd hf (by simp)⟩
      simp only
      have hbd := dCp_bound h (uw := uw) hu0 hu1 hv hv0 hv1 hvw hvw1 hΛ (show -1 ≤ t by linarith [htb.1]) (show t ≤ 1 by linarith [htb.2])
      have key : ∀ s c', tm ≤ s → s ≤ tp → IsLift h u uw v vw s c' → otCost h (cdfs uw) u (cdfs vw) v t ≤ c' + Λ * (eps / L) := by
        intro s c' hs1 hs2 hl'
        have ha := hsub s c' hl' t _ (Or.inl rfl)
        have hst : |s - t| ≤ eps / L := by rw [abs_le]; constructor <;> linarith [htb.1, htb.2]
        have := mul_le_mul hbd hst (abs_nonneg _) hΛ0
        rw [← abs_mul] at this
        linarith [neg_abs_le (dCp h (cdfs uw) u (cdfs vw) v t * (s - t))]
      rcases lt_or_ge ρ tm with hlo | hlo
      · obtain ⟨g, hg, hg'⟩ := hgm
        have ha := hsub ρ c hl tm g hg'
        have := mul_nonneg_of_nonpos_of_nonpos hg (show ρ - tm ≤ 0 by linarith)
        exact (key tm _ le_rfl (by linarith) (hself tm)).trans (by linarith)
      · rcases lt_or_ge tp ρ with hhi | hhi
        · obtain ⟨g, hg, hg'⟩ := hgp
          have ha := hsub ρ c hl tp g hg'
          have := mul_nonneg hg (show 0 ≤ ρ - tp by linarith)
          exact (key tp _ (by linarith) le_rfl (hself tp)).trans (by linarith)
        · exact key ρ c hlo hhi hl
    · exact ih tc tp _ r (by linarith) (by linarith) (by linarith) hp1 ⟨_, h3.le, Or.inl rfl⟩ hgp hs
    · exact ih tm tc _ r hm1 (by linarith) (by linarith) (by linarith) hgm ⟨_, not_lt.1 h3, Or.inl rfl⟩ hs

end

end POT.Circle
