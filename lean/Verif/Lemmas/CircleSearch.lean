import Verif.Model.CircleSearch
import Verif.Lemmas.CircleSemi

/-! # Transport on the circle through cuts of the line -/

set_option linter.unusedSectionVars false

namespace POT.Circle

open Finset Spec

variable {K : Type*} [Field K] [LinearOrder K] [IsStrictOrderedRing K] [FloorRing K]

/-! ### unrolled families -/

/-- the family `x` continued along the line: one more turn adds one -/
def unr {n : ℕ} (x : Fin (n + 1) → K) (l : ℤ) : K := x (ix l) + qt n l

section
variable {n : ℕ} (x : Fin (n + 1) → K)

theorem unr_of (r : Fin (n + 1)) (k : ℤ) : unr x (((n + 1 : ℕ) : ℤ) * k + (r : ℕ)) = x r + k := by
  unfold unr; rw [(ix_qt_of r k).1, (ix_qt_of r k).2]

theorem unr_val (r : Fin (n + 1)) : unr x ((r : ℕ) : ℤ) = x r := by
  have := unr_of x r 0
  simpa using this

theorem ix_val (r : Fin (n + 1)) : ix (n := n) ((r : ℕ) : ℤ) = r ∧ qt n ((r : ℕ) : ℤ) = 0 := by
  have := ix_qt_of r 0
  simpa using this

theorem ix_add (l z : ℤ) : ix (n := n) (l + ((n + 1 : ℕ) : ℤ) * z) = ix l ∧ qt n (l + ((n + 1 : ℕ) : ℤ) * z) = qt n l + z := by
  have h := ix_qt_of (ix (n := n) l) (qt n l + z)
  have e : ((n + 1 : ℕ) : ℤ) * (qt n l + z) + ((ix (n := n) l : Fin (n + 1)) : ℕ) = l + ((n + 1 : ℕ) : ℤ) * z := by
    have := ix_qt_eq (n := n) l
    rw [mul_add]; omega
  rw [e] at h
  exact h

theorem unr_add (l z : ℤ) : unr x (l + ((n + 1 : ℕ) : ℤ) * z) = unr x l + z := by
  unfold unr
  rw [(ix_add l z).1, (ix_add l z).2]; push_cast; ring

theorem unr_mono (hx : Monotone x) (hw : x (Fin.last n) ≤ x 0 + 1) : Monotone (unr x) := by
  refine monotone_int_of_le_succ fun l => ?_
  unfold unr
  rcases ix_succ (n := n) l with ⟨h, h1, h2⟩ | ⟨h, h1, h2⟩
  · rw [h1, h2]
    have := hx (show ix l ≤ (⟨_, h⟩ : Fin (n + 1)) by rw [Fin.le_def]; simp)
    linarith
  · rw [h1, h2]
    have : ix (n := n) l = Fin.last n := Fin.ext h
    rw [this]; push_cast; linarith

theorem wrap_eq (k : Fin (n + 2)) : wrap x k = unr x ((k : ℕ) : ℤ) := by
  unfold wrap
  refine Fin.lastCases ?_ (fun i => ?_) k
  · rw [Fin.snoc_last]
    have := unr_of x 0 1
    simp only [Fin.val_zero] at this
    rw [show (((Fin.last (n + 1) : Fin (n + 2)) : ℕ) : ℤ) = ((n + 1 : ℕ) : ℤ) * 1 + ((0 : ℕ) : ℤ) by simp, this]; simp
  · rw [Fin.snoc_castSucc]
    exact (unr_val x i).symm

end

/-! ### the main inequality -/

section
variable {n m : ℕ} (h : K → K) (u U : Fin (n + 1) → K) (Y W : Fin (m + 1) → K) (r : Fin (m + 1) → ℤ)

/-- position of the atom chosen at the cut of cell `l` -/
def cutPos (l : ℤ) : ℤ := r (ix l) + ((n + 1 : ℕ) : ℤ) * qt m l

/-- increment of the potential from cell `l` to the next -/
def cutStep (l : ℤ) : K := h (unr u (cutPos (n := n) r l) - unr Y (l + 1)) - h (unr u (cutPos (n := n) r l) - unr Y l)

/-- increment over one turn -/
def cutSlope : K := ∑ k ∈ range (m + 1), cutStep h u Y r k

/-- the potential on the unrolled target atoms -/
def cutPsi (l : ℤ) : K := ∑ k ∈ range ((ix (n := m) l : Fin (m + 1)) : ℕ), cutStep h u Y r k + cutSlope h u Y r * qt m l

theorem cutStep_add (l z : ℤ) : cutStep h u Y r (l + ((m + 1 : ℕ) : ℤ) * z) = cutStep h u Y r l := by
  unfold cutStep
  have e : cutPos (n := n) r (l + ((m + 1 : ℕ) : ℤ) * z) = cutPos (n := n) r l + ((n + 1 : ℕ) : ℤ) * z := by
    unfold cutPos
    rw [(ix_add l z).1, (ix_add l z).2]; ring
  rw [e, unr_add, show l + ((m + 1 : ℕ) : ℤ) * z + 1 = l + 1 + ((m + 1 : ℕ) : ℤ) * z by ring, unr_add, unr_add]
  congr 1 <;> congr 1 <;> ring

theorem cutPsi_step (l : ℤ) : cutPsi h u Y r (l + 1) - cutPsi h u Y r l = cutStep h u Y r l := by
  have hl : cutStep h u Y r l = cutStep h u Y r (((ix (n := m) l : Fin (m + 1)) : ℕ) : ℤ) := by
    have := cutStep_add h u Y r (((ix (n := m) l : Fin (m + 1)) : ℕ) : ℤ) (qt m l)
    rw [← this]
    congr 1
    have := ix_qt_eq (n := m) l
    omega
  rw [hl]
  unfold cutPsi
  rcases ix_succ (n := m) l with ⟨hk, h1, h2⟩ | ⟨hk, h1, h2⟩
  · rw [h1, h2]
    simp only
    rw [sum_range_succ]; ring
  · rw [h1, h2, hk]
    simp only [Fin.val_zero, range_zero, sum_empty]
    unfold cutSlope
    rw [sum_range_succ]; push_cast; ring

theorem cutPsi_of (k : Fin (m + 1)) (z : ℤ) : cutPsi h u Y r (((m + 1 : ℕ) : ℤ) * z + (k : ℕ)) = ∑ k' ∈ range (k : ℕ), cutStep h u Y r k' + cutSlope h u Y r * z := by
  unfold cutPsi
  rw [(ix_qt_of k z).1, (ix_qt_of k z).2]

variable (hh : ∀ a b x x', a ≤ b → x ≤ x' → h (x' - b) - h (x' - a) ≤ h (x - b) - h (x - a)) (hu : Monotone u) (hu1 : u (Fin.last n) ≤ u 0 + 1)
  (hU : Monotone U) (hU1 : U (Fin.last n) ≤ U 0 + 1) (hY : Monotone Y) (hY1 : Y (Fin.last m) ≤ Y 0 + 1) (hW : Monotone W) (hW1 : W (Fin.last m) ≤ W 0 + 1)
  (hr : ∀ k, unr U (r k - 1) ≤ W k ∧ W k ≤ unr U (r k))

include hr in
theorem cutPos_spec (l : ℤ) : unr U (cutPos (n := n) r l - 1) ≤ unr W l ∧ unr W l ≤ unr U (cutPos (n := n) r l) := by
  unfold cutPos
  rw [show r (ix l) + ((n + 1 : ℕ) : ℤ) * qt m l - 1 = r (ix l) - 1 + ((n + 1 : ℕ) : ℤ) * qt m l by ring, unr_add, unr_add]
  have := hr (ix l)
  unfold unr at this ⊢
  exact ⟨add_le_add_left this.1 _, add_le_add_left this.2 _⟩

include hh hu hu1 hU hU1 hY hY1 hW hW1 hr in
/-- a matched pair minimises the reduced cost over all the unrolled target atoms -/
theorem matched_min (i l : ℤ) (h1 : unr U (i - 1) < unr W l) (h2 : unr W (l - 1) < unr U i) (l' : ℤ) :
    h (unr u i - unr Y l) - cutPsi h u Y r l ≤ h (unr u i - unr Y l') - cutPsi h u Y r l' := by
  have huu := unr_mono u hu hu1
  have hUU := unr_mono U hU hU1
  have hYY := unr_mono Y hY hY1
  have hWW := unr_mono W hW hW1
  have hstep : ∀ l, (h (unr u i - unr Y (l + 1)) - cutPsi h u Y r (l + 1)) - (h (unr u i - unr Y l) - cutPsi h u Y r l) =
      (h (unr u i - unr Y (l + 1)) - h (unr u i - unr Y l)) - cutStep h u Y r l := fun l => by
    rw [← cutPsi_step]; ring
  refine chain_min (fun l => h (unr u i - unr Y l) - cutPsi h u Y r l) l (fun q hq => ?_) (fun q hq => ?_) l'
  · have hlt : i - 1 < cutPos (n := n) r q := by
      by_contra hcon
      have := hUU (not_lt.1 hcon)
      have := (cutPos_spec U W r hr q).2
      have := hWW hq
      linarith
    have := hh (unr Y q) (unr Y (q + 1)) (unr u i) (unr u (cutPos (n := n) r q)) (hYY (by omega)) (huu (by omega))
    have e := hstep q
    unfold cutStep at e
    linarith
  · have hlt : cutPos (n := n) r q - 1 < i := by
      by_contra hcon
      have := hUU (not_lt.1 hcon)
      have := (cutPos_spec U W r hr q).1
      have := hWW (show q ≤ l - 1 by omega)
      linarith
    have := hh (unr Y q) (unr Y (q + 1)) (unr u (cutPos (n := n) r q)) (unr u i) (hYY (by omega)) (huu (by omega))
    have e := hstep q
    unfold cutStep at e
    linarith

include hh hu hu1 hU hU1 hY hY1 hW hW1 hr in
/-- **Subgradient inequality.**  A monotone plan (`δ`, `it`, `lt`) of rotation `θ` and any other plan on the circle with its lift to the line: the cost of the latter is at least the cost of the
former plus the slope times the difference of the rotations. -/
theorem lifted_le {T T' : Type*} [Fintype T] [Fintype T'] (uw : Fin (n + 1) → K) (vw y : Fin (m + 1) → K) (σ : Equiv.Perm (Fin (m + 1))) (κ : Fin (m + 1) → ℤ) (hYy : ∀ k, Y k = y (σ k) + κ k)
    (δ : T → K) (hδ : ∀ t, 0 ≤ δ t) (it : T → Fin (n + 1)) (lt : T → ℤ)
    (hm : ∀ t, 0 < δ t → unr U (((it t : ℕ) : ℤ) - 1) < unr W (lt t) ∧ unr W (lt t - 1) < unr U ((it t : ℕ) : ℤ))
    (hrow : ∀ i, ∑ t ∈ univ.filter (fun t => it t = i), δ t = uw i) (hcol : ∀ k, ∑ t ∈ univ.filter (fun t => ix (n := m) (lt t) = k), δ t = vw (σ k)) (θ : K)
    (hrot : ∑ t, δ t * ((qt m (lt t) + κ (ix (lt t)) : ℤ) : K) = θ)
    (δ' : T' → K) (hδ' : ∀ t, 0 ≤ δ' t) (i' : T' → Fin (n + 1)) (j' : T' → Fin (m + 1)) (z' : T' → ℤ)
    (hrow' : ∀ i, ∑ t ∈ univ.filter (fun t => i' t = i), δ' t = uw i) (hcol' : ∀ j, ∑ t ∈ univ.filter (fun t => j' t = j), δ' t = vw j) :
    ∑ t, δ t * h (u (it t) - unr Y (lt t)) + cutSlope h u Y r * (∑ t, δ' t * (z' t : K) - θ) ≤ ∑ t, δ' t * h (u (i' t) - y (j' t) - z' t) := by
  obtain ⟨g, hg⟩ : ∃ g, g = cutSlope h u Y r := ⟨_, rfl⟩
  obtain ⟨S, hS⟩ : ∃ S : Fin (m + 1) → K, S = fun (k : Fin (m + 1)) => ∑ k' ∈ range (k : ℕ), cutStep h u Y r k' - g * κ k := ⟨_, rfl⟩
  -- lifts of the second plan
  obtain ⟨l', hl'⟩ : ∃ l' : T' → ℤ, l' = fun t => ((m + 1 : ℕ) : ℤ) * (z' t - κ (σ.symm (j' t))) + ((σ.symm (j' t) : Fin (m + 1)) : ℕ) := ⟨_, rfl⟩
  have hYl' : ∀ t, unr Y (l' t) = y (j' t) + z' t := fun t => by
    rw [hl']
    simp only
    rw [unr_of, hYy, Equiv.apply_symm_apply]; push_cast; ring
  have hpsi' : ∀ t, cutPsi h u Y r (l' t) = S (σ.symm (j' t)) + g * z' t := fun t => by
    rw [hl', hS]
    simp only
    rw [cutPsi_of, ← hg]; push_cast; ring
  have hpsi : ∀ t, cutPsi h u Y r (lt t) = S (ix (lt t)) + g * ((qt m (lt t) + κ (ix (lt t)) : ℤ) : K) := fun t => by
    unfold cutPsi
    rw [hS, ← hg]; push_cast; ring
  -- least reduced cost of each source atom
  obtain ⟨F, hF, hF'⟩ : ∃ F : Fin (n + 1) → K, (∀ t, 0 < δ t → h (u (it t) - unr Y (lt t)) - cutPsi h u Y r (lt t) = F (it t)) ∧
      ∀ i, 0 < uw i → ∀ l, F i ≤ h (u i - unr Y l) - cutPsi h u Y r l := by
    have hmin : ∀ t, 0 < δ t → ∀ l, h (u (it t) - unr Y (lt t)) - cutPsi h u Y r (lt t) ≤ h (u (it t) - unr Y l) - cutPsi h u Y r l := by
      intro t ht l
      have := matched_min h u U Y W r hh hu hu1 hU hU1 hY hY1 hW hW1 hr ((it t : ℕ) : ℤ) (lt t) (hm t ht).1 (hm t ht).2 l
      rwa [unr_val] at this
    have hex : ∀ i, ∃ f : K, (∀ t, 0 < δ t → it t = i → h (u i - unr Y (lt t)) - cutPsi h u Y r (lt t) = f) ∧ (0 < uw i → ∀ l, f ≤ h (u i - unr Y l) - cutPsi h u Y r l) := by
      intro i
      by_cases hi : ∃ t, 0 < δ t ∧ it t = i
      · obtain ⟨t, ht, rfl⟩ := hi
        refine ⟨_, fun t' ht' hti => le_antisymm ?_ (hmin t ht _), fun _ l => hmin t ht l⟩
        have := hmin t' ht' (lt t)
        rwa [hti] at this
      · refine ⟨0, fun t ht hti => absurd ⟨t, ht, hti⟩ hi, fun hpos => ?_⟩
        exfalso
        rw [← hrow i] at hpos
        obtain ⟨t, ht, hne⟩ := exists_ne_zero_of_sum_ne_zero hpos.ne'
        exact hi ⟨t, lt_of_le_of_ne (hδ t) (Ne.symm hne), (mem_filter.1 ht).2⟩
    choose F hF1 hF2 using hex
    exact ⟨F, fun t ht => hF1 _ t ht rfl, hF2⟩
  -- weighted sums
  have hi1 : ∑ t, δ t * F (it t) = ∑ i, uw i * F i := by
    rw [← sum_fiberwise (s := univ) (g := it)]
    refine sum_congr rfl fun i _ => ?_
    rw [← hrow i, sum_mul]
    exact sum_congr rfl fun t ht => by rw [(mem_filter.1 ht).2]
  have hi2 : ∑ t, δ' t * F (i' t) = ∑ i, uw i * F i := by
    rw [← sum_fiberwise (s := univ) (g := i')]
    refine sum_congr rfl fun i _ => ?_
    rw [← hrow' i, sum_mul]
    exact sum_congr rfl fun t ht => by rw [(mem_filter.1 ht).2]
  have hS1 : ∑ t, δ t * S (ix (lt t)) = ∑ k, vw (σ k) * S k := by
    rw [← sum_fiberwise (s := univ) (g := fun t => ix (n := m) (lt t))]
    refine sum_congr rfl fun k _ => ?_
    rw [← hcol k, sum_mul]
    exact sum_congr rfl fun t ht => by rw [(mem_filter.1 ht).2]
  have hS2 : ∑ t, δ' t * S (σ.symm (j' t)) = ∑ k, vw (σ k) * S k := by
    rw [← Equiv.sum_comp σ.symm]
    simp only [Equiv.apply_symm_apply]
    rw [← sum_fiberwise (s := univ) (g := j')]
    refine sum_congr rfl fun j _ => ?_
    rw [← hcol' j, sum_mul]
    exact sum_congr rfl fun t ht => by rw [(mem_filter.1 ht).2]
  have e1 : ∑ t, δ t * h (u (it t) - unr Y (lt t)) = ∑ i, uw i * F i + ∑ k, vw (σ k) * S k + g * θ := by
    have : ∀ t, δ t * h (u (it t) - unr Y (lt t)) = δ t * F (it t) + δ t * S (ix (lt t)) + g * (δ t * ((qt m (lt t) + κ (ix (lt t)) : ℤ) : K)) := by
      intro t
      rcases (hδ t).eq_or_lt with h0 | h0
      · rw [← h0]; ring
      · have h3 := hF t h0
        rw [hpsi] at h3
        rw [← h3]; ring
    rw [sum_congr rfl fun t _ => this t, sum_add_distrib, sum_add_distrib, ← mul_sum, hrot, hi1, hS1]
  have e2 : ∑ i, uw i * F i + ∑ k, vw (σ k) * S k + g * ∑ t, δ' t * (z' t : K) ≤ ∑ t, δ' t * h (u (i' t) - y (j' t) - z' t) := by
    rw [← hi2, ← hS2, mul_sum, ← sum_add_distrib, ← sum_add_distrib]
    refine sum_le_sum fun t _ => ?_
    rcases (hδ' t).eq_or_lt with h0 | h0
    · rw [← h0]; simp
    · have hpos : 0 < uw (i' t) := by
        rw [← hrow' (i' t)]
        exact lt_of_lt_of_le h0 (single_le_sum (f := δ') (fun t _ => hδ' t) (mem_filter.2 ⟨mem_univ t, rfl⟩))
      have h3 := hF' (i' t) hpos (l' t)
      rw [hYl', hpsi', show u (i' t) - (y (j' t) + z' t) = u (i' t) - y (j' t) - z' t by ring] at h3
      have h4 := mul_le_mul_of_nonneg_left h3 (hδ' t)
      calc _ = δ' t * F (i' t) + δ' t * (S (σ.symm (j' t)) + g * z' t) := by ring
        _ ≤ _ := by linarith
  rw [e1, ← hg]
  linarith

end

end POT.Circle
