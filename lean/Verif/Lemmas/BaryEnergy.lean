import Verif.Lemmas.BaryGeneric

/-! # The energy along `free_support_barycenter_generic_costs` -/

set_option linter.unusedSectionVars false

namespace POT.Bary

open Finset Spec

variable {K : Type*} [Field K] [LinearOrder K] [IsStrictOrderedRing K]

section
variable {κ : ℕ} {n : Fin (κ + 1) → ℕ} {E : Type*} {Z : Fin (κ + 1) → Type*}

variable (emd : ∀ m k, (Fin m → K) → (Fin (n k) → K) → (Fin m → Fin (n k) → K) → (Fin m → Fin (n k) → K))
  (c : ∀ k, E → Z k → K) (Y : ∀ k, Fin (n k) → Z k) (b : ∀ k, Fin (n k) → K)

/-- the measure can be transported to all targets -/
def Admissible (μ : DMeas E K) : Prop := ∀ k, ∃ P, IsCoupling μ.wts (b k) P

variable (hemd : ∀ m k (a : Fin m → K) C, (∃ P, IsCoupling a (b k) P) → IsOptimal a (b k) C (emd m k a (b k) C))

include hemd in
theorem energy_le (μ : DMeas E K) (Q : ∀ k, Fin μ.len → Fin (n k) → K) (hQ : ∀ k, IsCoupling μ.wts (b k) (Q k)) : genericEnergy emd c Y b μ ≤ ∑ k, cost (costMat c Y μ k) (Q k) :=
  sum_le_sum fun k _ => (hemd μ.len k μ.wts (costMat c Y μ k) ⟨_, hQ k⟩).2 _ (hQ k)

include hemd in
/-- a turn of the fixed point method: the new measure is a measure that can be transported to all targets, at a cost that is not larger -/
theorem fixedPoint_spec (ground : (∀ k, Z k) → E) (hg : ∀ y x, ∑ k, c k (ground y) (y k) ≤ ∑ k, c k x (y k)) (μ : DMeas E K) (hμ : Admissible b μ) :
    Admissible b (fixedPointStep emd c Y b ground μ) ∧ (∀ t, 0 < (fixedPointStep emd c Y b ground μ).wts t) ∧
    genericEnergy emd c Y b (fixedPointStep emd c Y b ground μ) ≤ genericEnergy emd c Y b μ := by
  have hP : ∀ k, IsCoupling μ.wts (b k) (plan emd c Y b μ k) := fun k => (hemd μ.len k μ.wts (costMat c Y μ k) (hμ k)).1
  obtain ⟨out, ho, -, hpos, γ, γ0, γ1, γ2⟩ := glue_spec (∑ k, n k + 1) (plan emd c Y b μ) (fun k => (hP k).nonneg) (fun k i => by rw [(hP k).row, (hP 0).row]) (Nat.lt_succ_self _)
  have hstep : fixedPointStep emd c Y b ground μ = { len := out.length, pts := fun t => ground fun k => Y k ((out.get t).1 k), wts := fun t => (out.get t).2 } := by
    unfold fixedPointStep; rw [ho]; rfl
  rw [hstep]
  have hQ : ∀ k, IsCoupling (fun t => (out.get t).2) (b k) fun (t : Fin out.length) j => if (out.get t).1 k = j then (out.get t).2 else 0 := by
    intro k
    refine ⟨fun t j => ?_, fun t => by simp, fun j => ?_⟩
    · split_ifs
      · exact (hpos _ (List.get_mem _ _)).le
      · exact le_refl _
    · have e1 : ∑ t : Fin out.length, (if (out.get t).1 k = j then (out.get t).2 else 0) = wsum (fun jj => jj k = j) out := by
        unfold wsum
        exact Fin.sum_univ_fun_getElem out fun e => if e.1 k = j then e.2 else 0
      rw [e1, ← wsum_fiber (fun jj : ∀ k, Fin (n k) => jj k) j out, ← sum_congr rfl fun jj _ => γ1 jj, sum_comm, ← (hP k).col j]
      exact sum_congr rfl fun i _ => γ2 i k j
  refine ⟨fun k => ⟨_, hQ k⟩, fun t => hpos _ (List.get_mem _ _), ?_⟩
  refine (energy_le emd c Y b hemd _ _ hQ).trans ?_
  obtain ⟨F, hF⟩ : ∃ F : (∀ k, Fin (n k)) → K, F = fun jj => ∑ k, c k (ground fun k => Y k (jj k)) (Y k (jj k)) := ⟨_, rfl⟩
  have e1 : ∑ k, cost (costMat c Y { len := out.length, pts := fun t => ground fun k => Y k ((out.get t).1 k), wts := fun t => (out.get t).2 } k) (fun t j => if (out.get t).1 k = j then (out.get t).2 else 0) =
      ∑ t : Fin out.length, (out.get t).2 * F (out.get t).1 := by
    unfold cost costMat
    rw [sum_comm]
    refine sum_congr rfl fun t _ => ?_
    rw [hF, mul_sum]
    refine sum_congr rfl fun k _ => ?_
    simp only [ite_mul, zero_mul]
    rw [sum_ite_eq]; simp
  have e2 : ∑ t : Fin out.length, (out.get t).2 * F (out.get t).1 = ∑ jj, wsum (fun y => y = jj) out * F jj := by
    rw [sum_wsum]; exact Fin.sum_univ_fun_getElem out fun e => e.2 * F e.1
  rw [e1, e2]
  simp only [← γ1]
  have e3 : genericEnergy emd c Y b μ = ∑ jj, ∑ i, γ i jj * ∑ k, c k (μ.pts i) (Y k (jj k)) := by
    unfold genericEnergy
    have h1 : ∀ k, ∑ i, ∑ j, plan emd c Y b μ k i j * costMat c Y μ k i j = ∑ i, ∑ jj, γ i jj * c k (μ.pts i) (Y k (jj k)) := by
      intro k
      refine sum_congr rfl fun i _ => ?_
      rw [← sum_fiberwise (s := univ) (g := fun jj : ∀ k, Fin (n k) => jj k) (f := fun jj => γ i jj * c k (μ.pts i) (Y k (jj k)))]
      refine sum_congr rfl fun j _ => ?_
      rw [← γ2 i k j, sum_mul]
      refine sum_congr rfl fun jj hjj => ?_
      rw [← (mem_filter.1 hjj).2]; rfl
    simp only [h1]
    rw [sum_comm]
    rw [sum_comm (s := univ) (t := univ) (f := fun jj i => γ i jj * ∑ k, c k (μ.pts i) (Y k (jj k)))]
    refine sum_congr rfl fun i _ => ?_
    rw [sum_comm]
    exact sum_congr rfl fun jj _ => (mul_sum _ _ _).symm
  rw [e3]
  refine sum_le_sum fun jj _ => ?_
  rw [sum_mul]
  refine sum_le_sum fun i _ => mul_le_mul_of_nonneg_left ?_ (γ0 i jj)
  rw [hF]
  exact hg (fun k => Y k (jj k)) (μ.pts i)

include hemd in
/-- merging equal points changes nothing -/
theorem cleanMeas_spec (near : E → E → Bool) (hnear : ∀ x y, near x y = true ↔ x = y) (μ : DMeas E K) (hμ : Admissible b μ) :
    Admissible b (cleanMeas near μ) ∧ ((∀ i, 0 < μ.wts i) → ∀ t, 0 < (cleanMeas near μ).wts t) ∧ genericEnergy emd c Y b (cleanMeas near μ) ≤ genericEnergy emd c Y b μ := by
  have hP : ∀ k, IsCoupling μ.wts (b k) (plan emd c Y b μ k) := fun k => (hemd μ.len k μ.wts (costMat c Y μ k) (hμ k)).1
  obtain ⟨idx, i1, i2, i3, -⟩ := clean_spec μ.wts (fun i j => near (μ.pts i) (μ.pts j)) (R := fun i j => μ.pts i = μ.pts j) (fun i => (hnear _ _).2 rfl) (fun i j h => (hnear _ _).1 h) (fun i j k h1 h2 => h1.trans h2)
  have hQ : ∀ k, IsCoupling (cleanMeas near μ).wts (b k) fun (t : Fin (clean (fun i j => near (μ.pts i) (μ.pts j)) μ.wts).length) j => ∑ i ∈ univ.filter (fun i => idx i = t), plan emd c Y b μ k i j := by
    intro k
    refine ⟨fun t j => sum_nonneg fun i _ => (hP k).nonneg i j, fun t => ?_, fun j => ?_⟩
    · rw [sum_comm]
      simp only [(hP k).row]
      exact (i2 t).symm
    · rw [← (hP k).col j]
      exact sum_fiberwise univ idx fun i => plan emd c Y b μ k i j
  refine ⟨fun k => ⟨_, hQ k⟩, fun h (t : Fin (clean (fun i j => near (μ.pts i) (μ.pts j)) μ.wts).length) => ?_, ?_⟩
  · have := lt_of_lt_of_eq (sum_pos (fun i _ => h i) ⟨_, mem_filter.2 ⟨mem_univ _, i3 t⟩⟩) (i2 t).symm
    exact this
  · refine (energy_le emd c Y b hemd _ _ hQ).trans (le_of_eq ?_)
    unfold genericEnergy cost
    refine sum_congr rfl fun k _ => ?_
    rw [← sum_fiberwise univ idx fun i => ∑ j, plan emd c Y b μ k i j * costMat c Y μ k i j]
    refine sum_congr rfl fun (t : Fin (clean (fun i j => near (μ.pts i) (μ.pts j)) μ.wts).length) _ => ?_
    rw [sum_comm]
    refine sum_congr rfl fun j _ => ?_
    rw [sum_mul]
    refine sum_congr rfl fun i hi => ?_
    have e : costMat c Y (cleanMeas near μ) k t j = costMat c Y μ k i j := by
      have h := i1 i
      rw [(mem_filter.1 hi).2] at h
      unfold costMat
      rw [← h]; rfl
    rw [e]

end

/-! ### barycentric projections, quadratic costs -/

section
variable {κ : ℕ} {n : Fin (κ + 1) → ℕ} {d : ℕ}

variable (emd : ∀ m k, (Fin m → K) → (Fin (n k) → K) → (Fin m → Fin (n k) → K) → (Fin m → Fin (n k) → K))
  (lam : Fin (κ + 1) → K) (Y : ∀ k, Fin (n k) → Fin d → K) (b : ∀ k, Fin (n k) → K)
variable (hemd : ∀ m k (a : Fin m → K) C, (∃ P, IsCoupling a (b k) P) → IsOptimal a (b k) C (emd m k a (b k) C))

/-- the cost `λ_k ‖x - y‖²` -/
def quadCost (k : Fin (κ + 1)) (x y : Fin d → K) : K := lam k * sqEuclid x y

theorem proj_identity {m : ℕ} (p : Fin m → K) (y : Fin m → Fin d → K) (α : K) (hα : α ≠ 0) (hp : ∑ j, p j = α) (x : Fin d → K) :
    ∑ j, p j * sqEuclid x (y j) = α * sqEuclid x (fun e => ∑ j, 1 / α * p j * y j e) + (∑ j, p j * sqEuclid 0 (y j) - α * sqEuclid 0 (fun e => ∑ j, 1 / α * p j * y j e)) := by
  unfold sqEuclid
  have h1 : ∀ x : Fin d → K, ∑ j, p j * ∑ e, (x e - y j e) ^ 2 = ∑ e, ∑ j, p j * (x e - y j e) ^ 2 := fun x => by
    rw [sum_comm]; exact sum_congr rfl fun j _ => mul_sum _ _ _
  rw [h1, h1, mul_sum, mul_sum, ← sum_sub_distrib, ← sum_add_distrib]
  refine sum_congr rfl fun e _ => ?_
  have h2 : ∑ j, 1 / α * p j * y j e = 1 / α * ∑ j, p j * y j e := by rw [mul_sum]; exact sum_congr rfl fun j _ => by ring
  have h3 : ∀ z : K, ∑ j, p j * (z - y j e) ^ 2 = α * z ^ 2 - 2 * z * ∑ j, p j * y j e + ∑ j, p j * y j e ^ 2 := fun z => by
    rw [← hp, sum_mul, mul_sum, ← sum_sub_distrib, ← sum_add_distrib]
    exact sum_congr rfl fun j _ => by ring
  simp only [h2, h3, Pi.zero_apply]
  field_simp
  ring

include hemd in
theorem l2Step_spec (ground : (∀ _ : Fin (κ + 1), Fin d → K) → Fin d → K) (hg : ∀ y x, ∑ k, quadCost lam k (ground y) (y k) ≤ ∑ k, quadCost lam k x (y k)) (μ : DMeas (Fin d → K) K) (hμ : Admissible b μ)
    (hw : ∀ i, 0 < μ.wts i) : genericEnergy emd (quadCost lam) Y b (l2Step emd b (quadCost lam) Y ground μ) ≤ genericEnergy emd (quadCost lam) Y b μ := by
  have hP : ∀ k, IsCoupling μ.wts (b k) (plan emd (quadCost lam) Y b μ k) := fun k => (hemd μ.len k μ.wts (costMat (quadCost lam) Y μ k) (hμ k)).1
  refine (energy_le emd (quadCost lam) Y b hemd (l2Step emd b (quadCost lam) Y ground μ) (fun k => plan emd (quadCost lam) Y b μ k) hP).trans ?_
  unfold genericEnergy cost
  have e : ∀ X : Fin μ.len → Fin d → K, ∑ k, ∑ i, ∑ j, plan emd (quadCost lam) Y b μ k i j * quadCost lam k (X i) (Y k j) = ∑ i, μ.wts i * (∑ k, quadCost lam k (X i) (fun e => ∑ j, 1 / μ.wts i * plan emd (quadCost lam) Y b μ k i j * Y k j e)) +
      ∑ i, ∑ k, lam k * (∑ j, plan emd (quadCost lam) Y b μ k i j * sqEuclid 0 (Y k j) - μ.wts i * sqEuclid 0 (fun e => ∑ j, 1 / μ.wts i * plan emd (quadCost lam) Y b μ k i j * Y k j e)) := by
    intro X
    rw [sum_comm, ← sum_add_distrib]
    refine sum_congr rfl fun i _ => ?_
    rw [mul_sum, ← sum_add_distrib]
    refine sum_congr rfl fun k _ => ?_
    unfold quadCost
    have := proj_identity (plan emd (quadCost lam) Y b μ k i) (Y k) (μ.wts i) (hw i).ne' ((hP k).row i) (X i)
    unfold quadCost at this
    rw [show μ.wts i * (lam k * sqEuclid (X i) fun e => ∑ j, 1 / μ.wts i * plan emd (fun k x y => lam k * sqEuclid x y) Y b μ k i j * Y k j e) = lam k * (μ.wts i * sqEuclid (X i) fun e => ∑ j, 1 / μ.wts i * plan emd (fun k x y => lam k * sqEuclid x y) Y b μ k i j * Y k j e) by ring,
      ← mul_add, ← this, mul_sum]
    exact sum_congr rfl fun j _ => by ring
  have e1 := e (l2Step emd b (quadCost lam) Y ground μ).pts
  have e2 := e μ.pts
  have : ∑ i, μ.wts i * (∑ k, quadCost lam k ((l2Step emd b (quadCost lam) Y ground μ).pts i) (fun e => ∑ j, 1 / μ.wts i * plan emd (quadCost lam) Y b μ k i j * Y k j e)) ≤
      ∑ i, μ.wts i * (∑ k, quadCost lam k (μ.pts i) (fun e => ∑ j, 1 / μ.wts i * plan emd (quadCost lam) Y b μ k i j * Y k j e)) :=
    sum_le_sum fun i _ => mul_le_mul_of_nonneg_left (hg _ _) (hw i).le
  calc _ = _ := e1
    _ ≤ _ := add_le_add_left this _
    _ = _ := e2.symm

end

/-! ### the loop -/

section
variable {S : Type*} (step : S → S) (V : S → K) (good : S → Prop) (hgood : ∀ s, good s → good (step s)) (hdesc : ∀ s, good s → V (step s) ≤ V s) (hV : ∀ s, good s → 0 ≤ V s)

include hgood hdesc in
theorem genericLoop_spec (stopThr : K) (m : ℕ) (s : S) (hs : good s) :
    good (genericLoop step V stopThr m s (V s)).1 ∧ (V s :: (genericLoop step V stopThr m s (V s)).2.1).Pairwise (fun x y => y ≤ x) ∧
    (V s :: (genericLoop step V stopThr m s (V s)).2.1).getLast? = some (V (genericLoop step V stopThr m s (V s)).1) := by
  induction m generalizing s with
  | zero => simp [genericLoop, hs]
  | succ m ih =>
    unfold genericLoop
    simp only
    split_ifs with h
    · refine ⟨hgood s hs, ?_, by simp⟩
      simp [hdesc s hs]
    · obtain ⟨h1, h2, h3⟩ := ih (step s) (hgood s hs)
      refine ⟨h1, ?_, by rw [List.getLast?_cons_cons]; exact h3⟩
      rw [List.pairwise_cons]
      refine ⟨fun x hx => ?_, h2⟩
      rcases List.mem_cons.1 hx with rfl | hx
      · exact hdesc s hs
      · exact (List.rel_of_pairwise_cons h2 hx).trans (hdesc s hs)

include hgood hdesc hV in
theorem genericLoop_stops (stopThr : K) (m : ℕ) (s : S) (hs : good s) (hm : V s < m * stopThr) : (genericLoop step V stopThr m s (V s)).2.2 = true := by
  induction m generalizing s with
  | zero => simp at hm; exact absurd hm (not_lt.2 (hV s hs))
  | succ m ih =>
    unfold genericLoop
    simp only
    split_ifs with h
    · rfl
    · refine ih (step s) (hgood s hs) ?_
      push_cast at hm
      have := not_lt.1 h
      linarith

theorem genericLoop_flag (stopThr : K) (m : ℕ) (s : S) : (genericLoop step V stopThr m s (V s)).2.2 = true ↔ ∃ q, ∃ x, V s :: (genericLoop step V stopThr m s (V s)).2.1 = q ++ [x, V (genericLoop step V stopThr m s (V s)).1] ∧ x - V (genericLoop step V stopThr m s (V s)).1 < stopThr := by
  induction m generalizing s with
  | zero =>
    simp only [genericLoop]
    constructor
    · intro h; simp at h
    · rintro ⟨q, x, h, -⟩
      have := congrArg List.length h
      simp at this
  | succ m ih =>
    unfold genericLoop
    simp only
    split_ifs with h
    · exact iff_of_true rfl ⟨[], V s, rfl, h⟩
    · rw [ih]
      constructor
      · rintro ⟨q, x, h1, h2⟩
        exact ⟨V s :: q, x, by rw [h1]; rfl, h2⟩
      · rintro ⟨q, x, h1, h2⟩
        cases q with
        | nil =>
          exfalso
          simp only [List.nil_append, List.cons.injEq] at h1
          obtain ⟨rfl, h3, h4⟩ := h1
          rw [h3] at h
          exact h h2
        | cons y q =>
          rw [List.cons_append, List.cons.injEq] at h1
          exact ⟨q, x, h1.2, h2⟩

theorem genericLoop_len (stopThr : K) (m : ℕ) (s : S) : (genericLoop step V stopThr m s (V s)).2.1.length ≤ m ∧ ((genericLoop step V stopThr m s (V s)).2.2 = false → (genericLoop step V stopThr m s (V s)).2.1.length = m) := by
  induction m generalizing s with
  | zero => simp [genericLoop]
  | succ m ih =>
    unfold genericLoop
    simp only
    split_ifs with h
    · simp
    · simpa using ih (step s)

end

/-! ### the change of variables of the generalized problem -/

section
variable {N k d : ℕ} {n : Fin N → ℕ} {D : Fin N → ℕ}

/-- the change of variables: the cost to the projections differs from the quadratic cost between transformed points by terms that only depend on one of the two points -/
theorem gen_point (P : Fin d → Fin k → K) (B : Fin k → Fin k → K) (x : Fin d → K) (z : Fin k → K) :
    ∑ q, (x q - ∑ e, P q e * ∑ f, z f * B e f) ^ 2 =
      ∑ c, (z c - ∑ e, (∑ q, x q * P q e) * B e c) ^ 2 + (∑ q, x q ^ 2 - ∑ c, (∑ e, (∑ q, x q * P q e) * B e c) ^ 2) + (∑ q, (∑ e, P q e * ∑ f, z f * B e f) ^ 2 - ∑ c, z c ^ 2) := by
  have hx : ∑ q, x q * ∑ e, P q e * ∑ f, z f * B e f = ∑ c, z c * ∑ e, (∑ q, x q * P q e) * B e c := by
    simp only [mul_sum, sum_mul]
    rw [sum_comm]
    have : ∀ e, ∑ q, ∑ f, x q * (P q e * (z f * B e f)) = ∑ c, ∑ q, z c * (x q * P q e * B e c) := fun e => by
      rw [sum_comm]; exact sum_congr rfl fun c _ => sum_congr rfl fun q _ => by ring
    simp only [this]
    exact sum_comm
  have e1 : ∑ q, (x q - ∑ e, P q e * ∑ f, z f * B e f) ^ 2 = ∑ q, x q ^ 2 - 2 * ∑ q, x q * ∑ e, P q e * ∑ f, z f * B e f + ∑ q, (∑ e, P q e * ∑ f, z f * B e f) ^ 2 := by
    rw [mul_sum, ← sum_sub_distrib, ← sum_add_distrib]
    exact sum_congr rfl fun q _ => by ring
  have e2 : ∑ c, (z c - ∑ e, (∑ q, x q * P q e) * B e c) ^ 2 = ∑ c, z c ^ 2 - 2 * ∑ c, z c * ∑ e, (∑ q, x q * P q e) * B e c + ∑ c, (∑ e, (∑ q, x q * P q e) * B e c) ^ 2 := by
    rw [mul_sum, ← sum_sub_distrib, ← sum_add_distrib]
    exact sum_congr rfl fun q _ => by ring
  rw [e1, e2, hx]; ring

end

end POT.Bary
