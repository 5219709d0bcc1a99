import Verif.Model.Da
import Verif.Props.Utils
import Verif.Props.GwEntropic
import Verif.Lemmas.SlicedPlan
import Mathlib.Tactic.Continuity
import Mathlib.Tactic.FinCases
import Mathlib.Algebra.BigOperators.Field

/-! # C91-C93: domain adaptation (`ot/da.py`) -/

set_option linter.unusedSectionVars false

namespace POT.Da

open Finset Spec

variable {n m d : ℕ}

/-! ## Weighted means -/

section Mean
variable {J D : Type*} [Fintype J] [Fintype D]

theorem mean_mul {w : J → ℝ} (h : ∑ j, w j ≠ 0) (x : J → D → ℝ) : IsWeightedMean w x (fun k => ∑ j, w j / (∑ j, w j) * x j k) := by
  intro k
  dsimp only
  rw [mul_sum]
  refine sum_congr rfl fun j _ => ?_
  field_simp

theorem mean_hull {w : J → ℝ} (h0 : ∀ j, 0 ≤ w j) (h : ∑ j, w j ≠ 0) {x : J → D → ℝ} {y : D → ℝ} (hy : IsWeightedMean w x y) : InHull x y := by
  refine ⟨fun j => w j / ∑ j, w j, fun j => div_nonneg (h0 j) (sum_nonneg fun j _ => h0 j), ?_, fun k => ?_⟩
  · rw [← sum_div, div_self h]
  · have := hy k
    have e : ∑ j, w j / (∑ j, w j) * x j k = (∑ j, w j * x j k) / ∑ j, w j := by
      rw [sum_div]; exact sum_congr rfl fun j _ => by ring
    rw [e, ← this]; field_simp

theorem mean_bias {w : J → ℝ} {x : J → D → ℝ} {y : D → ℝ} (hy : IsWeightedMean w x y) (z : D → ℝ) :
    ∑ j, w j * sqEuclid z (x j) = ∑ j, w j * sqEuclid y (x j) + (∑ j, w j) * sqEuclid z y := by
  have e : ∀ z : D → ℝ, ∑ j, w j * sqEuclid z (x j) = ∑ k, ((∑ j, w j) * z k ^ 2 - 2 * z k * ∑ j, w j * x j k + ∑ j, w j * x j k ^ 2) := by
    intro z
    unfold sqEuclid
    simp only [mul_sum, sum_mul]
    rw [sum_comm]
    refine sum_congr rfl fun k _ => ?_
    rw [← sum_sub_distrib, ← sum_add_distrib]
    exact sum_congr rfl fun j _ => by ring
  rw [e z, e y]
  unfold sqEuclid
  rw [mul_sum, ← sum_add_distrib]
  refine sum_congr rfl fun k _ => ?_
  rw [← hy k]; ring

theorem sqEuclid_nonneg' (x y : D → ℝ) : 0 ≤ sqEuclid x y := sum_nonneg fun _ _ => sq_nonneg _

theorem sqEuclid_eq_zero {x y : D → ℝ} : sqEuclid x y = 0 ↔ x = y := by
  unfold sqEuclid
  rw [sum_eq_zero_iff_of_nonneg fun _ _ => sq_nonneg _]
  constructor
  · intro h; funext k
    have := h k (mem_univ k)
    nlinarith [pow_eq_zero_iff (n := 2) (by norm_num) |>.1 this]
  · rintro rfl k _; ring

end Mean

theorem argmin_first : ∀ {L : ℕ} (f : Fin (L + 1) → ℝ) (k : Fin (L + 1)), k < Sliced.argmin f → f (Sliced.argmin f) < f k
  | 0, f, k => by intro h; rw [Fin.fin_one_eq_zero k] at h; exact absurd h (by simp [Sliced.argmin])
  | L + 1, f, k => by
    have e : Sliced.argmin f = if f (Sliced.argmin fun k : Fin (L + 1) => f k.succ).succ < f 0 then (Sliced.argmin fun k : Fin (L + 1) => f k.succ).succ else 0 := rfl
    have ih := argmin_first fun k : Fin (L + 1) => f k.succ
    rw [e]
    split_ifs with h
    · refine Fin.cases (fun _ => h) (fun i hi => ih i (Fin.succ_lt_succ_iff.1 hi)) k
    · intro hk; exact absurd hk (Fin.not_lt_zero k)

theorem reduce_map {α β : Type*} (f : α → β) (rows : List α) {bs : ℕ} (hbs : 0 < bs) : Utils.reduceAxisConcat (fun r => r.map f) rows bs = rows.map f :=
  Props.C22_reduce_axis_concat f rows bs hbs

/-- What one mapped point is: displaced like the first nearest training sample. -/
theorem oos_spec (T xs : Fin (n + 1) → Fin d → ℝ) (x : Fin d → ℝ) : ∃ i, (∀ i', sqEuclid x (xs i) ≤ sqEuclid x (xs i')) ∧ (∀ i' < i, sqEuclid x (xs i) < sqEuclid x (xs i')) ∧
    oosPoint T xs x = fun k => T i k + (x k - xs i k) :=
  ⟨Sliced.argmin fun i => sqEuclid x (xs i), Sliced.argmin_le (fun i => sqEuclid x (xs i)), fun i' h => argmin_first (fun i => sqEuclid x (xs i)) i' h, by funext k; unfold oosPoint; ring⟩

theorem oos_train (T xs : Fin (n + 1) → Fin d → ℝ) {i : Fin (n + 1)} (hinj : ∀ i', xs i' = xs i → i' = i) : oosPoint T xs (xs i) = T i := by
  obtain ⟨j, hj, -, e⟩ := oos_spec T xs (xs i)
  have h0 : sqEuclid (xs i) (xs j) = 0 := le_antisymm ((hj i).trans (sqEuclid_eq_zero.2 rfl).le) (sqEuclid_nonneg' _ _)
  have := hinj j (sqEuclid_eq_zero.1 h0).symm
  subst this
  rw [e]; funext k; ring

end POT.Da

namespace POT.Props

open Finset Spec Da

variable {n m d : ℕ}

/-! ## C91: mapping samples -/

/-- C91. On the training samples `transform` returns the conditional means of the coupling: for every sample with mass, the point of the convex
hull of the target samples that is the unique minimiser of the expected squared distance to where the mass goes. Samples without mass are
sent to the origin. The batch size has no effect. -/
theorem C91_transform (P : Fin (n + 1) → Fin m → ℝ) (xs : Fin (n + 1) → Fin d → ℝ) (xt : Fin m → Fin d → ℝ) (hP : ∀ i j, 0 ≤ P i j) (batch : ℕ) :
    ∃ T : Fin (n + 1) → Fin d → ℝ, transform P xs xt batch (List.ofFn xs) = List.ofFn T ∧ ∀ i,
      (0 < ∑ j, P i j → IsWeightedMean (P i) xt (T i) ∧ InHull xt (T i) ∧
        ∀ y, ∑ j, P i j * sqEuclid (T i) (xt j) ≤ ∑ j, P i j * sqEuclid y (xt j) ∧
          (∑ j, P i j * sqEuclid y (xt j) ≤ ∑ j, P i j * sqEuclid (T i) (xt j) → y = T i)) ∧
      (∑ j, P i j = 0 → T i = 0) := by
  refine ⟨baryMap P xt, if_pos rfl, fun i => ⟨fun h => ?_, fun h => ?_⟩⟩
  · have hm : IsWeightedMean (P i) xt (baryMap P xt i) := mean_mul h.ne' xt
    refine ⟨hm, mean_hull (hP i) h.ne' hm, fun y => ?_⟩
    have e := mean_bias hm y
    have h0 := sqEuclid_nonneg' y (baryMap P xt i)
    refine ⟨by rw [e]; nlinarith [mul_nonneg h.le h0], fun hle => ?_⟩
    have : (∑ j, P i j) * sqEuclid y (baryMap P xt i) ≤ 0 := by linarith
    exact sqEuclid_eq_zero.1 (le_antisymm (by nlinarith) h0)
  · funext k
    unfold baryMap
    rw [h]; simp

/-- C91. If the coupling has the marginals `a` and `b`, the mapped source samples have the same mean as the target samples. -/
theorem C91_mean (P : Fin (n + 1) → Fin m → ℝ) (xs : Fin (n + 1) → Fin d → ℝ) (xt : Fin m → Fin d → ℝ) (a : Fin (n + 1) → ℝ) (b : Fin m → ℝ)
    (hP : IsCoupling a b P) (batch : ℕ) :
    ∃ T : Fin (n + 1) → Fin d → ℝ, transform P xs xt batch (List.ofFn xs) = List.ofFn T ∧ ∀ k, ∑ i, a i * T i k = ∑ j, b j * xt j k := by
  refine ⟨baryMap P xt, if_pos rfl, fun k => ?_⟩
  have e : ∀ i, a i * baryMap P xt i k = ∑ j, P i j * xt j k := by
    intro i
    unfold baryMap
    rcases eq_or_ne (a i) 0 with h | h
    · have h0 : ∀ j, P i j = 0 := fun j => (sum_eq_zero_iff_of_nonneg fun j _ => hP.nonneg i j).1 (by rw [hP.row, h]) j (mem_univ j)
      simp [h, h0]
    · rw [hP.row, mul_sum]
      exact sum_congr rfl fun j _ => by field_simp
  simp only [e]
  rw [sum_comm]
  exact sum_congr rfl fun j _ => by rw [← sum_mul, hP.col]

/-- C91. New samples: every one is displaced like its nearest training sample (the first one among equals), independently of the other samples
of the call and of the batch size. -/
theorem C91_out_of_sample (P : Fin (n + 1) → Fin m → ℝ) (xs : Fin (n + 1) → Fin d → ℝ) (xt : Fin m → Fin d → ℝ) :
    ∃ (T : Fin (n + 1) → Fin d → ℝ) (F : (Fin d → ℝ) → Fin d → ℝ), (∀ batch, transform P xs xt batch (List.ofFn xs) = List.ofFn T) ∧
      (∀ X batch, 0 < batch → X ≠ List.ofFn xs → transform P xs xt batch X = X.map F) ∧
      ∀ x, ∃ i, (∀ i', sqEuclid x (xs i) ≤ sqEuclid x (xs i')) ∧ (∀ i' < i, sqEuclid x (xs i) < sqEuclid x (xs i')) ∧ F x = fun k => T i k + (x k - xs i k) :=
  ⟨baryMap P xt, oosPoint (baryMap P xt) xs, fun _ => if_pos rfl, fun X _ hb hX => by
    unfold transform; rw [if_neg hX, reduce_map _ _ hb], oos_spec _ _⟩

/-- C91. If the training samples are distinct, `transform` acts on every sample separately, whether the call is on the training set or not:
a training sample gets the same image in every call. -/
theorem C91_consistent (P : Fin (n + 1) → Fin m → ℝ) (xs : Fin (n + 1) → Fin d → ℝ) (xt : Fin m → Fin d → ℝ) (hinj : Function.Injective xs) :
    ∃ F : (Fin d → ℝ) → Fin d → ℝ, ∀ X batch, 0 < batch → transform P xs xt batch X = X.map F := by
  refine ⟨oosPoint (baryMap P xt) xs, fun X batch hb => ?_⟩
  unfold transform
  split_ifs with h
  · rw [h, List.map_ofFn]
    congr 1
    funext i
    exact (oos_train _ _ fun i' e => hinj e).symm
  · exact reduce_map _ _ hb

/-- C91, the same for `inverse_transform`: conditional means of the columns. -/
theorem C91_inverse (P : Fin n → Fin (m + 1) → ℝ) (xs : Fin n → Fin d → ℝ) (xt : Fin (m + 1) → Fin d → ℝ) (hP : ∀ i j, 0 ≤ P i j) (batch : ℕ) :
    ∃ S : Fin (m + 1) → Fin d → ℝ, inverseTransform P xs xt batch (List.ofFn xt) = List.ofFn S ∧ ∀ j,
      (0 < ∑ i, P i j → IsWeightedMean (fun i => P i j) xs (S j) ∧ InHull xs (S j) ∧
        ∀ y, ∑ i, P i j * sqEuclid (S j) (xs i) ≤ ∑ i, P i j * sqEuclid y (xs i) ∧
          (∑ i, P i j * sqEuclid y (xs i) ≤ ∑ i, P i j * sqEuclid (S j) (xs i) → y = S j)) ∧
      (∑ i, P i j = 0 → S j = 0) := by
  obtain ⟨S, hS, h⟩ := C91_transform (fun j i => P i j) xt xs (fun j i => hP i j) batch
  refine ⟨S, ?_, h⟩
  rw [← hS]
  unfold inverseTransform transform
  rw [if_pos rfl, if_pos rfl]
  rfl

/-- C91, new samples for `inverse_transform`. -/
theorem C91_inverse_out_of_sample (P : Fin n → Fin (m + 1) → ℝ) (xs : Fin n → Fin d → ℝ) (xt : Fin (m + 1) → Fin d → ℝ) :
    ∃ (S : Fin (m + 1) → Fin d → ℝ) (F : (Fin d → ℝ) → Fin d → ℝ), (∀ batch, inverseTransform P xs xt batch (List.ofFn xt) = List.ofFn S) ∧
      (∀ X batch, 0 < batch → X ≠ List.ofFn xt → inverseTransform P xs xt batch X = X.map F) ∧
      (∀ x, ∃ j, (∀ j', sqEuclid x (xt j) ≤ sqEuclid x (xt j')) ∧ (∀ j' < j, sqEuclid x (xt j) < sqEuclid x (xt j')) ∧ F x = fun k => S j k + (x k - xt j k)) ∧
      (Function.Injective xt → ∀ X batch, 0 < batch → inverseTransform P xs xt batch X = X.map F) := by
  refine ⟨baryMapInv P xs, oosPoint (baryMapInv P xs) xt, fun _ => if_pos rfl, fun X _ hb hX => ?_, oos_spec _ _, fun hinj X batch hb => ?_⟩
  · unfold inverseTransform; rw [if_neg hX, reduce_map _ _ hb]
  · unfold inverseTransform
    split_ifs with h
    · rw [h, List.map_ofFn]
      congr 1
      funext i
      exact (oos_train _ _ fun i' e => hinj e).symm
    · exact reduce_map _ _ hb

/-- C91. When the coupling is an assignment, `transform` sends every training sample to its partner and `inverse_transform` sends it back. -/
theorem C91_assignment (σ : Equiv.Perm (Fin (n + 1))) (w : ℝ) (hw : w ≠ 0) (P : Fin (n + 1) → Fin (n + 1) → ℝ) (hP : ∀ i j, P i j = if j = σ i then w else 0)
    (xs xt : Fin (n + 1) → Fin d → ℝ) (batch : ℕ) :
    transform P xs xt batch (List.ofFn xs) = List.ofFn (fun i => xt (σ i)) ∧
    inverseTransform P xs xt batch (List.ofFn xt) = List.ofFn (fun j => xs (σ.symm j)) := by
  unfold transform inverseTransform
  rw [if_pos rfl, if_pos rfl]
  constructor
  · congr 1
    funext i k
    unfold baryMap
    simp only [hP, sum_ite_eq', mem_univ, if_true]
    rw [sum_eq_single (σ i)]
    · rw [if_pos rfl, div_self hw, one_mul]
    · intro j _ hj; rw [if_neg hj]; simp
    · intro h; exact absurd (mem_univ _) h
  · congr 1
    funext j k
    have hs : ∀ i, (if j = σ i then w else 0) = if i = σ.symm j then w else 0 := fun i => by
      refine if_congr ?_ rfl rfl
      rw [Equiv.eq_symm_apply]; exact eq_comm
    unfold baryMapInv
    simp only [hP, hs, sum_ite_eq', mem_univ, if_true]
    rw [sum_eq_single (σ.symm j)]
    · rw [if_pos rfl, div_self hw, one_mul]
    · intro i _ hi; rw [if_neg hi]; simp
    · intro h; exact absurd (mem_univ _) h

/-- C91 fails for samples without mass: the target samples all lie at `1`, the sample is sent to `0`. -/
theorem C91_zero_mass_refuted : ∃ (P : Fin 2 → Fin 1 → ℝ) (xs : Fin 2 → Fin 1 → ℝ) (xt : Fin 1 → Fin 1 → ℝ), IsCoupling ![1, 0] ![1] P ∧
    Function.Injective xs ∧ ∀ batch, ∃ T : Fin 2 → Fin 1 → ℝ, transform P xs xt batch (List.ofFn xs) = List.ofFn T ∧ ¬ InHull xt (T 1) := by
  refine ⟨![![1], ![0]], ![![0], ![1]], ![![1]], ⟨?_, ?_, ?_⟩, ?_, fun batch => ⟨_, if_pos rfl, ?_⟩⟩
  · intro i j; fin_cases i <;> fin_cases j <;> simp
  · intro i; fin_cases i <;> simp
  · intro j; fin_cases j; simp [Fin.sum_univ_two]
  · intro i i' h
    have := congrFun h 0
    fin_cases i <;> fin_cases i' <;> simp_all
  · rintro ⟨w, h0, h1, h2⟩
    have := h2 0
    simp [baryMap] at this h1
    rw [h1] at this
    exact zero_ne_one this

/-- C91 fails for repeated training samples: the two equal samples get different images on the training set, and in any other call the second one gets
the image of the first. -/
theorem C91_duplicates_refuted : ∃ (P : Fin 2 → Fin 2 → ℝ) (xs xt : Fin 2 → Fin 1 → ℝ), IsCoupling ![1 / 2, 1 / 2] ![1 / 2, 1 / 2] P ∧ xs 0 = xs 1 ∧
    ∀ batch, 0 < batch → ∃ T : Fin 2 → Fin 1 → ℝ, transform P xs xt batch (List.ofFn xs) = List.ofFn T ∧ T 0 ≠ T 1 ∧
      transform P xs xt batch [xs 1] = [T 0] := by
  refine ⟨fun i j => if i = j then 1 / 2 else 0, fun _ => ![0], fun i => ![(i : ℝ)], ⟨?_, ?_, ?_⟩, rfl, fun batch hb => ⟨_, if_pos rfl, ?_, ?_⟩⟩
  · intro i j; split_ifs <;> norm_num
  · intro i; fin_cases i <;> simp
  · intro j; fin_cases j <;> simp
  · intro h
    have := congrFun h 0
    simp [baryMap] at this
  · unfold transform
    rw [if_neg, reduce_map _ _ hb, List.map_singleton]
    · congr 1
      have : (Sliced.argmin fun i : Fin 2 => sqEuclid (fun _ : Fin 1 => (0 : ℝ)) ((fun _ => ![0] : Fin 2 → Fin 1 → ℝ) i)) = 0 := by
        by_contra hc
        have := argmin_first (fun i : Fin 2 => sqEuclid (fun _ : Fin 1 => (0 : ℝ)) ((fun _ => ![0] : Fin 2 → Fin 1 → ℝ) i)) 0 (Fin.pos_iff_ne_zero.2 hc)
        exact lt_irrefl _ this
      have e0 : (![0] : Fin 1 → ℝ) = fun _ => 0 := by funext k; fin_cases k; rfl
      unfold oosPoint
      funext k
      dsimp only
      rw [e0] at this ⊢
      rw [this]; ring
    · intro h
      have := congrArg List.length h
      simp at this

/-! ### The continuous out of sample map of `SinkhornTransport` -/

theorem contPoint_mean (norm : Norm) (value reg : ℝ) (g : Fin (m + 1) → ℝ) (xt : Fin (m + 1) → Fin d → ℝ) (c : Fin (m + 1) → ℝ) :
    IsWeightedMean (fun j => Real.exp (-normEntry norm value (c j) / reg + g j)) xt (contPoint norm value reg g xt c) ∧
    0 < ∑ j, Real.exp (-normEntry norm value (c j) / reg + g j) := by
  have hpos : 0 < ∑ j, Real.exp (-normEntry norm value (c j) / reg + g j) := sum_pos (fun j _ => Real.exp_pos _) univ_nonempty
  refine ⟨fun k => ?_, hpos⟩
  unfold contPoint
  field_simp

/-- C91, `out_of_sample_map='continuous'`: on training samples the map is the barycentric map of the coupling that `fit` computed, at every number
of Sinkhorn iterations and every normalisation; every other sample is mapped into the convex hull of the target samples, separately and
independently of the batch size. -/
theorem C91_continuous (dst : (Fin d → ℝ) → (Fin d → ℝ) → ℝ) (norm : Norm) (value reg : ℝ) (numItermax : ℕ) (stopThr : ℝ) (xs : Fin (n + 1) → Fin d → ℝ)
    (xt : Fin (m + 1) → Fin d → ℝ) (a : Fin (n + 1) → ℝ) (b : Fin (m + 1) → ℝ) :
    let fit := sinkhornFit dst norm value reg numItermax stopThr xs xt a b
    ∃ F : (Fin d → ℝ) → Fin d → ℝ, (∀ X batch, 0 < batch → transformCont dst norm value reg fit.2.2 xt batch X = X.map F) ∧
      (∀ i, 0 < ∑ j, fit.1 i j) ∧ (∀ i, IsWeightedMean (fit.1 i) xt (F (xs i))) ∧ ∀ x, InHull xt (F x) := by
  intro fit
  refine ⟨fun x => contPoint norm value reg fit.2.2 xt fun j => dst x (xt j), fun X batch hb => reduce_map _ _ hb,
    fun i => sum_pos (fun j _ => Real.exp_pos _) univ_nonempty, fun i => ?_, fun x => ?_⟩
  · have h := (contPoint_mean norm value reg fit.2.2 xt fun j => dst (xs i) (xt j)).1
    have e : ∀ j, fit.1 i j = Real.exp (fit.2.1 i) * Real.exp (-normEntry norm value (dst (xs i) (xt j)) / reg + fit.2.2 j) := by
      intro j
      rw [← Real.exp_add]
      show Real.exp (_ + _ + _) = _
      congr 1
      show -normEntry norm value (dst (xs i) (xt j)) / reg + fit.2.1 i + fit.2.2 j = _
      ring
    intro k
    have hk := h k
    dsimp only at hk ⊢
    simp only [e, ← mul_sum, mul_assoc]
    rw [hk]
  · obtain ⟨h, h0⟩ := contPoint_mean norm value reg fit.2.2 xt fun j => dst x (xt j)
    exact mean_hull (fun j => (Real.exp_pos _).le) h0.ne' h

/-- C91, the inverse of the continuous map. -/
theorem C91_continuous_inverse (dst : (Fin d → ℝ) → (Fin d → ℝ) → ℝ) (hdst : ∀ x y, dst x y = dst y x) (norm : Norm) (value reg : ℝ) (numItermax : ℕ) (stopThr : ℝ)
    (xs : Fin (n + 1) → Fin d → ℝ) (xt : Fin (m + 1) → Fin d → ℝ) (a : Fin (n + 1) → ℝ) (b : Fin (m + 1) → ℝ) :
    let fit := sinkhornFit dst norm value reg numItermax stopThr xs xt a b
    ∃ F : (Fin d → ℝ) → Fin d → ℝ, (∀ X batch, 0 < batch → inverseTransformCont dst norm value reg fit.2.1 xs batch X = X.map F) ∧
      (∀ j, 0 < ∑ i, fit.1 i j) ∧ (∀ j, IsWeightedMean (fun i => fit.1 i j) xs (F (xt j))) ∧ ∀ x, InHull xs (F x) := by
  intro fit
  refine ⟨fun x => contPoint norm value reg fit.2.1 xs fun i => dst x (xs i), fun X batch hb => reduce_map _ _ hb,
    fun j => sum_pos (fun i _ => Real.exp_pos _) univ_nonempty, fun j => ?_, fun x => ?_⟩
  · have h := (contPoint_mean norm value reg fit.2.1 xs fun i => dst (xt j) (xs i)).1
    have e : ∀ i, fit.1 i j = Real.exp (fit.2.2 j) * Real.exp (-normEntry norm value (dst (xt j) (xs i)) / reg + fit.2.1 i) := by
      intro i
      rw [← Real.exp_add]
      show Real.exp (_ + _ + _) = _
      congr 1
      show -normEntry norm value (dst (xs i) (xt j)) / reg + fit.2.1 i + fit.2.2 j = _
      rw [hdst (xs i)]
      ring
    intro k
    have hk := h k
    dsimp only at hk ⊢
    simp only [e, ← mul_sum, mul_assoc]
    rw [hk]
  · obtain ⟨h, h0⟩ := contPoint_mean norm value reg fit.2.1 xs fun i => dst x (xs i)
    exact mean_hull (fun j => (Real.exp_pos _).le) h0.ne' h

/-- C91. The continuous map is continuous when the metric is. -/
theorem C91_continuous_map (dst : (Fin d → ℝ) → (Fin d → ℝ) → ℝ) (hd : ∀ y, Continuous fun x => dst x y) (h0 : ∀ x y, 0 ≤ dst x y) (norm : Norm) (value reg : ℝ)
    (g : Fin (m + 1) → ℝ) (xt : Fin (m + 1) → Fin d → ℝ) :
    ∃ F : (Fin d → ℝ) → Fin d → ℝ, Continuous F ∧ ∀ X batch, 0 < batch → transformCont dst norm value reg g xt batch X = X.map F := by
  refine ⟨fun x => contPoint norm value reg g xt fun j => dst x (xt j), ?_, fun X batch hb => reduce_map _ _ hb⟩
  have hn : ∀ j, Continuous fun x => normEntry norm value (dst x (xt j)) := by
    intro j
    have h1 : Continuous fun x => Real.log (1 + dst x (xt j)) := (continuous_const.add (hd _)).log fun x => by have := h0 x (xt j); show 1 + dst x (xt j) ≠ 0; exact ne_of_gt (by linarith)
    cases norm
    · exact hd _
    · exact (hd _).div_const _
    · exact (hd _).div_const _
    · exact h1
    · refine (continuous_const.add h1).log fun x => ?_
      have := Real.log_nonneg (show 1 ≤ 1 + dst x (xt j) by linarith [h0 x (xt j)])
      show 1 + Real.log (1 + dst x (xt j)) ≠ 0
      exact ne_of_gt (by linarith)
  refine continuous_pi fun k => ?_
  unfold contPoint
  refine Continuous.div ?_ ?_ fun x => (contPoint_mean norm value reg g xt fun j => dst x (xt j)).2.ne'
  · exact continuous_finsetSum _ fun j _ => ((((hn j).neg.div_const _).add continuous_const).rexp).mul continuous_const
  · exact continuous_finsetSum _ fun j _ => (((hn j).neg.div_const _).add continuous_const).rexp

/-! ### Label propagation -/

theorem masks_entry (ys : Fin (n + 1) → ℤ) : ∃ u : List ℤ, u.Pairwise (· < ·) ∧ (∀ z, z ∈ u ↔ ∃ i, ys i = z) ∧
    ∀ (i : Fin (n + 1)) (c : Fin u.length), ((Utils.labelsToMasks (Utils.labelNormalization (List.ofFn ys) 0)).getD i []).getD c 0 = if ys i = u[c] then (1 : ℤ) else 0 := by
  obtain ⟨t, ht, -⟩ := C24_label_normalization (List.ofFn ys) 0 (by simp)
  obtain ⟨u, hu, hmem, he⟩ := C24_labels_to_masks (Utils.labelNormalization (List.ofFn ys) 0)
  refine ⟨u.map (· - t), ?_, fun z => ?_, fun i c => ?_⟩
  · rw [List.pairwise_map]
    exact hu.imp fun h => by omega
  · simp only [List.mem_map, hmem, ht, List.mem_ofFn]
    constructor
    · rintro ⟨a, ⟨b, ⟨i, rfl⟩, rfl⟩, rfl⟩
      exact ⟨i, by ring⟩
    · rintro ⟨i, rfl⟩
      exact ⟨ys i + t, ⟨ys i, ⟨i, rfl⟩, rfl⟩, by ring⟩
  · have hc : (c : ℕ) < u.length := lt_of_lt_of_eq c.2 (List.length_map _)
    have h1 : (Utils.labelsToMasks (Utils.labelNormalization (List.ofFn ys) 0)).getD i [] = u.map fun b => if ys i + t = b then 1 else 0 := by
      rw [he, ht, List.map_map, List.getD_eq_getElem?_getD, List.getElem?_map, List.getElem?_eq_getElem (by rw [List.length_ofFn]; exact i.2), Option.map_some, Option.getD_some]
      simp only [Function.comp, List.getElem_ofFn]
    rw [h1, List.getD_eq_getElem?_getD, List.getElem?_map, List.getElem?_eq_getElem hc, Option.map_some, Option.getD_some]
    simp only [Fin.getElem_fin, List.getElem_map]
    refine if_congr ?_ rfl rfl
    constructor <;> intro h <;> omega

theorem sum_indicator (u : List ℤ) (hu : u.Pairwise (· < ·)) (z : ℤ) (hz : z ∈ u) (x : ℝ) : ∑ c : Fin u.length, (if z = u[c] then x else 0) = x := by
  obtain ⟨k, hk, rfl⟩ := List.getElem_of_mem hz
  rw [sum_eq_single (⟨k, hk⟩ : Fin u.length)]
  · simp
  · intro c _ hc
    rw [if_neg]
    intro h
    have hnd : u.Nodup := hu.imp fun h => h.ne
    exact hc (Fin.ext ((hnd.getElem_inj_iff).1 h).symm)
  · intro h; exact absurd (mem_univ _) h

/-- C91. `transform_labels` returns class probabilities: there is one column per class, in increasing order of the labels; the entry of target sample
`j` and class `c` is the share of the mass arriving at `j` that comes from class `c`. The entries of a target sample that receives mass are
nonnegative and sum to `1`; weighted with the target masses they add up to the source mass of the class. -/
theorem C91_labels (P : Fin (n + 1) → Fin m → ℝ) (a : Fin (n + 1) → ℝ) (b : Fin m → ℝ) (hP : IsCoupling a b P) (ys : Fin (n + 1) → ℤ) :
    ∃ u : List ℤ, u.Pairwise (· < ·) ∧ (∀ z, z ∈ u ↔ ∃ i, ys i = z) ∧
      (∀ j (c : Fin u.length), b j * transformLabels P ys j c = classMass ys P u[c] j ∧ 0 ≤ transformLabels P ys j c) ∧
      (∀ j, 0 < b j → ∑ c : Fin u.length, transformLabels P ys j c = 1) ∧
      (∀ c : Fin u.length, ∑ j, b j * transformLabels P ys j c = ∑ i, if ys i = u[c] then a i else 0) := by
  obtain ⟨u, hu, hmem, he⟩ := masks_entry ys
  have hL : ∀ j (c : Fin u.length), transformLabels P ys j c = ∑ i, if ys i = u[c] then P i j / b j else 0 := by
    intro j c
    unfold transformLabels
    refine sum_congr rfl fun i _ => ?_
    rw [he, hP.col]
    split_ifs <;> simp
  have hb : ∀ j, 0 ≤ b j := fun j => by rw [← hP.col]; exact sum_nonneg fun i _ => hP.nonneg i j
  have h1 : ∀ j (c : Fin u.length), b j * transformLabels P ys j c = classMass ys P u[c] j := by
    intro j c
    rw [hL, mul_sum]
    unfold classMass
    refine sum_congr rfl fun i _ => ?_
    split_ifs
    · rcases eq_or_ne (b j) 0 with h | h
      · have : P i j = 0 := (sum_eq_zero_iff_of_nonneg fun i _ => hP.nonneg i j).1 (by rw [hP.col, h]) i (mem_univ i)
        rw [h, this]; simp
      · field_simp
    · ring
  refine ⟨u, hu, hmem, fun j c => ⟨h1 j c, ?_⟩, fun j hj => ?_, fun c => ?_⟩
  · rw [hL]
    exact sum_nonneg fun i _ => by split_ifs; exacts [div_nonneg (hP.nonneg i j) (hb j), le_rfl]
  · simp only [hL]
    rw [sum_comm]
    have : ∀ i, ∑ c : Fin u.length, (if ys i = u[c] then P i j / b j else 0) = P i j / b j := fun i => sum_indicator u hu _ ((hmem _).2 ⟨i, rfl⟩) _
    simp only [this]
    rw [← sum_div, hP.col, div_self hj.ne']
  · simp only [h1, classMass]
    rw [sum_comm]
    refine sum_congr rfl fun i _ => ?_
    split_ifs
    · exact hP.row i
    · simp

/-- C91, the same for `inverse_transform_labels`. -/
theorem C91_inverse_labels (P : Fin n → Fin (m + 1) → ℝ) (a : Fin n → ℝ) (b : Fin (m + 1) → ℝ) (hP : IsCoupling a b P) (yt : Fin (m + 1) → ℤ) :
    ∃ u : List ℤ, u.Pairwise (· < ·) ∧ (∀ z, z ∈ u ↔ ∃ j, yt j = z) ∧
      (∀ i (c : Fin u.length), a i * inverseTransformLabels P yt i c = classMass yt (fun j i => P i j) u[c] i ∧ 0 ≤ inverseTransformLabels P yt i c) ∧
      (∀ i, 0 < a i → ∑ c : Fin u.length, inverseTransformLabels P yt i c = 1) ∧
      (∀ c : Fin u.length, ∑ i, a i * inverseTransformLabels P yt i c = ∑ j, if yt j = u[c] then b j else 0) :=
  C91_labels (fun j i => P i j) b a ⟨fun j i => hP.nonneg i j, hP.col, hP.row⟩ yt

/-! ## C92: labels in `fit` -/

/-- C92, as the code is: the labels passed to `fit` never change the cost, apart from negative costs becoming `0`. -/
theorem C92_labels_ignored [NeZero n] [NeZero m] (limit : Option ℝ) (big : ℝ) (C : Fin n → Fin m → ℝ) (ys : Fin n → ℤ) (yt : Fin m → ℤ) :
    (fitCost limit big C (some ys) (some yt)).1 = fun i j => max (C i j) 0 := by
  have h : ∀ (l : Option ℝ) (x y : ℤ), correction l big x y = 0 := by
    intro l x y
    have h0 : (if x - y ≠ 0 then (1 : ℝ) else 0) * ((if x = -1 then 1 else 0) * (if y = -1 then 1 else 0)) = 0 := by
      by_cases hx : x = -1 <;> by_cases hy : y = -1 <;> simp [hx, hy]
    unfold correction
    cases l with
    | none => dsimp only; rw [if_pos h0]
    | some l => dsimp only; rw [h0, zero_mul]
  funext i j
  show max (C i j) (correction _ big (ys i) (yt j)) = _
  rw [h]

/-- C92 fails: the documented cost `limit_max * max(cost)` between labelled samples of different classes is not set. -/
theorem C92_limit_refuted (limit big : ℝ) (hl : 1 < limit) : ∃ (C : Fin 2 → Fin 2 → ℝ) (ys yt : Fin 2 → ℤ) (i j : Fin 2), (∀ i j, 0 ≤ C i j) ∧ 0 < maxEntry C ∧
    ys i ≠ -1 ∧ yt j ≠ -1 ∧ ys i ≠ yt j ∧ (fitCost (some limit) big C (some ys) (some yt)).1 i j < limit * maxEntry C := by
  have hm : maxEntry (fun _ _ => (1 : ℝ) : Fin 2 → Fin 2 → ℝ) = 1 := by unfold maxEntry; simp
  refine ⟨fun _ _ => 1, fun _ => 0, fun _ => 1, 0, 0, fun _ _ => zero_le_one, by rw [hm]; exact one_pos, by norm_num, by norm_num, by norm_num, ?_⟩
  rw [C92_labels_ignored, hm]
  simpa using hl

/-- C92 fails: unlabelled samples are not left alone either, when costs are negative. -/
theorem C92_negative_refuted (limit : Option ℝ) (big : ℝ) : ∃ (C : Fin 1 → Fin 1 → ℝ), (fitCost limit big C (some fun _ => 0) (some fun _ => -1)).1 ≠ C := by
  refine ⟨fun _ _ => -1, fun h => ?_⟩
  rw [C92_labels_ignored] at h
  have := congrFun (congrFun h 0) 0
  norm_num at this

/-- C92: `fit` overwrites the parameter `limit_max`: after two fits it has been multiplied twice. -/
theorem C92_drift_refuted [NeZero n] [NeZero m] (l big : ℝ) (C : Fin n → Fin m → ℝ) (ys : Fin n → ℤ) (yt : Fin m → ℤ) :
    (fitCost (fitCost (some l) big C (some ys) (some yt)).2 big C (some ys) (some yt)).2 = some (l * maxEntry C * maxEntry C) := rfl

/-- C92: without one of the two label vectors the cost and the parameter are kept. -/
theorem C92_no_labels [NeZero n] [NeZero m] (limit : Option ℝ) (big : ℝ) (C : Fin n → Fin m → ℝ) (ys : Option (Fin n → ℤ)) (yt : Option (Fin m → ℤ))
    (h : ys = none ∨ yt = none) : fitCost limit big C ys yt = (C, limit) := by
  rcases h with rfl | rfl
  · rfl
  · cases ys <;> rfl

/-! ## C93: `sinkhorn_lpl1_mm` -/

section Lpl1

variable {I J : Type*} [Fintype I] [Fintype J] [Nonempty I] [Nonempty J] {L : ℕ}

theorem lplWeights_eq (idx : I → Fin L) (eps : ℝ) (T : I → J → ℝ) (i : I) (j : J) :
    lplWeights idx eps T i j = (1 / 2 : ℝ) * (classMass idx T (idx i) j + eps) ^ ((1 / 2 : ℝ) - 1) := by
  unfold lplWeights classMass
  dsimp only
  congr 2
  rw [sum_eq_single (idx i)]
  · rw [if_pos rfl, mul_one]
    congr 1
    refine sum_congr rfl fun i' _ => ?_
    by_cases h : idx i' = idx i
    · rw [if_pos h.symm, if_pos h, mul_one]
    · rw [if_neg (fun e => h e.symm), if_neg h, mul_zero]
  · intro c _ hc; rw [if_neg hc, mul_zero]
  · intro h; exact absurd (mem_univ _) h

/-- The objective that `sinkhorn_lpl1_mm` decreases: `⟨M, γ⟩ + reg ∑ γ log γ + eta ∑_j ∑_c √(ε + mass of class c sent to j)`. -/
noncomputable def lplObj (idx : I → Fin L) (M : I → J → ℝ) (reg eta eps : ℝ) (T : I → J → ℝ) : ℝ := entropicObjective M reg T + eta * groupSqrt eps idx T

theorem sqrt_tangent {x y : ℝ} (hx : 0 < x) (hy : 0 ≤ y) : Real.sqrt y ≤ Real.sqrt x + (1 / 2 : ℝ) * x ^ ((1 / 2 : ℝ) - 1) * (y - x) := by
  have hs : 0 < Real.sqrt x := Real.sqrt_pos.2 hx
  have e : x ^ ((1 / 2 : ℝ) - 1) = 1 / Real.sqrt x := by
    rw [Real.sqrt_eq_rpow, show (1 / 2 : ℝ) - 1 = -(1 / 2) by norm_num, Real.rpow_neg hx.le]
    norm_num
  rw [e]
  have h1 := Real.sq_sqrt hx.le
  have h2 := Real.sq_sqrt hy
  obtain ⟨r, hr⟩ : ∃ r, r = Real.sqrt x := ⟨_, rfl⟩
  obtain ⟨t, ht⟩ : ∃ t, t = Real.sqrt y := ⟨_, rfl⟩
  rw [← hr] at h1 hs ⊢
  rw [← ht] at h2 ⊢
  rw [← h1, ← h2]
  have : r + 1 / 2 * (1 / r) * (t ^ 2 - r ^ 2) - t = (t - r) ^ 2 / (2 * r) := by field_simp; ring
  have h3 : 0 ≤ (t - r) ^ 2 / (2 * r) := by positivity
  linarith

/-- The penalty lies below its linearisation, whose slope is the weight matrix of the code. -/
theorem groupSqrt_tangent (idx : I → Fin L) {eps : ℝ} (heps : 0 < eps) {S T : I → J → ℝ} (hS : ∀ i j, 0 ≤ S i j) (hT : ∀ i j, 0 ≤ T i j) :
    groupSqrt eps idx S ≤ groupSqrt eps idx T + (cost (lplWeights idx eps T) S - cost (lplWeights idx eps T) T) := by
  have hm : ∀ {R : I → J → ℝ}, (∀ i j, 0 ≤ R i j) → ∀ c j, 0 ≤ classMass idx R c j := fun h c j =>
    sum_nonneg fun i _ => by split_ifs; exacts [h i j, le_rfl]
  have e : ∀ R : I → J → ℝ, cost (lplWeights idx eps T) R = ∑ j, ∑ c, (1 / 2 : ℝ) * (classMass idx T c j + eps) ^ ((1 / 2 : ℝ) - 1) * classMass idx R c j := by
    intro R
    unfold cost
    rw [sum_comm]
    refine sum_congr rfl fun j _ => ?_
    simp only [lplWeights_eq]
    rw [show ∀ f : Fin L → ℝ, (∑ c, f c * classMass idx R c j) = ∑ c, ∑ i, f c * (if idx i = c then R i j else 0) from fun f => sum_congr rfl fun c _ => by unfold classMass; rw [mul_sum], sum_comm]
    refine sum_congr rfl fun i _ => ?_
    rw [sum_eq_single (idx i)]
    · rw [if_pos rfl]; ring
    · intro c _ hc; rw [if_neg (fun h => hc h.symm), mul_zero]
    · intro h; exact absurd (mem_univ _) h
  rw [e S, e T]
  unfold groupSqrt
  rw [← sum_sub_distrib, ← sum_add_distrib]
  refine sum_le_sum fun j _ => ?_
  rw [← sum_sub_distrib, ← sum_add_distrib]
  refine sum_le_sum fun c _ => ?_
  have := sqrt_tangent (x := classMass idx T c j + eps) (y := classMass idx S c j + eps) (by linarith [hm hT c j]) (by linarith [hm hS c j])
  refine this.trans (le_of_eq ?_)
  ring

theorem lpl1_succ (idx : I → Fin L) (M : I → J → ℝ) (eta eps : ℝ) (sk : (I → J → ℝ) → I → J → ℝ) (k : ℕ) {T : I → J → ℝ}
    (h : lpl1 idx M eta eps sk k = some T) : lpl1 idx M eta eps sk (k + 1) = some (sk fun i j => M i j + eta * lplWeights idx eps T i j) := by
  rw [lpl1, h]

theorem entropic_add (M W : I → J → ℝ) (reg eta : ℝ) (T : I → J → ℝ) : entropicObjective (fun i j => M i j + eta * W i j) reg T = entropicObjective M reg T + eta * cost W T := by
  unfold entropicObjective cost
  simp only [mul_add, sum_add_distrib, mul_sum]
  have : ∀ i j, T i j * (eta * W i j) = eta * (T i j * W i j) := fun i j => by ring
  simp only [this]; ring

/-- C93. `numItermax = 0` is an error, otherwise the plan is a coupling of `a` and `b`; one iteration is plain Sinkhorn. -/
theorem C93_feasible (idx : I → Fin L) (M : I → J → ℝ) (eta eps reg : ℝ) (a : I → ℝ) (b : J → ℝ) (sk : (I → J → ℝ) → I → J → ℝ) (hsk : SolvesEntropic a b reg sk) (k : ℕ) :
    (lpl1 idx M eta eps sk k = none ↔ k = 0) ∧ (∀ T, lpl1 idx M eta eps sk k = some T → IsCoupling a b T) ∧
    ∃ T, lpl1 idx M eta eps sk 1 = some T ∧ IsEntropicOptimal a b M reg T := by
  refine ⟨?_, fun T hT => ?_, ?_⟩
  · cases k <;> simp [lpl1]
  · cases k with
    | zero => simp [lpl1] at hT
    | succ k => rw [lpl1, Option.some.injEq] at hT; rw [← hT]; exact (hsk _).1
  · refine ⟨_, rfl, ?_⟩
    have := hsk fun i j => M i j + eta * 0
    simpa [lpl1] using this

/-- C93. With exact inner solves every outer iteration decreases the objective, by at least `reg / (2 · mass)` times the squared distance of the
two plans; an iteration that does not decrease it has found a fixed point. -/
theorem C93_descent (idx : I → Fin L) (M : I → J → ℝ) {eta eps reg : ℝ} (heta : 0 ≤ eta) (heps : 0 < eps) (hreg : 0 < reg) (a : I → ℝ) (b : J → ℝ) (ha : ∀ i, 0 < a i)
    (hb : ∀ j, 0 < b j) (hS : ∑ i, a i = ∑ j, b j) (sk : (I → J → ℝ) → I → J → ℝ) (hsk : SolvesEntropic a b reg sk) (k : ℕ) (T T' : I → J → ℝ)
    (hT : lpl1 idx M eta eps sk k = some T) (hT' : lpl1 idx M eta eps sk (k + 1) = some T') :
    lplObj idx M reg eta eps T' + reg / (2 * ∑ i, a i) * l1dist T T' ^ 2 ≤ lplObj idx M reg eta eps T ∧
    (lplObj idx M reg eta eps T ≤ lplObj idx M reg eta eps T' → T' = T) := by
  have hc : IsCoupling a b T := (C93_feasible idx M eta eps reg a b sk hsk k).2.1 T hT
  have e := lpl1_succ idx M eta eps sk k hT
  rw [hT', Option.some.injEq] at e
  have ho := hsk fun i j => M i j + eta * lplWeights idx eps T i j
  rw [← e] at ho
  obtain ⟨hpos, x, y, hform⟩ := GwEntropic.form_of_optimal ha hb hS hreg ho
  have hg := entropic_gap hform hpos hreg.ne' ho.1 hc
  have hkl := GwEntropic.pinsker_plan (S := ∑ i, a i) hc.nonneg hpos (GwEntropic.total hc) (GwEntropic.total ho.1)
  have hSpos : 0 < ∑ i, a i := sum_pos (fun i _ => ha i) univ_nonempty
  have ht := mul_le_mul_of_nonneg_left (groupSqrt_tangent idx heps (S := T') (T := T) ho.1.nonneg hc.nonneg) heta
  rw [entropic_add, entropic_add] at hg
  have hq : reg / (2 * ∑ i, a i) * l1dist T T' ^ 2 ≤ reg * klPlan T T' := by
    rw [div_mul_eq_mul_div, div_le_iff₀ (by positivity)]
    nlinarith [mul_le_mul_of_nonneg_left hkl hreg.le]
  refine ⟨?_, fun hle => ?_⟩
  · unfold lplObj; nlinarith
  · have h2 := (ho.2 T hc).2
    rw [entropic_add, entropic_add] at h2
    refine (h2 ?_).symm
    unfold lplObj at hle
    nlinarith

end Lpl1

/-! ### The hypotheses can be met -/

theorem exDaCoupling : IsCoupling ![1 / 2, 1 / 2] ![1 / 4, 3 / 4] (![![1 / 4, 1 / 4], ![0, 1 / 2]] : Fin 2 → Fin 2 → ℝ) := by
  refine ⟨?_, ?_, ?_⟩
  · intro i j; fin_cases i <;> fin_cases j <;> norm_num
  · intro i; fin_cases i <;> simp [Fin.sum_univ_two] <;> norm_num
  · intro j; fin_cases j <;> simp [Fin.sum_univ_two] <;> norm_num

/-- An instance of `C91_transform` and `C91_mean` whose rows have mass: the first sample goes to the middle of the targets `0` and `1`. -/
example (batch : ℕ) : transform (![![1 / 4, 1 / 4], ![0, 1 / 2]] : Fin 2 → Fin 2 → ℝ) ![![5], ![7]] ![![0], ![1]] batch (List.ofFn ![![5], ![7]]) = [![1 / 2], ![1]] := by
  unfold transform
  rw [if_pos rfl]
  simp only [List.ofFn_succ, List.ofFn_zero]
  congr 1
  · funext k; fin_cases k; simp [baryMap, Fin.sum_univ_two]; norm_num
  · congr 1
    funext k; fin_cases k; simp [baryMap, Fin.sum_univ_two]

/-- An instance of `C91_labels` with two classes. -/
example : ∃ u : List ℤ, (∀ z, z ∈ u ↔ ∃ i, (![3, -2] : Fin 2 → ℤ) i = z) ∧
    ∀ j, ∑ c : Fin u.length, transformLabels (![![1 / 4, 1 / 4], ![0, 1 / 2]] : Fin 2 → Fin 2 → ℝ) ![3, -2] j c = 1 := by
  obtain ⟨u, -, h2, -, h4, -⟩ := C91_labels _ _ _ exDaCoupling ![3, -2]
  exact ⟨u, h2, fun j => h4 j (by fin_cases j <;> norm_num)⟩

/-- An instance of `C93_descent`: two classes, two iterations. -/
example : ∃ (sk : (Fin 2 → Fin 2 → ℝ) → Fin 2 → Fin 2 → ℝ) (T T' : Fin 2 → Fin 2 → ℝ), SolvesEntropic (fun _ => 1 / 2) (fun _ => 1 / 2) 1 sk ∧
    lpl1 (L := 2) id (fun i j => if i = j then 0 else 1) (1 / 10) (1 / 1000) sk 1 = some T ∧
    lpl1 (L := 2) id (fun i j => if i = j then 0 else 1) (1 / 10) (1 / 1000) sk 2 = some T' := by
  obtain ⟨sk, hsk⟩ := exists_solver (p := fun _ : Fin 2 => (1 / 2 : ℝ)) (q := fun _ : Fin 2 => (1 / 2 : ℝ)) (ε := 1) (fun _ => by norm_num) (fun _ => by norm_num) (by simp) one_pos
  exact ⟨sk, _, _, hsk, rfl, rfl⟩

end POT.Props
