import Verif.Model.BatchGromov
import Verif.Spec.BatchGromov
import Verif.Lemmas.GwEntropic
import Verif.Props.BatchSolve

/-! # The quadratic cost of the batched Gromov-Wasserstein solver: tensor products, expansion, one step -/

set_option linter.unusedSectionVars false

namespace POT.BatchGromov

open Finset Spec Sinkhorn BatchSolve

variable {B I J D V : Type*} [Fintype B] [Fintype I] [Fintype J] [Fintype D]

/-- the loss a decomposition stands for -/
def VDecomp.loss (dec : VDecomp D) (x y : D → ℝ) : ℝ := dec.f1 x + dec.f2 y - ∑ d, dec.h1 x d * dec.h2 y d

/-- the costs are symmetric when the flag says so -/
def SymOk (symmetric : Bool) (C1 : B → I → I → D → ℝ) (C2 : B → J → J → D → ℝ) : Prop := symmetric = true → (∀ t i k, C1 t i k = C1 t k i) ∧ ∀ t j l, C2 t j l = C2 t l j

theorem tensor_helper (F1 : I → ℝ) (F2 : J → ℝ) (H1 : I → D → ℝ) (H2 : J → D → ℝ) (T : I → J → ℝ) :
    ∑ k, F1 k * ∑ l, T k l + ∑ l, F2 l * ∑ k, T k l - ∑ d, ∑ l, (∑ k, H1 k d * T k l) * H2 l d = ∑ k, ∑ l, (F1 k + F2 l - ∑ d, H1 k d * H2 l d) * T k l := by
  have e1 : ∑ l, F2 l * ∑ k, T k l = ∑ k, ∑ l, F2 l * T k l := by
    rw [sum_comm]
    exact sum_congr rfl fun l _ => mul_sum _ _ _
  have e2 : ∑ d, ∑ l, (∑ k, H1 k d * T k l) * H2 l d = ∑ k, ∑ l, (∑ d, H1 k d * H2 l d) * T k l := by
    calc _ = ∑ l, ∑ d, ∑ k, H1 k d * T k l * H2 l d := by
          rw [sum_comm]
          exact sum_congr rfl fun l _ => sum_congr rfl fun d _ => sum_mul _ _ _
      _ = ∑ l, ∑ k, ∑ d, H1 k d * T k l * H2 l d := sum_congr rfl fun l _ => sum_comm
      _ = ∑ k, ∑ l, ∑ d, H1 k d * T k l * H2 l d := sum_comm
      _ = _ := sum_congr rfl fun k _ => sum_congr rfl fun l _ => by
          rw [sum_mul]
          exact sum_congr rfl fun d _ => by ring
  rw [e1, e2]
  simp only [mul_sum, ← sum_add_distrib, ← sum_sub_distrib]
  exact sum_congr rfl fun k _ => sum_congr rfl fun l _ => by ring

/-- the coefficients the solver uses: those of the loss, or their average with the transposed ones -/
noncomputable def coef (symmetric : Bool) (dec : VDecomp D) (C1 : I → I → D → ℝ) (C2 : J → J → D → ℝ) (i : I) (j : J) (k : I) (l : J) : ℝ :=
  if symmetric then dec.loss (C1 i k) (C2 j l) else (dec.loss (C1 i k) (C2 j l) + dec.loss (C1 k i) (C2 l j)) / 2

theorem tensorProduct_eq (dec : VDecomp D) (a : B → I → ℝ) (b : B → J → ℝ) (C1 : B → I → I → D → ℝ) (C2 : B → J → J → D → ℝ) (symmetric : Bool) (T : B → I → J → ℝ) (t : B) (i : I) (j : J) :
    tensorProduct (computeTensor dec a b C1 C2 symmetric) T true symmetric t i j = ∑ k, ∑ l, coef symmetric dec (C1 t) (C2 t) i j k l * T t k l := by
  cases symmetric with
  | true => exact tensor_helper (fun k => dec.f1 (C1 t i k)) (fun l => dec.f2 (C2 t j l)) (fun k => dec.h1 (C1 t i k)) (fun l => dec.h2 (C2 t j l)) (T t)
  | false =>
    have h1 := tensor_helper (fun k => dec.f1 (C1 t i k)) (fun l => dec.f2 (C2 t j l)) (fun k => dec.h1 (C1 t i k)) (fun l => dec.h2 (C2 t j l)) (T t)
    have h2 := tensor_helper (fun k => dec.f1 (C1 t k i)) (fun l => dec.f2 (C2 t l j)) (fun k => dec.h1 (C1 t k i)) (fun l => dec.h2 (C2 t l j)) (T t)
    have e : ∑ k, ∑ l, coef false dec (C1 t) (C2 t) i j k l * T t k l = ((∑ k, ∑ l, dec.loss (C1 t i k) (C2 t j l) * T t k l) + ∑ k, ∑ l, dec.loss (C1 t k i) (C2 t l j) * T t k l) / 2 := by
      rw [← sum_add_distrib, sum_div]
      refine sum_congr rfl fun k _ => ?_
      rw [← sum_add_distrib, sum_div]
      refine sum_congr rfl fun l _ => ?_
      unfold coef
      simp only [Bool.false_eq_true, if_false]
      ring
    rw [e]
    unfold VDecomp.loss
    rw [← h1, ← h2]
    unfold tensorProduct computeTensor constMarginals
    simp only [Bool.false_eq_true, if_false, if_true, mul_add, add_mul, sum_add_distrib, mul_assoc, ← mul_sum]
    ring

/-- the two versions of the constant differ by a term depending on the row and one depending on the column -/
theorem tensorProduct_false (dec : VDecomp D) (a : B → I → ℝ) (b : B → J → ℝ) (C1 : B → I → I → D → ℝ) (C2 : B → J → J → D → ℝ) (symmetric : Bool) (T : B → I → J → ℝ) (t : B) : ∃ (p : I → ℝ) (q : J → ℝ),
    (∀ i j, tensorProduct (computeTensor dec a b C1 C2 symmetric) T false symmetric t i j = tensorProduct (computeTensor dec a b C1 C2 symmetric) T true symmetric t i j + p i + q j) ∧
    ((∀ i, ∑ j, T t i j = a t i) → p = 0) ∧ ((∀ j, ∑ i, T t i j = b t j) → q = 0) := by
  obtain ⟨L, hL⟩ : ∃ L, L = computeTensor dec a b C1 C2 symmetric := ⟨_, rfl⟩
  have hc : L.constC = constMarginals L.fC1 L.fC2 a b := by rw [hL]; rfl
  rw [← hL]
  refine ⟨fun i => ∑ k, L.fC1 t i k * (a t k - ∑ j, T t k j), fun j => ∑ l, L.fC2 t j l * (b t l - ∑ i, T t i l), fun i j => ?_, fun h => ?_, fun h => ?_⟩
  · unfold tensorProduct
    simp only [Bool.false_eq_true, if_false, if_true, hc]
    unfold constMarginals
    simp only [mul_sub, sum_sub_distrib]
    ring
  · funext i
    exact sum_eq_zero fun k _ => by rw [h, sub_self, mul_zero]
  · funext j
    exact sum_eq_zero fun k _ => by rw [h, sub_self, mul_zero]

/-! ## Quadratic forms -/

/-- bilinear form with coefficients `c` -/
def bil (c : I → J → I → J → ℝ) (S T : I → J → ℝ) : ℝ := ∑ x : I × J, ∑ y : I × J, c x.1 x.2 y.1 y.2 * S x.1 x.2 * T y.1 y.2

theorem featEnergy_bil (L : V → V → ℝ) (C1 : I → I → V) (C2 : J → J → V) (T : I → J → ℝ) : featEnergy L C1 C2 T = bil (fun i j k l => L (C1 i k) (C2 j l)) T T := by
  unfold featEnergy bil
  simp only [Fintype.sum_prod_type]

theorem bil_line (c : I → J → I → J → ℝ) (T Δ : I → J → ℝ) (s : ℝ) :
    bil c (fun i j => T i j + s * Δ i j) (fun i j => T i j + s * Δ i j) = bil c T T + s * (bil c T Δ + bil c Δ T) + s ^ 2 * bil c Δ Δ := by
  unfold bil
  simp only [mul_sum, ← sum_add_distrib]
  exact sum_congr rfl fun x _ => sum_congr rfl fun y _ => by ring

theorem bil_swap (c : I → J → I → J → ℝ) (S T : I → J → ℝ) : bil c S T = bil (fun i j k l => c k l i j) T S := by
  unfold bil
  rw [sum_comm]
  exact sum_congr rfl fun x _ => sum_congr rfl fun y _ => by ring

theorem inner_coef (c : I → J → I → J → ℝ) (T S : I → J → ℝ) : Spec.inner (fun i j => ∑ k, ∑ l, c i j k l * T k l) S = bil c S T := by
  unfold Spec.inner bil
  simp only [Fintype.sum_prod_type, sum_mul]
  exact sum_congr rfl fun i _ => sum_congr rfl fun j _ => sum_congr rfl fun k _ => sum_congr rfl fun l _ => by ring

theorem coef_bil (symmetric : Bool) (dec : VDecomp D) {C1 : I → I → D → ℝ} {C2 : J → J → D → ℝ} (h : symmetric = true → (∀ i k, C1 i k = C1 k i) ∧ ∀ j l, C2 j l = C2 l j) (S T : I → J → ℝ) :
    2 * bil (coef symmetric dec C1 C2) S T = bil (fun i j k l => dec.loss (C1 i k) (C2 j l)) S T + bil (fun i j k l => dec.loss (C1 i k) (C2 j l)) T S := by
  rw [bil_swap _ T S]
  unfold bil
  simp only [mul_sum, ← sum_add_distrib]
  refine sum_congr rfl fun x _ => sum_congr rfl fun y _ => ?_
  unfold coef
  cases symmetric with
  | false =>
    simp only [Bool.false_eq_true, if_false]
    ring
  | true =>
    obtain ⟨h1, h2⟩ := h rfl
    simp only [if_true]
    rw [h1 y.1 x.1, h2 y.2 x.2]
    ring

/-- the value computed from any plan is the energy, whatever the flag -/
theorem coef_energy (symmetric : Bool) (dec : VDecomp D) (C1 : I → I → D → ℝ) (C2 : J → J → D → ℝ) (T : I → J → ℝ) : bil (coef symmetric dec C1 C2) T T = featEnergy dec.loss C1 C2 T := by
  rw [featEnergy_bil]
  cases symmetric with
  | true => rfl
  | false =>
    have h := coef_bil false dec (C1 := C1) (C2 := C2) (by simp) T T
    linarith

theorem inner_add_const (G Δ : I → J → ℝ) (p : I → ℝ) (q : J → ℝ) (hr : ZeroRows Δ) (hc : ZeroCols Δ) : Spec.inner (fun i j => G i j + p i + q j) Δ = Spec.inner G Δ := by
  unfold Spec.inner
  simp only [add_mul, sum_add_distrib]
  have e1 : ∑ i, ∑ j, p i * Δ i j = 0 := sum_eq_zero fun i _ => by rw [← mul_sum, hr, mul_zero]
  have e2 : ∑ i, ∑ j, q j * Δ i j = 0 := by
    rw [sum_comm]
    exact sum_eq_zero fun j _ => by rw [← mul_sum, hc, mul_zero]
  rw [e1, e2]
  ring

/-- pairing with the linearised cost -/
theorem inner_lin_coef (symmetric : Bool) (dec : VDecomp D) (a : B → I → ℝ) (b : B → J → ℝ) (C1 : B → I → I → D → ℝ) (C2 : B → J → J → D → ℝ) (M : B → I → J → ℝ) (alpha : ℝ)
    (T : B → I → J → ℝ) (t : B) (Δ : I → J → ℝ) (hd : (ZeroRows Δ ∧ ZeroCols Δ) ∨ ((∀ i, ∑ j, T t i j = a t i) ∧ ∀ j, ∑ i, T t i j = b t j)) :
    Spec.inner (linearised (computeTensor dec a b C1 C2 symmetric) symmetric M alpha T t) Δ = (1 - alpha) * Spec.inner (M t) Δ + alpha * (2 * bil (coef symmetric dec (C1 t) (C2 t)) Δ (T t)) := by
  obtain ⟨p, q, h1, hp, hq⟩ := tensorProduct_false dec a b C1 C2 symmetric T t
  have h2 : Spec.inner (linearised (computeTensor dec a b C1 C2 symmetric) symmetric M alpha T t) Δ
      = Spec.inner (fun i j => (1 - alpha) * M t i j + 2 * alpha * tensorProduct (computeTensor dec a b C1 C2 symmetric) T true symmetric t i j) Δ := by
    have e : linearised (computeTensor dec a b C1 C2 symmetric) symmetric M alpha T t = fun i j =>
        ((1 - alpha) * M t i j + 2 * alpha * tensorProduct (computeTensor dec a b C1 C2 symmetric) T true symmetric t i j) + (2 * alpha * p i) + 2 * alpha * q j := by
      funext i j
      unfold linearised
      rw [h1]
      ring
    rw [e]
    rcases hd with ⟨hr, hc⟩ | ⟨hr, hc⟩
    · exact inner_add_const _ _ _ _ hr hc
    · rw [hp hr, hq hc]
      simp
  have h3 : Spec.inner (fun i j => (1 - alpha) * M t i j + 2 * alpha * tensorProduct (computeTensor dec a b C1 C2 symmetric) T true symmetric t i j) Δ
      = (1 - alpha) * Spec.inner (M t) Δ + alpha * (2 * bil (coef symmetric dec (C1 t) (C2 t)) Δ (T t)) := by
    rw [← inner_coef]
    unfold Spec.inner
    simp only [tensorProduct_eq, mul_sum (s := univ), ← sum_add_distrib]
    refine sum_congr rfl fun i _ => sum_congr rfl fun j _ => ?_
    simp only [← mul_sum]
    ring
  rw [h2, h3]

/-- the linearised cost is the derivative along directions that keep the marginals; along all directions when the plan has the marginals `a`, `b` -/
theorem inner_linearised (symmetric : Bool) (dec : VDecomp D) (a : B → I → ℝ) (b : B → J → ℝ) {C1 : B → I → I → D → ℝ} {C2 : B → J → J → D → ℝ} (h : SymOk symmetric C1 C2) (M : B → I → J → ℝ) (alpha : ℝ)
    (T : B → I → J → ℝ) (t : B) (Δ : I → J → ℝ) (hd : (ZeroRows Δ ∧ ZeroCols Δ) ∨ ((∀ i, ∑ j, T t i j = a t i) ∧ ∀ j, ∑ i, T t i j = b t j)) (s : ℝ) :
    featFused dec.loss (C1 t) (C2 t) (M t) alpha (fun i j => T t i j + s * Δ i j) = featFused dec.loss (C1 t) (C2 t) (M t) alpha (T t)
      + s * Spec.inner (linearised (computeTensor dec a b C1 C2 symmetric) symmetric M alpha T t) Δ + s ^ 2 * (alpha * featEnergy dec.loss (C1 t) (C2 t) Δ) := by
  rw [inner_lin_coef symmetric dec a b C1 C2 M alpha T t Δ hd, coef_bil symmetric dec (fun hs => ⟨(h hs).1 t, (h hs).2 t⟩)]
  unfold featFused
  rw [featEnergy_bil, featEnergy_bil, featEnergy_bil, bil_line]
  have e2 : cost (M t) (fun i j => T t i j + s * Δ i j) = cost (M t) (T t) + s * Spec.inner (M t) Δ := by
    simp only [cost, Spec.inner, mul_sum, ← sum_add_distrib]
    exact sum_congr rfl fun i _ => sum_congr rfl fun j _ => by ring
  rw [e2]
  ring

/-- relative entropies of two positive plans with the same marginals -/
theorem sym_kl {T T' : I → J → ℝ} (hT : ∀ i j, 0 < T i j) (hT' : ∀ i j, 0 < T' i j) : klPlan T T' + klPlan T' T = ∑ i, ∑ j, (Real.log (T' i j) - Real.log (T i j)) * (T' i j - T i j) := by
  rw [klPlan_eq, klPlan_eq, ← sum_add_distrib]
  refine sum_congr rfl fun i _ => ?_
  rw [← sum_add_distrib]
  refine sum_congr rfl fun j _ => ?_
  rw [Real.log_div (hT i j).ne' (hT' i j).ne', Real.log_div (hT' i j).ne' (hT i j).ne']
  ring

/-- a proximal step between plans with the same marginals changes the cost by the two relative entropies and the curvature -/
theorem prox_identity (symmetric : Bool) (dec : VDecomp D) (a : B → I → ℝ) (b : B → J → ℝ) {C1 : B → I → I → D → ℝ} {C2 : B → J → J → D → ℝ} (h : SymOk symmetric C1 C2) (M : B → I → J → ℝ) (alpha : ℝ)
    {reg : ℝ} (hreg : 0 < reg) {T T' : B → I → J → ℝ} (t : B) (hT : ∀ i j, 0 < T t i j) (hT' : ∀ i j, 0 < T' t i j) (hr : ∀ i, ∑ j, T' t i j = ∑ j, T t i j) (hc : ∀ j, ∑ i, T' t i j = ∑ i, T t i j)
    {x : I → ℝ} {y : J → ℝ} (hf : ∀ i j, Real.log (T' t i j) = -linearised (computeTensor dec a b C1 C2 symmetric) symmetric M alpha T t i j / reg + Real.log (T t i j) + x i + y j) :
    featFused dec.loss (C1 t) (C2 t) (M t) alpha (T' t) = featFused dec.loss (C1 t) (C2 t) (M t) alpha (T t) - reg * (klPlan (T t) (T' t) + klPlan (T' t) (T t))
      + alpha * featEnergy dec.loss (C1 t) (C2 t) (fun i j => T' t i j - T t i j) := by
  have zr : ZeroRows fun i j => T' t i j - T t i j := fun i => by rw [sum_sub_distrib, hr, sub_self]
  have zc : ZeroCols fun i j => T' t i j - T t i j := fun j => by rw [sum_sub_distrib, hc, sub_self]
  have h1 := inner_linearised symmetric dec a b h M alpha T t (fun i j => T' t i j - T t i j) (Or.inl ⟨zr, zc⟩) 1
  have e : (fun i j => T t i j + 1 * (T' t i j - T t i j)) = T' t := by funext i j; ring
  rw [e] at h1
  rw [h1, sym_kl hT hT']
  have e2 : Spec.inner (linearised (computeTensor dec a b C1 C2 symmetric) symmetric M alpha T t) (fun i j => T' t i j - T t i j)
      = Spec.inner (fun i j => -reg * (Real.log (T' t i j) - Real.log (T t i j)) + reg * x i + reg * y j) (fun i j => T' t i j - T t i j) := by
    congr 1
    funext i j
    rw [hf]
    field_simp
    ring
  rw [e2, inner_add_const _ _ _ _ zr zc]
  unfold Spec.inner
  simp only [mul_assoc, neg_mul, sum_neg_distrib, ← mul_sum]
  ring

end POT.BatchGromov
