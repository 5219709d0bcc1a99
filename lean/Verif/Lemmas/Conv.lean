import Verif.Model.Conv
import Verif.Spec.Conv
import Verif.Lemmas.EntBaryConv
import Verif.Lemmas.DebiasedLim
import Verif.Lemmas.GaussKernel
import Mathlib.Tactic.FieldSimp

/-! # Convolutional barycenters as barycenters on the pixel grid -/

set_option linter.unusedSectionVars false

namespace POT.Conv

open Finset Spec Sinkhorn EntBary

section General

variable {I S : Type*} [Fintype I] [Fintype S] [Nonempty I] [Nonempty S] {K : I → I → ℝ} {A : I → S → ℝ} {w : S → ℝ} {v : I → S → ℝ}

/-- `K.T @ (A / (K @ v))` -/
noncomputable def TT (K : I → I → ℝ) (A : I → S → ℝ) (v : I → S → ℝ) : I → S → ℝ := dotKT K fun i s => A i s / dotK K v i s

/-- geometric mean of the columns of `TT` -/
noncomputable def ZZ (K : I → I → ℝ) (A : I → S → ℝ) (w : S → ℝ) (v : I → S → ℝ) : I → ℝ := fun j => Real.exp (∑ s, w s * Real.log (TT K A v j s))

/-- next scaling -/
noncomputable def nxt (K : I → I → ℝ) (A : I → S → ℝ) (w : S → ℝ) (v : I → S → ℝ) : I → S → ℝ := fun j s => ZZ K A w v j / TT K A v j s

theorem TT_pos (h : Ok K A w) (hv : ∀ j s, 0 < v j s) (j : I) (s : S) : 0 < TT K A v j s := dotKT_pos h hv j s

theorem nxt_pos (h : Ok K A w) (hv : ∀ j s, 0 < v j s) (j : I) (s : S) : 0 < nxt K A w v j s := div_pos (Real.exp_pos _) (TT_pos h hv j s)

theorem log_nxt (h : Ok K A w) (hv : ∀ j s, 0 < v j s) (j : I) (s : S) : Real.log (nxt K A w v j s) = ∑ r, w r * Real.log (TT K A v j r) - Real.log (TT K A v j s) := by
  unfold nxt ZZ
  rw [Real.log_div (Real.exp_pos _).ne' (TT_pos h hv j s).ne', Real.log_exp]

theorem nxt_bal (h : Ok K A w) (hv : ∀ j s, 0 < v j s) : Bal w (nxt K A w v) := by
  intro j
  simp only [log_nxt h hv, mul_sub]
  rw [sum_sub_distrib, ← sum_mul, h.wsum, one_mul, sub_self]

theorem nxt_osc (h : Ok K A w) (hv : ∀ j s, 0 < v j s) {c : ℝ} (hc : Spread K c) : Osc (nxt K A w v) (2 * c) := by
  have hTc : ∀ j j' s, Real.log (TT K A v j s) - Real.log (TT K A v j' s) ≤ c := by
    intro j j' s
    have : TT K A v j s ≤ Real.exp c * TT K A v j' s := by
      unfold TT dotKT
      rw [mul_sum]
      refine sum_le_sum fun i _ => ?_
      rw [← mul_assoc]
      exact mul_le_mul_of_nonneg_right (hc _ _ _ _) (div_nonneg (h.anon i s) (dotK_pos h.kpos hv i s).le)
    have h2 := Real.log_le_log (TT_pos h hv j s) this
    rw [Real.log_mul (Real.exp_pos c).ne' (TT_pos h hv j' s).ne', Real.log_exp] at h2
    linarith
  intro j j' s
  rw [log_nxt h hv, log_nxt h hv]
  have h3 : ∑ r, w r * Real.log (TT K A v j r) - ∑ r, w r * Real.log (TT K A v j' r) ≤ c := by
    rw [← sum_sub_distrib]
    have h4 : ∀ r, w r * Real.log (TT K A v j r) - w r * Real.log (TT K A v j' r) ≤ w r * c := fun r => by
      rw [← mul_sub]
      exact mul_le_mul_of_nonneg_left (hTc _ _ _) (h.wpos r).le
    refine (sum_le_sum fun r _ => h4 r).trans ?_
    rw [← sum_mul, h.wsum, one_mul]
  have h5 := hTc j' j s
  linarith

theorem bar_eq (h : Ok K A w) (hv : ∀ j s, 0 < v j s) (hb : Bal w v) (j : I) : bar K A w v j = ZZ K A w v j := by
  rw [← Real.exp_log (bar_pos (K := K) (A := A) (w := w) (u := v) j), EntBary.log_bar]
  unfold ZZ
  congr 1
  have e2 : ∀ r, w r * Real.log (ukv K A v j r) = w r * Real.log (v j r) + w r * Real.log (TT K A v j r) := by
    intro r
    have : ukv K A v j r = v j r * TT K A v j r := rfl
    rw [this, Real.log_mul (hv j r).ne' (TT_pos h hv j r).ne']
    ring
  rw [sum_congr rfl fun r _ => e2 r, sum_add_distrib, hb j, zero_add]

theorem upd_eq (h : Ok K A w) (hv : ∀ j s, 0 < v j s) (hb : Bal w v) : upd K A w v = nxt K A w v := by
  funext j s
  have e0 : upd K A w v j s = v j s * bar K A w v j / (v j s * TT K A v j s) := rfl
  have e1 : nxt K A w v j s = ZZ K A w v j / TT K A v j s := rfl
  rw [e0, e1, bar_eq h hv hb]
  have := (hv j s).ne'
  have := (TT_pos h hv j s).ne'
  field_simp

theorem iter_nxt_pos (h : Ok K A w) (hv : ∀ j s, 0 < v j s) (n : ℕ) : ∀ j s, 0 < (nxt K A w)^[n] v j s := by
  induction n with
  | zero => exact hv
  | succ n ih => rw [Function.iterate_succ_apply']; exact nxt_pos h ih

theorem iter_nxt (h : Ok K A w) (hv : ∀ j s, 0 < v j s) (n : ℕ) : (nxt K A w)^[n + 1] v = (upd K A w)^[n] (nxt K A w v) := by
  induction n with
  | zero => rfl
  | succ n ih =>
    rw [Function.iterate_succ_apply', Function.iterate_succ_apply' (upd K A w), ← ih, upd_eq h (iter_nxt_pos h hv _)]
    rw [Function.iterate_succ_apply']
    exact nxt_bal h (iter_nxt_pos h hv _)

/-- one of the tests at the iterations `10 t + r` succeeds -/
theorem some_check_at (h : Ok K A w) {u : I → S → ℝ} (hu : ∀ j s, 0 < u j s) (hb : Bal w u) {c : ℝ} (hc : Spread K c) (ho : Osc u (2 * c)) {m : ℝ} (hm : 0 < m) (hw : ∀ s, m ≤ w s) {thr : ℝ} (hthr : 0 < thr)
    (r : ℕ) (hr : r < 10) (T : ℕ) (hT : 4 * (Real.log (Fintype.card I) + 4 * c) < T * (Fintype.card S * m ^ 2 * thr ^ 2)) :
    ∃ t < T, stdErr (ukv K A ((upd K A w)^[10 * t + r] u)) < thr := by
  by_contra hn
  push Not at hn
  have hcard : (0 : ℝ) < Fintype.card S := by exact_mod_cast Fintype.card_pos
  have hs := Real.sqrt_pos.2 hcard
  have h1 : ∀ t < T, Fintype.card S * m ^ 2 * thr ^ 2 / 4 ≤ 1 - ∑ j, bar K A w ((upd K A w)^[10 * t + r] u) j := by
    intro t ht
    have hp := iter_pos h hu (10 * t + r)
    have h2 := (hn t ht).trans (stdErr_le hm hw)
    rw [le_div_iff₀ (mul_pos hs hm)] at h2
    have h3 := h2.trans (spread_le_deficit h hp)
    have h4 : (thr * (Real.sqrt (Fintype.card S) * m)) ^ 2 ≤ (2 * Real.sqrt (1 - ∑ j, bar K A w ((upd K A w)^[10 * t + r] u) j)) ^ 2 :=
      pow_le_pow_left₀ (by positivity) h3 2
    rw [mul_pow, mul_pow, mul_pow, Real.sq_sqrt hcard.le, Real.sq_sqrt (deficit_nonneg h hp)] at h4
    linarith
  have h2 : ∑ t ∈ range T, (1 - ∑ j, bar K A w ((upd K A w)^[10 * t + r] u) j) ≤ ∑ k ∈ range (10 * T + 1), (1 - ∑ j, bar K A w ((upd K A w)^[k] u) j) := by
    rw [← sum_image (s := range T) (g := fun t => 10 * t + r) (f := fun k => 1 - ∑ j, bar K A w ((upd K A w)^[k] u) j) (by intro a _ b _ hab; simp only at hab; omega)]
    refine sum_le_sum_of_subset_of_nonneg ?_ fun k _ _ => deficit_nonneg h (iter_pos h hu k)
    intro k hk
    simp only [mem_image, mem_range] at hk ⊢
    obtain ⟨t, ht, rfl⟩ := hk
    omega
  have h3 := deficit_bound h hu hb hc ho (10 * T + 1)
  have h4 : (T : ℝ) * (Fintype.card S * m ^ 2 * thr ^ 2 / 4) ≤ ∑ t ∈ range T, (1 - ∑ j, bar K A w ((upd K A w)^[10 * t + r] u) j) := by
    have := sum_le_sum fun t (ht : t ∈ range T) => h1 t (mem_range.1 ht)
    rw [sum_const, card_range, nsmul_eq_mul] at this
    exact this
  linarith

end General

variable {S : Type*} [Fintype S] {w h : ℕ}

/-- stack of images as a matrix with one column per image -/
def fl (A : S → Fin w → Fin h → ℝ) : Fin w × Fin h → S → ℝ := fun p s => A s p.1 p.2

theorem pixelCost_symm (p q : Fin w × Fin h) : pixelCost p q = pixelCost q p := by unfold pixelCost; ring

theorem coord_mem (n : ℕ) (i : Fin n) : 0 ≤ (i : ℝ) / ((n : ℝ) - 1) ∧ (i : ℝ) / ((n : ℝ) - 1) ≤ 1 := by
  have h1 : (i : ℝ) ≤ (n : ℝ) - 1 := by
    have : (i : ℕ) + 1 ≤ n := i.2
    have : ((i : ℕ) : ℝ) + 1 ≤ n := by exact_mod_cast this
    linarith
  have h0 : (0 : ℝ) ≤ (i : ℝ) := Nat.cast_nonneg _
  exact ⟨div_nonneg h0 (h0.trans h1), div_le_one_of_le₀ h1 (h0.trans h1)⟩

theorem coord_sq (n : ℕ) (i j : Fin n) : ((i : ℝ) / ((n : ℝ) - 1) - (j : ℝ) / ((n : ℝ) - 1)) ^ 2 ≤ 1 := by
  have h1 := coord_mem n i
  have h2 := coord_mem n j
  rw [sq_le_one_iff_abs_le_one, abs_le]
  constructor <;> linarith

theorem pixelCost_nonneg (p q : Fin w × Fin h) : 0 ≤ pixelCost p q := add_nonneg (sq_nonneg _) (sq_nonneg _)

theorem pixelCost_le (p q : Fin w × Fin h) : pixelCost p q ≤ 2 := by
  have h1 := coord_sq w p.1 q.1
  have h2 := coord_sq h p.2 q.2
  unfold pixelCost
  linarith

theorem kernel_split (reg : ℝ) (p q : Fin w × Fin h) : kernel pixelCost reg p q = Real.exp (axisLog w reg p.1 q.1) * Real.exp (axisLog h reg p.2 q.2) := by
  unfold kernel pixelCost axisLog linspace01
  rw [← Real.exp_add, div_neg, ← neg_div, ← add_div]
  congr 2
  ring

theorem kernel_symm (reg : ℝ) (p q : Fin w × Fin h) : kernel pixelCost reg p q = kernel pixelCost reg q p := by unfold kernel; rw [pixelCost_symm]

theorem convol_eq (reg : ℝ) (imgs : S → Fin w → Fin h → ℝ) (k : S) (i : Fin w) (l : Fin h) :
    convol reg imgs k i l = ∑ q : Fin w × Fin h, kernel pixelCost reg (i, l) q * imgs k q.1 q.2 := by
  unfold convol
  dsimp only
  rw [Fintype.sum_prod_type, sum_comm]
  refine sum_congr rfl fun b _ => ?_
  rw [mul_sum]
  exact sum_congr rfl fun j _ => by rw [kernel_split]; ring

theorem fl_convol (reg : ℝ) (imgs : S → Fin w → Fin h → ℝ) : fl (convol reg imgs) = dotK (kernel pixelCost reg) (fl imgs) := by
  funext p s
  exact convol_eq reg imgs s p.1 p.2

theorem fl_convol' (reg : ℝ) (imgs : S → Fin w → Fin h → ℝ) : fl (convol reg imgs) = dotKT (kernel pixelCost reg) (fl imgs) := by
  rw [fl_convol]
  funext p s
  unfold dotK dotKT
  exact sum_congr rfl fun q _ => by rw [kernel_symm]

theorem stdSum_eq (X : S → Fin w → Fin h → ℝ) : stdSum X = stdErr (fl X) := by
  unfold stdSum stdErr fl
  rw [Fintype.sum_prod_type]

theorem logConvol_eq [NeZero w] [NeZero h] (reg : ℝ) (img : Fin w → Fin h → ℝ) (i : Fin w) (l : Fin h) :
    logConvol reg img i l = logsumexp fun q : Fin w × Fin h => -pixelCost (i, l) q / reg + img q.1 q.2 := by
  have hk : ∀ q : Fin w × Fin h, -pixelCost (i, l) q / reg = axisLog w reg i q.1 + axisLog h reg l q.2 := by
    intro q
    unfold pixelCost axisLog linspace01
    ring
  unfold logConvol logsumexp
  dsimp only
  congr 1
  rw [Fintype.sum_prod_type, sum_comm]
  refine sum_congr rfl fun b _ => ?_
  rw [Real.exp_add, Real.exp_log (sum_pos (fun j _ => Real.exp_pos _) univ_nonempty), mul_sum]
  refine sum_congr rfl fun j _ => ?_
  rw [hk, ← Real.exp_add]
  congr 1
  ring

/-! ### positive definite kernel -/

theorem linspace_injective (n : ℕ) : Function.Injective (linspace01 n) := by
  intro i j hij
  unfold linspace01 at hij
  by_cases hn : (n : ℝ) - 1 = 0
  · have h1 : n = 1 := by
      have : (n : ℝ) = 1 := by linarith
      exact_mod_cast this
    have := i.2
    have := j.2
    exact Fin.ext (by omega)
  · rw [div_left_inj' hn] at hij
    exact Fin.ext (by exact_mod_cast hij)

theorem grid_form {reg : ℝ} (hreg : 0 < reg) (z : Fin w × Fin h → ℝ) :
    0 ≤ ∑ p, ∑ q, z p * Real.exp (-(pixelCost p q) / reg) * z q ∧ (∑ p, ∑ q, z p * Real.exp (-(pixelCost p q) / reg) * z q = 0 → z = 0) := by
  have e : ∑ p, ∑ q, z p * Real.exp (-(pixelCost p q) / reg) * z q
      = ∑ i, ∑ j, (∑ a, ∑ b, z (i, a) * z (j, b) * Real.exp (-((linspace01 h a - linspace01 h b) ^ 2) / reg)) * Real.exp (-((linspace01 w i - linspace01 w j) ^ 2) / reg) := by
    rw [Fintype.sum_prod_type]
    refine sum_congr rfl fun i _ => ?_
    rw [sum_congr rfl fun a _ => Fintype.sum_prod_type _, sum_comm]
    refine sum_congr rfl fun j _ => ?_
    rw [sum_mul]
    refine sum_congr rfl fun a _ => ?_
    rw [sum_mul]
    refine sum_congr rfl fun b _ => ?_
    have : Real.exp (-(pixelCost (i, a) (j, b)) / reg) = Real.exp (-((linspace01 h a - linspace01 h b) ^ 2) / reg) * Real.exp (-((linspace01 w i - linspace01 w j) ^ 2) / reg) := by
      rw [← Real.exp_add]
      unfold pixelCost linspace01
      congr 1
      ring
    rw [this]
    ring
  obtain ⟨h1, h2⟩ := GaussKernel.gauss2 hreg (linspace_injective w) (linspace_injective h) fun i a => z (i, a)
  rw [e]
  refine ⟨h1, fun h0 => ?_⟩
  funext p
  exact congrFun (congrFun (h2 h0) p.1) p.2

/-! ### the plain loop -/

section Plain

variable [Nonempty S] [NeZero w] [NeZero h] {reg : ℝ} {A : S → Fin w → Fin h → ℝ} {wt : S → ℝ}

/-- the scaling computed first in the next iteration -/
noncomputable def nv (x : State S w h) : Fin w × Fin h → S → ℝ := fun p s => x.bar p.1 p.2 / x.KU s p.1 p.2

theorem step_KU (δ : ℝ) (x : State S w h) : fl (step δ reg A wt x).KU = TT (kernel pixelCost reg) (fl A) (nv x) := by
  have e : (step δ reg A wt x).KU = convol reg fun k i l => A k i l / convol reg (fun k i l => x.bar i l / x.KU k i l) k i l := rfl
  rw [e, fl_convol']
  unfold TT
  congr 1
  funext p s
  have e2 := congrFun (congrFun (fl_convol reg (fun k i l => x.bar i l / x.KU k i l)) p) s
  unfold fl at e2 ⊢
  dsimp only at e2 ⊢
  rw [e2]
  rfl

theorem step_bar (x : State S w h) (p : Fin w × Fin h) : (step 0 reg A wt x).bar p.1 p.2 = ZZ (kernel pixelCost reg) (fl A) wt (nv x) p := by
  have e : (step 0 reg A wt x).bar p.1 p.2 = Real.exp (∑ k, wt k * Real.log (fl (step 0 reg A wt x).KU p k + 0)) := rfl
  rw [e, step_KU]
  unfold ZZ
  simp only [add_zero]

theorem step_nv (x : State S w h) : nv (step 0 reg A wt x) = nxt (kernel pixelCost reg) (fl A) wt (nv x) := by
  funext p s
  have e : nv (step 0 reg A wt x) p s = (step 0 reg A wt x).bar p.1 p.2 / fl (step 0 reg A wt x).KU p s := rfl
  rw [e, step_bar, step_KU]
  rfl

theorem step_VKU (δ : ℝ) (x : State S w h) : fl (fun k i l => (step δ reg A wt x).V k i l * (step δ reg A wt x).KU k i l) = ukv (kernel pixelCost reg) (fl A) (nv x) := by
  funext p s
  have e : fl (fun k i l => (step δ reg A wt x).V k i l * (step δ reg A wt x).KU k i l) p s = nv x p s * fl (step δ reg A wt x).KU p s := rfl
  rw [e, step_KU]
  rfl

theorem iter_nv (x : State S w h) (n : ℕ) : nv ((step 0 reg A wt)^[n] x) = (nxt (kernel pixelCost reg) (fl A) wt)^[n] (nv x) := by
  induction n with
  | zero => rfl
  | succ n ih => rw [Function.iterate_succ_apply', Function.iterate_succ_apply', step_nv, ih]

theorem init_pos (p : Fin w × Fin h) (s : S) : 0 < nv (init reg : State S w h) p s := by
  have e : nv (init reg : State S w h) p s = (1 / ∑ _i : Fin w, ∑ _l : Fin h, (1 : ℝ)) / convol reg (fun (_ : S) _ _ => 1) s p.1 p.2 := rfl
  rw [e, convol_eq]
  refine div_pos (div_pos one_pos (sum_pos (fun _ _ => sum_pos (fun _ _ => one_pos) univ_nonempty) univ_nonempty)) (sum_pos (fun q _ => mul_pos (Real.exp_pos _) one_pos) univ_nonempty)

end Plain

/-! ### the log domain loop -/

section Log

variable [Nonempty S] [NeZero w] [NeZero h] {reg : ℝ} {A : S → Fin w → Fin h → ℝ} {wt : S → ℝ}

/-- the same state with the pixels as index -/
def flatLog (x : LogState S w h) : EntBary.LogState (Fin w × Fin h) S := { G := fl x.G, KU := fl x.KU, bar := fun p => x.bar p.1 p.2, GKU := fl x.GKU }

theorem flat_step (δ : ℝ) (x : LogState S w h) : flatLog (logStep δ reg A wt x) = EntBary.logStep δ pixelCost reg (fl A) wt (flatLog x) := by
  have hf : ∀ k i l, Real.log (A k i l + δ) - logConvol reg (x.G k) i l = logF δ pixelCost reg (fl A) (flatLog x).G (i, l) k := by
    intro k i l
    rw [logConvol_eq]
    rfl
  have hK : ∀ k i l, (logStep δ reg A wt x).KU k i l = (EntBary.logStep δ pixelCost reg (fl A) wt (flatLog x)).KU (i, l) k := by
    intro k i l
    have e1 : (logStep δ reg A wt x).KU k i l = logConvol reg (fun i l => Real.log (A k i l + δ) - logConvol reg (x.G k) i l) i l := rfl
    have e2 : (EntBary.logStep δ pixelCost reg (fl A) wt (flatLog x)).KU (i, l) k = logsumexp fun q => -pixelCost q (i, l) / reg + logF δ pixelCost reg (fl A) (flatLog x).G q k := rfl
    rw [e1, e2, logConvol_eq]
    congr 1
    funext q
    rw [pixelCost_symm, hf]
  have hB : ∀ i l, (logStep δ reg A wt x).bar i l = (EntBary.logStep δ pixelCost reg (fl A) wt (flatLog x)).bar (i, l) := by
    intro i l
    have e1 : (logStep δ reg A wt x).bar i l = ∑ k, wt k * (logStep δ reg A wt x).KU k i l := rfl
    rw [e1]
    simp only [hK]
    rfl
  have e : ∀ a b : EntBary.LogState (Fin w × Fin h) S, a.G = b.G → a.KU = b.KU → a.bar = b.bar → a.GKU = b.GKU → a = b := by
    rintro ⟨⟩ ⟨⟩ rfl rfl rfl rfl
    rfl
  refine e _ _ ?_ ?_ ?_ ?_
  · funext p k
    have e1 : (flatLog (logStep δ reg A wt x)).G p k = (logStep δ reg A wt x).bar p.1 p.2 - (logStep δ reg A wt x).KU k p.1 p.2 := rfl
    rw [e1, hB, hK]
    rfl
  · funext p k
    exact hK k p.1 p.2
  · funext p
    exact hB p.1 p.2
  · funext p k
    have e1 : (flatLog (logStep δ reg A wt x)).GKU p k = x.G k p.1 p.2 + (logStep δ reg A wt x).KU k p.1 p.2 := rfl
    rw [e1, hK]
    rfl

end Log

section Scale

variable {I : Type*} [Fintype I] [Nonempty I]

/-- states of the log domain loop for histograms and for their multiples -/
def ScaleRel (L : ℝ) (x y : EntBary.LogState I S) : Prop := x.G = y.G ∧ x.KU = (fun j s => y.KU j s + L) ∧ x.bar = (fun j => y.bar j + L) ∧ x.GKU = fun j s => y.GKU j s + L

/-- multiplying the histograms by a constant multiplies the result by it -/
theorem scale_step {ε lam : ℝ} (hl : 0 < lam) {M : I → I → ℝ} {reg : ℝ} {A B : I → S → ℝ} (hB : ∀ i s, 0 < B i s) (hA : ∀ i s, A i s + ε = lam * B i s) {wt : S → ℝ} (hw : ∑ s, wt s = 1)
    {x y : EntBary.LogState I S} (hG : x.G = y.G) : ScaleRel (Real.log lam) (EntBary.logStep ε M reg A wt x) (EntBary.logStep 0 M reg B wt y) := by
  have hf : ∀ i s, logF ε M reg A x.G i s = logF 0 M reg B y.G i s + Real.log lam := by
    intro i s
    unfold logF
    rw [hA, hG, add_zero, Real.log_mul hl.ne' (hB i s).ne']
    ring
  have hK : ∀ j s, (EntBary.logStep ε M reg A wt x).KU j s = (EntBary.logStep 0 M reg B wt y).KU j s + Real.log lam := by
    intro j s
    have e1 : (EntBary.logStep ε M reg A wt x).KU j s = Real.log (∑ i, Real.exp (-M i j / reg + logF ε M reg A x.G i s)) := rfl
    have e2 : (EntBary.logStep 0 M reg B wt y).KU j s = Real.log (∑ i, Real.exp (-M i j / reg + logF 0 M reg B y.G i s)) := rfl
    have e3 : ∀ i, Real.exp (-M i j / reg + logF ε M reg A x.G i s) = Real.exp (-M i j / reg + logF 0 M reg B y.G i s) * lam := by
      intro i
      rw [hf, ← add_assoc, Real.exp_add, Real.exp_log hl]
    rw [e1, e2, sum_congr rfl fun i _ => e3 i, ← sum_mul, Real.log_mul (sum_pos (fun i _ => Real.exp_pos _) univ_nonempty).ne' hl.ne']
  have hb : ∀ j, (EntBary.logStep ε M reg A wt x).bar j = (EntBary.logStep 0 M reg B wt y).bar j + Real.log lam := by
    intro j
    have e1 : (EntBary.logStep ε M reg A wt x).bar j = ∑ s, wt s * (EntBary.logStep ε M reg A wt x).KU j s := rfl
    have e2 : (EntBary.logStep 0 M reg B wt y).bar j = ∑ s, wt s * (EntBary.logStep 0 M reg B wt y).KU j s := rfl
    rw [e1, e2]
    simp only [hK, mul_add]
    rw [sum_add_distrib, ← sum_mul, hw, one_mul]
  refine ⟨?_, funext fun j => funext fun s => hK j s, funext hb, ?_⟩
  · funext j s
    have e1 : (EntBary.logStep ε M reg A wt x).G j s = (EntBary.logStep ε M reg A wt x).bar j - (EntBary.logStep ε M reg A wt x).KU j s := rfl
    have e2 : (EntBary.logStep 0 M reg B wt y).G j s = (EntBary.logStep 0 M reg B wt y).bar j - (EntBary.logStep 0 M reg B wt y).KU j s := rfl
    rw [e1, e2, hb, hK]
    ring
  · funext j s
    have e1 : (EntBary.logStep ε M reg A wt x).GKU j s = x.G j s + (EntBary.logStep ε M reg A wt x).KU j s := rfl
    have e2 : (EntBary.logStep 0 M reg B wt y).GKU j s = y.G j s + (EntBary.logStep 0 M reg B wt y).KU j s := rfl
    rw [e1, e2, hK, hG]
    ring

theorem stdErr_smul {lam : ℝ} (hl : 0 < lam) (X : I → S → ℝ) : stdErr (fun j s => lam * X j s) = lam * stdErr X := by
  unfold stdErr
  rw [mul_sum]
  refine sum_congr rfl fun j _ => ?_
  have e : (∑ s, (lam * X j s - (∑ r, lam * X j r) / Fintype.card S) ^ 2) / (Fintype.card S : ℝ) = lam ^ 2 * ((∑ s, (X j s - (∑ r, X j r) / Fintype.card S) ^ 2) / Fintype.card S) := by
    rw [← mul_sum, ← mul_div_assoc, mul_sum (s := univ) (a := lam ^ 2)]
    congr 1
    exact sum_congr rfl fun s _ => by ring
  rw [e, Real.sqrt_mul (sq_nonneg _), Real.sqrt_sq hl.le]

end Scale

end POT.Conv
