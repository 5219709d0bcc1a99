import Verif.Lemmas.Sgot
import Verif.Lemmas.Sliced
import Verif.Lemmas.Monge
import Verif.Lemmas.ExactEmd
import Mathlib.Analysis.SpecialFunctions.Log.Base
import Mathlib.Tactic.NormNum
import Mathlib.Tactic.FinCases

/-!
# C117: spectral-Grassmann distance
-/

set_option linter.unusedSectionVars false

namespace POT.Props

open Finset POT.Spec POT.Sgot

variable {n m l L : ℕ}

/-- the eigenvectors are long enough not to reach the floor `1e-12` of the normalisation -/
def LongColumns (S : Atoms n L) : Prop := ∀ i, 1 / 10 ^ 12 ≤ cnorm (fun k => S.R k i) ∧ 1 / 10 ^ 12 ≤ cnorm fun k => S.L k i

/-- `|⟨r, r'⟩ ⟨ℓ, ℓ'⟩|` for unit eigenvectors -/
noncomputable def sim (S : Atoms n L) (T : Atoms m L) (i : Fin n) (j : Fin m) : ℝ := lineCos (fun k => S.R k i) (fun k => T.R k j) * lineCos (fun k => S.L k i) fun k => T.L k j

/-- the documented ground distance `d`, with `d² = η |λ - λ'|^q + (1 - η) d_G^q` -/
noncomputable def ground (S : Atoms n L) (T : Atoms m L) (η q : ℝ) (gm : Grassmann) (sc : Option (ℝ × ℝ)) (ε : ℝ) (i : Fin n) (j : Fin m) : ℝ :=
  Real.sqrt (η * scaledAbs (sc.getD (1, 1)).1 (sc.getD (1, 1)).2 (S.D i - T.D j) ^ q + (1 - η) * grassDist ε gm (sim S T i j) ^ q)

/-- the exact solver returns the optimal value -/
def ExactEmd2 (emd2 : Emd2) : Prop := ∀ n m a b M, (∀ i, 0 ≤ a i) → (∀ j, 0 ≤ b j) → ∑ i, a i = 1 → ∑ j, b j = 1 → IsOtValue a b M (emd2 n m a b M)

theorem sim_eq (S : Atoms n L) (T : Atoms m L) (i j) : sim S T i j = hcos (tens (fun k => S.R k i) fun k => S.L k i) (tens (fun k => T.R k j) fun k => T.L k j) := (hcos_tens _ _ _ _).symm

theorem sim_nonneg (S : Atoms n L) (T : Atoms m L) (i j) : 0 ≤ sim S T i j := by rw [sim_eq]; exact hcos_nonneg _ _

theorem sim_le_one (S : Atoms n L) (T : Atoms m L) (i j) : sim S T i j ≤ 1 := by rw [sim_eq]; exact hcos_le_one _ _

theorem sim_comm (S : Atoms n L) (T : Atoms m L) (i j) : sim S T i j = sim T S j i := by rw [sim_eq, sim_eq]; exact hcos_comm _ _

theorem sim_self {S : Atoms n L} (hS : LongColumns S) (i) : sim S S i i = 1 := by
  rw [sim_eq]
  refine hcos_self (norm_ne_zero_iff.1 ?_)
  rw [norm_tens]
  have h1 : (0 : ℝ) < 1 / 10 ^ 12 := by norm_num
  exact mul_ne_zero (h1.trans_le (hS i).1).ne' (h1.trans_le (hS i).2).ne'

/-- C117, similarity: for eigenvectors of norm at least `1e-12` the entries are the products of the two cosines, and lie in `[0, 1]` before the clip. -/
theorem C117_delta {S : Atoms n L} {T : Atoms m L} (hS : LongColumns S) (hT : LongColumns T) (i : Fin n) (j : Fin m) :
    delta (1 / 10 ^ 12) S T i j = sim S T i j ∧ 0 ≤ sim S T i j ∧ sim S T i j ≤ 1 := by
  refine ⟨?_, sim_nonneg S T i j, sim_le_one S T i j⟩
  have hcol : ∀ {a b : ℕ} (A : Fin L → Fin a → ℂ) (B : Fin L → Fin b → ℂ) (i : Fin a) (j : Fin b), 1 / 10 ^ 12 ≤ cnorm (fun k => A k i) → 1 / 10 ^ 12 ≤ cnorm (fun k => B k j) →
      ‖∑ k, (starRingEnd ℂ) (normalizeColumns (1 / 10 ^ 12) A k i) * normalizeColumns (1 / 10 ^ 12) B k j‖ = lineCos (fun k => A k i) fun k => B k j := by
    intro a b A B i j hA hB
    have e : ∀ k, (starRingEnd ℂ) (normalizeColumns (1 / 10 ^ 12) A k i) * normalizeColumns (1 / 10 ^ 12) B k j =
        (starRingEnd ℂ) (A k i) * B k j / ((cnorm (fun k => A k i) * cnorm fun k => B k j : ℝ) : ℂ) := by
      intro k
      unfold normalizeColumns
      rw [max_eq_left (show (1 : ℝ) / 10 ^ 12 ≤ Real.sqrt (∑ k, ‖A k i‖ ^ 2) from hA), max_eq_left (show (1 : ℝ) / 10 ^ 12 ≤ Real.sqrt (∑ k, ‖B k j‖ ^ 2) from hB), map_div₀, Complex.conj_ofReal,
        div_mul_div_comm]
      push_cast [cnorm]
      rfl
    simp only [e]
    rw [← Finset.sum_div, norm_div, Complex.norm_real, lineCos, Real.norm_of_nonneg (show 0 ≤ (cnorm fun k => A k i) * cnorm fun k => B k j from mul_nonneg (Real.sqrt_nonneg _) (Real.sqrt_nonneg _))]
  unfold delta
  simp only
  rw [norm_mul, hcol _ _ _ _ (hS i).1 (hT j).1, hcol _ _ _ _ (hS i).2 (hT j).2]
  change min (max (sim S T i j) 0) 1 = _
  rw [max_eq_left (sim_nonneg S T i j), min_eq_left (sim_le_one S T i j)]

theorem grassmannQ_eq {ε q s : ℝ} (gm : Grassmann) (hε : ε ≤ 1) (h0 : 0 ≤ s) (h1 : s ≤ 1) : grassmannQ ε gm q s = grassDist ε gm s ^ q := by
  have key : ∀ x : ℝ, 0 ≤ x → (x ^ 2) ^ (q / 2) = x ^ q := by
    intro x hx
    rw [← Real.rpow_natCast, ← Real.rpow_mul hx]
    congr 1
    push_cast; ring
  have hsq : ∀ x : ℝ, 0 ≤ x → x ^ (q / 2) = Real.sqrt x ^ q := by
    intro x hx
    rw [← key _ (Real.sqrt_nonneg x), Real.sq_sqrt hx]
  cases gm <;> simp only [grassmannQ, grassDist]
  · exact key _ (Real.arccos_nonneg s)
  · exact hsq _ (by nlinarith)
  · exact hsq _ (by linarith)
  · refine hsq _ ?_
    rcases le_total (max (s ^ 2) ε) 0 with h | h
    · have : s ^ 2 ≤ 0 := (le_max_left _ _).trans h
      have h2 : max (s ^ 2) ε = 0 := le_antisymm h ((sq_nonneg s).trans (le_max_left _ _))
      simp [h2]
    · exact neg_nonneg.2 (Real.log_nonpos h (max_le (by nlinarith) hε))

theorem eigenCost_eq (Ds : Fin n → ℂ) (Dt : Fin m → ℂ) (q : ℝ) (sc : Option (ℝ × ℝ)) (i j) : eigenCost Ds Dt q sc i j = scaledAbs (sc.getD (1, 1)).1 (sc.getD (1, 1)).2 (Ds i - Dt j) ^ q := by
  have hx : 0 ≤ ((sc.getD (1, 1)).1 * (Ds i - Dt j).re) ^ 2 + ((sc.getD (1, 1)).2 * (Ds i - Dt j).im) ^ 2 := by positivity
  rw [scaledAbs, Real.sqrt_eq_rpow, ← Real.rpow_mul hx]
  simp only [eigenCost, Complex.sub_re, Complex.sub_im]
  congr 1
  · ring
  · ring

/-- C117, cost matrix: the entries are `d^p` for the documented ground distance `d`. -/
theorem C117_cost {S : Atoms n L} {T : Atoms m L} (hS : LongColumns S) (hT : LongColumns T) {η p q ε : ℝ} (h0 : 0 ≤ η) (h1 : η ≤ 1) (hε : ε ≤ 1) (gm : Grassmann) (sc : Option (ℝ × ℝ)) (i : Fin n)
    (j : Fin m) : costMatrix S T η p q gm sc ε i j = ground S T η q gm sc ε i j ^ p := by
  obtain ⟨e, s0, s1⟩ := C117_delta hS hT i j
  have hx : 0 ≤ η * scaledAbs (sc.getD (1, 1)).1 (sc.getD (1, 1)).2 (S.D i - T.D j) ^ q + (1 - η) * grassDist ε gm (sim S T i j) ^ q :=
    add_nonneg (mul_nonneg h0 (Real.rpow_nonneg (Real.sqrt_nonneg _) _)) (mul_nonneg (by linarith) (Real.rpow_nonneg (grassDist_nonneg _ _ _) _))
  simp only [costMatrix]
  rw [e, grassmannQ_eq gm hε s0 s1, eigenCost_eq, ground, Real.sqrt_eq_rpow, ← Real.rpow_mul hx]
  congr 1
  ring

theorem probOf_nonneg {W : Option (Fin n → ℝ)} (h : GoodWeights W) (i) : 0 ≤ probOf W i := by
  cases W with
  | none => simp only [probOf]; positivity
  | some w => exact div_nonneg (h.1 i) h.2.le

theorem probOf_sum {W : Option (Fin n → ℝ)} (h : GoodWeights W) : ∑ i, probOf W i = 1 := by
  cases W with
  | none =>
    have : (n : ℝ) ≠ 0 := by have : 0 < n := h; positivity
    simp [probOf, this]
  | some w => simp only [probOf]; rw [← Finset.sum_div, div_self h.2.ne']

theorem probOf_model {W : Option (Fin n → ℝ)} (h : GoodWeights W) : (fun i => (W.getD fun _ => 1 / (n : ℝ)) i / ∑ k, (W.getD fun _ => 1 / (n : ℝ)) k) = probOf W := by
  cases W with
  | none =>
    have : (n : ℝ) ≠ 0 := by have : 0 < n := h; positivity
    funext i
    simp [probOf, this]
  | some w => rfl

/-- C117, value: the result is the `r`-th root of the `p`-Wasserstein distance between the two normalised families of atoms, for the documented ground distance. -/
theorem C117_value {emd2 : Emd2} (he : ExactEmd2 emd2) {S : Atoms n L} {T : Atoms m L} (hS : LongColumns S) (hT : LongColumns T) {η p q r ε : ℝ} (h0 : 0 ≤ η) (h1 : η ≤ 1) (hε : ε ≤ 1) (gm : Grassmann)
    (sc : Option (ℝ × ℝ)) {Ws : Option (Fin n → ℝ)} {Wt : Option (Fin m → ℝ)} (hs : GoodWeights Ws) (ht : GoodWeights Wt) :
    ∃ w, IsWasserstein p (probOf Ws) (probOf Wt) (ground S T η q gm sc ε) w ∧ metric emd2 S T η p q r gm sc Ws Wt ε = w ^ (1 / r) := by
  have hc : costMatrix S T η p q gm sc ε = fun i j => ground S T η q gm sc ε i j ^ p := by
    funext i j; exact C117_cost hS hT h0 h1 hε gm sc i j
  refine ⟨_, ⟨emd2 n m (probOf Ws) (probOf Wt) fun i j => ground S T η q gm sc ε i j ^ p, he _ _ _ _ _ (probOf_nonneg hs) (probOf_nonneg ht) (probOf_sum hs) (probOf_sum ht), rfl⟩, ?_⟩
  simp only [metric]
  rw [probOf_model hs, probOf_model ht, hc]

theorem ground_nonneg (S : Atoms n L) (T : Atoms m L) (η q : ℝ) (gm sc) (ε : ℝ) (i j) : 0 ≤ ground S T η q gm sc ε i j := Real.sqrt_nonneg _

theorem ground_comm (S : Atoms n L) (T : Atoms m L) (η q : ℝ) (gm sc) (ε : ℝ) (i j) : ground S T η q gm sc ε i j = ground T S η q gm sc ε j i := by
  have : ∀ α β : ℝ, scaledAbs α β (S.D i - T.D j) = scaledAbs α β (T.D j - S.D i) := by
    intro α β
    simp only [scaledAbs, Complex.sub_re, Complex.sub_im]
    congr 1; ring
  rw [ground, ground, this, sim_comm]

theorem grassDist_one (ε : ℝ) (gm : Grassmann) (h : ε ≤ 1) : grassDist ε gm 1 = 0 := by
  cases gm <;> simp [grassDist, h]

theorem ground_self {S : Atoms n L} (hS : LongColumns S) {η q ε : ℝ} (hq : 0 < q) (hε : ε ≤ 1) (gm sc i) : ground S S η q gm sc ε i i = 0 := by
  rw [ground, sim_self hS, grassDist_one ε gm hε, sub_self]
  simp [scaledAbs, Real.zero_rpow hq.ne']

theorem scaledAbs_triangle (α β : ℝ) (x y z : ℂ) : scaledAbs α β (x - z) ≤ scaledAbs α β (x - y) + scaledAbs α β (y - z) := by
  have e : ∀ w : ℂ, scaledAbs α β w = ‖(⟨α * w.re, β * w.im⟩ : ℂ)‖ := by
    intro w
    rw [Complex.norm_def, Complex.normSq_mk, scaledAbs]
    congr 1; ring
  rw [e, e, e]
  refine le_trans (le_of_eq ?_) (norm_add_le _ _)
  congr 1
  apply Complex.ext <;> simp <;> ring

theorem ground_triangle (S : Atoms n L) (T : Atoms m L) (U : Atoms l L) {η q : ℝ} (h0 : 0 ≤ η) (h1 : η ≤ 1) (hq : 0 < q) (hq2 : q ≤ 2) {gm : Grassmann} (hg : gm ≠ .martin) (sc) (ε : ℝ) (i j k) :
    ground S U η q gm sc ε i k ≤ ground S T η q gm sc ε i j + ground T U η q gm sc ε j k := by
  refine mix_triangle h0 h1 hq hq2 (Real.sqrt_nonneg _) (Real.sqrt_nonneg _) (Real.sqrt_nonneg _) (grassDist_nonneg _ _ _) (grassDist_nonneg _ _ _) (grassDist_nonneg _ _ _)
    (scaledAbs_triangle _ _ _ _ _) (grassDist_triangle hg (sim_nonneg _ _ _ _) (sim_le_one _ _ _ _) (sim_nonneg _ _ _ _) (sim_le_one _ _ _ _) (sim_nonneg _ _ _ _) (sim_le_one _ _ _ _) ?_)
  rw [sim_eq, sim_eq, sim_eq]
  exact arccos_triangle _ _ _

theorem wasserstein_nonneg {p : ℝ} {I J : Type*} [Fintype I] [Fintype J] {a : I → ℝ} {b : J → ℝ} {ρ : I → J → ℝ} (h0 : ∀ i j, 0 ≤ ρ i j) {w : ℝ} (h : IsWasserstein p a b ρ w) : 0 ≤ w := by
  obtain ⟨v, hv, rfl⟩ := h
  exact Real.rpow_nonneg (hv.nonneg fun i j => Real.rpow_nonneg (h0 i j) p) _

/-- C117, metric: for the geodesic, chordal and Procrustes metrics, exponents `0 < q ≤ 2`, `p ≥ 1`, `r ≥ 1` and `eta` in `[0, 1]`, the result is non-negative, zero between a family and itself, symmetric, and satisfies
the triangle inequality. -/
theorem C117_metric {emd2 : Emd2} (he : ExactEmd2 emd2) {S : Atoms n L} {T : Atoms m L} {U : Atoms l L} (hS : LongColumns S) (hT : LongColumns T) (hU : LongColumns U) {η p q r ε : ℝ} (h0 : 0 ≤ η)
    (h1 : η ≤ 1) (hp : 1 ≤ p) (hq : 0 < q) (hq2 : q ≤ 2) (hr : 1 ≤ r) (hε : ε ≤ 1) {gm : Grassmann} (hg : gm ≠ .martin) (sc : Option (ℝ × ℝ)) {Ws : Option (Fin n → ℝ)} {Wt : Option (Fin m → ℝ)}
    {Wu : Option (Fin l → ℝ)} (hs : GoodWeights Ws) (ht : GoodWeights Wt) (hu : GoodWeights Wu) :
    0 ≤ metric emd2 S T η p q r gm sc Ws Wt ε ∧ metric emd2 S S η p q r gm sc Ws Ws ε = 0 ∧ metric emd2 S T η p q r gm sc Ws Wt ε = metric emd2 T S η p q r gm sc Wt Ws ε ∧
      metric emd2 S U η p q r gm sc Ws Wu ε ≤ metric emd2 S T η p q r gm sc Ws Wt ε + metric emd2 T U η p q r gm sc Wt Wu ε := by
  obtain ⟨w1, k1, e1⟩ := C117_value he hS hT (p := p) (q := q) (r := r) h0 h1 hε gm sc hs ht
  obtain ⟨w2, k2, e2⟩ := C117_value he hT hU (p := p) (q := q) (r := r) h0 h1 hε gm sc ht hu
  obtain ⟨w3, k3, e3⟩ := C117_value he hS hU (p := p) (q := q) (r := r) h0 h1 hε gm sc hs hu
  obtain ⟨w4, k4, e4⟩ := C117_value he hS hS (p := p) (q := q) (r := r) h0 h1 hε gm sc hs hs
  obtain ⟨w5, k5, e5⟩ := C117_value he hT hS (p := p) (q := q) (r := r) h0 h1 hε gm sc ht hs
  have n1 := wasserstein_nonneg (ground_nonneg S T η q gm sc ε) k1
  have n2 := wasserstein_nonneg (ground_nonneg T U η q gm sc ε) k2
  have n3 := wasserstein_nonneg (ground_nonneg S U η q gm sc ε) k3
  have hp0 : 0 < p := by linarith
  have hr0 : 0 < 1 / r := by positivity
  refine ⟨by rw [e1]; exact Real.rpow_nonneg n1 _, ?_, ?_, ?_⟩
  · have hz : w4 = 0 := by
      obtain ⟨v, hv, rfl⟩ := k4
      have hv0 := hv.nonneg fun i j => Real.rpow_nonneg (ground_nonneg S S η q gm sc ε i j) p
      have hd : IsCoupling (probOf Ws) (probOf Ws) fun i j => if i = j then probOf Ws i else 0 :=
        ⟨fun i j => by by_cases h : i = j <;> simp [h, probOf_nonneg hs], fun i => by simp, fun j => by simp⟩
      have hv1 := hv.2 ⟨_, hd, rfl⟩
      have hc : cost (fun i j => ground S S η q gm sc ε i j ^ p) (fun i j => if i = j then probOf Ws i else 0) = 0 := by
        refine sum_eq_zero fun i _ => sum_eq_zero fun j _ => ?_
        beta_reduce
        by_cases h : i = j
        · rw [h, ground_self hS hq hε, Real.zero_rpow hp0.ne', mul_zero]
        · rw [if_neg h, zero_mul]
      rw [hc] at hv1
      rw [le_antisymm hv1 hv0, Real.zero_rpow (by positivity)]
    rw [e4, hz, Real.zero_rpow hr0.ne']
  · rw [e1, e5]
    obtain ⟨v, hv, rfl⟩ := k1
    obtain ⟨v', hv', rfl⟩ := k5
    have hsw := hv.swap
    have : (fun j i => ground S T η q gm sc ε i j ^ p) = fun i j => ground T S η q gm sc ε i j ^ p := by
      funext j i; rw [ground_comm]
    rw [this] at hsw
    rw [hsw.unique hv']
  · rw [e1, e2, e3]
    have htri := wasserstein_triangle hp (ground_nonneg S T η q gm sc ε) (ground_nonneg T U η q gm sc ε) (ground_nonneg S U η q gm sc ε) (ground_triangle S T U h0 h1 hq hq2 hg sc ε) k1 k2 k3
    exact rpow_triangle n1 n2 n3 htri hr0.le (by rw [div_le_one (by linarith)]; exact hr)

theorem grassDist_eq_zero {ε s : ℝ} (gm : Grassmann) (h0 : 0 ≤ s) (h1 : s ≤ 1) (hε0 : 0 < ε) (hε : ε < 1) : grassDist ε gm s = 0 ↔ s = 1 := by
  constructor
  · intro h
    cases gm <;> simp only [grassDist] at h
    · exact le_antisymm h1 (Real.arccos_eq_zero.1 h)
    · have := (Real.sqrt_eq_zero (by nlinarith)).1 h
      nlinarith
    · have := (Real.sqrt_eq_zero (by linarith)).1 h
      linarith
    · have hm : max (s ^ 2) ε ≤ 1 := max_le (by nlinarith) hε.le
      have hm0 : 0 < max (s ^ 2) ε := hε0.trans_le (le_max_right _ _)
      have h2 := (Real.sqrt_eq_zero (neg_nonneg.2 (Real.log_nonpos hm0.le hm))).1 h
      have h3 : max (s ^ 2) ε = 1 := by
        rcases Real.log_eq_zero.1 (neg_eq_zero.1 h2) with h | h | h <;> linarith
      rcases max_choice (s ^ 2) ε with h4 | h4
      · rw [h4] at h3; nlinarith
      · rw [h4] at h3; linarith
  · rintro rfl; exact grassDist_one ε gm hε.le

/-- C117, zero distance: for `eta` strictly between 0 and 1 and non-zero scalings, all four metrics give zero exactly when the mass can be moved between atoms with the same eigenvalue and the same right and left
eigenlines. -/
theorem C117_zero {emd2 : Emd2} (he : ExactEmd2 emd2) {S : Atoms n L} {T : Atoms m L} (hS : LongColumns S) (hT : LongColumns T) {η p q r ε : ℝ} (h0 : 0 < η) (h1 : η < 1) (hp : 0 < p) (hq : 0 < q)
    (hr : 0 < r) (hε0 : 0 < ε) (hε : ε < 1) (gm : Grassmann) (sc : Option (ℝ × ℝ)) (hsc : (sc.getD (1, 1)).1 ≠ 0 ∧ (sc.getD (1, 1)).2 ≠ 0) {Ws : Option (Fin n → ℝ)} {Wt : Option (Fin m → ℝ)} (hs : GoodWeights Ws)
    (ht : GoodWeights Wt) : metric emd2 S T η p q r gm sc Ws Wt ε = 0 ↔
      ∃ P, IsCoupling (probOf Ws) (probOf Wt) P ∧ ∀ i j, P i j ≠ 0 → S.D i = T.D j ∧ lineCos (fun k => S.R k i) (fun k => T.R k j) * lineCos (fun k => S.L k i) (fun k => T.L k j) = 1 := by
  obtain ⟨w, ⟨v, hv, rfl⟩, e⟩ := C117_value he hS hT (p := p) (q := q) (r := r) h0.le h1.le hε.le gm sc hs ht
  have hg0 : ∀ i j, 0 ≤ ground S T η q gm sc ε i j ^ p := fun i j => Real.rpow_nonneg (ground_nonneg _ _ _ _ _ _ _ _ _) p
  have hv0 := hv.nonneg hg0
  have hz : ∀ i j, ground S T η q gm sc ε i j ^ p = 0 ↔ S.D i = T.D j ∧ sim S T i j = 1 := by
    intro i j
    have a1 : 0 ≤ η * scaledAbs (sc.getD (1, 1)).1 (sc.getD (1, 1)).2 (S.D i - T.D j) ^ q := mul_nonneg h0.le (Real.rpow_nonneg (Real.sqrt_nonneg _) _)
    have a2 : 0 ≤ (1 - η) * grassDist ε gm (sim S T i j) ^ q := mul_nonneg (by linarith) (Real.rpow_nonneg (grassDist_nonneg _ _ _) _)
    rw [Real.rpow_eq_zero (ground_nonneg _ _ _ _ _ _ _ _ _) hp.ne', ground, Real.sqrt_eq_zero (add_nonneg a1 a2), add_eq_zero_iff_of_nonneg a1 a2, mul_eq_zero, mul_eq_zero,
      Real.rpow_eq_zero (show 0 ≤ scaledAbs (sc.getD (1, 1)).1 (sc.getD (1, 1)).2 (S.D i - T.D j) from Real.sqrt_nonneg _) hq.ne', Real.rpow_eq_zero (grassDist_nonneg _ _ _) hq.ne',
      grassDist_eq_zero gm (sim_nonneg _ _ _ _) (sim_le_one _ _ _ _) hε0 hε]
    have hsa : scaledAbs (sc.getD (1, 1)).1 (sc.getD (1, 1)).2 (S.D i - T.D j) = 0 ↔ S.D i = T.D j := by
      rw [scaledAbs, Real.sqrt_eq_zero (by positivity), add_eq_zero_iff_of_nonneg (sq_nonneg _) (sq_nonneg _), sq_eq_zero_iff, sq_eq_zero_iff, mul_eq_zero, mul_eq_zero, or_iff_right hsc.1, or_iff_right hsc.2,
        ← sub_eq_zero (a := S.D i), Complex.ext_iff]
      simp
    rw [hsa, or_iff_right h0.ne', or_iff_right (by linarith)]
  have hm : metric emd2 S T η p q r gm sc Ws Wt ε = 0 ↔ v = 0 := by
    rw [e, Real.rpow_eq_zero (Real.rpow_nonneg hv0 _) (by positivity), Real.rpow_eq_zero hv0 (by positivity)]
  rw [hm]
  have hc0 : ∀ P : Fin n → Fin m → ℝ, (∀ i j, 0 ≤ P i j) → (cost (fun i j => ground S T η q gm sc ε i j ^ p) P = 0 ↔ ∀ i j, P i j ≠ 0 → S.D i = T.D j ∧ sim S T i j = 1) := by
    intro P hP
    unfold cost
    rw [sum_eq_zero_iff_of_nonneg fun i _ => sum_nonneg fun j _ => mul_nonneg (hP i j) (hg0 i j)]
    refine forall_congr' fun i => ?_
    rw [imp_iff_right (mem_univ i), sum_eq_zero_iff_of_nonneg fun j _ => mul_nonneg (hP i j) (hg0 i j)]
    refine forall_congr' fun j => ?_
    rw [imp_iff_right (mem_univ j), mul_eq_zero, hz i j]
    tauto
  constructor
  · rintro rfl
    obtain ⟨P, hP, hPc⟩ := hv.1
    exact ⟨P, hP, (hc0 P hP.nonneg).1 hPc⟩
  · rintro ⟨P, hP, h⟩
    have := hv.2 ⟨P, hP, rfl⟩
    rw [(hc0 P hP.nonneg).2 h] at this
    exact le_antisymm this hv0

/-- `S'` lists the atoms of `S` in the order `σ`, with other non-zero multiples of the eigenvectors -/
def SameAtoms (S S' : Atoms n L) (σ : Equiv.Perm (Fin n)) : Prop :=
  ∀ i, S'.D i = S.D (σ i) ∧ (∃ c : ℂ, c ≠ 0 ∧ ∀ k, S'.R k i = c * S.R k (σ i)) ∧ ∃ c : ℂ, c ≠ 0 ∧ ∀ k, S'.L k i = c * S.L k (σ i)

/-- C117, invariance: the result depends neither on the order in which the atoms are listed, nor on the scale and phase of the eigenvectors, nor on the common factor of the weights. -/
theorem C117_invariance {emd2 : Emd2} (he : ExactEmd2 emd2) {S S' : Atoms n L} {T T' : Atoms m L} (hS : LongColumns S) (hT : LongColumns T) (hS' : LongColumns S') (hT' : LongColumns T')
    {σ : Equiv.Perm (Fin n)} {τ : Equiv.Perm (Fin m)} (h : SameAtoms S S' σ) (h' : SameAtoms T T' τ) {η p q r ε : ℝ} (h0 : 0 ≤ η) (h1 : η ≤ 1) (hε : ε ≤ 1) (gm : Grassmann) (sc : Option (ℝ × ℝ))
    {Ws : Fin n → ℝ} {Wt : Fin m → ℝ} (hs : GoodWeights (some Ws)) (ht : GoodWeights (some Wt)) {c d : ℝ} (hc : 0 < c) (hd : 0 < d) :
    metric emd2 S' T' η p q r gm sc (some fun i => c * Ws (σ i)) (some fun j => d * Wt (τ j)) ε = metric emd2 S T η p q r gm sc (some Ws) (some Wt) ε := by
  have hw : ∀ {a : ℕ} {W : Fin a → ℝ} {π : Equiv.Perm (Fin a)} {c : ℝ}, 0 < c → GoodWeights (some W) →
      GoodWeights (some fun i => c * W (π i)) ∧ probOf (some fun i => c * W (π i)) = fun i => probOf (some W) (π i) := by
    intro a W π c hc hW
    have hsum : ∑ k, c * W (π k) = c * ∑ k, W k := by rw [← Finset.mul_sum, Equiv.sum_comp π W]
    refine ⟨⟨fun i => mul_nonneg hc.le (hW.1 _), by rw [hsum]; exact mul_pos hc hW.2⟩, ?_⟩
    funext i
    simp only [probOf]
    rw [hsum, mul_div_mul_left _ _ hc.ne']
  obtain ⟨g1, g2⟩ := hw (π := σ) hc hs
  obtain ⟨g3, g4⟩ := hw (π := τ) hd ht
  obtain ⟨w, ⟨v, hv, rfl⟩, e⟩ := C117_value he hS hT (p := p) (q := q) (r := r) h0 h1 hε gm sc hs ht
  obtain ⟨w', ⟨v', hv', rfl⟩, e'⟩ := C117_value he hS' hT' (p := p) (q := q) (r := r) h0 h1 hε gm sc g1 g3
  have hgr : ∀ i j, ground S' T' η q gm sc ε i j = ground S T η q gm sc ε (σ i) (τ j) := by
    intro i j
    obtain ⟨a1, ⟨c1, hc1, a2⟩, c2, hc2, a3⟩ := h i
    obtain ⟨b1, ⟨d1, hd1, b2⟩, d2, hd2, b3⟩ := h' j
    have hsim : sim S' T' i j = sim S T (σ i) (τ j) := by
      unfold sim
      simp only [a2, a3, b2, b3]
      rw [lineCos_smul hc1 hd1 (fun k => S.R k (σ i)) fun k => T.R k (τ j), lineCos_smul hc2 hd2 (fun k => S.L k (σ i)) fun k => T.L k (τ j)]
    rw [ground, ground, a1, b1, hsim]
  rw [e, e']
  have : v = v' := by
    obtain ⟨P, hP, hPc⟩ := hv.1
    have hopt : IsOptimal (probOf (some Ws)) (probOf (some Wt)) (fun i j => ground S T η q gm sc ε i j ^ p) P := ⟨hP, fun Q hQ => by rw [hPc]; exact hv.2 ⟨Q, hQ, rfl⟩⟩
    have h2 := (hopt.reindex σ τ).isOtValue
    rw [cost_reindex σ τ (fun i j => ground S T η q gm sc ε i j ^ p) P, hPc] at h2
    simp only [← hgr] at h2
    rw [g2, g4] at hv'
    exact h2.unique hv'
  rw [this]

/-- an exact solver exists -/
theorem exists_exactEmd2 : ∃ emd2, ExactEmd2 emd2 := by
  classical
  have : ∀ n m (a : Fin n → ℝ) (b : Fin m → ℝ) M, ∃ v, (∀ i, 0 ≤ a i) → (∀ j, 0 ≤ b j) → ∑ i, a i = 1 → ∑ j, b j = 1 → IsOtValue a b M v := by
    intro n m a b M
    by_cases h : (∀ i, 0 ≤ a i) ∧ (∀ j, 0 ≤ b j) ∧ ∑ i, a i = 1 ∧ ∑ j, b j = 1
    · obtain ⟨P, hP⟩ := exists_optimal a b M (product_coupling a b h.1 h.2.1 (h.2.2.1.trans h.2.2.2.symm))
      exact ⟨_, fun _ _ _ _ => hP.isOtValue⟩
    · exact ⟨0, fun h1 h2 h3 h4 => absurd ⟨h1, h2, h3, h4⟩ h⟩
  choose f hf using this
  exact ⟨f, hf⟩

/-- between single atoms the result is the root of the entry of the cost matrix -/
theorem one_atom {emd2 : Emd2} (he : ExactEmd2 emd2) (S T : Atoms 1 L) (η p q r : ℝ) (gm sc) (ε : ℝ) :
    metric emd2 S T η p q r gm sc none none ε = (costMatrix S T η p q gm sc ε 0 0 ^ (1 / p)) ^ (1 / r) := by
  have hg : GoodWeights (n := 1) none := one_pos
  have hv := he 1 1 (probOf none) (probOf none) (costMatrix S T η p q gm sc ε) (probOf_nonneg hg) (probOf_nonneg hg) (probOf_sum hg) (probOf_sum hg)
  obtain ⟨P, hP, hc⟩ := hv.1
  have hP1 : P 0 0 = 1 := by
    have := hP.row 0
    simpa [probOf] using this
  simp only [metric]
  rw [probOf_model hg, ← hc]
  simp [cost, hP1]

/-- atoms of one eigenvalue and one right eigenvector in the plane, the left one being fixed -/
noncomputable def planeAtom (r : Fin 2 → ℂ) : Atoms 1 2 := ⟨fun _ => 0, fun k _ => r k, fun k _ => ![1, 0] k⟩

theorem planeAtom_long {r : Fin 2 → ℂ} (h : 1 ≤ cnorm r) : LongColumns (planeAtom r) := by
  intro i
  refine ⟨le_trans (by norm_num) h, ?_⟩
  simp only [planeAtom, cnorm, Fin.sum_univ_two]
  simp
  norm_num

/-- C117: the Martin metric does not satisfy the triangle inequality (`p = q = 2`, `r = 1`, other arguments by default): a line in the middle of two orthogonal ones shortens the way. -/
theorem C117_martin_refuted {emd2 : Emd2} (he : ExactEmd2 emd2) : ∃ S T U : Atoms 1 2, LongColumns S ∧ LongColumns T ∧ LongColumns U ∧
    metric emd2 S T (1 / 2) 2 2 1 .martin none none none (1 / 10 ^ 12) + metric emd2 T U (1 / 2) 2 2 1 .martin none none none (1 / 10 ^ 12) <
      metric emd2 S U (1 / 2) 2 2 1 .martin none none none (1 / 10 ^ 12) := by
  have c1 : cnorm ![(1 : ℂ), 0] = 1 := by simp [cnorm, Fin.sum_univ_two]
  have c2 : cnorm ![(1 : ℂ), 1] = Real.sqrt 2 := by simp [cnorm, Fin.sum_univ_two]; norm_num
  have c3 : cnorm ![(0 : ℂ), 1] = 1 := by simp [cnorm, Fin.sum_univ_two]
  have h2 : (1 : ℝ) ≤ Real.sqrt 2 := Real.one_le_sqrt.2 (by norm_num)
  have l1 : LongColumns (planeAtom ![1, 0]) := planeAtom_long c1.ge
  have l2 : LongColumns (planeAtom ![1, 1]) := planeAtom_long (by rw [c2]; exact h2)
  have l3 : LongColumns (planeAtom ![0, 1]) := planeAtom_long c3.ge
  have hsim : ∀ r r' : Fin 2 → ℂ, sim (planeAtom r) (planeAtom r') 0 0 = lineCos r r' := by
    intro r r'
    have : lineCos (fun k => ![(1 : ℂ), 0] k) (fun k => ![(1 : ℂ), 0] k) = 1 := by
      rw [lineCos, show (fun k => ![(1 : ℂ), 0] k) = ![1, 0] from rfl, c1]
      simp [Fin.sum_univ_two]
    simp only [sim, planeAtom]
    rw [this, mul_one]
  have hval : ∀ r r' : Fin 2 → ℂ, LongColumns (planeAtom r) → LongColumns (planeAtom r') →
      metric emd2 (planeAtom r) (planeAtom r') (1 / 2) 2 2 1 .martin none none none (1 / 10 ^ 12) = Real.sqrt (1 / 2 * -Real.log (max (lineCos r r' ^ 2) (1 / 10 ^ 12))) := by
    intro r r' h h'
    have hs1 : lineCos r r' ≤ 1 := by rw [← hsim]; exact sim_le_one _ _ _ _
    have hs0 : 0 ≤ lineCos r r' := by rw [← hsim]; exact sim_nonneg _ _ _ _
    have hm : 0 ≤ -Real.log (max (lineCos r r' ^ 2) (1 / 10 ^ 12)) := by
      refine neg_nonneg.2 (Real.log_nonpos (le_trans (by norm_num) (le_max_right _ _)) (max_le (by nlinarith) (by norm_num)))
    rw [one_atom he, C117_cost h h' (by norm_num) (by norm_num) (by norm_num), ground, hsim]
    have hz : scaledAbs ((none : Option (ℝ × ℝ)).getD (1, 1)).1 ((none : Option (ℝ × ℝ)).getD (1, 1)).2 ((planeAtom r).D 0 - (planeAtom r').D 0) = 0 := by simp [scaledAbs, planeAtom]
    rw [hz, Real.zero_rpow (by norm_num), mul_zero, zero_add]
    simp only [grassDist]
    rw [← Real.rpow_mul (Real.sqrt_nonneg _), show (2 : ℝ) * (1 / 2) = 1 by norm_num, Real.rpow_one, div_one, Real.rpow_one]
    simp only [Real.rpow_two]
    rw [Real.sq_sqrt hm, show (1 : ℝ) - 1 / 2 = 1 / 2 by norm_num]
  have s12 : lineCos ![(1 : ℂ), 0] ![1, 1] ^ 2 = 1 / 2 := by
    rw [lineCos, c1, c2]
    simp [Fin.sum_univ_two]
  have s23 : lineCos ![(1 : ℂ), 1] ![0, 1] ^ 2 = 1 / 2 := by
    rw [lineCos, c3, c2]
    simp [Fin.sum_univ_two]
  have s13 : lineCos ![(1 : ℂ), 0] ![0, 1] ^ 2 = 0 := by
    rw [lineCos]
    simp [Fin.sum_univ_two]
  refine ⟨_, _, _, l1, l2, l3, ?_⟩
  rw [hval _ _ l1 l2, hval _ _ l2 l3, hval _ _ l1 l3, s12, s23, s13, max_eq_left (by norm_num), max_eq_right (by norm_num)]
  rw [← two_mul]
  refine Real.lt_sqrt_of_sq_lt ?_
  rw [mul_pow, Real.sq_sqrt (by have := Real.log_nonpos (show (0 : ℝ) ≤ 1 / 2 by norm_num) (by norm_num); linarith)]
  have e1 : Real.log (1 / 10 ^ 12) < Real.log ((1 / 2) ^ 8) := Real.log_lt_log (by norm_num) (by norm_num)
  rw [Real.log_pow] at e1
  have e2 : Real.log (1 / 2 : ℝ) < 0 := Real.log_neg (by norm_num) (by norm_num)
  push_cast at e1
  nlinarith

/-- atoms on a line: one eigenvalue, trivial eigenvectors -/
noncomputable def lineAtom (x : ℝ) : Atoms 1 1 := ⟨fun _ => x, fun _ _ => 1, fun _ _ => 1⟩

theorem lineAtom_long (x : ℝ) : LongColumns (lineAtom x) := by
  intro i
  simp only [lineAtom, cnorm]
  simp
  norm_num

/-- C117: for `q = 4` (`p = 2`, `r = 1`) the triangle inequality fails between eigenvalues 0, 1 and 2. -/
theorem C117_q_refuted {emd2 : Emd2} (he : ExactEmd2 emd2) (gm : Grassmann) : ∃ S T U : Atoms 1 1, LongColumns S ∧ LongColumns T ∧ LongColumns U ∧
    metric emd2 S T (1 / 2) 2 4 1 gm none none none (1 / 10 ^ 12) + metric emd2 T U (1 / 2) 2 4 1 gm none none none (1 / 10 ^ 12) < metric emd2 S U (1 / 2) 2 4 1 gm none none none (1 / 10 ^ 12) := by
  have hval : ∀ x y : ℝ, metric emd2 (lineAtom x) (lineAtom y) (1 / 2) 2 4 1 gm none none none (1 / 10 ^ 12) = Real.sqrt (1 / 2) * (x - y) ^ 2 := by
    intro x y
    have hsim : sim (lineAtom x) (lineAtom y) 0 0 = 1 := by simp [sim, lineAtom, lineCos, cnorm]
    have hsc : scaledAbs ((none : Option (ℝ × ℝ)).getD (1, 1)).1 ((none : Option (ℝ × ℝ)).getD (1, 1)).2 ((lineAtom x).D 0 - (lineAtom y).D 0) = |x - y| := by
      simp [scaledAbs, lineAtom, Real.sqrt_sq_eq_abs]
    rw [one_atom he, C117_cost (lineAtom_long x) (lineAtom_long y) (by norm_num) (by norm_num) (by norm_num), ground, hsim, grassDist_one _ _ (by norm_num), hsc, Real.zero_rpow (by norm_num), mul_zero, add_zero,
      ← Real.rpow_mul (Real.sqrt_nonneg _)]
    have : |x - y| ^ (4 : ℝ) = ((x - y) ^ 2) ^ 2 := by
      rw [show (4 : ℝ) = ((4 : ℕ) : ℝ) by norm_num, Real.rpow_natCast, ← sq_abs (x - y)]; ring
    rw [this, Real.sqrt_mul (by norm_num), Real.sqrt_sq (sq_nonneg _)]
    norm_num
  refine ⟨lineAtom 0, lineAtom 1, lineAtom 2, lineAtom_long _, lineAtom_long _, lineAtom_long _, ?_⟩
  rw [hval, hval, hval]
  have : 0 < Real.sqrt (1 / 2 : ℝ) := Real.sqrt_pos.2 (by norm_num)
  nlinarith

/-- C117: the cost matrix is not the documented `eta |λ - λ'|^q + (1 - eta) (1 - δ²)` for the default `p = 2`, `q = 1`, `chordal`: with similarity `3/5` the Grassmann term is `4/5`, the documented one `16/25`. -/
theorem C117_doc_refuted : ∃ S T : Atoms 1 2, delta (1 / 10 ^ 12) S T 0 0 = 3 / 5 ∧ costMatrix S T (1 / 2) 2 1 .chordal none (1 / 10 ^ 12) 0 0 = 1 / 2 * (4 / 5) ∧
    (1 : ℝ) / 2 * (4 / 5) ≠ 1 / 2 * 0 + (1 - 1 / 2) * (1 - (3 / 5) ^ 2) := by
  have c1 : cnorm ![(1 : ℂ), 0] = 1 := by simp [cnorm, Fin.sum_univ_two]
  have c2 : cnorm ![(3 / 5 : ℂ), 4 / 5] = 1 := by
    simp only [cnorm, Fin.sum_univ_two]
    simp
    norm_num
  have l1 : LongColumns (planeAtom ![1, 0]) := planeAtom_long c1.ge
  have l2 : LongColumns (planeAtom ![3 / 5, 4 / 5]) := planeAtom_long c2.ge
  have hsim : sim (planeAtom ![1, 0]) (planeAtom ![3 / 5, 4 / 5]) 0 0 = 3 / 5 := by
    have : lineCos (fun k => ![(1 : ℂ), 0] k) (fun k => ![(1 : ℂ), 0] k) = 1 := by
      rw [lineCos, show (fun k => ![(1 : ℂ), 0] k) = ![1, 0] from rfl, c1]
      simp [Fin.sum_univ_two]
    have h3 : lineCos (fun k => ![(1 : ℂ), 0] k) (fun k => ![(3 / 5 : ℂ), 4 / 5] k) = 3 / 5 := by
      rw [lineCos, show (fun k => ![(1 : ℂ), 0] k) = ![1, 0] from rfl, show (fun k => ![(3 / 5 : ℂ), 4 / 5] k) = ![3 / 5, 4 / 5] from rfl, c1, c2]
      simp [Fin.sum_univ_two]
    simp only [sim, planeAtom]
    rw [this, h3, mul_one]
  refine ⟨planeAtom ![1, 0], planeAtom ![3 / 5, 4 / 5], by rw [(C117_delta l1 l2 0 0).1, hsim], ?_, by norm_num⟩
  rw [C117_cost l1 l2 (by norm_num) (by norm_num) (by norm_num), ground, hsim]
  have hz : scaledAbs ((none : Option (ℝ × ℝ)).getD (1, 1)).1 ((none : Option (ℝ × ℝ)).getD (1, 1)).2 ((planeAtom ![1, 0]).D 0 - (planeAtom ![3 / 5, 4 / 5]).D 0) = 0 := by simp [scaledAbs, planeAtom]
  have hs : Real.sqrt (1 - (3 / 5) ^ 2) = 4 / 5 := by
    rw [show (1 : ℝ) - (3 / 5) ^ 2 = (4 / 5) ^ 2 by norm_num, Real.sqrt_sq (by norm_num)]
  simp only [grassDist]
  rw [hz, hs, Real.rpow_one, Real.rpow_one, Real.rpow_two, Real.sq_sqrt (by norm_num)]
  norm_num

/-- C117: an eigenvector shorter than the floor is not normalised: the distance from the decomposition to itself is not zero. -/
theorem C117_short_refuted {emd2 : Emd2} (he : ExactEmd2 emd2) : ∃ S : Atoms 1 1, (∀ i, S.R 0 i ≠ 0 ∧ S.L 0 i ≠ 0) ∧ metric emd2 S S (1 / 2) 2 1 2 .chordal none none none (1 / 10 ^ 12) ≠ 0 := by
  refine ⟨⟨fun _ => 0, fun _ _ => 1 / 10 ^ 13, fun _ _ => 1⟩, fun i => by norm_num, ?_⟩
  rw [one_atom he]
  have hd : delta (1 / 10 ^ 12) (⟨fun _ => 0, fun _ _ => 1 / 10 ^ 13, fun _ _ => 1⟩ : Atoms 1 1) (⟨fun _ => 0, fun _ _ => 1 / 10 ^ 13, fun _ _ => 1⟩ : Atoms 1 1) 0 0 = 1 / 100 := by
    simp only [delta, normalizeColumns, Fin.sum_univ_one]
    have e1 : Real.sqrt (‖(1 : ℂ) / 10 ^ 13‖ ^ 2) = 1 / 10 ^ 13 := by
      rw [Real.sqrt_sq (norm_nonneg _)]; simp
    have e2 : Real.sqrt (‖(1 : ℂ)‖ ^ 2) = 1 := by simp
    rw [e1, e2, max_eq_right (show (1 : ℝ) / 10 ^ 13 ≤ 1 / 10 ^ 12 by norm_num), max_eq_left (show (1 : ℝ) / 10 ^ 12 ≤ 1 by norm_num)]
    have e3 : (starRingEnd ℂ) ((1 : ℂ) / 10 ^ 13 / ((1 / 10 ^ 12 : ℝ) : ℂ)) * ((1 : ℂ) / 10 ^ 13 / ((1 / 10 ^ 12 : ℝ) : ℂ)) * ((starRingEnd ℂ) ((1 : ℂ) / ((1 : ℝ) : ℂ)) * ((1 : ℂ) / ((1 : ℝ) : ℂ))) = ((1 / 100 : ℝ) : ℂ) := by
      have h10 : (starRingEnd ℂ) 10 = 10 := map_ofNat _ _
      push_cast
      simp [h10]
      norm_num
    rw [e3, Complex.norm_real]
    norm_num
  simp only [costMatrix]
  rw [hd]
  have hpos : 0 < (1 / 2 * eigenCost (fun _ : Fin 1 => (0 : ℂ)) (fun _ : Fin 1 => (0 : ℂ)) 1 none (0 : Fin 1) (0 : Fin 1) + (1 - 1 / 2) * grassmannQ (1 / 10 ^ 12) .chordal 1 (1 / 100) : ℝ) := by
    have h1 : 0 ≤ eigenCost (fun _ : Fin 1 => (0 : ℂ)) (fun _ : Fin 1 => (0 : ℂ)) 1 none (0 : Fin 1) (0 : Fin 1) := by rw [eigenCost_eq]; exact Real.rpow_nonneg (Real.sqrt_nonneg _) _
    have h2 : 0 < grassmannQ (1 / 10 ^ 12) .chordal 1 (1 / 100) := by
      simp only [grassmannQ]; exact Real.rpow_pos_of_pos (by norm_num) _
    linarith
  exact (Real.rpow_pos_of_pos (Real.rpow_pos_of_pos (Real.rpow_pos_of_pos hpos _) _) _).ne'

/-- the hypotheses of the metric laws are met by the default call on three atoms -/
example : ∃ emd2 : Emd2, metric emd2 (lineAtom 0) (lineAtom 2) (1 / 2) 2 1 2 .chordal none none none (1 / 10 ^ 12) ≤
    metric emd2 (lineAtom 0) (lineAtom 1) (1 / 2) 2 1 2 .chordal none none none (1 / 10 ^ 12) + metric emd2 (lineAtom 1) (lineAtom 2) (1 / 2) 2 1 2 .chordal none none none (1 / 10 ^ 12) := by
  obtain ⟨e, he⟩ := exists_exactEmd2
  exact ⟨e, (C117_metric he (lineAtom_long 0) (lineAtom_long 1) (lineAtom_long 2) (by norm_num) (by norm_num) (by norm_num) (by norm_num) (by norm_num) (by norm_num) (by norm_num) (by decide) none one_pos one_pos
    one_pos).2.2.2⟩

/-- different eigenvalues are at positive distance -/
example : ∃ emd2 : Emd2, metric emd2 (lineAtom 0) (lineAtom 2) (1 / 2) 2 1 2 .martin none none none (1 / 10 ^ 12) ≠ 0 := by
  obtain ⟨e, he⟩ := exists_exactEmd2
  refine ⟨e, fun h => ?_⟩
  obtain ⟨P, hP, h2⟩ := (C117_zero he (lineAtom_long 0) (lineAtom_long 2) (by norm_num) (by norm_num) (by norm_num) (by norm_num) (by norm_num) (by norm_num) (by norm_num) .martin none (by norm_num) one_pos one_pos).1 h
  have h3 := hP.row 0
  have h4 : P 0 0 ≠ 0 := by
    intro h5
    simp [probOf, h5] at h3
  have := (h2 0 0 h4).1
  simp [lineAtom] at this

end POT.Props
