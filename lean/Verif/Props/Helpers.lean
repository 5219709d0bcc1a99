import Verif.Model.Helpers
import Mathlib.Algebra.BigOperators.Field

/-!
# C136: helpers that set up problems

`clean_zeros`, `dist0` (ot/utils.py), `make_1D_gauss` (ot/datasets.py). Specification: `Verif/Spec/Transport.lean`.
-/

set_option linter.unusedSectionVars false

namespace POT.Props

open Finset POT.Spec POT.Helpers

variable {n m : ℕ}

private theorem pick_pos (a : Fin n → ℝ) (r : Fin (count a)) : 0 < a (pick a r) := by
  classical
  have h : pick a r ∈ univ.filter fun i => a i > 0 := by
    unfold pick
    exact orderEmbOfFin_mem _ _ _
  exact (mem_filter.1 h).2

private theorem pick_range {a : Fin n → ℝ} {i : Fin n} (h : 0 < a i) : ∃ r, pick a r = i := by
  classical
  have : i ∈ Set.range (pick a) := by
    unfold pick
    rw [range_orderEmbOfFin]
    simpa using h
  exact this

private theorem sum_pick (a f : Fin n → ℝ) (h : ∀ i, ¬ 0 < a i → f i = 0) : ∑ r, f (pick a r) = ∑ i, f i := by
  classical
  calc ∑ r, f (pick a r) = ∑ i ∈ univ.map (pick a).toEmbedding, f i := (sum_map univ (pick a).toEmbedding f).symm
    _ = ∑ i ∈ univ.filter (fun i => a i > 0), f i := by
      unfold pick
      rw [map_orderEmbOfFin_univ]
    _ = ∑ i, f i := sum_subset (subset_univ _) fun i _ hi => h i fun h0 => hi (by simpa using h0)

private theorem zero_of {a : Fin n → ℝ} {b : Fin m → ℝ} {G : Fin n → Fin m → ℝ} (hG : IsCoupling a b G) {i : Fin n} {j : Fin m} (h : ¬ 0 < a i ∨ ¬ 0 < b j) : G i j = 0 := by
  refine le_antisymm ?_ (hG.nonneg i j)
  rcases h with h | h
  · have := single_le_sum (f := fun j => G i j) (fun j _ => hG.nonneg i j) (mem_univ j)
    rw [hG.row] at this
    linarith
  · have := single_le_sum (f := fun i => G i j) (fun i _ => hG.nonneg i j) (mem_univ i)
    rw [hG.col] at this
    linarith

private theorem restrict {a : Fin n → ℝ} {b : Fin m → ℝ} {G : Fin n → Fin m → ℝ} (hG : IsCoupling a b G) :
    IsCoupling (fun r => a (pick a r)) (fun s => b (pick b s)) fun r s => G (pick a r) (pick b s) :=
  ⟨fun _ _ => hG.nonneg _ _, fun r => (sum_pick b (fun j => G (pick a r) j) fun _ h => zero_of hG (.inr h)).trans (hG.row _),
    fun s => (sum_pick a (fun i => G i (pick b s)) fun _ h => zero_of hG (.inl h)).trans (hG.col _)⟩

private theorem cost_restrict {a : Fin n → ℝ} {b : Fin m → ℝ} {G : Fin n → Fin m → ℝ} (hG : IsCoupling a b G) (M : Fin n → Fin m → ℝ) :
    cost (fun r s => M (pick a r) (pick b s)) (fun r s => G (pick a r) (pick b s)) = cost M G := by
  unfold cost
  have h1 : ∀ i, ∑ s, G i (pick b s) * M i (pick b s) = ∑ j, G i j * M i j := fun i => sum_pick b (fun j => G i j * M i j) fun j h => by rw [zero_of hG (.inr h), zero_mul]
  simp_rw [h1]
  exact sum_pick a (fun i => ∑ j, G i j * M i j) fun i h => sum_eq_zero fun j _ => by rw [zero_of hG (.inl h), zero_mul]

private theorem extend {a : Fin n → ℝ} {b : Fin m → ℝ} (ha : ∀ i, 0 ≤ a i) (hb : ∀ j, 0 ≤ b j) {H : Fin (count a) → Fin (count b) → ℝ} (hH : IsCoupling (fun r => a (pick a r)) (fun s => b (pick b s)) H) :
    ∃ G, IsCoupling a b G ∧ ∀ r s, G (pick a r) (pick b s) = H r s := by
  classical
  let G : Fin n → Fin m → ℝ := fun i j => if h : (∃ r, pick a r = i) ∧ ∃ s, pick b s = j then H h.1.choose h.2.choose else 0
  have g1 : ∀ r s, G (pick a r) (pick b s) = H r s := fun r s => by
    have h : (∃ r', pick a r' = pick a r) ∧ ∃ s', pick b s' = pick b s := ⟨⟨r, rfl⟩, ⟨s, rfl⟩⟩
    have e : G (pick a r) (pick b s) = H h.1.choose h.2.choose := dif_pos h
    rw [e, (pick a).injective h.1.choose_spec, (pick b).injective h.2.choose_spec]
  have g2 : ∀ i j, (¬ 0 < a i ∨ ¬ 0 < b j) → G i j = 0 := fun i j h => dif_neg fun ⟨⟨r, hr⟩, ⟨s, hs⟩⟩ => by
    rcases h with h | h
    · exact h (hr ▸ pick_pos a r)
    · exact h (hs ▸ pick_pos b s)
  refine ⟨G, ⟨fun i j => ?_, fun i => ?_, fun j => ?_⟩, g1⟩
  · by_cases h : (∃ r, pick a r = i) ∧ ∃ s, pick b s = j
    · rw [show G i j = H h.1.choose h.2.choose from dif_pos h]
      exact hH.nonneg _ _
    · rw [show G i j = 0 from dif_neg h]
  · by_cases h : 0 < a i
    · obtain ⟨r, rfl⟩ := pick_range h
      rw [← sum_pick b (fun j => G (pick a r) j) fun j h => g2 _ _ (.inr h)]
      simp_rw [g1]
      exact hH.row r
    · rw [sum_eq_zero fun j _ => g2 i j (.inl h)]
      exact le_antisymm (ha i) (not_lt.1 h)
  · by_cases h : 0 < b j
    · obtain ⟨s, rfl⟩ := pick_range h
      rw [← sum_pick a (fun i => G i (pick b s)) fun i h => g2 _ _ (.inl h)]
      simp_rw [g1]
      exact hH.col s
    · rw [sum_eq_zero fun i _ => g2 i j (.inr h)]
      exact le_antisymm (hb j) (not_lt.1 h)

/-- **Removing zero weights.** For non-negative weights `clean_zeros` keeps, in order, exactly the points of positive weight (`ρ`, `κ` are their positions), so all returned weights are positive with the same sums.
The returned problem is the original one: every plan restricts to a plan of the same cost, every plan of the returned problem comes from exactly one plan, and a plan is optimal exactly if its restriction is. -/
theorem C136_clean_zeros {a : Fin n → ℝ} {b : Fin m → ℝ} (ha : ∀ i, 0 ≤ a i) (hb : ∀ j, 0 ≤ b j) (M : Fin n → Fin m → ℝ) :
    let c := cleanZeros a b M
    ∃ (ρ : Fin (count a) → Fin n) (κ : Fin (count b) → Fin m), StrictMono ρ ∧ StrictMono κ ∧ (∀ i, 0 < a i ↔ ∃ r, ρ r = i) ∧ (∀ j, 0 < b j ↔ ∃ s, κ s = j) ∧
      (∀ r, c.1 r = a (ρ r)) ∧ (∀ s, c.2.1 s = b (κ s)) ∧ (∀ r s, c.2.2 r s = M (ρ r) (κ s)) ∧ ∑ r, c.1 r = ∑ i, a i ∧ ∑ s, c.2.1 s = ∑ j, b j ∧
      (∀ G, IsCoupling a b G → IsCoupling c.1 c.2.1 (fun r s => G (ρ r) (κ s)) ∧ cost c.2.2 (fun r s => G (ρ r) (κ s)) = cost M G) ∧
      (∀ H, IsCoupling c.1 c.2.1 H → ∃! G, IsCoupling a b G ∧ ∀ r s, G (ρ r) (κ s) = H r s) ∧
      ∀ G, IsCoupling a b G → (IsOptimal a b M G ↔ IsOptimal c.1 c.2.1 c.2.2 fun r s => G (ρ r) (κ s)) := by
  intro c
  refine ⟨pick a, pick b, (pick a).strictMono, (pick b).strictMono, fun i => ⟨pick_range, fun ⟨r, h⟩ => h ▸ pick_pos a r⟩, fun j => ⟨pick_range, fun ⟨s, h⟩ => h ▸ pick_pos b s⟩, fun _ => rfl, fun _ => rfl, fun _ _ => rfl,
    sum_pick a a fun i h => le_antisymm (not_lt.1 h) (ha i), sum_pick b b fun j h => le_antisymm (not_lt.1 h) (hb j), fun G hG => ⟨restrict hG, cost_restrict hG M⟩, fun H hH => ?_, fun G hG => ⟨fun h => ⟨restrict hG, fun H hH => ?_⟩, fun h => ⟨hG, fun G' hG' => ?_⟩⟩⟩
  · obtain ⟨G, hG, e⟩ := extend ha hb hH
    refine ⟨G, ⟨hG, e⟩, fun G' hG' => ?_⟩
    funext i j
    by_cases hi : 0 < a i
    · by_cases hj : 0 < b j
      · obtain ⟨r, rfl⟩ := pick_range hi
        obtain ⟨s, rfl⟩ := pick_range hj
        rw [e, hG'.2]
      · rw [zero_of hG (.inr hj), zero_of hG'.1 (.inr hj)]
    · rw [zero_of hG (.inl hi), zero_of hG'.1 (.inl hi)]
  · obtain ⟨G', hG', e⟩ := extend ha hb hH
    have := h.2 G' hG'
    rw [← cost_restrict hG M, ← cost_restrict hG' M] at this
    simp only [e] at this
    exact this
  · have := h.2 _ (restrict hG')
    change cost (fun r s => M (pick a r) (pick b s)) _ ≤ cost (fun r s => M (pick a r) (pick b s)) _ at this
    rwa [cost_restrict hG M, cost_restrict hG' M] at this

/-- **Gaussian histograms.** For at least one bin, every mean and every non-zero spread `make_1D_gauss` returns positive weights of sum one, strictly decreasing with the distance of the bin to the mean. -/
theorem C136_gauss [NeZero n] (μ : ℝ) {s : ℝ} (hs : s ≠ 0) : (∀ i, 0 < gauss1D n μ s i) ∧ ∑ i, gauss1D n μ s i = 1 ∧ ∀ i j : Fin n, |(i : ℝ) - μ| < |(j : ℝ) - μ| → gauss1D n μ s j < gauss1D n μ s i := by
  have hS : 0 < ∑ k : Fin n, Real.exp (-((k : ℕ) - μ) ^ 2 / (2 * s ^ 2)) := sum_pos (fun _ _ => Real.exp_pos _) univ_nonempty
  refine ⟨fun i => div_pos (Real.exp_pos _) hS, ?_, fun i j h => ?_⟩
  · unfold gauss1D
    rw [← sum_div, div_self hS.ne']
  · unfold gauss1D
    refine div_lt_div_of_pos_right (Real.exp_lt_exp.2 ?_) hS
    refine div_lt_div_of_pos_right ?_ (by positivity)
    have := sq_lt_sq.2 h
    linarith

/-- **Standard cost.** `dist0(n)` is the matrix of the squared differences of the bin numbers. -/
theorem C136_dist0 (n : ℕ) (i j : Fin n) : dist0 n i j = ((i : ℝ) - j) ^ 2 := by
  simp [dist0, sqEuclid]

/-! ### non-vacuity -/

example := C136_clean_zeros (a := fun i : Fin 3 => if i = 1 then 0 else 1 / 2) (b := fun j : Fin 2 => if j = 0 then 1 else 0) (fun i => by split_ifs <;> norm_num) (fun j => by split_ifs <;> norm_num) fun i j => (i : ℝ) + 2 * j
example := (C136_gauss (n := 4) (3 / 2) (s := 1 / 2) (by norm_num)).2.2 1 3 (by norm_num [abs_of_neg, abs_of_pos])

end POT.Props
