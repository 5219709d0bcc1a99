import Verif.Model.EmdWrap
import Mathlib.Tactic.Ring
import Mathlib.Tactic.Linarith
import Mathlib.Algebra.Order.Ring.Nat

/-! # Arc numberings -/

set_option linter.unusedSectionVars false

namespace POT.Simplex

/-! ### Mixed order -/

/-- number of positions in the columns before column `c` when `N = K * q + B` positions are written in rows of length `K` -/
def colStart (q B c : ℕ) : ℕ := c * q + min c B
/-- number of positions in column `c` -/
def colLen (q B c : ℕ) : ℕ := q + if c < B then 1 else 0

theorem colStart_succ (q B c : ℕ) : colStart q B (c + 1) = colStart q B c + colLen q B c := by
  unfold colStart colLen
  have : (c + 1) * q = c * q + q := by ring
  rw [this]
  split_ifs <;> omega

theorem colStart_mono (q B : ℕ) {c d : ℕ} (h : c ≤ d) : colStart q B c ≤ colStart q B d := by
  unfold colStart
  have : c * q ≤ d * q := Nat.mul_le_mul_right _ h
  omega

/-- column and row of a rank are determined -/
theorem col_unique {q B c r c' r' : ℕ} (hr : r < colLen q B c) (hr' : r' < colLen q B c')
    (h : colStart q B c + r = colStart q B c' + r') : c = c' ∧ r = r' := by
  rcases Nat.lt_trichotomy c c' with h1 | h1 | h1
  · have := colStart_mono q B (show c + 1 ≤ c' from h1)
    rw [colStart_succ] at this
    omega
  · subst h1; exact ⟨rfl, by omega⟩
  · have := colStart_mono q B (show c' + 1 ≤ c from h1)
    rw [colStart_succ] at this
    omega

theorem colStart_top {K q B : ℕ} (hB : B < K) : colStart q B K = K * q + B := by
  unfold colStart
  have : K * q = q * K := by ring
  rw [Nat.min_eq_right hB.le]

/-- where a cell ends up -/
theorem cell_lt {K q B c r : ℕ} (hB : B < K) (hc : c < K) : r < colLen q B c ↔ r * K + c < K * q + B := by
  unfold colLen
  have e : K * q = q * K := by ring
  rw [e]
  constructor
  · intro h
    split_ifs at h with h1
    · have : r * K ≤ q * K := Nat.mul_le_mul_right _ (by omega)
      omega
    · have : (r + 1) * K ≤ q * K := Nat.mul_le_mul_right _ (by omega)
      have e2 : (r + 1) * K = r * K + K := by ring
      omega
  · intro h
    by_contra hcon
    split_ifs at hcon with h1
    · have : (q + 1) * K ≤ r * K := Nat.mul_le_mul_right _ (by omega)
      have e2 : (q + 1) * K = q * K + K := by ring
      omega
    · have : q * K ≤ r * K := Nat.mul_le_mul_right _ (by omega)
      omega

/-- `sequence` writes the ranks column by column -/
theorem sequence_spec {K N k : ℕ} (hK : 0 < K) (hk : k < N) :
    ∃ c r, sequence K N k = r * K + c ∧ c < K ∧ r < colLen (N / K) (N % K) c ∧ k = colStart (N / K) (N % K) c + r := by
  have hN : K * (N / K) + N % K = N := Nat.div_add_mod N K
  have hB : N % K < K := Nat.mod_lt _ hK
  unfold sequence
  dsimp only
  generalize N / K = q at *
  generalize N % K = B at *
  by_cases hs : (q + 1) * B < k
  · simp only [if_pos hs, Nat.mul_one, Nat.add_sub_cancel]
    have hq0 : 0 < q := by
      rcases Nat.eq_zero_or_pos q with h | h
      · subst h; simp at hs hN; omega
      · exact h
    obtain ⟨k', hk'⟩ : ∃ k', k = (q + 1) * B + k' := ⟨k - (q + 1) * B, by omega⟩
    have e0 : k - (q + 1) * B = k' := by omega
    rw [e0]
    have hdm : q * (k' / q) + k' % q = k' := Nat.div_add_mod k' q
    have hml : k' % q < q := Nat.mod_lt _ hq0
    have hlt : k' / q < K - B := by
      rw [Nat.div_lt_iff_lt_mul hq0]
      obtain ⟨d, hd⟩ := Nat.exists_eq_add_of_lt hB
      have h1 : K - B = d + 1 := by omega
      rw [h1]
      have h2 : N = (q + 1) * B + (d + 1) * q := by rw [← hN, hd]; ring
      omega
    generalize k' / q = x at *
    generalize k' % q = y at *
    refine ⟨x + B, y, rfl, by omega, ?_, ?_⟩
    · unfold colLen; split_ifs <;> omega
    · unfold colStart
      have h5 : (x + B) * q = q * x + B * q := by ring
      have h6 : (q + 1) * B = B * q + B := by ring
      rw [Nat.min_eq_right (by omega)]
      omega
  · simp only [if_neg hs, Nat.mul_zero, Nat.sub_zero, Nat.add_zero]
    have hdm : (q + 1) * (k / (q + 1)) + k % (q + 1) = k := Nat.div_add_mod k (q + 1)
    have hml : k % (q + 1) < q + 1 := Nat.mod_lt _ (Nat.succ_pos q)
    have hle : k / (q + 1) < B + 1 := by
      rw [Nat.div_lt_iff_lt_mul (Nat.succ_pos q)]
      have : (B + 1) * (q + 1) = (q + 1) * B + (q + 1) := by ring
      rw [Nat.succ_eq_add_one, this]
      omega
    generalize k / (q + 1) = x at *
    generalize k % (q + 1) = y at *
    refine ⟨x, y, rfl, by omega, ?_, ?_⟩
    · unfold colLen
      split_ifs with h1
      · omega
      · have h2 : x = B := by omega
        subst h2
        have h3 : y = 0 := by omega
        subst h3
        rcases Nat.eq_zero_or_pos q with h | h
        · subst h; simp at hdm hN; omega
        · omega
    · unfold colStart
      have h6 : (q + 1) * x = x * q + x := by ring
      rw [Nat.min_eq_left (by omega)]
      omega

theorem sequence_lt {K N k : ℕ} (hK : 0 < K) (hk : k < N) : sequence K N k < N := by
  obtain ⟨c, r, h1, hc, h2, _⟩ := sequence_spec hK hk
  rw [h1]
  have := (cell_lt (Nat.mod_lt _ hK) hc).1 h2
  rwa [Nat.div_add_mod] at this

theorem cell_mod {K r c : ℕ} (hc : c < K) : (r * K + c) % K = c := by
  rw [Nat.mul_add_mod_self_right, Nat.mod_eq_of_lt hc]

theorem cell_div {K r c : ℕ} (hc : c < K) : (r * K + c) / K = r := by
  rw [Nat.add_comm, Nat.add_mul_div_right _ _ (by omega), Nat.div_eq_of_lt hc, Nat.zero_add]

theorem sequence_inj {K N k l : ℕ} (hK : 0 < K) (hk : k < N) (hl : l < N) (h : sequence K N k = sequence K N l) : k = l := by
  obtain ⟨c, r, h1, hc, h2, h3⟩ := sequence_spec hK hk
  obtain ⟨c', r', h1', hc', h2', h3'⟩ := sequence_spec hK hl
  rw [h1, h1'] at h
  have e1 : c = c' := by rw [← cell_mod (r := r) hc, h, cell_mod hc']
  have e2 : r = r' := by rw [← cell_div (r := r) hc, h, cell_div hc']
  rw [h3, h3', e1, e2]

/-- one step of the storing loop -/
theorem sequence_succ {K N k : ℕ} (hK : 0 < K) (hk : k + 1 < N) :
    sequence K N (k + 1) = if N ≤ sequence K N k + K then sequence K N k % K + 1 else sequence K N k + K := by
  obtain ⟨c, r, h1, hc, h2, h3⟩ := sequence_spec hK (show k < N by omega)
  obtain ⟨c', r', h1', hc', h2', h3'⟩ := sequence_spec hK hk
  rw [h1, h1', cell_mod hc]
  have hN : K * (N / K) + N % K = N := Nat.div_add_mod N K
  have hB : N % K < K := Nat.mod_lt _ hK
  have hiff := cell_lt (r := r + 1) (q := N / K) hB hc
  have e : (r + 1) * K + c = r * K + c + K := by ring
  rw [hN, e] at hiff
  split_ifs with hlast
  · -- the column is finished
    have hfull : colLen (N / K) (N % K) c = r + 1 := by
      have := mt hiff.1 (not_lt.2 hlast)
      omega
    have hs := colStart_succ (N / K) (N % K) c
    have hck : c + 1 < K := by
      by_contra hcon
      have : c + 1 = K := by omega
      rw [this, colStart_top hB] at hs
      omega
    have hlen : 0 < colLen (N / K) (N % K) (c + 1) := by
      rw [cell_lt hB hck, hN]
      -- the first row reaches further than column `c`
      by_contra hcon
      have h4 := (cell_lt (r := r) (q := N / K) hB hc).1 h2
      have h5 : N ≤ c + 1 := by omega
      have hq0 : N / K = 0 := Nat.div_eq_of_lt (by omega)
      have hm0 : N % K = N := Nat.mod_eq_of_lt (by omega)
      rw [hq0, hm0] at hs h3
      unfold colStart at hs h3
      rw [hq0, hm0] at hfull
      unfold colLen at hfull
      simp only [Nat.mul_zero, Nat.zero_add] at hs h3 hfull
      split_ifs at hfull; omega
    obtain ⟨e1, e2⟩ := col_unique h2' hlen (by omega)
    rw [e1, e2]; ring
  · have hlt := hiff.2 (not_le.1 hlast)
    obtain ⟨e1, e2⟩ := col_unique h2' hlt (by omega)
    rw [e1, e2]; ring

theorem mixLoop_eq {K N : ℕ} (hK : 0 < K) (c t : ℕ) (h : t + c = N) (i j : ℕ)
    (hi : c ≠ 0 → i = sequence K N t) (hj : c ≠ 0 → j = sequence K N t % K) :
    mixLoop K N c i j = (List.range' t c).map (sequence K N) := by
  induction c generalizing t i j with
  | zero => rfl
  | succ c ih =>
    rw [mixLoop, List.range'_succ, List.map_cons, hi (by omega)]
    congr 1
    by_cases hc : c = 0
    · subst hc; simp [mixLoop]
    · have hs := sequence_succ hK (show t + 1 < N by omega)
      have hlt := sequence_lt hK (show t + 1 < N by omega)
      split_ifs with hl
      · rw [if_pos hl] at hs
        refine ih (t + 1) (by omega) _ _ (fun _ => by rw [hs, hj (by omega)]) (fun _ => ?_)
        rw [hs, hj (by omega)]
        -- the new column is smaller than `K`
        obtain ⟨c', r', h1', hc', h2', h3'⟩ := sequence_spec hK (show t + 1 < N by omega)
        obtain ⟨c1, r1, h1, hc1, h2, h3⟩ := sequence_spec hK (show t < N by omega)
        rw [h1, cell_mod hc1] at hs ⊢
        by_cases hck : c1 + 1 < K
        · rw [Nat.mod_eq_of_lt hck]
        · exfalso
          have hcK : c1 + 1 = K := by omega
          have hsu := colStart_succ (N / K) (N % K) c1
          have hmono := colStart_mono (N / K) (N % K) (show c' + 1 ≤ K by omega)
          rw [hcK, colStart_top (Nat.mod_lt _ hK), Nat.div_add_mod] at hsu
          -- position `K` lies in column 0
          rw [h1', hcK] at hs
          have e0 : c' = 0 := by rw [← cell_mod (r := r') hc', hs, Nat.mod_self]
          have e1 : r' = 1 := by rw [← cell_div (r := r') hc', hs, Nat.div_self hK]
          rw [e0, e1] at h3'
          have hB := Nat.mod_lt N hK
          have hz : colStart (N / K) (N % K) 0 = 0 := by simp [colStart]
          rw [hz] at h3'
          have : t = 0 := by omega
          subst this
          have hle := colStart_mono (N / K) (N % K) (Nat.zero_le c1)
          have hz1 : colStart (N / K) (N % K) c1 = 0 := by omega
          have hr1 : r1 = 0 := by omega
          rw [h1, hr1] at hl
          -- `N ≤ c1 + K` but `sequence 1 = K < N`
          rw [h1', e0, e1] at hlt
          have hq : 1 ≤ N / K := by rw [Nat.le_div_iff_mul_le hK]; omega
          unfold colStart at hz1
          have hc10 : c1 * (N / K) = 0 := by omega
          have : c1 = 0 := by
            rcases Nat.mul_eq_zero.1 hc10 with h | h
            · exact h
            · omega
          omega
      · rw [if_neg hl] at hs
        exact ih (t + 1) (by omega) _ _ (fun _ => by rw [hs]) (fun _ => by
          rw [hs, Nat.add_mod_right, hj (by omega)])

theorem mixingCoeff_pos (N : ℕ) : 0 < mixingCoeff N := lt_of_lt_of_le (by decide) (le_max_right _ _)

theorem arcId_lt {mixing : Bool} {N k : ℕ} (hk : k < N) : arcId mixing N k < N := by
  unfold arcId
  split_ifs
  · exact sequence_lt (mixingCoeff_pos N) (by omega)
  · omega

theorem arcId_inj {mixing : Bool} {N k l : ℕ} (hk : k < N) (hl : l < N) (h : arcId mixing N k = arcId mixing N l) : k = l := by
  unfold arcId at h
  split_ifs at h
  · have := sequence_inj (mixingCoeff_pos N) (by omega) (by omega) h
    omega
  · omega

/-- the position of the arc stored at turn `t` is the one `getArcID` computes -/
theorem storePositions_eq (mixing : Bool) (N : ℕ) :
    storePositions mixing N = (List.finRange N).reverse.map fun k => arcId mixing N k.val := by
  have h1 : storePositions mixing N = (List.range N).map fun t => arcId mixing N (N - 1 - t) := by
    unfold storePositions
    split_ifs with hm
    · rw [mixLoop_eq (mixingCoeff_pos N) N 0 (by omega) 0 0, List.range_eq_range']
      · refine List.map_congr_left fun t ht => ?_
        have : t < N := by simpa using ht
        unfold arcId
        rw [if_pos hm]
        congr 1
        omega
      · intro _
        simp [sequence]
      · intro _; simp [sequence]
    · conv_lhs => rw [← List.map_id (List.range N)]
      refine List.map_congr_left fun t ht => ?_
      have : t < N := by simpa using ht
      unfold arcId
      rw [if_neg hm]
      simp
      omega
  rw [h1]
  apply List.ext_getElem
  · simp
  · intro i h2 h3
    simp

end POT.Simplex
