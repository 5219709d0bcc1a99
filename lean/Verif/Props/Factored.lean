import Verif.Model.Factored
import Verif.Spec.Weak
import Verif.Spec.Coot
import Verif.Lemmas.ExactEmd
import Mathlib.Data.Real.Basic

set_option linter.unusedSectionVars false

/-! # Properties: factored optimal transport -/

namespace POT.Props

open Finset Spec Factored

variable {I J D : Type*} [Fintype I] [Fintype J] [Fintype D] {r : ℕ}

/-- The objective of factored transport: the two (possibly regularised) transport problems to and from the template `X`. -/
noncomputable def factoredF (xa : I → D → ℝ) (xb : J → D → ℝ) (ra : (I → Fin r → ℝ) → ℝ) (rb : (Fin r → J → ℝ) → ℝ) (Ga : I → Fin r → ℝ) (Gb : Fin r → J → ℝ) (X : Fin r → D → ℝ) : ℝ :=
  (cost (sqCost xa X) Ga + ra Ga) + (cost (sqCost X xb) Gb + rb Gb)

/-- For couplings with uniform inner weights the updated template is the minimiser; moving away from it costs `2 / r` times the squared distance. -/
theorem factored_update (xa : I → D → ℝ) (xb : J → D → ℝ) (ra : (I → Fin r → ℝ) → ℝ) (rb : (Fin r → J → ℝ) → ℝ) (a : I → ℝ) (b : J → ℝ) (Ga : I → Fin r → ℝ) (Gb : Fin r → J → ℝ)
    (hA : IsCoupling a (fun _ => 1 / (r : ℝ)) Ga) (hB : IsCoupling (fun _ => 1 / (r : ℝ)) b Gb) (X : Fin r → D → ℝ) :
    factoredF xa xb ra rb Ga Gb X = factoredF xa xb ra rb Ga Gb (update xa xb Ga Gb) + 2 / r * ∑ k, ∑ d, (X k d - update xa xb Ga Gb k d) ^ 2 := by
  have eA : ∀ Z : Fin r → D → ℝ, cost (sqCost xa Z) Ga = ∑ k, ∑ d, ∑ i, Ga i k * (xa i d - Z k d) ^ 2 := by
    intro Z
    unfold cost sqCost
    rw [sum_comm]
    refine sum_congr rfl fun k _ => ?_
    rw [sum_comm]
    exact sum_congr rfl fun i _ => mul_sum _ _ _
  have eB : ∀ Z : Fin r → D → ℝ, cost (sqCost Z xb) Gb = ∑ k, ∑ d, ∑ j, Gb k j * (Z k d - xb j d) ^ 2 := by
    intro Z
    unfold cost sqCost
    refine sum_congr rfl fun k _ => ?_
    rw [sum_comm]
    exact sum_congr rfl fun i _ => mul_sum _ _ _
  unfold factoredF
  have key : cost (sqCost xa X) Ga + cost (sqCost X xb) Gb = cost (sqCost xa (update xa xb Ga Gb)) Ga + cost (sqCost (update xa xb Ga Gb) xb) Gb + 2 / r * ∑ k, ∑ d, (X k d - update xa xb Ga Gb k d) ^ 2 := by
    rw [eA, eA, eB, eB, mul_sum, ← sum_add_distrib, ← sum_add_distrib, ← sum_add_distrib]
    refine sum_congr rfl fun k _ => ?_
    rw [mul_sum, ← sum_add_distrib, ← sum_add_distrib, ← sum_add_distrib]
    refine sum_congr rfl fun d _ => ?_
    have hr : (r : ℝ) ≠ 0 := by
      have : 0 < r := Fin.pos k
      exact_mod_cast this.ne'
    obtain ⟨m, hm⟩ : ∃ m, m = update xa xb Ga Gb k d := ⟨_, rfl⟩
    rw [← hm]
    obtain ⟨s, hs⟩ : ∃ s, s = ∑ i, Ga i k * xa i d := ⟨_, rfl⟩
    obtain ⟨t, ht⟩ : ∃ t, t = ∑ j, Gb k j * xb j d := ⟨_, rfl⟩
    have hmv : s + t = 2 * m / r := by
      rw [hm, update, ← hs, ← ht, show (0.5 : ℝ) = 1 / 2 by norm_num]; field_simp
    have hx : ∀ z : ℝ, ∑ i, Ga i k * (xa i d - z) ^ 2 = ∑ i, Ga i k * xa i d ^ 2 - 2 * z * s + z ^ 2 / r := by
      intro z
      have hc := hA.col k
      rw [div_eq_mul_one_div, ← hc, hs, mul_sum, mul_sum, ← sum_sub_distrib, ← sum_add_distrib]
      exact sum_congr rfl fun i _ => by ring
    have hy : ∀ z : ℝ, ∑ j, Gb k j * (z - xb j d) ^ 2 = ∑ j, Gb k j * xb j d ^ 2 - 2 * z * t + z ^ 2 / r := by
      intro z
      have hc := hB.row k
      rw [div_eq_mul_one_div, ← hc, ht, mul_sum, mul_sum, ← sum_sub_distrib, ← sum_add_distrib]
      exact sum_congr rfl fun i _ => by ring
    rw [hx, hx, hy, hy]
    have e : ∀ z : ℝ, (∑ i, Ga i k * xa i d ^ 2 - 2 * z * s + z ^ 2 / r) + (∑ j, Gb k j * xb j d ^ 2 - 2 * z * t + z ^ 2 / r) =
        ∑ i, Ga i k * xa i d ^ 2 + ∑ j, Gb k j * xb j d ^ 2 - 2 * z * (2 * m / r) + 2 * z ^ 2 / r := by
      intro z; rw [← hmv]; ring
    rw [e, e]
    ring
  linarith

theorem factored_dist (x : I → D → ℝ) (y : J → D → ℝ) : Factored.dist x y = sqCost x y := rfl

theorem factored_delta_sq (X X' : Fin r → D → ℝ) : Factored.delta X X' ^ 2 = ∑ k, ∑ d, (X k d - X' k d) ^ 2 :=
  Real.sq_sqrt (sum_nonneg fun _ _ => sum_nonneg fun _ _ => sq_nonneg _)

theorem factored_delta_symm (X X' : Fin r → D → ℝ) : Factored.delta X X' = Factored.delta X' X := by
  unfold Factored.delta
  congr 1
  exact sum_congr rfl fun _ _ => sum_congr rfl fun _ _ => by ring

/-- the last displacement: recorded in `deltas` unless the loop broke -/
noncomputable def lastSq (s : Result I J D r) : ℝ := if s.broke then Factored.delta s.X s.old ^ 2 else 0

theorem factored_loop (xa : I → D → ℝ) (xb : J → D → ℝ) (a : I → ℝ) (b : J → ℝ) (ra : (I → Fin r → ℝ) → ℝ) (rb : (Fin r → J → ℝ) → ℝ)
    (solveA : (I → Fin r → ℝ) → (I → Fin r → ℝ)) (solveB : (Fin r → J → ℝ) → (Fin r → J → ℝ))
    (hA : ∀ M, IsPenOptimal a (fun _ => 1 / (r : ℝ)) ra M (solveA M)) (hB : ∀ M, IsPenOptimal (fun _ => 1 / (r : ℝ)) b rb M (solveB M)) (stopThr : ℝ) :
    ∀ (n : ℕ) (X : Fin r → D → ℝ) (ds : List ℝ), ∃ l : List ℝ,
      let s := loop xa xb solveA solveB stopThr n X ds
      s.deltas = l ++ ds ∧ s.Ga = solveA (sqCost xa s.old) ∧ s.Gb = solveB (sqCost s.old xb) ∧ s.X = update xa xb s.Ga s.Gb ∧
      l.length ≤ n + 1 ∧ (∀ δ ∈ l, stopThr ≤ δ) ∧ (s.broke = true → Factored.delta s.X s.old < stopThr) ∧ (s.broke = false → l.length = n + 1) ∧
      factoredF xa xb ra rb s.Ga s.Gb s.X + 2 / r * ((l.map (· ^ 2)).sum + lastSq s) ≤ factoredF xa xb ra rb (solveA (sqCost xa X)) (solveB (sqCost X xb)) X := by
  intro n
  induction n with
  | zero =>
    intro X ds
    have hu := factored_update xa xb ra rb a b _ _ (hA (sqCost xa X)).1 (hB (sqCost X xb)).1 X
    rw [← factored_delta_sq, factored_delta_symm] at hu
    by_cases h : Factored.delta (update xa xb (solveA (sqCost xa X)) (solveB (sqCost X xb))) X < stopThr
    · have e : loop xa xb solveA solveB stopThr 0 X ds = ⟨solveA (sqCost xa X), solveB (sqCost X xb), update xa xb (solveA (sqCost xa X)) (solveB (sqCost X xb)), X, ds, true⟩ := by
        unfold loop; exact if_pos h
      refine ⟨[], ?_⟩
      rw [e]
      refine ⟨rfl, rfl, rfl, rfl, by simp, by simp, fun _ => h, by simp, ?_⟩
      simp only [lastSq, if_true, List.map_nil, List.sum_nil, zero_add]
      exact hu.ge
    · have e : loop xa xb solveA solveB stopThr 0 X ds = ⟨solveA (sqCost xa X), solveB (sqCost X xb), update xa xb (solveA (sqCost xa X)) (solveB (sqCost X xb)), X,
          Factored.delta (update xa xb (solveA (sqCost xa X)) (solveB (sqCost X xb))) X :: ds, false⟩ := by
        unfold loop; exact if_neg h
      refine ⟨[Factored.delta (update xa xb (solveA (sqCost xa X)) (solveB (sqCost X xb))) X], ?_⟩
      rw [e]
      refine ⟨rfl, rfl, rfl, rfl, by simp, by simpa using h, by simp, by simp, ?_⟩
      simp only [lastSq, List.map_cons, List.map_nil, List.sum_cons, List.sum_nil, add_zero]
      simpa using hu.ge
  | succ n ih =>
    intro X ds
    have hu := factored_update xa xb ra rb a b _ _ (hA (sqCost xa X)).1 (hB (sqCost X xb)).1 X
    rw [← factored_delta_sq, factored_delta_symm] at hu
    obtain ⟨X', hX'⟩ : ∃ X', X' = update xa xb (solveA (sqCost xa X)) (solveB (sqCost X xb)) := ⟨_, rfl⟩
    by_cases h : Factored.delta X' X < stopThr
    · have e : loop xa xb solveA solveB stopThr (n + 1) X ds = ⟨solveA (sqCost xa X), solveB (sqCost X xb), X', X, ds, true⟩ := by
        subst hX'; rw [loop]; exact if_pos h
      refine ⟨[], ?_⟩
      rw [e]
      refine ⟨rfl, rfl, rfl, hX', by simp, by simp, fun _ => h, by simp, ?_⟩
      simp only [lastSq, if_true, List.map_nil, List.sum_nil, zero_add]
      rw [hX']
      exact hu.ge
    · have e : loop xa xb solveA solveB stopThr (n + 1) X ds = loop xa xb solveA solveB stopThr n X' (Factored.delta X' X :: ds) := by
        subst hX'; rw [loop]; exact if_neg h
      obtain ⟨l, h1, h2, h3, h4, h5, h6, h7, h8, h9⟩ := ih X' (Factored.delta X' X :: ds)
      refine ⟨l ++ [Factored.delta X' X], ?_⟩
      rw [e]
      refine ⟨by rw [h1]; simp, h2, h3, h4, by simpa using h5, ?_, h7, fun hb => by simpa using h8 hb, ?_⟩
      · intro δ hδ
        rcases List.mem_append.1 hδ with hδ | hδ
        · exact h6 δ hδ
        · rw [List.mem_singleton.1 hδ]; exact not_lt.1 h
      · have o1 := (hA (sqCost xa X')).2 _ (hA (sqCost xa X)).1
        have o2 := (hB (sqCost X' xb)).2 _ (hB (sqCost X xb)).1
        have o3 : factoredF xa xb ra rb (solveA (sqCost xa X')) (solveB (sqCost X' xb)) X' ≤ factoredF xa xb ra rb (solveA (sqCost xa X)) (solveB (sqCost X xb)) X' := by
          unfold factoredF; linarith
        rw [← hX'] at hu
        simp only [List.map_append, List.sum_append, List.map_cons, List.map_nil, List.sum_cons, List.sum_nil, add_zero]
        have e5 : ∀ u v w : ℝ, 2 / (r : ℝ) * (u + v + w) = 2 / r * (u + w) + 2 / r * v := fun u v w => by ring
        rw [e5]
        linarith

/-- **C74.** `factored_optimal_transport` with exact inner solvers (for the squared distances plus any penalties `ra`, `rb` on the plans), from any template `X0`: the returned plans are couplings of `a` and the uniform weights, and of the uniform weights and `b`;
the returned template is the best one for the returned plans; and the objective at the result, plus `2 / r` times the sum of the squares of all displacements, is at most that of `X0` with its best plans.  All recorded displacements are at least
`stopThr`; the loop ends by the threshold or after `numItermax = n + 1` iterations. -/
theorem C74_factored (xa : I → D → ℝ) (xb : J → D → ℝ) (a : I → ℝ) (b : J → ℝ) (ra : (I → Fin r → ℝ) → ℝ) (rb : (Fin r → J → ℝ) → ℝ)
    (solveA : (I → Fin r → ℝ) → (I → Fin r → ℝ)) (solveB : (Fin r → J → ℝ) → (Fin r → J → ℝ))
    (hA : ∀ M, IsPenOptimal a (w r) ra M (solveA M)) (hB : ∀ M, IsPenOptimal (w r) b rb M (solveB M)) (stopThr : ℝ) (n : ℕ) (X0 : Fin r → D → ℝ) :
    let s := factored xa xb solveA solveB stopThr n X0
    IsCoupling a (fun _ => 1 / (r : ℝ)) s.Ga ∧ IsCoupling (fun _ => 1 / (r : ℝ)) b s.Gb ∧
    (∀ X, factoredF xa xb ra rb s.Ga s.Gb s.X ≤ factoredF xa xb ra rb s.Ga s.Gb X) ∧
    (∀ Pa Pb, IsCoupling a (fun _ => 1 / (r : ℝ)) Pa → IsCoupling (fun _ => 1 / (r : ℝ)) b Pb →
      factoredF xa xb ra rb s.Ga s.Gb s.X + 2 / r * ((s.deltas.map (· ^ 2)).sum + if s.broke then Factored.delta s.X s.old ^ 2 else 0) ≤ factoredF xa xb ra rb Pa Pb X0) ∧
    (∀ δ ∈ s.deltas, stopThr ≤ δ) ∧ (s.broke = true → Factored.delta s.X s.old < stopThr) ∧ (s.broke = false → s.deltas.length = n + 1) := by
  intro s
  obtain ⟨l, h1, h2, h3, h4, _, h6, h7, h8, h9⟩ := factored_loop xa xb a b ra rb solveA solveB hA hB stopThr n X0 []
  rw [List.append_nil] at h1
  have cA : IsCoupling a (fun _ => 1 / (r : ℝ)) s.Ga := by rw [show s.Ga = _ from h2]; exact (hA _).1
  have cB : IsCoupling (fun _ => 1 / (r : ℝ)) b s.Gb := by rw [show s.Gb = _ from h3]; exact (hB _).1
  refine ⟨cA, cB, fun X => ?_, fun Pa Pb hPa hPb => ?_, ?_, h7, fun hb => ?_⟩
  · have := factored_update xa xb ra rb a b s.Ga s.Gb cA cB X
    rw [show s.X = update xa xb s.Ga s.Gb from h4, this]
    have : 0 ≤ 2 / (r : ℝ) * ∑ k, ∑ d, (X k d - update xa xb s.Ga s.Gb k d) ^ 2 :=
      mul_nonneg (by positivity) (sum_nonneg fun _ _ => sum_nonneg fun _ _ => sq_nonneg _)
    linarith
  · have o1 := (hA (sqCost xa X0)).2 _ hPa
    have o2 := (hB (sqCost X0 xb)).2 _ hPb
    rw [← h1] at h9
    refine h9.trans ?_
    unfold factoredF; linarith
  · rw [show s.deltas = l from h1]; exact h6
  · rw [show s.deltas = l from h1]; exact h8 hb

/-- **C74**, termination: without penalties, the loop is left by the threshold as soon as `numItermax` is large enough. -/
theorem C74_factored_stops (hr : 0 < r) (xa : I → D → ℝ) (xb : J → D → ℝ) (a : I → ℝ) (b : J → ℝ)
    (solveA : (I → Fin r → ℝ) → (I → Fin r → ℝ)) (solveB : (Fin r → J → ℝ) → (Fin r → J → ℝ))
    (hA : ∀ M, IsOptimal a (w r) M (solveA M)) (hB : ∀ M, IsOptimal (w r) b M (solveB M)) (stopThr : ℝ) (hthr : 0 < stopThr) (n : ℕ) (X0 : Fin r → D → ℝ)
    (hn : r * (cost (sqCost xa X0) (solveA (sqCost xa X0)) + cost (sqCost X0 xb) (solveB (sqCost X0 xb))) < 2 * (n + 1) * stopThr ^ 2) :
    (factored xa xb solveA solveB stopThr n X0).broke = true := by
  by_contra hb
  rw [Bool.not_eq_true] at hb
  have hA' : ∀ M, IsPenOptimal a (w r) (fun _ => 0) M (solveA M) := fun M => ⟨(hA M).1, fun P hP => by simpa using (hA M).2 P hP⟩
  have hB' : ∀ M, IsPenOptimal (w r) b (fun _ => 0) M (solveB M) := fun M => ⟨(hB M).1, fun P hP => by simpa using (hB M).2 P hP⟩
  obtain ⟨c1, c2, _, h4, h5, _, h7⟩ := C74_factored xa xb a b (fun _ => 0) (fun _ => 0) solveA solveB hA' hB' stopThr n X0
  have h4 := h4 _ _ (hA (sqCost xa X0)).1 (hB (sqCost X0 xb)).1
  rw [if_neg (by simp [hb])] at h4
  obtain ⟨s, hs⟩ : ∃ s, s = factored xa xb solveA solveB stopThr n X0 := ⟨_, rfl⟩
  rw [← hs] at h4 h5 h7 c1 c2 hb
  have hlen := h7 hb
  have hsum : (n + 1) * stopThr ^ 2 ≤ (s.deltas.map (· ^ 2)).sum := by
    have : ((s.deltas.map (· ^ 2)).length : ℝ) * stopThr ^ 2 ≤ (s.deltas.map (· ^ 2)).sum := by
      rw [← nsmul_eq_mul]
      refine List.card_nsmul_le_sum _ _ fun z hz => ?_
      obtain ⟨δ, hδ, rfl⟩ := List.mem_map.1 hz
      exact pow_le_pow_left₀ hthr.le (h5 δ hδ) 2
    rw [List.length_map, hlen] at this
    push_cast at this
    exact this
  have h0 : 0 ≤ factoredF xa xb (fun _ => 0) (fun _ => 0) s.Ga s.Gb s.X := by
    unfold factoredF cost sqCost
    have p1 : 0 ≤ ∑ i, ∑ k, s.Ga i k * ∑ d, (xa i d - s.X k d) ^ 2 := sum_nonneg fun i _ => sum_nonneg fun k _ => mul_nonneg (c1.nonneg i k) (sum_nonneg fun _ _ => sq_nonneg _)
    have p2 : 0 ≤ ∑ k, ∑ j, s.Gb k j * ∑ d, (s.X k d - xb j d) ^ 2 := sum_nonneg fun i _ => sum_nonneg fun k _ => mul_nonneg (c2.nonneg i k) (sum_nonneg fun _ _ => sq_nonneg _)
    linarith
  have hr' : (0 : ℝ) < r := by exact_mod_cast hr
  have h6 : 2 / (r : ℝ) * ((n + 1) * stopThr ^ 2) ≤ factoredF xa xb (fun _ => 0) (fun _ => 0) (solveA (sqCost xa X0)) (solveB (sqCost X0 xb)) X0 := by
    have := mul_le_mul_of_nonneg_left hsum (show 0 ≤ 2 / (r : ℝ) by positivity)
    linarith
  have h8 := mul_le_mul_of_nonneg_left h6 hr'.le
  have h9 : (r : ℝ) * (2 / r * ((n + 1) * stopThr ^ 2)) = 2 * (n + 1) * stopThr ^ 2 := by field_simp
  rw [h9] at h8
  unfold factoredF at h8
  linarith

/-- **C74**, the lazy plan: it is a coupling of `a` and `b` (of rank at most `r` by construction), and its quadratic transport cost is at most twice the sum of the costs of the two plans, for any template. -/
theorem C74_lazy_plan (hr : 0 < r) (xa : I → D → ℝ) (xb : J → D → ℝ) (a : I → ℝ) (b : J → ℝ) (Ga : I → Fin r → ℝ) (Gb : Fin r → J → ℝ)
    (hA : IsCoupling a (fun _ => 1 / (r : ℝ)) Ga) (hB : IsCoupling (fun _ => 1 / (r : ℝ)) b Gb) (X : Fin r → D → ℝ) :
    IsCoupling a b (lazyPlan Ga Gb) ∧ cost (sqCost xa xb) (lazyPlan Ga Gb) ≤ 2 * (cost (sqCost xa X) Ga + cost (sqCost X xb) Gb) := by
  have hr' : (r : ℝ) ≠ 0 := by exact_mod_cast hr.ne'
  refine ⟨⟨fun i j => sum_nonneg fun k _ => mul_nonneg (mul_nonneg (hA.nonneg i k) (by positivity)) (hB.nonneg k j), fun i => ?_, fun j => ?_⟩, ?_⟩
  · unfold lazyPlan
    rw [sum_comm, ← hA.row i]
    refine sum_congr rfl fun k _ => ?_
    rw [← mul_sum, hB.row k]; field_simp
  · unfold lazyPlan
    rw [sum_comm, ← hB.col j]
    refine sum_congr rfl fun k _ => ?_
    rw [← sum_mul, ← sum_mul, hA.col k]; field_simp
  · have e1 : cost (sqCost xa X) Ga = ∑ i, ∑ j, ∑ k, (Ga i k * r * Gb k j) * ∑ d, (xa i d - X k d) ^ 2 := by
      unfold cost sqCost
      refine sum_congr rfl fun i _ => ?_
      rw [sum_comm]
      refine sum_congr rfl fun k _ => ?_
      rw [← sum_mul, ← mul_sum, hB.row k]; field_simp
    have e2 : cost (sqCost X xb) Gb = ∑ i, ∑ j, ∑ k, (Ga i k * r * Gb k j) * ∑ d, (X k d - xb j d) ^ 2 := by
      unfold cost sqCost
      have : ∀ i : I, ∑ j : J, ∑ k : Fin r, (Ga i k * r * Gb k j) * ∑ d, (X k d - xb j d) ^ 2 = ∑ k, ∑ j, (Ga i k * r * Gb k j) * ∑ d, (X k d - xb j d) ^ 2 := fun i => by rw [sum_comm]
      simp only [this]
      rw [sum_comm (s := (univ : Finset I))]
      refine sum_congr rfl fun k _ => ?_
      rw [sum_comm]
      refine sum_congr rfl fun j _ => ?_
      have hc : ∑ i, Ga i k * r * Gb k j * ∑ d, (X k d - xb j d) ^ 2 = (∑ i, Ga i k) * (r * Gb k j * ∑ d, (X k d - xb j d) ^ 2) := by
        rw [sum_mul]; exact sum_congr rfl fun i _ => by ring
      rw [hc, hA.col k]; field_simp
    rw [e1, e2, ← sum_add_distrib, mul_sum]
    unfold cost sqCost lazyPlan
    refine sum_le_sum fun i _ => ?_
    rw [← sum_add_distrib, mul_sum]
    refine sum_le_sum fun j _ => ?_
    rw [sum_mul, ← sum_add_distrib, mul_sum]
    refine sum_le_sum fun k _ => ?_
    rw [← mul_add, mul_left_comm]
    refine mul_le_mul_of_nonneg_left ?_ (mul_nonneg (mul_nonneg (hA.nonneg i k) (by positivity)) (hB.nonneg k j))
    rw [← sum_add_distrib, mul_sum]
    refine sum_le_sum fun d _ => ?_
    nlinarith [sq_nonneg ((xa i d - X k d) - (X k d - xb j d))]

/-- **C74**, the logged costs `costa` and `costb` are those of the returned plans at the template of the previous iteration: together they bound the cost at the returned template from above, and exceed it by `2 / r` times the squared last displacement. -/
theorem C74_logged_costs (xa : I → D → ℝ) (xb : J → D → ℝ) (a : I → ℝ) (b : J → ℝ) (ra : (I → Fin r → ℝ) → ℝ) (rb : (Fin r → J → ℝ) → ℝ)
    (solveA : (I → Fin r → ℝ) → (I → Fin r → ℝ)) (solveB : (Fin r → J → ℝ) → (Fin r → J → ℝ))
    (hA : ∀ M, IsPenOptimal a (w r) ra M (solveA M)) (hB : ∀ M, IsPenOptimal (w r) b rb M (solveB M)) (stopThr : ℝ) (n : ℕ) (X0 : Fin r → D → ℝ) :
    let s := factored xa xb solveA solveB stopThr n X0
    costA xa s + costB xb s = cost (sqCost xa s.X) s.Ga + cost (sqCost s.X xb) s.Gb + 2 / r * Factored.delta s.X s.old ^ 2 := by
  intro s
  obtain ⟨l, _, h2, h3, h4, _⟩ := factored_loop xa xb a b ra rb solveA solveB hA hB stopThr n X0 []
  have cA : IsCoupling a (fun _ => 1 / (r : ℝ)) s.Ga := by rw [show s.Ga = _ from h2]; exact (hA _).1
  have cB : IsCoupling (fun _ => 1 / (r : ℝ)) b s.Gb := by rw [show s.Gb = _ from h3]; exact (hB _).1
  have := factored_update xa xb (fun _ => 0) (fun _ => 0) a b s.Ga s.Gb cA cB s.old
  rw [← show s.X = update xa xb s.Ga s.Gb from h4, ← factored_delta_sq, factored_delta_symm] at this
  simp only [factoredF, add_zero] at this
  exact this

/-- The hypotheses can be met: exact transport solvers exist for probability weights. -/
example (xa : Fin 3 → Fin 2 → ℝ) (xb : Fin 4 → Fin 2 → ℝ) (X0 : Fin 2 → Fin 2 → ℝ) (n : ℕ) :
    let s := factored xa xb (exactEmd (fun _ => 1 / 3) (w 2)) (exactEmd (w 2) (fun _ => 1 / 4)) (1 / 100) n X0
    IsCoupling (fun _ : Fin 3 => (1 / 3 : ℝ)) (fun _ : Fin 4 => 1 / 4) (lazyPlan s.Ga s.Gb) := by
  intro s
  have hA : ∀ M, IsPenOptimal (fun _ : Fin 3 => (1 / 3 : ℝ)) (w 2) (fun _ => 0) M (exactEmd (fun _ => 1 / 3) (w 2) M) := fun M => by
    have := exactEmd_optimal (fun _ : Fin 3 => (1 / 3 : ℝ)) (w 2) M (product_coupling _ _ (fun _ => by norm_num) (fun _ => by norm_num [w]) (by norm_num [w]))
    exact ⟨this.1, fun P hP => by simpa using this.2 P hP⟩
  have hB : ∀ M, IsPenOptimal (w 2) (fun _ : Fin 4 => (1 / 4 : ℝ)) (fun _ => 0) M (exactEmd (w 2) (fun _ => 1 / 4) M) := fun M => by
    have := exactEmd_optimal (w 2) (fun _ : Fin 4 => (1 / 4 : ℝ)) M (product_coupling _ _ (fun _ => by norm_num [w]) (fun _ => by norm_num) (by norm_num [w]))
    exact ⟨this.1, fun P hP => by simpa using this.2 P hP⟩
  have h := C74_factored xa xb (fun _ => 1 / 3) (fun _ => 1 / 4) (fun _ => 0) (fun _ => 0) _ _ hA hB (1 / 100) n X0
  exact (C74_lazy_plan (by norm_num) xa xb _ _ _ _ h.1 h.2.1 X0).1

end POT.Props
