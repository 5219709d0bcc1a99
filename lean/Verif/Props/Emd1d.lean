import Verif.Lemmas.Emd1d
import Mathlib.Tactic.FinCases
import Mathlib.Data.Fin.VecNotation
import Mathlib.Data.Real.Basic
import Mathlib.Data.Fin.Tuple.Sort

/-! # C01 – C04: the one-dimensional solvers -/

namespace POT.Props

open Finset Emd1d Spec

/-! ## C01 -/

/-- C01. The loop of `emd_1d` returns after at most `n + m - 1` turns, without ever reading or writing outside its arrays (those are
the only two faults of the model), with at least one and at most `n + m - 1` entries whose index pairs lie in the `n × m` plan.
`A` is arbitrary: nothing is assumed about the comparison, the subtraction, … so rounding, negative
weights and NaN are covered. -/
theorem C01_emd1d_safe {R : Type*} (A : Arith R) (zero : R) (n m : ℕ) (hn : 1 ≤ n) (hm : 1 ≤ m)
    (u v : ℕ → R) (M : ℕ → ℕ → R) :
    ∃ out c, emd1dSorted A zero n m u v M (n + m - 1) = some (.ok (out, c)) ∧
      1 ≤ out.length ∧ out.length ≤ n + m - 1 ∧ ∀ e ∈ out, e.2.1 < n ∧ e.2.2 < m := by
  unfold emd1dSorted
  rw [if_neg (by omega)]
  exact run_safe A u v M _ _ ⟨hn, hm, rfl, by simp⟩ (by simp; omega)

/-- non-vacuity: an absurd arithmetic (`<` always false, subtraction adds) on a 2 × 3 problem. -/
example : ∃ out c, emd1dSorted (R := ℕ) ⟨fun _ _ => false, (· + ·), (· + ·), (· * ·)⟩ 0 2 3 id id
    (fun _ _ => 1) 4 = some (.ok (out, c)) ∧ out.length = 4 := ⟨_, _, rfl, rfl⟩

/-! ## C02 -/

/-- C02 (inner loop). Exact arithmetic, non-negative weights of equal mass: the coordinate list is a coupling and the cost is its cost. -/
theorem C02_emd1dSorted_coupling {R : Type*} [Field R] [LinearOrder R] [IsStrictOrderedRing R]
    {n m : ℕ} (hn : 1 ≤ n) (hm : 1 ≤ m) (u : Fin n → R) (v : Fin m → R)
    (hu : ∀ i, 0 ≤ u i) (hv : ∀ j, 0 ≤ v j) (hs : ∑ i, u i = ∑ j, v j) (M : ℕ → ℕ → R) :
    ∃ out c, emd1dSorted (Arith.exact R) 0 n m (fun i => if h : i < n then u ⟨i, h⟩ else 0)
        (fun j => if h : j < m then v ⟨j, h⟩ else 0) M (n + m - 1) = some (.ok (out, c)) ∧
      IsCoupling u v (fun i j => dense out i j) ∧
      c = cost (fun (i : Fin n) (j : Fin m) => M i j) (fun i j => dense out i j) := by
  obtain ⟨out, c, hrun, ho⟩ := emd1dSorted_exact (M := M) hn hm
    (u := fun i => if h : i < n then u ⟨i, h⟩ else 0) (v := fun j => if h : j < m then v ⟨j, h⟩ else 0)
    (fun k hk => by simpa [hk] using hu _) (fun k hk => by simpa [hk] using hv _)
    (by rw [← Fin.sum_univ_eq_sum_range, ← Fin.sum_univ_eq_sum_range]; simpa using hs)
  refine ⟨out, c, hrun, ?_, ho.cost_eq⟩
  simpa using ho.isCoupling

theorem exOut_of_emd1d {n m : ℕ} (hn : 1 ≤ n) (hm : 1 ≤ m) (μ : Metric) (p : ℝ)
    (xa : Fin n → ℝ) (xb : Fin m → ℝ) (a : Fin n → ℝ) (b : Fin m → ℝ)
    (permA : Equiv.Perm (Fin n)) (permB : Equiv.Perm (Fin m))
    (ha : ∀ i, 0 ≤ a i) (hb : ∀ j, 0 ≤ b j) (hs : ∑ i, a i = ∑ j, b j) (hpos : 0 < ∑ j, b j) :
    ∃ out c, emd1d μ p xa xb a b permA permB =
        some (.ok (fun i j => dense out (permA.symm i) (permB.symm j), c)) ∧
      ExOut n m (pad fun i => a (permA i)) (pad fun j => b (permB j))
        (fun i j => metricCost μ p (pad (fun i => xa (permA i)) i) (pad (fun j => xb (permB j)) j)) out c := by
  have hb' : (fun j => b j * (∑ i, a i) / (∑ j, b j)) = b := by
    funext j; rw [hs]; field_simp
  have hext : ∀ {k : ℕ} (f : Fin k → ℝ), ∑ i ∈ range k, pad f i = ∑ i, f i := by
    intro k f
    rw [← Fin.sum_univ_eq_sum_range]; simp [pad]
  obtain ⟨out, c, hrun, ho⟩ := emd1dSorted_exact hn hm
    (M := fun i j => metricCost μ p (pad (fun i => xa (permA i)) i) (pad (fun j => xb (permB j)) j))
    (u := pad fun i => a (permA i)) (v := pad fun j => b (permB j))
    (fun k hk => by simpa [pad, hk] using ha _) (fun k hk => by simpa [pad, hk] using hb _)
    (by rw [hext, hext, Equiv.sum_comp permA a, Equiv.sum_comp permB b, hs])
  refine ⟨out, c, ?_, ho⟩
  unfold emd1d
  rw [hb']
  dsimp only
  rw [hrun]
  rfl

/-- C02. `emd_1d` on unsorted samples: the plan is a coupling of `a` and `b` in the original order of the samples and the
returned cost is `∑ G_ij d(x_i, y_j)`, whatever permutations are used for sorting. -/
theorem C02_emd1d_coupling {n m : ℕ} (hn : 1 ≤ n) (hm : 1 ≤ m) (μ : Metric) (p : ℝ)
    (xa : Fin n → ℝ) (xb : Fin m → ℝ) (a : Fin n → ℝ) (b : Fin m → ℝ)
    (permA : Equiv.Perm (Fin n)) (permB : Equiv.Perm (Fin m))
    (ha : ∀ i, 0 ≤ a i) (hb : ∀ j, 0 ≤ b j) (hs : ∑ i, a i = ∑ j, b j) (hpos : 0 < ∑ j, b j) :
    ∃ G c, emd1d μ p xa xb a b permA permB = some (.ok (G, c)) ∧
      IsCoupling a b G ∧ c = cost (fun i j => metricCost μ p (xa i) (xb j)) G := by
  obtain ⟨out, c, hrun, ho⟩ := exOut_of_emd1d hn hm μ p xa xb a b permA permB ha hb hs hpos
  refine ⟨_, c, hrun, ?_, ?_⟩
  · have := ho.isCoupling.reindex permA.symm permB.symm
    simpa [pad] using this
  · rw [ho.cost_eq, ← cost_reindex permA.symm permB.symm]
    simp [pad]

/-- non-vacuity: zeros among the weights, unequal sizes. -/
example : (∀ i, 0 ≤ (![1/2, 0, 1/2] : Fin 3 → ℝ) i) ∧ (∀ j, 0 ≤ (![1/4, 3/4] : Fin 2 → ℝ) j) ∧
    ∑ i, (![1/2, 0, 1/2] : Fin 3 → ℝ) i = ∑ j, (![1/4, 3/4] : Fin 2 → ℝ) j ∧
    0 < ∑ j, (![1/4, 3/4] : Fin 2 → ℝ) j := by
  refine ⟨?_, ?_, ?_, ?_⟩
  · intro i; fin_cases i <;> norm_num
  · intro i; fin_cases i <;> norm_num
  · simp [Fin.sum_univ_succ]; norm_num
  · simp [Fin.sum_univ_succ]; norm_num

/-! ## C03 -/

/-- C03 (any convex cost). On sorted positions and any convex `h`, no coupling is cheaper than the plan of the loop for the cost
`h(x_i - y_j)`. -/
theorem C03_emd1dSorted_optimal {n m : ℕ} (hn : 1 ≤ n) (hm : 1 ≤ m) (u : Fin n → ℝ) (v : Fin m → ℝ)
    (hu : ∀ i, 0 ≤ u i) (hv : ∀ j, 0 ≤ v j) (hs : ∑ i, u i = ∑ j, v j)
    (x : Fin n → ℝ) (y : Fin m → ℝ) (hx : Monotone x) (hy : Monotone y)
    (h : ℝ → ℝ) (hh : ConvexOn ℝ Set.univ h) :
    ∃ out, emd1dSorted (Arith.exact ℝ) 0 n m (pad u) (pad v) (fun i j => h (pad x i - pad y j)) (n + m - 1)
        = some (.ok (out, cost (fun i j => h (x i - y j)) (fun i j => dense out i j))) ∧
      IsOptimal u v (fun i j => h (x i - y j)) (fun i j => dense out i j) := by
  have hext : ∀ {k : ℕ} (f : Fin k → ℝ), ∑ i ∈ range k, pad f i = ∑ i, f i := by
    intro k f
    rw [← Fin.sum_univ_eq_sum_range]; simp [pad]
  obtain ⟨out, c, hrun, ho⟩ := emd1dSorted_exact hn hm
    (M := fun i j => h (pad x i - pad y j)) (u := pad u) (v := pad v)
    (fun k hk => by simpa [pad, hk] using hu _) (fun k hk => by simpa [pad, hk] using hv _)
    (by rw [hext, hext, hs])
  refine ⟨out, ?_, ?_⟩
  · rw [hrun, ho.cost_eq]; simp [pad]
  · have := ho.isOptimal (by
      intro i i' j j' hi hi' hj hj'
      refine monge_of_convex hh ?_ ?_
      · have := @hx ⟨i, by omega⟩ ⟨i', hi'⟩ hi
        simpa [pad, hi', show i < n by omega] using this
      · have := @hy ⟨j, by omega⟩ ⟨j', hj'⟩ hj
        simpa [pad, hj', show j < m by omega] using this)
    simpa [pad] using this

/-- C03. `emd_1d` on unsorted samples, for each of the metrics accepted and `p ≥ 1`: with `argsort` permutations (all that is
used: they sort the samples) the plan is optimal and the cost returned by `emd2_1d` is the optimal value. -/
theorem C03_emd1d_optimal {n m : ℕ} (hn : 1 ≤ n) (hm : 1 ≤ m) (μ : Metric) (p : ℝ) (hp : 1 ≤ p)
    (xa : Fin n → ℝ) (xb : Fin m → ℝ) (a : Fin n → ℝ) (b : Fin m → ℝ)
    (permA : Equiv.Perm (Fin n)) (permB : Equiv.Perm (Fin m))
    (hpa : Monotone fun i => xa (permA i)) (hpb : Monotone fun j => xb (permB j))
    (ha : ∀ i, 0 ≤ a i) (hb : ∀ j, 0 ≤ b j) (hs : ∑ i, a i = ∑ j, b j) (hpos : 0 < ∑ j, b j) :
    ∃ G, emd1d μ p xa xb a b permA permB =
        some (.ok (G, cost (fun i j => metricCost μ p (xa i) (xb j)) G)) ∧
      IsOptimal a b (fun i j => metricCost μ p (xa i) (xb j)) G := by
  obtain ⟨out, c, hrun, ho⟩ := exOut_of_emd1d hn hm μ p xa xb a b permA permB ha hb hs hpos
  refine ⟨fun i j => dense out (permA.symm i) (permB.symm j), ?_, ?_⟩
  · rw [hrun, ho.cost_eq, ← cost_reindex permA.symm permB.symm]
    simp [pad]
  · obtain ⟨h, hh, he⟩ := metric_convex μ hp
    have := (ho.isOptimal (by
      intro i i' j j' hi hi' hj hj'
      simp only [he]
      refine monge_of_convex hh ?_ ?_
      · have := @hpa ⟨i, by omega⟩ ⟨i', hi'⟩ hi
        simpa [pad, hi', show i < n by omega] using this
      · have := @hpb ⟨j, by omega⟩ ⟨j', hj'⟩ hj
        simpa [pad, hj', show j < m by omega] using this)).reindex permA.symm permB.symm
    simpa [pad] using this

/-- non-vacuity: sorting permutations exist for every sample. -/
example {n : ℕ} (xa : Fin n → ℝ) : ∃ permA : Equiv.Perm (Fin n), Monotone fun i => xa (permA i) :=
  ⟨Tuple.sort xa, Tuple.monotone_sort xa⟩

/-- the convexity hypothesis cannot be dropped: for the concave cost `√|x-y|`, positions `0, 1` and `1, 2` with
uniform weights the plan of the loop (identity matching, cost 1) is beaten by the crossing matching (cost √2/2). -/
example : ∃ (x y : Fin 2 → ℝ) (G' : Fin 2 → Fin 2 → ℝ), Monotone x ∧ Monotone y ∧
    IsCoupling (fun _ => 1/2) (fun _ => 1/2) G' ∧
    cost (fun i j => Real.sqrt |x i - y j|) G' <
      cost (fun i j => Real.sqrt |x i - y j|) (fun i j => if i = j then 1/2 else 0) := by
  refine ⟨![0, 1], ![1, 2], fun i j => if i = j then 0 else 1/2, ?_, ?_, ?_, ?_⟩
  · intro i j h; fin_cases i <;> fin_cases j <;> simp_all
  · intro i j h; fin_cases i <;> fin_cases j <;> simp_all
  · refine ⟨?_, ?_, ?_⟩
    · intro i j; split_ifs <;> norm_num
    · intro i; fin_cases i <;> simp
    · intro i; fin_cases i <;> simp
  · have : Real.sqrt 2 < 2 := by
      rw [Real.sqrt_lt' (by norm_num)]; norm_num
    simp [cost, Fin.sum_univ_succ]
    norm_num
    linarith

/-! ## C04 -/

/-- C04. For `p ≥ 1` and weights of equal mass the plan reported by `wasserstein_1d` is an optimal coupling and the value is
its cost, i.e. the optimal transport value; it therefore equals the value of `emd2_1d` with
the minkowski metric. -/
theorem C04_wasserstein1d_optimal {n m : ℕ} (hn : 1 ≤ n) (hm : 1 ≤ m) (p : ℝ) (hp : 1 ≤ p)
    (xa : Fin n → ℝ) (xb : Fin m → ℝ) (a : Fin n → ℝ) (b : Fin m → ℝ)
    (permA : Equiv.Perm (Fin n)) (permB : Equiv.Perm (Fin m))
    (hpa : Monotone fun i => xa (permA i)) (hpb : Monotone fun j => xb (permB j))
    (ha : ∀ i, 0 ≤ a i) (hb : ∀ j, 0 ≤ b j) (hs : ∑ i, a i = ∑ j, b j) :
    IsOptimal a b (fun i j => |xa i - xb j| ^ p) (wasserstein1d p xa xb a b permA permB).1 ∧
    (wasserstein1d p xa xb a b permA permB).2 =
      cost (fun i j => |xa i - xb j| ^ p) (wasserstein1d p xa xb a b permA permB).1 := by
  have hext : ∀ {k : ℕ} (f : Fin k → ℝ), ∑ i ∈ range k, pad f i = ∑ i, f i := by
    intro k f
    rw [← Fin.sum_univ_eq_sum_range]; simp [pad]
  have ho := wasserstein1dSorted_exOut hn hm
    (M := fun i j => |pad (fun i => xa (permA i)) i - pad (fun j => xb (permB j)) j| ^ p)
    (u := pad fun i => a (permA i)) (v := pad fun j => b (permB j))
    (fun k hk => by simpa [pad, hk] using ha _) (fun k hk => by simpa [pad, hk] using hb _)
    (by rw [hext, hext, Equiv.sum_comp permA a, Equiv.sum_comp permB b, hs])
  constructor
  · have := (ho.isOptimal (by
      intro i i' j j' hi hi' hj hj'
      refine monge_of_convex (convex_abs_rpow hp) ?_ ?_
      · have := @hpa ⟨i, by omega⟩ ⟨i', hi'⟩ hi
        simpa [pad, hi', show i < n by omega] using this
      · have := @hpb ⟨j, by omega⟩ ⟨j', hj'⟩ hj
        simpa [pad, hj', show j < m by omega] using this)).reindex permA.symm permB.symm
    simpa [pad, wasserstein1d] using this
  · have h := ho.cost_eq
    rw [← cost_reindex permA.symm permB.symm] at h
    simpa [pad, wasserstein1d] using h

/-- C04. `wasserstein_1d` and `emd2_1d(metric="minkowski")` return the same number (even with different tie-breaking in
the two sorts). -/
theorem C04_wasserstein1d_eq_emd2_1d {n m : ℕ} (hn : 1 ≤ n) (hm : 1 ≤ m) (p : ℝ) (hp : 1 ≤ p)
    (xa : Fin n → ℝ) (xb : Fin m → ℝ) (a : Fin n → ℝ) (b : Fin m → ℝ)
    (permA permA' : Equiv.Perm (Fin n)) (permB permB' : Equiv.Perm (Fin m))
    (hpa : Monotone fun i => xa (permA i)) (hpb : Monotone fun j => xb (permB j))
    (hpa' : Monotone fun i => xa (permA' i)) (hpb' : Monotone fun j => xb (permB' j))
    (ha : ∀ i, 0 ≤ a i) (hb : ∀ j, 0 ≤ b j) (hs : ∑ i, a i = ∑ j, b j) (hpos : 0 < ∑ j, b j) :
    ∃ G, emd1d .minkowski p xa xb a b permA permB =
      some (.ok (G, (wasserstein1d p xa xb a b permA' permB').2)) := by
  obtain ⟨G, hrun, hopt⟩ := C03_emd1d_optimal hn hm .minkowski p hp xa xb a b permA permB hpa hpb ha hb hs hpos
  obtain ⟨hopt', hval⟩ := C04_wasserstein1d_optimal hn hm p hp xa xb a b permA' permB' hpa' hpb' ha hb hs
  refine ⟨G, ?_⟩
  rw [hrun, hval]
  congr 3
  exact le_antisymm (hopt.2 _ hopt'.1) (hopt'.2 _ hopt.1)

end POT.Props
