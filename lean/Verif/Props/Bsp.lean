import Mathlib.Tactic.FinCases
import Mathlib.Data.Fintype.Perm
import Verif.Lemmas.BspCall
import Verif.Spec.Barycenter

/-!
# C118: binary space partition bijections (`ot.bsp`)
-/

set_option linter.unusedSectionVars false

namespace POT.Props

open POT.Bsp POT.Spec Function

variable {n d : ℕ}

/-- **C118** (merging): whatever the ground cost and however ties between plans are ranked, merging bijections,
optionally from an initial one, gives a bijection whose mean cost is at most that of every input. -/
theorem C118_merge (c : Fin n → Fin n → ℝ) {plans : List (Fin n → Fin n)} {T0 : Option (Fin n → Fin n)}
    {R : Fin n → Fin n} (hp : ∀ T ∈ plans, Bijective T) (h0 : ∀ T, T0 = some T → Bijective T)
    (h : Merged c plans T0 R) :
    Bijective R ∧ (∀ T ∈ plans, bijCost c R ≤ bijCost c T) ∧ ∀ T, T0 = some T → bijCost c R ≤ bijCost c T := by
  obtain ⟨k1, k2, k3⟩ := h.ok (fun T hT => (hp T hT).1) fun T hT => (h0 T hT).1
  exact ⟨Finite.injective_iff_bijective.1 k1, k2, k3⟩

/-- A merge exists as soon as there is a plan. -/
example (c : Fin n → Fin n → ℝ) (plans : List (Fin n → Fin n)) (h : plans ≠ []) (T0 : Option (Fin n → Fin n)) :
    ∃ R, Merged c plans T0 R := exists_merged c plans h T0

/-- **C118** (two plans): the merge of two bijections is at most as expensive as every bijection that sends each
point where one of the two sends it. -/
theorem C118_mix (c : Fin n → Fin n → ℝ) {S T R : Fin n → Fin n} (hS : Bijective S) (hT : Bijective T)
    (h : Merged c [S, T] none R ∨ Merged c [T] (some S) R) :
    ∀ ρ : Fin n → Fin n, Bijective ρ → Mixes S T ρ → bijCost c R ≤ bijCost c ρ := by
  intro ρ hρ hm
  have key : ∀ S T : Fin n → Fin n, Bijective S → Bijective T → Mixes S T ρ →
      bijCost c (mergeOne c (curOf c S) T).rslt ≤ bijCost c ρ := by
    intro S T hS hT hm
    obtain ⟨k1, k2⟩ := mergeOne_ok (curOf_ok c hS.1) hT.1
    have := k2 ρ hρ.1 hm
    rw [k1.cost] at this
    exact bijCost_le this
  rcases h with ⟨ranked, hr, h⟩ | ⟨ranked, hr, h⟩
  · have hpair : ranked = [S, T] ∨ ranked = [T, S] := by
      obtain ⟨a, b, rfl⟩ := List.length_eq_two.1 hr.1.length_eq
      have ha : a ∈ [S, T] := hr.1.mem_iff.1 (List.mem_cons_self ..)
      rcases List.mem_cons.1 ha with rfl | ha
      · left; rw [List.singleton_perm_singleton.1 ((List.perm_cons a).1 hr.1)]
      · rw [List.mem_singleton] at ha
        subst ha
        right; rw [List.singleton_perm_singleton.1 ((List.perm_cons a).1 (hr.1.trans (List.Perm.swap a S [])))]
    rcases hpair with rfl | rfl
    · simp only [mergeRanked, List.foldl, Option.some.injEq] at h
      rw [← h]; exact key S T hS hT hm
    · simp only [mergeRanked, List.foldl, Option.some.injEq] at h
      rw [← h]; exact key T S hT hS fun i => (hm i).symm
  · rw [List.perm_singleton.1 hr.1] at h
    simp only [mergeRanked, List.foldl, Option.some.injEq] at h
    rw [← h]; exact key S T hS hT hm

/-- Two transpositions of four points and one of the four bijections that mix them. -/
example : Bijective (![1, 0, 2, 3] : Fin 4 → Fin 4) ∧ Bijective (![0, 1, 3, 2] : Fin 4 → Fin 4) ∧
    Bijective (![1, 0, 3, 2] : Fin 4 → Fin 4) ∧ Mixes ![1, 0, 2, 3] ![0, 1, 3, 2] (![1, 0, 3, 2] : Fin 4 → Fin 4) := by
  refine ⟨by decide, by decide, by decide, ?_⟩
  intro i; fin_cases i <;> simp

/-- **C118** (copies): merging copies of one bijection returns it. -/
theorem C118_copies (c : Fin n → Fin n → ℝ) {plans : List (Fin n → Fin n)} {T0 : Option (Fin n → Fin n)}
    {T R : Fin n → Fin n} (hT : Bijective T) (hp : ∀ U ∈ plans, U = T) (h0 : ∀ U, T0 = some U → U = T)
    (h : Merged c plans T0 R) : R = T := h.self hT.1 hp h0

/-- **C118** (the call): whatever the random draws, the slicing heuristic and the number of plans,
`compute_bspot_bijection` returns a bijection, its cost is the documented mean cost of that bijection, the
intermediary plans are `n_plans` bijections, the cost is at most that of each of them and of the initial
bijection, and it is at least the optimal transport value between the two uniform point clouds, being the cost of
the plan that puts mass `1/n` on each pair. -/
theorem C118_call {X Y : Fin n → Fin d → ℝ} {nPlans : ℕ} {p : ℤ} {T0 : Option (Fin n → Fin n)} {gaussian : Bool}
    {cost' : ℝ} {perm : Fin n → Fin n} {perms : List (Fin n → Fin n)} {c : Fin n → Fin n → ℝ}
    (hc : ∀ i j, IsGroundCost p (X i) (Y j) (c i j)) (h0 : ∀ T, T0 = some T → Bijective T)
    (h : Bspot (fun _ => True) X Y nPlans p T0 gaussian (cost', perm, perms)) :
    Bijective perm ∧ cost' = bijCost c perm ∧ perms.length = nPlans ∧
    (∀ T ∈ perms, Bijective T ∧ cost' ≤ bijCost c T) ∧ (∀ T, T0 = some T → cost' ≤ bijCost c T) ∧
    IsCoupling (fun _ => 1 / (n : ℝ)) (fun _ => 1 / (n : ℝ)) (bijectionPlan perm) ∧
    cost c (bijectionPlan perm) = cost' ∧
    ∀ v, IsOtValue (fun _ : Fin n => 1 / (n : ℝ)) (fun _ : Fin n => 1 / (n : ℝ)) c v → v ≤ cost' := by
  obtain ⟨h1, h2, h3, h4⟩ := h
  simp only at h1 h2 h3 h4
  have hmc : (fun i j => makeCost p (X i) (Y j)) = c := funext fun i => funext fun j => makeCost_eq (hc i j)
  rw [hmc] at h3
  have hb : ∀ T ∈ perms, Bijective T := fun T hT => (h2 T hT).bijective
  obtain ⟨k1, k2, k3⟩ := C118_merge c hb h0 h3
  have hcost : cost' = bijCost c perm := by rw [h4, pyCost_eq hc]
  have hpl := bijectionPlan_coupling k1
  refine ⟨k1, hcost, h1, fun T hT => ⟨hb T hT, hcost ▸ k2 T hT⟩, fun T hT => hcost ▸ k3 T hT, hpl, ?_, ?_⟩
  · rw [cost_bijectionPlan, hcost]
  · intro v hv
    refine hv.2 ⟨_, hpl, ?_⟩
    rw [cost_bijectionPlan, hcost]

/-- There is an outcome for every pair of clouds, slicing and positive number of plans, and a ground cost for
every power. -/
example (hn : 0 < n) (hd : 0 < d) (X Y : Fin n → Fin d → ℝ) (p : ℤ) (T0 : Option (Fin n → Fin n)) (gaussian : Bool) :
    (∃ out, Bspot (fun _ => True) X Y 64 p T0 gaussian out) ∧
    ∃ c : Fin n → Fin n → ℝ, ∀ i j, IsGroundCost p (X i) (Y j) (c i j) := by
  refine ⟨exists_bspot hn X Y (fun _ => True) ?_ gaussian trivial (by norm_num) p T0, ?_⟩
  · intro ctx gap _
    rcases ctx with _ | prev | _
    · exact ⟨_, _, Dir.plain gap 0, trivial, trivial⟩
    · rcases prev with _ | prev
      · exact ⟨_, _, Dir.nan gap, trivial, trivial⟩
      · exact ⟨_, _, Dir.ortho gap prev 0, trivial, trivial⟩
    · by_cases h : gap < 50
      · exact ⟨_, _, Dir.gaussSmall gap 0 0 h, trivial, trivial⟩
      · exact ⟨_, _, Dir.gauss gap 0 (by omega), trivial, trivial⟩
  · choose c hc using fun i j => exists_groundCost p (Or.inr hd) (X i) (Y j)
    exact ⟨c, hc⟩

/-- **C118** (no warning): the cost accumulated by the compiled solver is the one recomputed in Python. -/
theorem C118_inner {X Y : Fin n → Fin d → ℝ} {p : ℤ} {c : Fin n → Fin n → ℝ}
    (hc : ∀ i j, IsGroundCost p (X i) (Y j) (c i j)) (perm : Fin n → Fin n) :
    evalMatching (fun i j => makeCost p (X i) (Y j)) perm = bijCost c perm ∧
    pyCost p X Y perm = bijCost c perm := by
  refine ⟨?_, pyCost_eq hc perm⟩
  rw [evalMatching_eq]
  have hmc : (fun i j => makeCost p (X i) (Y j)) = c := funext fun i => funext fun j => makeCost_eq (hc i j)
  rw [hmc]

/-- **C118** (similarity): if the second cloud is the first one scaled by a positive factor and translated, and
the directions drawn separate its points, every intermediary plan and the result are the identity. -/
theorem C118_similarity {X Y : Fin n → Fin d → ℝ} {s : ℝ} {t : Fin d → ℝ} (hs : 0 < s)
    (hY : ∀ i k, Y i k = s * X i k + t k) {nPlans : ℕ} {p : ℤ} {gaussian : Bool} {T0 : Option (Fin n → Fin n)}
    (h0 : T0 = none ∨ T0 = some id) {cost' : ℝ} {perm : Fin n → Fin n} {perms : List (Fin n → Fin n)}
    (h : Bspot (fun v => ∃ w, v = some w ∧ ∀ i j, ∑ k, w k * X i k = ∑ k, w k * X j k → i = j) X Y nPlans p T0
      gaussian (cost', perm, perms)) :
    perm = id ∧ ∀ T ∈ perms, T = id := by
  obtain ⟨_, h2, h3, _⟩ := h
  simp only at h2 h3
  have hid : ∀ T ∈ perms, T = id := by
    intro T hT
    obtain ⟨LA, LB, hr, rfl⟩ := h2 T hT
    have := hr.similar (X := X) (Y := Y)
      (by
        rintro v ⟨w, rfl, hw⟩
        refine ⟨w, rfl, fun i j hij => hw i j hij, fun i j hij => ?_⟩
        rw [show Y i = fun k => s * X i k + t k from funext (hY i), show Y j = fun k => s * X j k + t k from funext (hY j),
          dot_affine, dot_affine] at hij
        exact le_of_mul_le_mul_left (by linarith) hs) (List.Perm.refl _) (List.nodup_finRange n)
    rw [← this]
    exact planOf_self hr.perm.1
  refine ⟨h3.self injective_id hid ?_, hid⟩
  intro U hU
  rcases h0 with h0 | h0 <;> rw [h0] at hU
  · simp at hU
  · exact (Option.some.inj hU).symm

/-- With the default Gaussian slicing: points on the diagonal of the plane are separated by the directions
`(1, 0)` and `(0, 1)`, which the recursion can alternate. -/
example (hn : 0 < n) : ∃ out, Bspot (n := n) (fun v => ∃ w, v = some w ∧ ∀ i j : Fin n,
      ∑ k, w k * (fun (i : Fin n) (_ : Fin 2) => (i.val : ℝ)) i k = ∑ k, w k * (fun (i : Fin n) (_ : Fin 2) => (i.val : ℝ)) j k → i = j)
    (fun i _ => (i.val : ℝ)) (fun i k => 2 * (i.val : ℝ) + (![1, 0] : Fin 2 → ℝ) k) 64 2 none true out := by
  have hsep : ∀ w : Fin 2 → ℝ, w 0 + w 1 = 1 → ∀ i j : Fin n, ∑ k, w k * (i.val : ℝ) = ∑ k, w k * (j.val : ℝ) → i = j := by
    intro w hw i j h
    rw [Fin.sum_univ_two, Fin.sum_univ_two, ← add_mul, ← add_mul, hw, one_mul, one_mul] at h
    exact Fin.ext (by exact_mod_cast h)
  have o1 : orthoDir (![0, 1] : Fin 2 → ℝ) ![1, 0] = some ![0, 1] := by
    unfold orthoDir
    rw [if_neg (by simp [dot])]
    congr 1
    have : (fun k => (![0, 1] : Fin 2 → ℝ) k - dot ![0, 1] ![1, 0] * (![1, 0] : Fin 2 → ℝ) k / dot ![1, 0] ![1, 0]) = ![0, 1] := by
      funext k; fin_cases k <;> simp [dot]
    rw [this]
    funext k; fin_cases k <;> simp [Bsp.normalize, dot]
  have o2 : orthoDir (![1, 0] : Fin 2 → ℝ) ![0, 1] = some ![1, 0] := by
    unfold orthoDir
    rw [if_neg (by simp [dot])]
    congr 1
    have : (fun k => (![1, 0] : Fin 2 → ℝ) k - dot ![1, 0] ![0, 1] * (![0, 1] : Fin 2 → ℝ) k / dot ![0, 1] ![0, 1]) = ![1, 0] := by
      funext k; fin_cases k <;> simp [dot]
    rw [this]
    funext k; fin_cases k <;> simp [Bsp.normalize, dot]
  refine exists_bspot hn _ _ (fun ctx => ctx = .gauss ∨ ctx = .ortho (some ![0, 1]) ∨ ctx = .ortho (some ![1, 0])) ?_
    true (Or.inl rfl) (by norm_num) 2 none
  rintro ctx gap (rfl | rfl | rfl)
  · by_cases h : gap < 50
    · have := Dir.gaussSmall gap ![1, 0] (![0, 1] : Fin 2 → ℝ) h
      rw [o1] at this
      exact ⟨_, _, this, ⟨_, rfl, hsep _ (by simp)⟩, Or.inr (Or.inl rfl)⟩
    · exact ⟨_, _, Dir.gauss gap ![1, 0] (by omega), ⟨_, rfl, hsep _ (by simp)⟩, Or.inl rfl⟩
  · have := Dir.ortho gap ![0, 1] (![1, 0] : Fin 2 → ℝ)
    rw [o2] at this
    exact ⟨_, _, this, ⟨_, rfl, hsep _ (by simp)⟩, Or.inr (Or.inr rfl)⟩
  · have := Dir.ortho gap ![1, 0] (![0, 1] : Fin 2 → ℝ)
    rw [o1] at this
    exact ⟨_, _, this, ⟨_, rfl, hsep _ (by simp)⟩, Or.inr (Or.inl rfl)⟩

/-- **C118** (line): between points on a line, for `p ≥ 1` and `gaussian_slicing=False`, if no direction drawn is
zero then the result is exact: every intermediary plan is an optimal transport plan and the cost is the optimal
transport value. -/
theorem C118_line {X Y : Fin n → Fin 1 → ℝ} {nPlans : ℕ} {p : ℤ} (hp : 1 ≤ p) {T0 : Option (Fin n → Fin n)}
    (h0 : ∀ T, T0 = some T → Bijective T) {cost' : ℝ} {perm : Fin n → Fin n} {perms : List (Fin n → Fin n)}
    (h : Bspot (fun v => ∃ w, v = some w ∧ w 0 ≠ 0) X Y nPlans p T0 false (cost', perm, perms)) :
    IsOtValue (fun _ : Fin n => 1 / (n : ℝ)) (fun _ : Fin n => 1 / (n : ℝ)) (fun i j => |X i 0 - Y j 0| ^ p) cost' ∧
    (∀ T ∈ perms, IsOptimal (fun _ => 1 / (n : ℝ)) (fun _ => 1 / (n : ℝ)) (fun i j => |X i 0 - Y j 0| ^ p) (bijectionPlan T)) ∧
    IsOptimal (fun _ => 1 / (n : ℝ)) (fun _ => 1 / (n : ℝ)) (fun i j => |X i 0 - Y j 0| ^ p) (bijectionPlan perm) := by
  obtain ⟨_, h2, h3, h4⟩ := h
  simp only at h2 h3 h4
  have hc : ∀ i j, IsGroundCost p (X i) (Y j) (|X i 0 - Y j 0| ^ p) := fun i j =>
    ⟨fun h => by omega, fun _ => by simp [lpPow]⟩
  have hmc : (fun i j => makeCost p (X i) (Y j)) = fun i j => |X i 0 - Y j 0| ^ p :=
    funext fun i => funext fun j => makeCost_eq (hc i j)
  rw [hmc] at h3
  have hb : ∀ T ∈ perms, Bijective T := fun T hT => (h2 T hT).bijective
  have hopt : ∀ T ∈ perms, IsOptimal (fun _ => 1 / (n : ℝ)) (fun _ => 1 / (n : ℝ)) (fun i j => |X i 0 - Y j 0| ^ p)
      (bijectionPlan T) := by
    intro T hT
    have hco := (h2 T hT).comonotone fun v hv => hv
    have hconv := Emd1d.convex_abs_rpow (p := (p : ℝ)) (by exact_mod_cast hp)
    have := isOptimal_of_line (x := fun i => X i 0) (y := fun j => Y j 0) (hb T hT) hco hconv
    simpa only [Real.rpow_intCast] using this
  obtain ⟨k1, k2, _⟩ := C118_merge _ hb h0 h3
  obtain ⟨T, hT⟩ : ∃ T, T ∈ perms := by
    obtain ⟨ranked, hr, hm⟩ := h3
    rcases ranked with _ | ⟨T, l⟩
    · rcases T0 with _ | T0 <;> simp [mergeRanked] at hm
    · exact ⟨T, hr.1.mem_iff.1 (List.mem_cons_self ..)⟩
  have hpl := bijectionPlan_coupling k1
  have hmin : IsOptimal (fun _ => 1 / (n : ℝ)) (fun _ => 1 / (n : ℝ)) (fun i j => |X i 0 - Y j 0| ^ p)
      (bijectionPlan perm) := by
    refine ⟨hpl, fun G hG => ?_⟩
    rw [cost_bijectionPlan]
    refine (k2 T hT).trans ?_
    rw [← cost_bijectionPlan]
    exact (hopt T hT).2 G hG
  have hcost : cost' = cost (fun i j => |X i 0 - Y j 0| ^ p) (bijectionPlan perm) := by
    rw [h4, pyCost_eq hc, cost_bijectionPlan]
  refine ⟨⟨⟨_, hpl, hcost.symm⟩, ?_⟩, hopt, hmin⟩
  rintro v ⟨G, hG, rfl⟩
  rw [hcost]
  exact hmin.2 G hG

/-- Such an outcome exists for all points. -/
example (hn : 0 < n) (X Y : Fin n → Fin 1 → ℝ) :
    ∃ out, Bspot (fun v => ∃ w, v = some w ∧ w 0 ≠ 0) X Y 64 2 none false out :=
  exists_bspot hn X Y (fun ctx => ctx = .plain)
    (by rintro ctx gap rfl; exact ⟨_, _, Dir.plain gap 1, ⟨1, rfl, by simp⟩, rfl⟩) false rfl (by norm_num) 2 none

/-- **C118** (line, default slicing): with the default `gaussian_slicing` fewer than 50 points on a line are cut
along directions made orthogonal to another one, which leaves only the zero direction: the coordinates play no
role, any bijection may be generated whatever the points, and the exactness of `C118_line` is lost: two points and
their mirror image, where the matching of zero cost exists, may be matched at cost 1. -/
theorem C118_line_refuted :
    (∀ (n : ℕ) (X Y : Fin n → Fin 1 → ℝ) (T : Fin n → Fin n), 0 < n → n < 50 → Bijective T →
      Matching (fun _ => True) X Y .gauss T) ∧
    ∃ X Y : Fin 2 → Fin 1 → ℝ, (∃ T : Fin 2 → Fin 2, Bijective T ∧ bijCost (fun i j => lpPow 2 (X i) (Y j)) T = 0) ∧
      ∀ nPlans, 0 < nPlans → ∃ perms, Bspot (fun _ => True) X Y nPlans 2 none true (1, id, perms) := by
  refine ⟨fun n X Y T hn h50 hT => matching_line_any X Y hn h50 hT, fun i _ => i.val, fun i _ => 1 - i.val,
    ⟨![1, 0], by decide, by simp [bijCost, lpPow]⟩, fun nPlans hN => ?_⟩
  refine ⟨List.replicate nPlans id, by simp, fun T hT => ?_, ?_, ?_⟩
  · rw [List.eq_of_mem_replicate hT]
    exact matching_line_any _ _ (by norm_num) (by norm_num) bijective_id
  · obtain ⟨R, hR⟩ := exists_merged (n := 2) (fun i j => makeCost 2 ((fun (i : Fin 2) (_ : Fin 1) => (i.val : ℝ)) i)
      ((fun (i : Fin 2) (_ : Fin 1) => (1 - i.val : ℝ)) j)) (List.replicate nPlans id) (by simp; omega) none
    have hid : R = id := hR.self injective_id (fun U hU => List.eq_of_mem_replicate hU) (by simp)
    rw [hid] at hR
    exact hR
  · simp [pyCost]

/-! ### `merge_bijections` -/

/-- **C118** (`merge_bijections`, square case): when there are as many bijections as points the documented
guarantee holds.  Missing: any other number of bijections. -/
theorem C118_merge_bijections_partial {X Y : Fin n → Fin d → ℝ} {p : ℤ} {perms : List (Fin n → Fin n)} {cost' : ℝ}
    {perm : Fin n → Fin n} {c : Fin n → Fin n → ℝ} (hc : ∀ i j, IsGroundCost p (X i) (Y j) (c i j))
    (hp : ∀ T ∈ perms, Bijective T) (hlen : perms.length = n) (h : MergeCall X Y perms p (cost', perm)) :
    Bijective perm ∧ cost' = bijCost c perm ∧ ∀ T ∈ perms, cost' ≤ bijCost c T := by
  obtain ⟨plans, h1, h2, h3⟩ := h
  simp only at h2 h3
  have hn : 0 < n := by
    rcases Nat.eq_zero_or_pos n with rfl | hn
    · simp only [readPlans, List.range_zero, List.mapM_nil] at h1
      have : plans = [] := by cases h1; rfl
      obtain ⟨r, hr, hm⟩ := h2
      rw [this] at hr
      rw [hr.1.eq_nil] at hm
      simp [mergeRanked] at hm
    · exact hn
  rw [readPlans_eq hn, if_neg (by omega), List.take_of_length_le (by omega)] at h1
  cases h1
  have hmc : (fun i j => makeCost p (X i) (Y j)) = c := funext fun i => funext fun j => makeCost_eq (hc i j)
  rw [hmc] at h2
  obtain ⟨k1, k2, _⟩ := C118_merge c hp (by simp) h2
  have hcost : cost' = bijCost c perm := by rw [h3, pyCost_eq hc]
  exact ⟨k1, hcost, fun T hT => hcost ▸ k2 T hT⟩

/-- Three rotations of three points of the plane. -/
example : ∃ out, MergeCall (n := 3) (d := 2) (fun i _ => i.val) (fun i _ => i.val ^ 2)
    [![0, 1, 2], ![1, 2, 0], ![2, 0, 1]] 2 out := by
  refine exists_mergeCall _ _ _ [![0, 1, 2], ![1, 2, 0], ![2, 0, 1]] 2 ?_ (by simp)
  rw [readPlans_eq (by norm_num), if_neg (by simp), List.take_of_length_le (by simp)]

/-- **C118** (number of bijections): the number of points is passed for the number of bijections.  With fewer
bijections than points the call reads past the end of the array, whatever the data; with more, those after the
first `n` are ignored. -/
theorem C118_merge_count {X Y : Fin n → Fin d → ℝ} {p : ℤ} {perms : List (Fin n → Fin n)} (hn : 0 < n) :
    (perms.length < n → readPlans perms = none ∧ ∀ out, ¬ MergeCall X Y perms p out) ∧
    (∀ out, MergeCall X Y perms p out ↔ MergeCall X Y (perms.take n) p out) := by
  refine ⟨fun h => ?_, fun out => ?_⟩
  · have hnone : readPlans perms = none := by rw [readPlans_eq hn, if_pos h]
    refine ⟨hnone, fun out ⟨plans, h1, _⟩ => ?_⟩
    rw [hnone] at h1
    simp at h1
  · unfold MergeCall
    rw [readPlans_eq hn, readPlans_eq hn, List.take_take, min_self, List.length_take]
    by_cases h : perms.length < n
    · rw [if_pos h, if_pos (by omega)]
    · rw [if_neg h, if_neg (by omega)]

/-- **C118** (refuted): "the new bijection is guaranteed to have a transport cost no greater than the cost of any
of the input bijections" fails: three bijections of two points, the third of cost 0, are merged into one of cost 1. -/
theorem C118_merge_bijections_refuted :
    ∃ (X Y : Fin 2 → Fin 1 → ℝ) (perms : List (Fin 2 → Fin 2)), (∀ T ∈ perms, Bijective T) ∧
      (∃ out, MergeCall X Y perms 2 out) ∧
      ∀ out, MergeCall X Y perms 2 out → ∃ T ∈ perms, bijCost (fun i j => lpPow 2 (X i) (Y j)) T < out.1 := by
  have hself : ∀ (c : Fin 2 → Fin 2 → ℝ) R, Merged c [id, id] none R → R = id := fun c R h =>
    h.self injective_id (by simp) (by simp)
  have hread : readPlans ([id, id, ![1, 0]] : List (Fin 2 → Fin 2)) = some [id, id] := by
    rw [readPlans_eq (by norm_num), if_neg (by simp)]; rfl
  refine ⟨fun i _ => i.val, fun i _ => 1 - i.val, [id, id, ![1, 0]], ?_, ?_, ?_⟩
  · intro T hT
    simp only [List.mem_cons, List.not_mem_nil, or_false] at hT
    rcases hT with rfl | rfl | rfl
    · exact bijective_id
    · exact bijective_id
    · decide
  · exact exists_mergeCall _ _ _ _ 2 hread (by simp)
  · rintro ⟨cost', R⟩ ⟨plans, h1, h2, h3⟩
    rw [hread] at h1
    cases h1
    simp only at h2 h3
    have := hself _ _ h2
    subst this
    refine ⟨![1, 0], by simp, ?_⟩
    rw [h3]
    simp [bijCost, lpPow, pyCost]

/-! ### Seed -/

/-- **C118** (threads): in a fresh process plan `i` is what a serial run would have produced as its `k`-th plan,
where `k` counts the earlier plans of the same thread: threads repeat each other's plans.  In particular with one
plan per thread all plans are the same, and merging them returns it. -/
theorem C118_threads {Ω : Type} (gen : ℕ → ℕ → Ω) (one : (ℕ → Ω) → (Fin n → Fin n) × ℕ) (seed : ℕ) (sched : List ℕ) :
    (∀ i t, sched[i]? = some t → (drawPlans gen one seed sched fun _ => none).1[i]? =
      some (streamItem one (gen seed) ((sched.take i).count t))) ∧
    (sched.Nodup → (drawPlans gen one seed sched fun _ => none).1 =
      List.replicate sched.length (streamItem one (gen seed) 0)) ∧
    (sched.Nodup → Bijective (streamItem one (gen seed) 0) → ∀ (c : Fin n → Fin n → ℝ) (R : Fin n → Fin n),
      Merged c (drawPlans gen one seed sched fun _ => none).1 none R → R = streamItem one (gen seed) 0) := by
  have h1 : ∀ i t, sched[i]? = some t → (drawPlans gen one seed sched fun _ => none).1[i]? =
      some (streamItem one (gen seed) ((sched.take i).count t)) := by
    intro i t hi
    have := drawPlans_items gen one seed sched (fun _ => none) (fun _ => 0) (fun _ => rfl) i t hi
    rwa [Nat.zero_add] at this
  have h2 : sched.Nodup → (drawPlans gen one seed sched fun _ => none).1 =
      List.replicate sched.length (streamItem one (gen seed) 0) := by
    intro hn
    refine List.ext_getElem? fun i => ?_
    by_cases hi : i < sched.length
    · rw [h1 i sched[i] (List.getElem?_eq_getElem hi), List.getElem?_replicate, if_pos hi,
        List.count_eq_zero_of_not_mem]
      intro hm
      obtain ⟨j, hj, he⟩ := List.getElem_of_mem hm
      rw [List.length_take] at hj
      rw [List.getElem_take] at he
      have := (List.Nodup.getElem_inj_iff hn).1 he
      omega
    · rw [List.getElem?_eq_none (by rw [drawPlans_length]; omega), List.getElem?_eq_none (by simp; omega)]
  refine ⟨h1, h2, fun hn hb c R hR => ?_⟩
  rw [h2 hn] at hR
  exact hR.self hb.1 (fun U hU => List.eq_of_mem_replicate hU) (by simp)

/-- Eight threads, one plan each. -/
example : (List.range 8).Nodup := List.nodup_range

/-- **C118** (one thread): in a fresh process on one thread, the plans depend on the seed alone: they are the
first readings of its stream.  Missing: later calls and several threads (see `C118_seed_refuted`). -/
theorem C118_seed_partial {Ω Q : Type} (gen : ℕ → ℕ → Ω) (one : (ℕ → Ω) → Q × ℕ) (seed t m : ℕ) :
    (drawPlans gen one seed (List.replicate m t) fun _ => none).1 = (List.range m).map (streamItem one (gen seed)) := by
  refine List.ext_getElem? fun i => ?_
  by_cases hi : i < m
  · rw [drawPlans_items gen one seed _ (fun _ => none) (fun _ => 0) (fun _ => rfl) i t (by simp [hi])]
    simp [hi, List.take_replicate, hi.le]
  · rw [List.getElem?_eq_none (by rw [drawPlans_length]; simp; omega), List.getElem?_eq_none (by simp; omega)]

/-- **C118** (later calls): once its threads have drawn, a call ignores its seed, and continues where the previous
one stopped instead of starting again. -/
theorem C118_seed_ignored {Ω Q : Type} (gen : ℕ → ℕ → Ω) (one : (ℕ → Ω) → Q × ℕ) (seed seed' : ℕ) (sched : List ℕ)
    (st : Engines) :
    let first := drawPlans gen one seed sched st
    drawPlans gen one seed' sched first.2 = drawPlans gen one seed sched first.2 ∧
    (drawPlans gen one seed (sched ++ sched) st).1 = first.1 ++ (drawPlans gen one seed sched first.2).1 := by
  intro first
  exact ⟨drawPlans_seed gen one seed' seed sched _ fun t ht => drawPlans_drawn gen one seed sched st t (Or.inr ht),
    drawPlans_append gen one seed sched sched st⟩

/-- **C118** (refuted): the seed does not make calls reproducible: two calls with the same seed and schedule in one
process can draw different bijections, and so can two schedules in fresh processes. -/
theorem C118_seed_refuted :
    ∃ (gen : ℕ → ℕ → ℕ) (one : (ℕ → ℕ) → (Fin 2 → Fin 2) × ℕ), (∀ s, Bijective (one s).1) ∧
      (∃ sched, (drawPlans gen one 0 sched (drawPlans gen one 0 sched fun _ => none).2).1 ≠
        (drawPlans gen one 0 sched fun _ => none).1) ∧
      ∃ sched sched' : List ℕ, sched.length = sched'.length ∧
        (drawPlans gen one 0 sched fun _ => none).1 ≠ (drawPlans gen one 0 sched' fun _ => none).1 := by
  refine ⟨fun s k => s + k, fun s => (if s 0 % 2 = 0 then id else ![1, 0], 1), ?_, ⟨[0], ?_⟩, [0, 0], [0, 1], rfl, ?_⟩
  · intro s
    simp only
    split_ifs
    · exact bijective_id
    · decide
  · intro h
    have := congrFun (List.cons.inj h).1 0
    simp [drawPlan, drawPlans] at this
  · intro h
    have := congrFun (List.cons.inj (List.cons.inj h).2).1 0
    simp [drawPlan] at this

end POT.Props
