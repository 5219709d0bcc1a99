import Verif.Lemmas.Gnn
import Verif.Spec.Transport
import Mathlib.Tactic.FinCases
import Mathlib.Algebra.BigOperators.Field

/-! # C131: distances of graphs to templates (graph neural network layers) -/

set_option linter.unusedSectionVars false

namespace POT.Props

open Spec Gnn Finset

variable {F : Type*} {k K : ℕ}

private theorem batched_collate (f : Graph F → Except Err (List ℝ)) (Gs : List (List F × List (ℕ × ℕ))) (hne : Gs ≠ []) (hpos : ∀ G ∈ Gs, G.1 ≠ []) (hG : ∀ G ∈ Gs, EdgesOk G) :
    batched f ⟨(collate 0 0 Gs).1, (collate 0 0 Gs).2.1⟩ (collate 0 0 Gs).2.2 = collect (Gs.map fun G => f ⟨G.1, G.2⟩) := by
  unfold batched
  rw [collate_max Gs hne hpos]
  have hl : 0 < Gs.length := List.length_pos_iff.2 hne
  dsimp only
  rw [show 0 + Gs.length - 1 + 1 = Gs.length by omega]
  congr 1
  refine List.ext_getElem (by simp) fun t h1 h2 => ?_
  have ht : t < Gs.length := by simpa using h1
  have := subgraph_collate Gs hG [] [] [] 0 rfl (by simp) (by simp) t ht
  simp only [List.nil_append, List.length_nil, Nat.zero_add] at this
  simp only [List.getElem_map, List.getElem_range, this]

/-- **C131**, batches.  For graphs that have nodes, calling `FGW_distance_to_templates` on a batch gives, row by row, what the call gives for each graph alone (and fails as the first
call that fails): no graph influences another one. -/
theorem C131_batch (S : Solvers F k) (t : Templates F K k) (alpha : Alpha) (multi : Bool) (Gs : List (List F × List (ℕ × ℕ))) (hne : Gs ≠ []) (hpos : ∀ G ∈ Gs, G.1 ≠ [])
    (hG : ∀ G ∈ Gs, EdgesOk G) :
    batched (fgwDistances S t alpha multi) ⟨(collate 0 0 Gs).1, (collate 0 0 Gs).2.1⟩ (collate 0 0 Gs).2.2 = collect (Gs.map fun G => fgwDistances S t alpha multi ⟨G.1, G.2⟩) :=
  batched_collate _ Gs hne hpos hG

/-- **C131**, batches of point clouds.  The same for `wasserstein_distance_to_templates`, which never fails. -/
theorem C131_batch_wasserstein (S : Solvers F k) (t : Templates F K k) (Gs : List (List F × List (ℕ × ℕ))) (hne : Gs ≠ []) (hpos : ∀ G ∈ Gs, G.1 ≠ [])
    (hG : ∀ G ∈ Gs, EdgesOk G) :
    batched (wDistances S t) ⟨(collate 0 0 Gs).1, (collate 0 0 Gs).2.1⟩ (collate 0 0 Gs).2.2 =
      .ok (Gs.map fun G => (List.finRange K).map fun j =>
        S.emd2 (fun _ => 1 / (G.1.length : ℝ)) (t.w j) fun i l => S.dist (G.1.get i) (t.feat j l)) := by
  rw [batched_collate _ Gs hne hpos hG]
  clear hne hpos hG
  induction Gs with
  | nil => rfl
  | cons G Gs ih =>
    simp only [List.map_cons, wDistances, collect] at ih ⊢
    rw [ih]
    rfl

/-- if no call fails all results are returned -/
private theorem collect_ok {A B : Type*} (l : List A) (g : A → B) : collect (l.map fun j => (.ok (g j) : Except Err B)) = .ok (l.map g) := by
  induction l with
  | nil => rfl
  | cons x l ih => simp only [List.map_cons, collect, ih]

/-- **C131**, values.  For a tensor `alpha` with one entry `a`, `a > 0`: the distances are the fused Gromov-Wasserstein values with parameter `a` between the graph (squared distances of
features, matrix counting the edges from node to node, uniform weights) and the templates; `a = 0`: the Wasserstein values of the features; with `multi_alpha` and all entries
positive each template has its own parameter. -/
theorem C131_values (S : Solvers F k) (t : Templates F K k) (G : List F × List (ℕ × ℕ)) (hG : EdgesOk G) :
    let M : Fin K → Fin G.1.length → Fin k → ℝ := fun j i l => S.dist (G.1.get i) (t.feat j l)
    let C : Fin G.1.length → Fin G.1.length → ℝ := fun u v => ((G.2.filter fun e => e = (u.val, v.val)).length : ℝ)
    let p : Fin G.1.length → ℝ := fun _ => 1 / (G.1.length : ℝ)
    (∀ a, 0 < a → fgwDistances S t (.tensor [a]) false ⟨G.1, G.2⟩ = .ok ((List.finRange K).map fun j => S.fgw2 (M j) C (t.adj j) p (t.w j) a)) ∧
    fgwDistances S t (.tensor [0]) false ⟨G.1, G.2⟩ = .ok ((List.finRange K).map fun j => S.emd2 p (t.w j) (M j)) ∧
    ∀ a : Fin K → ℝ, (∀ j, 0 < a j) → fgwDistances S t (.tensor (List.ofFn a)) true ⟨G.1, G.2⟩ = .ok ((List.finRange K).map fun j => S.fgw2 (M j) C (t.adj j) p (t.w j) (a j)) := by
  intro M C p
  have hno : ¬ ∃ e ∈ G.2, G.1.length ≤ e.1 ∨ G.1.length ≤ e.2 := by
    rintro ⟨e, he, h⟩
    have := hG e he
    omega
  have hC : adjacency G.1.length G.2 = C := by
    funext u v
    simp only [adjacency, C, List.count_eq_countP, List.countP_eq_length_filter]
    congr 2
    refine List.filter_congr fun e _ => ?_
    rw [Bool.eq_iff_iff]; simp
  refine ⟨fun a ha => ?_, ?_, fun a ha => ?_⟩
  · unfold fgwDistances
    rw [if_neg hno, ← collect_ok]
    congr 1
    refine List.map_congr_left fun j _ => ?_
    have h0 : ¬ ∀ b ∈ [a], b = 0 := fun h => ha.ne' (h a (by simp))
    simp only [embedding, if_neg h0, if_pos ha, Bool.false_eq_true, if_false]
    rw [hC]; rfl
  · unfold fgwDistances
    rw [if_neg hno, ← collect_ok]
    congr 1
    refine List.map_congr_left fun j _ => ?_
    have h0 : ∀ b ∈ [(0 : ℝ)], b = 0 := by simp
    simp only [embedding, if_pos h0, Bool.false_eq_true, if_false]
    rfl
  · unfold fgwDistances
    rw [if_neg hno, ← collect_ok]
    congr 1
    refine List.map_congr_left fun j _ => ?_
    have h0 : ∃ b ∈ List.ofFn a, 0 < b := ⟨a j, by rw [List.mem_ofFn]; exact ⟨j, rfl⟩, ha j⟩
    have h1 : (List.ofFn a)[j.val]? = some (a j) := by simp
    simp only [embedding, if_pos h0, if_true, h1]
    rw [hC]; rfl

/-- **C131**, adjacency.  The matrix handed to the solver as symmetric is symmetric exactly if every edge is given as often as its reverse. -/
theorem C131_adjacency_symmetric (n : ℕ) (edges : List (ℕ × ℕ)) :
    (∀ u v, adjacency n edges u v = adjacency n edges v u) ↔ ∀ u v : ℕ, u < n → v < n → edges.count (u, v) = edges.count (v, u) := by
  constructor
  · intro h u v hu hv
    have := h ⟨u, hu⟩ ⟨v, hv⟩
    simp only [adjacency] at this
    exact_mod_cast this
  · intro h u v
    simp only [adjacency]
    exact_mod_cast h u v u.2 v.2

/-- **C131**, refuted for directed graphs: with one edge the matrix is not symmetric, although the solver is told so. -/
theorem C131_directed_refuted : ∃ u v, adjacency 2 [(0, 1)] u v ≠ adjacency 2 [(0, 1)] v u := by
  refine ⟨0, 1, ?_⟩
  simp [adjacency]

/-- **C131**, refuted for the documented `alpha : float` (default `0.5`): the call fails with `TypeError` as soon as there is a template. -/
theorem C131_float_alpha_refuted (S : Solvers F k) (t : Templates F (K + 1) k) (a : ℝ) (multi : Bool) (G : List F × List (ℕ × ℕ)) (hG : EdgesOk G) :
    fgwDistances S t (.float a) multi ⟨G.1, G.2⟩ = .error .type := by
  have hno : ¬ ∃ e ∈ G.2, G.1.length ≤ e.1 ∨ G.1.length ≤ e.2 := by
    rintro ⟨e, he, h⟩
    have := hG e he
    omega
  unfold fgwDistances
  rw [if_neg hno, List.finRange_succ]
  rfl

/-- **C131**, refuted for graphs without nodes: at the end of a batch they are dropped, the result has fewer rows than there are graphs. -/
theorem C131_empty_graph_refuted (S : Solvers F k) (t : Templates F K k) (x : F) :
    ∃ r, batched (wDistances S t) ⟨(collate 0 0 [([x], []), ([], [])]).1, (collate 0 0 [([x], ([] : List (ℕ × ℕ))), ([], [])]).2.1⟩
      (collate 0 0 [([x], ([] : List (ℕ × ℕ))), ([], [])]).2.2 = .ok r ∧ r.length = 1 := by
  refine ⟨[_], rfl, rfl⟩

/-- **C131**, layers.  The weights of the templates are positive of mass `1`, uniform when they are not trained (parameters zero); a fixed `alpha` in `[0, 1]` is used as given;
the initial structures of the templates are symmetric with entries in `[0, 1]`. -/
theorem C131_layer (q0 : Fin (k + 1) → ℝ) (a : ℝ) (ha : 0 ≤ a ∧ a ≤ 1) (U : Fin k → Fin k → ℝ) (hU : ∀ u v, 0 ≤ U u v ∧ U u v ≤ 1) :
    (∀ l, 0 < softmax q0 l) ∧ ∑ l, softmax q0 l = 1 ∧ ((∀ l, q0 l = 0) → ∀ l, softmax q0 l = 1 / (k + 1 : ℝ)) ∧ alphaFixed a = a ∧
    (∀ u v, symmetrised U u v = symmetrised U v u) ∧ ∀ u v, 0 ≤ symmetrised U u v ∧ symmetrised U u v ≤ 1 := by
  have hpos : 0 < ∑ l, Real.exp (q0 l) := Finset.sum_pos (fun l _ => Real.exp_pos _) ⟨0, mem_univ _⟩
  refine ⟨fun l => div_pos (Real.exp_pos _) hpos, ?_, fun h l => ?_, ?_, fun u v => ?_, fun u v => ?_⟩
  · simp only [softmax]
    rw [← Finset.sum_div, div_self hpos.ne']
  · simp [softmax, h]
  · unfold alphaFixed
    by_cases h0 : a = 0
    · rw [if_pos h0, h0]
    rw [if_neg h0]
    by_cases h1 : a = 1
    · rw [if_pos h1, h1]
    rw [if_neg h1]
    have p0 : 0 < a := lt_of_le_of_ne ha.1 (Ne.symm h0)
    have p1 : 0 < 1 - a := by
      have := lt_of_le_of_ne ha.2 h1
      linarith
    unfold sigmoid
    rw [← Real.log_inv, Real.exp_log (by positivity), inv_div]
    field_simp
    ring
  · simp only [symmetrised]; ring
  · have h1 := hU u v
    have h2 := hU v u
    simp only [symmetrised]
    constructor <;> linarith

/-- **C131**, the layer on a batch.  `TFGWPooling.forward` with a fixed `alpha` in `(0, 1]`: row `i`, entry `j` is the fused Gromov-Wasserstein value with parameter `alpha` between graph `i`
and template `j` with its softmax weights, with or without `multi_alpha`. -/
theorem C131_tfgw_forward (S : Solvers F k) (adj : Fin K → Fin k → Fin k → ℝ) (feat : Fin K → Fin k → F) (q0 : Fin K → Fin k → ℝ) (a : ℝ) (ha : 0 < a ∧ a ≤ 1) (multi : Bool)
    (Gs : List (List F × List (ℕ × ℕ))) (hne : Gs ≠ []) (hpos : ∀ G ∈ Gs, G.1 ≠ []) (hG : ∀ G ∈ Gs, EdgesOk G) :
    tfgwForward S adj feat q0 a multi ⟨(collate 0 0 Gs).1, (collate 0 0 Gs).2.1⟩ (collate 0 0 Gs).2.2 =
      .ok (Gs.map fun G => (List.finRange K).map fun j =>
        S.fgw2 (fun i l => S.dist (G.1.get i) (feat j l)) (fun u v => ((G.2.filter fun e => e = (u.val, v.val)).length : ℝ)) (adj j)
          (fun _ : Fin G.1.length => 1 / (G.1.length : ℝ)) (softmax (q0 j)) a) := by
  have hal : alphaFixed a = a := (C131_layer (k := 0) (fun _ => 0) a ⟨ha.1.le, ha.2⟩ (fun _ _ => 0) fun _ _ => ⟨le_rfl, zero_le_one⟩).2.2.2.1
  unfold tfgwForward
  rw [hal, C131_batch S _ _ _ Gs hne hpos hG, ← collect_ok]
  congr 1
  refine List.map_congr_left fun G hmem => ?_
  obtain ⟨v1, _, v3⟩ := C131_values S ⟨adj, feat, fun j => softmax (q0 j)⟩ G (hG G hmem)
  cases multi with
  | false => exact v1 a ha.1
  | true =>
    have := v3 (fun _ => a) fun _ => ha.1
    rw [List.ofFn_const] at this
    exact this

/-- two graphs that meet the hypotheses: a path with two nodes and a triangle -/
example : let Gs : List (List ℕ × List (ℕ × ℕ)) := [([7, 8], [(0, 1), (1, 0)]), ([1, 2, 3], [(0, 1), (1, 2), (2, 0)])]
    Gs ≠ [] ∧ (∀ G ∈ Gs, G.1 ≠ []) ∧ (∀ G ∈ Gs, EdgesOk G) ∧ (collate 0 0 Gs).2.2 = [0, 0, 1, 1, 1] ∧
      (collate 0 0 Gs).2.1 = [(0, 1), (1, 0), (2, 3), (3, 4), (4, 2)] := by
  simp only [EdgesOk]
  decide

end POT.Props
