import Verif.Model.Gnn
import Verif.Spec.Gnn

/-! # Lemmas for batches of graphs -/

set_option linter.unusedSectionVars false

namespace POT.Gnn

open Spec

variable {F : Type*}

theorem positions_append (i off : ℕ) (B C : List ℕ) : positions i off (B ++ C) = positions i off B ++ positions i (off + B.length) C := by
  induction B generalizing off with
  | nil => simp [positions]
  | cons b B ih =>
    simp only [List.cons_append, positions, List.length_cons, ih]
    have e : off + 1 + B.length = off + (B.length + 1) := by omega
    rw [e]
    by_cases h : b = i
    · rw [if_pos h, if_pos h, List.cons_append]
    · rw [if_neg h, if_neg h]

theorem positions_none (i off : ℕ) (B : List ℕ) (h : ∀ b ∈ B, b ≠ i) : positions i off B = [] := by
  induction B generalizing off with
  | nil => rfl
  | cons b B ih =>
    rw [positions, if_neg (h b (by simp)), ih _ fun b' hb => h b' (by simp [hb])]

theorem positions_replicate (i off n : ℕ) : positions i off (List.replicate n i) = List.range' off n := by
  induction n generalizing off with
  | zero => rfl
  | succ n ih => rw [List.replicate_succ, positions, if_pos rfl, ih, List.range'_succ]

theorem idxOf_range' (off n a : ℕ) (h : a < n) : (List.range' off n).idxOf (off + a) = a := by
  induction n generalizing off a with
  | zero => omega
  | succ n ih =>
    rw [List.range'_succ]
    cases a with
    | zero => simp
    | succ a =>
      rw [List.idxOf_cons_ne _ (by omega)]
      have := ih (off + 1) a (by omega)
      rw [show off + (a + 1) = off + 1 + a by omega, this]

theorem pick_block (P X Q : List F) : (List.range' P.length X.length).filterMap (fun x => (P ++ X ++ Q)[x]?) = X := by
  induction X generalizing P with
  | nil => rfl
  | cons f X ih =>
    rw [List.length_cons, List.range'_succ, List.filterMap_cons]
    have h1 : (P ++ f :: X ++ Q)[P.length]? = some f := by simp
    rw [h1]
    have h2 := ih (P ++ [f])
    rw [List.length_append, List.length_singleton] at h2
    have e : P ++ [f] ++ X ++ Q = P ++ f :: X ++ Q := by simp
    rw [e] at h2
    simp only [h2]

/-- a graph is found again in the middle of a batch -/
theorem subgraph_block (P X Q : List F) (E D H : List (ℕ × ℕ)) (B C : List ℕ) (i : ℕ) (hlen : P.length = B.length) (hB : ∀ b ∈ B, b ≠ i) (hC : ∀ c ∈ C, c ≠ i)
    (hE : ∀ e ∈ E, e.1 < B.length) (hD : ∀ e ∈ D, e.1 < X.length ∧ e.2 < X.length) (hH : ∀ e ∈ H, B.length + X.length ≤ e.1) :
    subgraph ⟨P ++ (X ++ Q), E ++ (D.map (fun e => (B.length + e.1, B.length + e.2)) ++ H)⟩ (nodesOf (B ++ (List.replicate X.length i ++ C)) i) = ⟨X, D⟩ := by
  have hn : nodesOf (B ++ (List.replicate X.length i ++ C)) i = List.range' B.length X.length := by
    unfold nodesOf
    rw [positions_append, positions_append, positions_none i 0 B hB, positions_none i _ C hC, positions_replicate]
    simp
  rw [hn]
  unfold subgraph
  have h1 : (List.range' B.length X.length).filterMap (fun x => (P ++ (X ++ Q))[x]?) = X := by
    rw [← hlen, ← List.append_assoc]; exact pick_block P X Q
  have h2 : ((E ++ (D.map (fun e => (B.length + e.1, B.length + e.2)) ++ H)).filter fun e => e.1 ∈ List.range' B.length X.length ∧ e.2 ∈ List.range' B.length X.length) =
      D.map fun e => (B.length + e.1, B.length + e.2) := by
    rw [List.filter_append, List.filter_append]
    have e1 : E.filter (fun e => e.1 ∈ List.range' B.length X.length ∧ e.2 ∈ List.range' B.length X.length) = [] := by
      rw [List.filter_eq_nil_iff]
      intro e he
      have := hE e he
      simp only [List.mem_range'_1, decide_eq_true_eq]
      omega
    have e3 : H.filter (fun e => e.1 ∈ List.range' B.length X.length ∧ e.2 ∈ List.range' B.length X.length) = [] := by
      rw [List.filter_eq_nil_iff]
      intro e he
      have := hH e he
      simp only [List.mem_range'_1, decide_eq_true_eq]
      omega
    have e2 : (D.map fun e => (B.length + e.1, B.length + e.2)).filter (fun e => e.1 ∈ List.range' B.length X.length ∧ e.2 ∈ List.range' B.length X.length) =
        D.map fun e => (B.length + e.1, B.length + e.2) := by
      rw [List.filter_eq_self]
      intro e he
      obtain ⟨d, hd, rfl⟩ := List.mem_map.1 he
      have := hD d hd
      simp only [List.mem_range'_1, decide_eq_true_eq]
      omega
    rw [e1, e2, e3]; simp
  simp only [h1, h2, List.map_map]
  congr 1
  conv_rhs => rw [← List.map_id D]
  refine List.map_congr_left fun d hd => ?_
  have := hD d hd
  simp only [Function.comp_apply, id]
  rw [idxOf_range' _ _ _ this.1, idxOf_range' _ _ _ this.2]

theorem collate_batch (off i : ℕ) (Gs : List (List F × List (ℕ × ℕ))) : ∀ c ∈ (collate off i Gs).2.2, i ≤ c ∧ c < i + Gs.length := by
  induction Gs generalizing off i with
  | nil => intro c hc; simp [collate] at hc
  | cons G Gs ih =>
    intro c hc
    simp only [collate, List.mem_append, List.mem_replicate, List.length_cons] at hc ⊢
    rcases hc with ⟨_, rfl⟩ | hc
    · omega
    · have := ih _ _ c hc
      omega

theorem collate_edges (off i : ℕ) (Gs : List (List F × List (ℕ × ℕ))) : ∀ e ∈ (collate off i Gs).2.1, off ≤ e.1 := by
  induction Gs generalizing off i with
  | nil => intro c hc; simp [collate] at hc
  | cons G Gs ih =>
    intro e he
    simp only [collate, List.mem_append, List.mem_map] at he
    rcases he with ⟨d, _, rfl⟩ | he
    · simp
    · have := ih _ _ e he
      omega

theorem subgraph_collate (Gs : List (List F × List (ℕ × ℕ))) (hG : ∀ G ∈ Gs, EdgesOk G) (P : List F) (E : List (ℕ × ℕ)) (B : List ℕ) (i : ℕ) (hlen : P.length = B.length)
    (hB : ∀ b ∈ B, b < i) (hE : ∀ e ∈ E, e.1 < B.length) (t : ℕ) (ht : t < Gs.length) :
    subgraph ⟨P ++ (collate B.length i Gs).1, E ++ (collate B.length i Gs).2.1⟩ (nodesOf (B ++ (collate B.length i Gs).2.2) (i + t)) = ⟨Gs[t].1, Gs[t].2⟩ := by
  induction Gs generalizing P E B i t with
  | nil => simp at ht
  | cons G Gs ih =>
    cases t with
    | zero =>
      simp only [collate, Nat.add_zero, List.getElem_cons_zero]
      exact subgraph_block P G.1 _ E G.2 _ B _ i hlen (fun b hb => (hB b hb).ne) (fun c hc => by have := collate_batch _ _ _ c hc; omega) hE (hG G (by simp))
        (fun e he => collate_edges _ _ _ e he)
    | succ t =>
      have hx := hG G (by simp)
      have h := ih (fun G' h => hG G' (by simp [h])) (P ++ G.1) (E ++ G.2.map fun e => (B.length + e.1, B.length + e.2)) (B ++ List.replicate G.1.length i) (i + 1)
        (by simp [hlen]) (fun b hb => by
          simp only [List.mem_append, List.mem_replicate] at hb
          rcases hb with hb | ⟨_, rfl⟩
          · have := hB b hb; omega
          · omega) (fun e he => by
          simp only [List.mem_append, List.mem_map, List.length_append, List.length_replicate] at he ⊢
          rcases he with he | ⟨d, hd, rfl⟩
          · have := hE e he; omega
          · have := (hx d hd).1; simp only; omega) t (by simpa using ht)
      simp only [collate, List.getElem_cons_succ]
      simp only [List.length_append, List.length_replicate, List.append_assoc] at h
      rw [show i + (t + 1) = i + 1 + t by omega]
      exact h

theorem collate_max (Gs : List (List F × List (ℕ × ℕ))) (hne : Gs ≠ []) (hpos : ∀ G ∈ Gs, G.1 ≠ []) (off i : ℕ) :
    (collate off i Gs).2.2.max? = some (i + Gs.length - 1) := by
  rw [List.max?_eq_some_iff]
  refine ⟨?_, fun b hb => by have := collate_batch off i Gs b hb; omega⟩
  induction Gs generalizing off i with
  | nil => exact absurd rfl hne
  | cons G Gs ih =>
    simp only [collate, List.mem_append, List.length_cons]
    by_cases h : Gs = []
    · subst h
      left
      rw [List.mem_replicate]
      refine ⟨?_, by simp⟩
      have := hpos G (by simp)
      rwa [ne_eq, List.length_eq_zero_iff]
    · right
      have := ih h (fun G' h => hpos G' (by simp [h])) (off + G.1.length) (i + 1)
      rw [show i + (Gs.length + 1) - 1 = i + 1 + Gs.length - 1 by omega]
      exact this

end POT.Gnn
