import Verif.Model.PackedState
import Mathlib.Tactic.IntervalCases
import Mathlib.Logic.Function.Basic

/-! # C13: the packed vector of arc states behaves as an array -/

namespace POT.Props

open Packed

theorem byte_same (x : BitVec 8) (r : ℕ) (hr : r < 4) (s : ArcState) :
    ((((x &&& ~~~(0x03#8 <<< (2 * r))) ||| (encode s <<< (2 * r))) >>> (2 * r)) &&& 0x03#8) = encode s := by
  ext i hi
  interval_cases r <;> cases s <;> interval_cases i <;> simp [encode]

theorem byte_other (x : BitVec 8) (r t : ℕ) (hr : r < 4) (ht : t < 4) (hne : r ≠ t) (s : ArcState) :
    ((((x &&& ~~~(0x03#8 <<< (2 * r))) ||| (encode s <<< (2 * r))) >>> (2 * t)) &&& 0x03#8) = ((x >>> (2 * t)) &&& 0x03#8) := by
  ext i hi
  interval_cases r <;> interval_cases t <;> first | (exact absurd rfl hne) | (cases s <;> interval_cases i <;> simp [encode])

theorem length_set (d : Bytes) (i : ℕ) (s : ArcState) : (set d i s).length = d.length := by simp [Packed.set]

theorem get_set (d : Bytes) (i j : ℕ) (s : ArcState) (hi : i / 4 < d.length) : get (set d i s) j = if j = i then s else get d j := by
  have hget : ∀ d : Bytes, ∀ j, get d j = if (d.getD (j / 4) 0 >>> (2 * (j % 4))) &&& 0x03#8 = 0 then .lower else
      if (d.getD (j / 4) 0 >>> (2 * (j % 4))) &&& 0x03#8 = 1 then .tree else .upper := fun _ _ => rfl
  have hset : (set d i s).getD (j / 4) 0 =
      if i / 4 = j / 4 then (d.getD (i / 4) 0 &&& ~~~(0x03#8 <<< (2 * (i % 4)))) ||| (encode s <<< (2 * (i % 4))) else d.getD (j / 4) 0 := by
    unfold Packed.set
    simp only [List.getD_eq_getElem?_getD, List.getElem?_set]
    by_cases hb : i / 4 = j / 4
    · simp only [hb, if_true]
      rw [if_pos (hb ▸ hi)]; rfl
    · simp [hb]
  rw [hget, hget d, hset]
  by_cases hb : i / 4 = j / 4
  · rw [if_pos hb]
    by_cases hm : j % 4 = i % 4
    · have hji : j = i := by omega
      rw [if_pos hji, hm, byte_same _ _ (Nat.mod_lt _ (by decide))]
      cases s <;> simp [encode]
    · rw [if_neg (fun h : j = i => hm (by rw [h])), byte_other _ _ _ (Nat.mod_lt _ (by decide)) (Nat.mod_lt _ (by decide)) (Ne.symm hm), hb]
  · rw [if_neg hb, if_neg (fun h : j = i => hb (by rw [h]))]

/-- an array of states after a history of writes `(position, state)` -/
def writes (arr : ℕ → ArcState) (h : List (ℕ × ArcState)) : ℕ → ArcState := h.foldl (fun arr w => Function.update arr w.1 w.2) arr

/-- the packed vector of size `n` after the same history -/
def packedWrites (n : ℕ) (h : List (ℕ × ArcState)) : Bytes := h.foldl (fun d w => set d w.1 w.2) (resize n)

theorem packed_aux (h : List (ℕ × ArcState)) (d : Bytes) (hh : ∀ w ∈ h, w.1 / 4 < d.length) (j : ℕ) :
    get (h.foldl (fun d w => set d w.1 w.2) d) j = writes (get d) h j := by
  induction h generalizing d with
  | nil => rfl
  | cons w h ih =>
    rw [List.foldl_cons, ih _ (fun x hx => by rw [length_set]; exact hh x (List.mem_cons_of_mem _ hx))]
    have : get (set d w.1 w.2) = Function.update (get d) w.1 w.2 := by
      funext j
      rw [get_set _ _ _ _ (hh w (List.mem_cons_self ..)), Function.update_apply]
    rw [this]; rfl

theorem get_resize (n j : ℕ) : get (resize n) j = .lower := by
  unfold Packed.get Packed.resize
  have : (List.replicate ((n + 3) / 4) (0 : BitVec 8)).getD (j / 4) 0 = 0 := by
    rw [List.getD_eq_getElem?_getD]
    by_cases h : j / 4 < (n + 3) / 4
    · rw [List.getElem?_replicate_of_lt h]; rfl
    · rw [List.getElem?_eq_none (by simpa using h)]; rfl
  simp only [this]
  simp

/-- **C13**.  After any history of writes at positions below the size, reading the packed vector gives what an array that initially holds LOWER
everywhere gives. -/
theorem C13_packed_is_array (n : ℕ) (h : List (ℕ × ArcState)) (hh : ∀ w ∈ h, w.1 < n) (j : ℕ) :
    get (packedWrites n h) j = writes (fun _ => .lower) h j := by
  unfold packedWrites
  rw [packed_aux h _ (fun w hw => by have := hh w hw; simp [Packed.resize]; omega)]
  congr 1
  funext j
  exact get_resize n j

/-- **C13**, bounds.  All bytes accessed for positions below the size exist. -/
theorem C13_in_bounds (n : ℕ) (h : List (ℕ × ArcState)) (j : ℕ) (hj : j < n) : j / 4 < (packedWrites n h).length := by
  have hl : ∀ (h : List (ℕ × ArcState)) (d : Bytes), (h.foldl (fun d w => set d w.1 w.2) d).length = d.length := by
    intro h
    induction h with
    | nil => intro d; rfl
    | cons w h ih => intro d; rw [List.foldl_cons, ih, length_set]
  unfold packedWrites
  rw [hl]
  simp [Packed.resize]
  omega

/-- **C13**, `fill`.  `fill count state` sets exactly the first `count` positions. -/
theorem C13_fill (n : ℕ) (h : List (ℕ × ArcState)) (hh : ∀ w ∈ h, w.1 < n) (count : ℕ) (hc : count ≤ n) (s : ArcState) (j : ℕ) :
    get (fill (packedWrites n h) count s) j = if j < count then s else writes (fun _ => .lower) h j := by
  have e : fill (packedWrites n h) count s = packedWrites n (h ++ (List.range count).map fun i => (i, s)) := by
    unfold Packed.fill packedWrites
    rw [List.foldl_append, List.foldl_map]
  rw [e, C13_packed_is_array n _ (fun w hw => ?_)]
  · have aux : ∀ (c : ℕ) (arr : ℕ → ArcState), writes arr ((List.range c).map fun i => (i, s)) j = if j < c then s else arr j := by
      intro c arr
      induction c with
      | zero => simp [writes]
      | succ c ih =>
        unfold writes at ih ⊢
        rw [List.range_succ, List.map_append, List.foldl_append, List.map_cons, List.map_nil, List.foldl_cons, List.foldl_nil, Function.update_apply, ih]
        split_ifs <;> first | rfl | omega
    have : writes (fun _ => .lower) (h ++ (List.range count).map fun i => (i, s)) j =
        writes (writes (fun _ => .lower) h) ((List.range count).map fun i => (i, s)) j := by
      unfold writes; rw [List.foldl_append]
    rw [this, aux]
  · rcases List.mem_append.1 hw with hw | hw
    · exact hh w hw
    · obtain ⟨i, hi, rfl⟩ := List.mem_map.1 hw
      exact lt_of_lt_of_le (List.mem_range.1 hi) hc

/-- a history with all three states in one byte -/
example : (List.range 5).map (get (packedWrites 5 [(0, .tree), (1, .upper), (2, .tree), (2, .lower), (4, .upper), (0, .upper), (0, .tree)])) =
    [.tree, .upper, .lower, .lower, .upper] := by decide

end POT.Props
