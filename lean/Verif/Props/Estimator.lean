import Verif.Model.Estimator
import Mathlib.Data.List.Induction
import Mathlib.Tactic.NormNum

/-!
# C135: parameters of estimators

`BaseEstimator.get_params`, `BaseEstimator.set_params` (ot/utils.py).  Statements use only lists of `(name, value)` pairs: the value of a name after a history of assignments is the last one
(`List.lookup` in the reversed list), or the initial value.
-/

set_option linter.unusedSectionVars false

namespace POT.Props

open POT.Estimator

variable {V : Type*}

/-- **Parameter names.** The class is refused exactly if its constructor has a `*args` argument; otherwise the names are sorted and are the constructor arguments except `self` and `**kwargs`, with multiplicity. -/
theorem C135_names (signature : List (String × Kind)) :
    (paramNames signature = none ↔ ∃ k, k ≠ "self" ∧ (k, Kind.varPositional) ∈ signature) ∧
    ∀ l, paramNames signature = some l → l.Pairwise (· ≤ ·) ∧ (∀ k, k ∈ l ↔ k ≠ "self" ∧ (k, Kind.plain) ∈ signature) ∧ ((signature.map Prod.fst).Nodup → l.Nodup) := by
  unfold paramNames
  constructor
  · simp only [ite_eq_left_iff, reduceCtorEq, imp_false, not_not, List.any_eq_true, List.mem_filter, decide_eq_true_eq]
    constructor
    · rintro ⟨⟨k, t⟩, ⟨h1, h2, -⟩, h3⟩
      simp only at h2 h3
      subst h3
      exact ⟨k, h2, h1⟩
    · rintro ⟨k, h1, h2⟩
      exact ⟨(k, .varPositional), ⟨h2, h1, by simp⟩, rfl⟩
  · intro l hl
    dsimp only at hl
    split_ifs at hl with h
    obtain rfl := Option.some.inj hl
    refine ⟨?_, fun k => ?_, fun hnd => ?_⟩
    · have := List.pairwise_mergeSort (le := fun a b : String => decide (a ≤ b)) (fun a b c h1 h2 => by simp only [decide_eq_true_eq] at *; exact le_trans h1 h2)
        (fun a b => by simpa using le_total a b) ((signature.filter fun p => p.1 ≠ "self" ∧ p.2 ≠ .varKeyword).map Prod.fst)
      exact this.imp fun h => by simpa using h
    · rw [List.mem_mergeSort, List.mem_map]
      simp only [List.any_eq_true, List.mem_filter, decide_eq_true_eq, not_exists, not_and] at h
      constructor
      · rintro ⟨⟨k', t⟩, h1, rfl⟩
        rw [List.mem_filter] at h1
        obtain ⟨h1, h2⟩ := h1
        simp only [decide_eq_true_eq] at h2
        refine ⟨h2.1, ?_⟩
        cases t with
        | plain => exact h1
        | varPositional => exact absurd rfl (h (k', .varPositional) ⟨h1, h2⟩)
        | varKeyword => exact absurd rfl h2.2
      · rintro ⟨h1, h2⟩
        exact ⟨(k, .plain), List.mem_filter.2 ⟨h2, by simp [h1]⟩, rfl⟩
    · rw [(List.mergeSort_perm _ _).nodup_iff]
      exact hnd.sublist (List.filter_sublist.map _)

/-- A key has one piece exactly if it does not contain `__`. -/
private theorem split2_none (l : List Char) : split2 l = none ↔ ¬ ['_', '_'] <:+: l := by
  induction l with
  | nil => simp [split2]
  | cons c r ih =>
    cases r with
    | nil => simp [split2, List.infix_cons_iff]
    | cons d r =>
      rw [split2]
      split_ifs with h
      · obtain ⟨rfl, rfl⟩ := h
        simp only [reduceCtorEq, false_iff, not_not]
        exact ⟨[], r, rfl⟩
      · rw [Option.map_eq_none_iff, ih, List.infix_cons_iff (a := c)]
        have : ¬ ['_', '_'] <+: c :: d :: r := by
          rintro ⟨t, ht⟩
          simp only [List.cons_append, List.nil_append, List.cons.injEq] at ht
          exact h ⟨ht.1.symm, ht.2.1.symm⟩
        tauto

/-- the key is a parameter name without `__` -/
private def Good (names : List String) (k : String) : Prop := k ∈ names ∧ ¬ ['_', '_'] <:+: k.toList

private theorem valid_eq (e : Est V) : (getParams e).map Prod.fst = e.names := by
  unfold getParams
  rw [List.map_map]
  exact List.map_id' _

private def assign (e : Est V) (l : List (String × Option V)) : Est V := l.foldl (fun e p => setAttr e p.1 p.2) e

private theorem assign_names (e : Est V) (l : List (String × Option V)) : (assign e l).names = e.names := by
  unfold assign
  induction l generalizing e with
  | nil => rfl
  | cons p r ih => rw [List.foldl_cons, ih]; rfl

private theorem assign_attr (e : Est V) (l : List (String × Option V)) (k : String) : (assign e l).attr k = (l.reverse.lookup k).getD (e.attr k) := by
  unfold assign
  induction l using List.reverseRecOn with
  | nil => rfl
  | append_singleton l p ih =>
    rw [List.foldl_append, List.foldl_cons, List.foldl_nil, List.reverse_append, List.reverse_singleton, List.singleton_append]
    obtain ⟨k', v⟩ := p
    rw [List.lookup_cons]
    change (if k = k' then v else _) = _
    by_cases h : k = k'
    · simp [h]
    · rw [if_neg h, ih, beq_false_of_ne h]

private theorem loop_good (valid : List String) (e : Est V) (l l' : List (String × Option V)) (h : ∀ p ∈ l, Good valid p.1) : setLoop valid e (l ++ l') = setLoop valid (assign e l) l' := by
  induction l generalizing e with
  | nil => rfl
  | cons p r ih =>
    obtain ⟨k, v⟩ := p
    have hk := h (k, v) (by simp)
    rw [List.cons_append, setLoop, (split2_none _).2 hk.2]
    dsimp only
    rw [if_pos hk.1, ih _ fun q hq => h q (by simp [hq])]
    rfl

private theorem set_good (e : Est V) (l : List (String × Option V)) (h : ∀ p ∈ l, Good e.names p.1) : setParams e l = (assign e l, .ok) := by
  unfold setParams
  split_ifs with h0
  · rw [h0]; rfl
  · rw [valid_eq]
    have := loop_good e.names e l [] h
    rw [List.append_nil] at this
    rw [this]; rfl

private theorem set_bad (e : Est V) (l : List (String × Option V)) (k : String) (v : Option V) (r : List (String × Option V)) (h : ∀ p ∈ l, Good e.names p.1) (hk : ¬ Good e.names k) :
    (setParams e (l ++ (k, v) :: r)).1 = assign e l ∧ (setParams e (l ++ (k, v) :: r)).2 ≠ .ok := by
  unfold setParams
  rw [if_neg (by simp), valid_eq, loop_good _ _ _ _ h, setLoop]
  split
  · split_ifs <;> simp
  · rename_i hs
    rw [split2_none] at hs
    rw [if_neg fun hm => hk ⟨hm, hs⟩]
    simp

/-- **Reading after any history.** After any sequence of `set_params` calls whose keys are parameter names (without `__`), every call has succeeded, and `get_params` lists exactly the parameter names, each with the value of its last
assignment, or its initial value if it was never assigned. -/
theorem C135_history (e : Est V) (calls : List (List (String × Option V))) (h : ∀ c ∈ calls, ∀ p ∈ c, p.1 ∈ e.names ∧ ¬ ['_', '_'] <:+: p.1.toList) :
    getParams (calls.foldl (fun e c => (setParams e c).1) e) = e.names.map (fun k => (k, (calls.flatten.reverse.lookup k).getD (e.attr k))) ∧
    ∀ pre c post, calls = pre ++ c :: post → (setParams (pre.foldl (fun e c => (setParams e c).1) e) c).2 = .ok := by
  have main : ∀ calls : List (List (String × Option V)), (∀ c ∈ calls, ∀ p ∈ c, Good e.names p.1) → calls.foldl (fun e c => (setParams e c).1) e = assign e calls.flatten := by
    intro calls
    induction calls using List.reverseRecOn with
    | nil => intro _; rfl
    | append_singleton l c ih =>
      intro h
      rw [List.foldl_append, ih fun c hc => h c (by simp [hc]), List.foldl_cons, List.foldl_nil, set_good _ _ fun p hp => by rw [assign_names]; exact h c (by simp) p hp]
      unfold assign
      simp
  refine ⟨?_, fun pre c post hc => ?_⟩
  · rw [main calls h]
    unfold getParams
    rw [assign_names]
    exact List.map_congr_left fun k _ => by rw [assign_attr]
  · subst hc
    rw [main pre fun c hc => h c (by simp [hc]), set_good _ _ fun p hp => by rw [assign_names]; exact h c (by simp) p hp]

/-- **Round trip.** Setting what `get_params` returned succeeds and changes nothing, if no parameter name contains `__`. -/
theorem C135_roundtrip (e : Est V) (h : ∀ k ∈ e.names, ¬ ['_', '_'] <:+: k.toList) : setParams e (getParams e) = (e, .ok) := by
  have hg : ∀ p ∈ getParams e, Good e.names p.1 := fun p hp => by
    obtain ⟨k, hk, rfl⟩ := List.mem_map.1 hp
    exact ⟨hk, h k hk⟩
  rw [set_good e _ hg]
  congr 1
  have h1 : ∀ l : List (String × Option V), (∀ p ∈ l, p.2 = e.attr p.1) → assign e l = e := by
    intro l hl
    induction l with
    | nil => rfl
    | cons p r ih =>
      have : setAttr e p.1 p.2 = e := by
        unfold setAttr
        rw [hl p (by simp)]
        congr 1
        funext l
        split_ifs with h
        · rw [h]
        · rfl
      unfold assign at ih ⊢
      rw [List.foldl_cons, this]
      exact ih fun q hq => hl q (by simp [hq])
  refine h1 _ fun p hp => ?_
  obtain ⟨k, -, rfl⟩ := List.mem_map.1 hp
  rfl

/-- **Refused calls.** `set_params` succeeds exactly if all keys are parameter names without `__`. Otherwise the parameters before the first other key have been set, and nothing else has changed. -/
theorem C135_errors (e : Est V) (params : List (String × Option V)) :
    ((setParams e params).2 = .ok ↔ ∀ p ∈ params, p.1 ∈ e.names ∧ ¬ ['_', '_'] <:+: p.1.toList) ∧
    ∀ pre k v post, params = pre ++ (k, v) :: post → (∀ p ∈ pre, p.1 ∈ e.names ∧ ¬ ['_', '_'] <:+: p.1.toList) → ¬ (k ∈ e.names ∧ ¬ ['_', '_'] <:+: k.toList) →
      (setParams e params).1.names = e.names ∧ (∀ l, (setParams e params).1.attr l = (pre.reverse.lookup l).getD (e.attr l)) ∧
      (k ∉ e.names → ¬ ['_', '_'] <:+: k.toList → (setParams e params).2 = .valueError) := by
  constructor
  · constructor
    · intro h
      by_contra hcon
      have key : ∀ l : List (String × Option V), (¬ ∀ p ∈ l, Good e.names p.1) → ∃ pre k v post, l = pre ++ (k, v) :: post ∧ (∀ p ∈ pre, Good e.names p.1) ∧ ¬ Good e.names k := by
        intro l hl
        induction l with
        | nil => simp at hl
        | cons p r ih =>
          by_cases hp : Good e.names p.1
          · obtain ⟨pre, k, v, post, h1, h2, h3⟩ := ih fun hr => hl fun q hq => by
              rcases List.mem_cons.1 hq with rfl | hq
              · exact hp
              · exact hr q hq
            refine ⟨p :: pre, k, v, post, by rw [h1]; rfl, fun q hq => ?_, h3⟩
            rcases List.mem_cons.1 hq with rfl | hq
            · exact hp
            · exact h2 q hq
          · exact ⟨[], p.1, p.2, r, rfl, by simp, hp⟩
      obtain ⟨pre, k, v, post, rfl, h2, h3⟩ := key params hcon
      exact (set_bad e pre k v post h2 h3).2 h
    · intro h
      rw [set_good e params h]
  · rintro pre k v post rfl h1 h2
    obtain ⟨e1, -⟩ := set_bad e pre k v post h1 h2
    rw [e1]
    refine ⟨assign_names _ _, assign_attr _ _, fun h3 h4 => ?_⟩
    unfold setParams
    rw [if_neg (by simp), valid_eq, loop_good _ _ _ _ h1, setLoop, (split2_none _).2 h4]
    dsimp only
    rw [if_neg h3]

/-- **A refused call is not atomic.** There is an estimator and a call that raises `ValueError` after having changed a parameter. -/
theorem C135_atomic_refuted : ∃ (e : Est ℕ) (params : List (String × Option ℕ)), (params.map Prod.fst).Nodup ∧ (setParams e params).2 = .valueError ∧ getParams (setParams e params).1 ≠ getParams e :=
  ⟨⟨["max_iter", "reg"], fun _ => some 1⟩, [("reg", some 2), ("regu", some 3)], by decide, by decide, by decide⟩

/-! ### non-vacuity -/

private def exEst : Est ℕ := ⟨["max_iter", "reg"], fun k => if k = "reg" then some 1 else none⟩

private theorem exNames : ∀ k ∈ ["max_iter", "reg"], ¬ ['_', '_'] <:+: k.toList := fun k hk => (split2_none _).1 (by
  simp only [List.mem_cons, List.not_mem_nil, or_false] at hk
  rcases hk with rfl | rfl <;> decide +kernel)

example : paramNames [("self", .plain), ("reg", .plain), ("max_iter", .plain), ("kw", .varKeyword)] ≠ none :=
  fun h => by obtain ⟨k, -, hk⟩ := (C135_names _).1.1 h; simp at hk
example : paramNames [("self", .plain), ("args", .varPositional)] = none := by rfl
example := C135_history exEst [[("reg", some 2)], [("reg", some 3), ("max_iter", some 5)]] (by
  intro c hc p hp
  have : ∀ k ∈ ["max_iter", "reg"], k ∈ exEst.names ∧ ¬ ['_', '_'] <:+: k.toList := fun k hk => ⟨hk, exNames k hk⟩
  simp only [List.mem_cons, List.not_mem_nil, or_false] at hc
  rcases hc with rfl | rfl <;> simp only [List.mem_cons, List.not_mem_nil, or_false] at hp
  · subst hp; exact this _ (by simp)
  · rcases hp with rfl | rfl <;> exact this _ (by simp))
example : setParams exEst (getParams exEst) = (exEst, .ok) := C135_roundtrip exEst exNames

end POT.Props
