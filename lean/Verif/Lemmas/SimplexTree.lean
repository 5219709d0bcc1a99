import Verif.Lemmas.SimplexAnc

/-! # `updateTreeStructure` preserves the tree representation -/

set_option linter.unusedSectionVars false

namespace POT.Simplex

open Spec POT.Tree Relation

variable {V A R : Type*} [DecidableEq V]

/-! ### Loops along parents -/

section loops
variable {root : V} {p : V → Option V}

theorem pathTo_spec (hr : p root = none) (hra : ∀ x, Anc p root x) (r : V → ℕ) {stop : V} (fuel : ℕ) {u : V}
    (hrk : ∀ x q, Anc p x u → p x = some q → r q < r x) (ha : Anc p stop u) (hf : r u < fuel) :
    ∃ l, pathTo p stop fuel u = some l ∧ l.Nodup ∧ ∀ x, x ∈ l ↔ Anc p x u ∧ Anc p stop x ∧ x ≠ stop := by
  induction fuel generalizing u with
  | zero => omega
  | succ k ih =>
    by_cases hus : u = stop
    · subst hus
      refine ⟨[], by simp [pathTo], by simp, fun x => ?_⟩
      simp only [List.not_mem_nil, false_iff, not_and]
      intro h1 h2
      simpa using anc_antisymm hr hra h1 h2
    · rcases anc_iff.1 ha with h | ⟨q, hq, h2⟩
      · exact absurd h.symm hus
      · obtain ⟨l, h3, h4, h5⟩ := ih (u := q) (fun x q' hx => hrk x q' (anc_trans hx (anc_parent hq))) h2
          (by have := hrk u q (anc_refl _) hq; omega)
        refine ⟨u :: l, by simp [pathTo, hus, hq, h3], ?_, ?_⟩
        · rw [List.nodup_cons]
          refine ⟨fun hm => ?_, h4⟩
          exact not_anc_parent hr hra hq ((h5 u).1 hm).1
        · intro x
          rw [List.mem_cons, h5]
          constructor
          · rintro (rfl | ⟨h6, h7⟩)
            · exact ⟨anc_refl _, ha, hus⟩
            · exact ⟨anc_trans h6 (anc_parent hq), h7⟩
          · rintro ⟨h6, h7⟩
            by_cases hxu : x = u
            · exact Or.inl hxu
            · exact Or.inr ⟨anc_of_ne h6 hxu hq, h7⟩

open Classical in
theorem lastSuccLoop_spec (hr : p root = none) (hra : ∀ x, Anc p root x) (r : V → ℕ) (limit : Option V) (old : V)
    (new : (V → V) → V) (w v v0 : V) (hnew : ∀ f, f w = v0 → new f = v) (fuel : ℕ) (start : Option V) (f : V → V)
    (hf0 : f w = v0) (hw : ∀ u, start = some u → ¬ Anc p w u)
    (hrk : ∀ u, start = some u → ∀ x q, Anc p x u → p x = some q → r q < r x)
    (hlim : ∀ j, limit = some j → ∃ u, start = some u ∧ Anc p j u)
    (hdown : ∀ x u, start = some u → Anc p x u → (∀ j, limit = some j → ¬ Anc p x j) → f x = old →
      ∀ y, Anc p x y → Anc p y u → f y = old)
    (hfu : ∀ u, start = some u → r u + 1 < fuel) (hf1 : 1 ≤ fuel) :
    ∃ f', lastSuccLoop p limit old new fuel start f = some f' ∧ ∀ x, f' x =
      if (∃ u, start = some u ∧ Anc p x u) ∧ (∀ j, limit = some j → ¬ Anc p x j) ∧ f x = old then v else f x := by
  induction fuel generalizing start f with
  | zero => omega
  | succ k ih =>
    cases hs : start with
    | none =>
      have : limit = none := by
        cases hl : limit with
        | none => rfl
        | some j =>
          obtain ⟨u, hu, _⟩ := hlim j hl
          rw [hs] at hu; cases hu
      refine ⟨f, by simp [lastSuccLoop, this], fun x => ?_⟩
      rw [if_neg]
      rintro ⟨⟨u, hu, _⟩, _⟩
      cases hu
    | some u =>
      by_cases hul : some u = limit
      · refine ⟨f, by simp [lastSuccLoop, hul], fun x => ?_⟩
        rw [if_neg]
        rintro ⟨⟨u', hu', h1⟩, h2, _⟩
        cases hu'
        exact h2 u hul.symm h1
      · by_cases hold : f u = old
        · have hwu : w ≠ u := by rintro rfl; exact hw w hs (anc_refl _)
          have hrk' := hrk u hs
          have hW : ∀ q, p u = some q → ∀ x, Anc p x q → x ≠ u := by
            rintro q hq x hx rfl
            exact not_anc_parent hr hra hq hx
          obtain ⟨f', h1, h2⟩ := ih (p u) (Function.update f u (new f)) (by rw [Function.update_of_ne hwu, hf0])
            (fun q hq h' => hw u hs (anc_trans h' (anc_parent hq)))
            (fun q hq x q' hx => hrk' x q' (anc_trans hx (anc_parent hq)))
            (fun j hj => by
              obtain ⟨u', hu', h3⟩ := hlim j hj
              rw [hs] at hu'
              cases hu'
              rcases anc_iff.1 h3 with h4 | ⟨q, h4, h5⟩
              · exact absurd (by rw [hj, h4]) hul
              · exact ⟨q, h4, h5⟩)
            (fun x q hq hx hl hfx y hxy hyq => by
              rw [Function.update_of_ne (hW q hq x hx)] at hfx
              rw [Function.update_of_ne (hW q hq y hyq)]
              exact hdown x u hs (anc_trans hx (anc_parent hq)) hl hfx y hxy (anc_trans hyq (anc_parent hq)))
            (fun q hq => by have := hrk' u q (anc_refl _) hq; have := hfu u hs; omega)
            (by have := hfu u hs; omega)
          refine ⟨f', by simp only [lastSuccLoop, hul, if_false, hold, if_true]; exact h1, fun x => ?_⟩
          rw [h2]
          have hul' : ∀ j, limit = some j → ¬ Anc p u j := by
            intro j hj h'
            obtain ⟨u', hu', h3⟩ := hlim j hj
            rw [hs] at hu'; cases hu'
            have := anc_antisymm hr hra h' h3
            exact hul (by rw [hj, this])
          by_cases hxu : x = u
          · subst hxu
            rw [if_neg, if_pos ⟨⟨x, rfl, anc_refl _⟩, hul', hold⟩]
            · simp [hnew f hf0]
            · rintro ⟨⟨q, hq, h3⟩, _⟩
              exact hW q hq x h3 rfl
          · rw [Function.update_of_ne hxu]
            congr 1
            refine propext (and_congr_left' ?_)
            constructor
            · rintro ⟨q, hq, h3⟩
              exact ⟨u, rfl, anc_trans h3 (anc_parent hq)⟩
            · rintro ⟨u', hu', h3⟩
              cases hu'
              rcases anc_iff.1 h3 with h4 | ⟨q, h4, h5⟩
              · exact absurd h4 hxu
              · exact ⟨q, h4, h5⟩
        · refine ⟨f, by simp [lastSuccLoop, hul, hold], fun x => ?_⟩
          rw [if_neg]
          rintro ⟨⟨u', hu', h1⟩, h2, h3⟩
          cases hu'
          exact hold (hdown x u hs h1 h2 h3 u h1 (anc_refl _))

theorem addSucc_spec (l : List V) (x : ℤ) (hl : l.Nodup) (sn : V → ℤ) (u : V) :
    addSucc l x sn u = sn u + if u ∈ l then x else 0 := by
  unfold addSucc
  induction l generalizing sn with
  | nil => simp
  | cons a l ih =>
    rw [List.foldl_cons, ih (List.nodup_cons.1 hl).2]
    have ha := (List.nodup_cons.1 hl).1
    by_cases hua : u = a
    · subst hua
      simp [ha]
    · simp [hua]

end loops

/-! ### Relabelling the stem -/

section relabel
variable {root : V} {p : V → Option V} {th rv : V → V} {sn : V → ℤ} {ls : V → V} {L : List V}
variable {uIn vIn uOut : V} {t : Threads V} {N : List V} {pr : V → A} {fw : V → Bool}

/-- invariant of the relabelling loop -/
structure RelInv (p : V → Option V) (sn : V → ℤ) (ls : V → V) (pr : V → A) (fw : V → Bool) (uIn uOut lastOut : V)
    (y : V) (tmpSc : ℤ) (l : Labels V A) : Prop where
  stem : OnStem p uIn uOut y
  sc : tmpSc = sn uOut - sn y
  done : ∀ c z, p c = some z → Anc p c uIn → Anc p uOut z → Anc p z y → z ≠ y →
    l.pred z = pr c ∧ l.forward z = !fw c ∧ l.succNum z = sn uOut - sn c
  doneLs : ∀ z, OnStem p uIn uOut z → Anc p z y → l.lastSucc z = lastOut
  rest : ∀ z, ¬ (Anc p uOut z ∧ Anc p z y ∧ z ≠ y) → l.pred z = pr z ∧ l.forward z = fw z ∧ l.succNum z = sn z
  restLs : ∀ z, ¬ (Anc p uOut z ∧ Anc p z y) → l.lastSucc z = ls z

theorem stem_child_unique (hr : p root = none) (hra : ∀ x, Anc p root x) {c d z : V} (hc : p c = some z) (hd : p d = some z)
    (hcu : Anc p c uIn) (hdu : Anc p d uIn) : c = d := by
  by_contra hne
  rcases anc_total hcu hdu with h1 | h1
  · exact not_anc_parent hr hra hc (anc_of_ne h1 hne hd)
  · exact not_anc_parent hr hra hd (anc_of_ne h1 (Ne.symm hne) hc)

theorem relabelLoop_spec (h : TreeRep root p th rv sn ls L) (T : ThreadsSpec root L p uIn vIn uOut t N)
    (hin : Anc p uOut uIn) (hv : ¬ Anc p uOut vIn) (fuel : ℕ) {y : V} {tmpSc : ℤ} {l : Labels V A}
    (hI : RelInv p sn ls pr fw uIn uOut t.lastOut y tmpSc l) (hf : L.length < fuel + rank L p y) :
    ∃ l' sc, relabelLoop t.parent uIn t.lastOut fuel y tmpSc l = some l' ∧ RelInv p sn ls pr fw uIn uOut t.lastOut uIn sc l' := by
  induction fuel generalizing y tmpSc l with
  | zero => have := rank_le (L := L) (p := p) y; omega
  | succ k ih =>
    by_cases hy : y = uIn
    · subst hy
      exact ⟨l, tmpSc, by simp [relabelLoop], hI⟩
    · rcases par_on h T hin hv hI.stem with ⟨h1, _⟩ | ⟨c, hc, hcs, hpar⟩
      · exact absurd h1 hy
      · have hcy : ¬ (Anc p uOut c ∧ Anc p c y ∧ c ≠ y) := fun h' => not_anc_parent h.root_none h.root_anc hc h'.2.1
        have hyy : ¬ (Anc p uOut y ∧ Anc p y y ∧ y ≠ y) := fun h' => h'.2.2 rfl
        have hcney : c ≠ y := fun h' => not_anc_parent h.root_none h.root_anc hc (h' ▸ anc_refl _)
        have hstep : RelInv p sn ls pr fw uIn uOut t.lastOut c (tmpSc + (l.succNum y - l.succNum c))
            { pred := Function.update l.pred y (l.pred c), forward := Function.update l.forward y (!l.forward c),
              succNum := Function.update l.succNum y (tmpSc + (l.succNum y - l.succNum c)),
              lastSucc := Function.update l.lastSucc c t.lastOut } := by
          have e1 := hI.rest c hcy
          have e2 := hI.rest y hyy
          have hsc : tmpSc + (l.succNum y - l.succNum c) = sn uOut - sn c := by
            rw [e1.2.2, e2.2.2, hI.sc]; ring
          refine ⟨hcs, hsc, ?_, ?_, ?_, ?_⟩
          · intro d z hd hdu huz hzc hne
            by_cases hzy : z = y
            · subst hzy
              have := stem_child_unique h.root_none h.root_anc hc hd hcs.1 hdu
              subst this
              simp only [Function.update_self]
              exact ⟨e1.1, by rw [e1.2.1], hsc⟩
            · simp only [Function.update_of_ne hzy]
              exact hI.done d z hd hdu huz (anc_of_ne hzc hne hc) hzy
          · intro z hz hzc
            by_cases hzc' : z = c
            · subst hzc'; simp
            · simp only [Function.update_of_ne hzc']
              exact hI.doneLs z hz (anc_of_ne hzc hzc' hc)
          · intro z hz
            have hzy : z ≠ y := by
              rintro rfl
              exact hz ⟨hI.stem.2, anc_parent hc, hcney.symm⟩
            simp only [Function.update_of_ne hzy]
            refine hI.rest z fun h' => hz ⟨h'.1, anc_of_parent hc h'.2.1, ?_⟩
            rintro rfl
            exact not_anc_parent h.root_none h.root_anc hc h'.2.1
          · intro z hz
            have hzc : z ≠ c := by
              rintro rfl
              exact hz ⟨hcs.2, anc_refl _⟩
            simp only [Function.update_of_ne hzc]
            exact hI.restLs z fun h' => hz ⟨h'.1, anc_of_parent hc h'.2⟩
        obtain ⟨l', sc, h1, h2⟩ := ih hstep (by have := rank_lt h hc; omega)
        exact ⟨l', sc, by simp only [relabelLoop, hy, if_false, hpar]; exact h1, h2⟩

end relabel

/-! ### The whole update -/

/-- What `updateTreeStructure` does to the tree itself: the subtree of `uOut` is hung below `vIn` at `uIn`; the parent links between
`uIn` and `uOut` are reversed, and the arcs move with them. -/
structure Reroot (p : V → Option V) (pr : V → A) (fw : V → Bool) (uIn vIn uOut : V) (e : A) (b : Bool)
    (p' : V → Option V) (pr' : V → A) (fw' : V → Bool) : Prop where
  off : ∀ x, ¬ OnStem p uIn uOut x → p' x = p x ∧ pr' x = pr x ∧ fw' x = fw x
  head : p' uIn = some vIn ∧ pr' uIn = e ∧ fw' uIn = b
  on : ∀ c z, p c = some z → Anc p c uIn → Anc p uOut z → p' z = some c ∧ pr' z = pr c ∧ fw' z = !fw c
  sub : ∀ x, Anc p' uIn x ↔ Anc p uOut x

section update
variable {root : V} {L : List V}

theorem ls_down {p : V → Option V} {th rv : V → V} {sn : V → ℤ} {ls : V → V} (h : TreeRep root p th rv sn ls L) {x y : V}
    (hxy : Anc p x y) (hy : Anc p y (ls x)) : ls y = ls x := by
  obtain ⟨X, Y, hXY⟩ := blk_nested h hxy
  obtain ⟨_, _, _, _, hl, _⟩ := blk_spec h x
  obtain ⟨_, _, _, _, hl', _⟩ := blk_spec h y
  have hnd := nodup_blk h x
  have hY : Y = [] := by
    rcases List.eq_nil_or_concat Y with h' | ⟨Y', w, h'⟩
    · exact h'
    · exfalso
      rw [hXY, h', List.concat_eq_append, ← List.append_assoc, List.getLast?_concat] at hl
      have hw : w = ls x := Option.some.inj hl
      rw [hXY] at hnd
      exact (List.disjoint_of_nodup_append hnd) (by
        rw [List.mem_append]; right; rw [mem_blk h]; exact hy) (by rw [h', ← hw]; simp)
  rw [hXY, hY, List.append_nil, List.getLast?_append, hl'] at hl
  exact Option.some.inj hl

theorem anc_ls {p : V → Option V} {th rv : V → V} {sn : V → ℤ} {ls : V → V} (h : TreeRep root p th rv sn ls L) (x : V) : Anc p x (ls x) := by
  obtain ⟨_, _, _, _, hl, _⟩ := blk_spec h x
  exact (mem_blk h _ _).1 (List.mem_of_getLast? hl)

theorem updateTreeStructure_spec (net : Net V A R) (s : State V A R)
    (h : TreeRep root s.parent s.thread s.revThread s.succNum s.lastSucc L) {e : A} {join uIn vIn uOut : V}
    (hj : IsJoin s.parent join uIn vIn) (hin : Anc s.parent uOut uIn) (hjo : ¬ Anc s.parent uOut join)
    (fuel : ℕ) (hf : L.length + 1 < fuel) :
    ∃ s' L', updateTreeStructure net s fuel e join uIn vIn uOut = some s' ∧
      TreeRep root s'.parent s'.thread s'.revThread s'.succNum s'.lastSucc L' ∧ L'.length = L.length ∧
      s'.flow = s.flow ∧ s'.state = s.state ∧ s'.pi = s.pi ∧
      Reroot s.parent s.pred s.forward uIn vIn uOut e (decide (uIn = net.src e)) s'.parent s'.pred s'.forward := by
  classical
  set p := s.parent with hp
  have hv : ¬ Anc p uOut vIn := fun h' => hjo (hj.least uOut hin h')
  have hroot : uOut ≠ root := by rintro rfl; exact hjo (h.root_anc _)
  have hrootS : ¬ Anc p uOut root := fun h' => hroot (anc_none h.root_none h')
  obtain ⟨t, N, ht, T⟩ := updateThreads_spec s h hin hv hroot fuel (by omega)
  rw [← hp] at T
  have hjuo : Anc p join uOut := by
    rcases anc_total hj.left hin with h' | h'
    · exact h'
    · exact absurd h' hjo
  obtain ⟨vOut, hvOut⟩ : ∃ q, p uOut = some q := by
    rcases anc_iff.1 (h.root_anc uOut) with h' | ⟨q, h', _⟩
    · exact absurd h'.symm hroot
    · exact ⟨q, h'⟩
  have hjne : join ≠ uOut := by rintro h'; exact hjo (h' ▸ anc_refl _)
  have hjvo : Anc p join vOut := anc_of_ne hjuo hjne hvOut
  have hvoS : ¬ Anc p uOut vOut := not_anc_parent h.root_none h.root_anc hvOut
  have hr' := root_none_new h T hin hv hroot
  have hra' := root_anc_new h T hin hv hroot
  -- relabelling
  have hI0 : RelInv p s.succNum s.lastSucc s.pred s.forward uIn uOut t.lastOut uOut 0
      { pred := s.pred, forward := s.forward, succNum := s.succNum,
        lastSucc := Function.update s.lastSucc uOut t.lastOut } := by
    refine ⟨⟨hin, anc_refl _⟩, by simp, ?_, ?_, fun z _ => ⟨rfl, rfl, rfl⟩, ?_⟩
    · intro c z _ _ h1 h2 h3
      exact absurd (anc_antisymm h.root_none h.root_anc h2 h1) h3
    · intro z hz hz'
      rw [anc_antisymm h.root_none h.root_anc hz' hz.2]; simp
    · intro z hz
      have : z ≠ uOut := by rintro rfl; exact hz ⟨anc_refl _, anc_refl _⟩
      simp [Function.update_of_ne this]
  obtain ⟨l, sc, hl, hI⟩ := relabelLoop_spec h T hin hv fuel hI0 (by omega)
  -- `_last_succ`
  have hlsOn : ∀ z, OnStem p uIn uOut z → l.lastSucc z = t.lastOut := fun z hz => hI.doneLs z hz hz.1
  have hlsOff : ∀ z, ¬ OnStem p uIn uOut z → l.lastSucc z = s.lastSucc z := fun z hz => hI.restLs z fun h' => hz ⟨h'.2, h'.1⟩
  have hlsOut : ∀ z, ¬ Anc p uOut z → l.lastSucc z = s.lastSucc z := fun z hz => hlsOff z fun h' => hz h'.2
  have hlsuO : l.lastSucc uOut = t.lastOut := hlsOn uOut ⟨hin, anc_refl _⟩
  have hlj : l.lastSucc join = s.lastSucc join := hlsOut join hjo
  have rk : ∀ u, ¬ Anc p uOut u → ∀ x q, Anc t.parent x u → t.parent x = some q → rank L p q < rank L p x := by
    intro u hu x q hx hq
    rw [anc_out h T hin hv hu] at hx
    have hxS : ¬ Anc p uOut x := fun h' => hu (anc_trans h' hx)
    rw [par_out T hxS] at hq
    exact rank_lt h hq
  have rkf : ∀ u, rank L p u + 1 < fuel := fun u => by have := rank_le (L := L) (p := p) u; omega
  -- nodes outside the subtree with last successor `vIn`
  have hdn : ∀ x y u, ¬ Anc p uOut u → Anc p x u → Anc p x y → Anc p y u → s.lastSucc x = u → s.lastSucc y = u := by
    intro x y u hu hxu hxy hyu hx
    have := ls_down h hxy (by rw [hx]; exact hyu)
    rw [this, hx]
  obtain ⟨ls1, hls1, hls1'⟩ := lastSuccLoop_spec hr' hra' (rank L p)
    (if l.lastSucc join = vIn then none else some join) vIn (fun ls => ls uOut) uOut t.lastOut t.lastOut (fun f hf => hf) fuel
    (some vIn) l.lastSucc hlsuO
    (fun u hu h' => by cases hu; exact hv ((anc_out h T hin hv hv).1 h'))
    (fun u hu => by cases hu; exact rk vIn hv)
    (fun j hj' => by
      split_ifs at hj'
      cases hj'
      exact ⟨vIn, rfl, (anc_out h T hin hv hv).2 hj.right⟩)
    (fun x u hu hx _ hfx y hxy hyu => by
      cases hu
      rw [anc_out h T hin hv hv] at hx hyu
      have hxS : ¬ Anc p uOut x := fun h' => hv (anc_trans h' hx)
      have hyS : ¬ Anc p uOut y := fun h' => hv (anc_trans h' hyu)
      rw [anc_out h T hin hv hyS] at hxy
      rw [hlsOut x hxS] at hfx
      rw [hlsOut y hyS]
      exact hdn x y vIn hv hx hxy hyu hfx)
    (fun u _ => rkf u) (by omega)
  have hls1On : ∀ z, Anc p uOut z → ls1 z = l.lastSucc z := by
    intro z hz
    rw [hls1', if_neg]
    rintro ⟨⟨u, hu, h1⟩, _⟩
    cases hu
    rw [anc_out h T hin hv hv] at h1
    exact hv (anc_trans hz h1)
  have hls1Out : ∀ z, ¬ Anc p uOut z → ls1 z = if s.lastSucc z = vIn then t.lastOut else s.lastSucc z := by
    intro z hz
    rw [hls1', hlsOut z hz]
    congr 1
    refine propext ⟨fun h' => h'.2.2, fun h' => ⟨⟨vIn, rfl, ?_⟩, ?_, h'⟩⟩
    · rw [anc_out h T hin hv hv, ← h']
      exact anc_ls h z
    · intro j hj' h1
      split_ifs at hj' with h2
      cases hj'
      rw [anc_out h T hin hv hjo] at h1
      rw [hlj] at h2
      exact h2 (hdn z join vIn hv (h' ▸ anc_ls h z) h1 hj.right h')
  have hlsOutS : Anc p uOut (s.lastSucc uOut) := anc_ls h uOut
  have hvne : s.lastSucc uOut ≠ vIn := fun h' => hv (h' ▸ hlsOutS)
  -- a node outside with the last successor of the subtree
  have hLS : ∀ x, s.lastSucc x = s.lastSucc uOut → ¬ Anc p uOut x → Anc p x vOut := by
    intro x hx hxS
    have h1 : Anc p x (s.lastSucc uOut) := hx ▸ anc_ls h x
    rcases anc_total h1 hlsOutS with h2 | h2
    · exact anc_of_ne h2 (by rintro rfl; exact hxS (anc_refl _)) hvOut
    · exact absurd h2 hxS
  have hls1w : ls1 uOut = t.lastOut := by rw [hls1On uOut (anc_refl _), hlsuO]
  obtain ⟨ls2, hls2, hls2'⟩ := lastSuccLoop_spec hr' hra' (rank L p)
    (if l.lastSucc join = vIn then some join else none) (s.lastSucc uOut)
    (fun ls => if join ≠ s.revThread uOut ∧ vIn ≠ s.revThread uOut then s.revThread uOut else ls uOut) uOut
    (if join ≠ s.revThread uOut ∧ vIn ≠ s.revThread uOut then s.revThread uOut else t.lastOut) t.lastOut
    (fun f hf => by simp only [hf]) fuel (some vOut) ls1 hls1w
    (fun u hu h' => by cases hu; exact hvoS ((anc_out h T hin hv hvoS).1 h'))
    (fun u hu => by cases hu; exact rk vOut hvoS)
    (fun j hj' => by
      split_ifs at hj'
      cases hj'
      exact ⟨vOut, rfl, (anc_out h T hin hv hvoS).2 hjvo⟩)
    (fun x u hu hx hlx hfx y hxy hyu => by
      cases hu
      rw [anc_out h T hin hv hvoS] at hx hyu
      have hxS : ¬ Anc p uOut x := fun h' => hvoS (anc_trans h' hx)
      have hyS : ¬ Anc p uOut y := fun h' => hvoS (anc_trans h' hyu)
      rw [anc_out h T hin hv hyS] at hxy
      rw [hls1Out x hxS] at hfx
      rw [hls1Out y hyS]
      -- the first loop did not touch `x`
      have hxv : s.lastSucc x ≠ vIn := by
        intro hxv
        have h1 : Anc p x vIn := hxv ▸ anc_ls h x
        have h2 : Anc p x join := hj.least x (anc_trans (anc_trans hx (anc_parent hvOut)) hin) h1
        have h3 : s.lastSucc join = vIn := hdn x join vIn hv h1 h2 hj.right hxv
        exact hlx join (by rw [if_pos (hlj.trans h3)]) ((anc_out h T hin hv hjo).2 h2)
      rw [if_neg hxv] at hfx
      have h4 := ls_down h hxy (by rw [hfx]; exact anc_trans (anc_trans hyu (anc_parent hvOut)) hlsOutS)
      rw [h4, hfx, if_neg hvne])
    (fun u _ => rkf u) (by omega)
  -- the final values
  have hls2On : ∀ z, Anc p uOut z → ls2 z = l.lastSucc z := by
    intro z hz
    rw [hls2', if_neg, hls1On z hz]
    rintro ⟨⟨u, hu, h1⟩, _⟩
    cases hu
    rw [anc_out h T hin hv hvoS] at h1
    exact hvoS (anc_trans hz h1)
  have hls2Out : ∀ z, ¬ Anc p uOut z → ls2 z =
      if s.lastSucc z = vIn then t.lastOut else if s.lastSucc z = s.lastSucc uOut then
        (if s.revThread uOut = vIn then t.lastOut else s.revThread uOut) else s.lastSucc z := by
    intro z hz
    rw [hls2', hls1Out z hz]
    by_cases h1 : s.lastSucc z = vIn
    · rw [if_pos h1, if_pos h1, if_neg]
      rintro ⟨⟨u, hu, h2⟩, h3, h4⟩
      cases hu
      rw [anc_out h T hin hv hvoS] at h2
      have h5 : Anc p z vIn := h1 ▸ anc_ls h z
      have h6 : Anc p z join := hj.least z (anc_trans (anc_trans h2 (anc_parent hvOut)) hin) h5
      have h7 : s.lastSucc join = vIn := hdn z join vIn hv h5 h6 hj.right h1
      exact h3 join (by rw [if_pos (hlj.trans h7)]) ((anc_out h T hin hv hjo).2 h6)
    · rw [if_neg h1, if_neg h1]
      by_cases h2 : s.lastSucc z = s.lastSucc uOut
      · have hzv := hLS z h2 hz
        have hlimz : ∀ j, (if l.lastSucc join = vIn then some join else none) = some j → ¬ Anc t.parent z j := by
          intro j hj' h3
          split_ifs at hj' with h5
          cases hj'
          rw [anc_out h T hin hv hjo] at h3
          have h4 := ls_down h h3 (by rw [h2]; exact anc_trans hjuo hlsOutS)
          rw [hlj, h4, h2] at h5
          exact hvne h5
        rw [if_pos ⟨⟨vOut, rfl, (anc_out h T hin hv hvoS).2 hzv⟩, hlimz, h2⟩, if_pos h2]
        · by_cases h3 : s.revThread uOut = vIn
          · rw [if_pos h3, if_neg]
            rintro ⟨_, h4⟩
            exact h4 h3.symm
          · rw [if_neg h3, if_pos]
            refine ⟨fun h4 => ?_, fun h4 => h3 h4.symm⟩
            -- `join` would be the thread predecessor of `uOut`
            apply h3
            rw [← h4]
            have hzl : s.lastSucc vOut = s.lastSucc uOut := by
              have := ls_down h hzv (by rw [h2]; exact anc_trans (anc_parent hvOut) hlsOutS)
              rw [this, h2]
            have hju : s.lastSucc join = s.lastSucc uOut := by
              -- `join` precedes `uOut` immediately, and is its ancestor
              have hzuO : Anc p z uOut := anc_trans hzv (anc_parent hvOut)
              obtain ⟨X, Y, hXY⟩ := blk_nested h hzuO
              obtain ⟨_, _, _, ⟨Bz, hBz⟩, hlz, _, _, hwz, _⟩ := blk_spec h z
              obtain ⟨_, _, _, ⟨B1, hB1⟩, hl1, _⟩ := blk_spec h uOut
              have hX0 : X ≠ [] := by
                rintro rfl
                rw [hBz, hB1] at hXY
                simp at hXY
                exact hz (hXY.1 ▸ anc_refl _)
              obtain ⟨X1, w, rfl⟩ : ∃ X' w, X = X' ++ [w] := ⟨X.dropLast, X.getLast hX0, (List.dropLast_append_getLast hX0).symm⟩
              have hwz' := hwz
              rw [hXY, List.append_assoc] at hwz'
              obtain ⟨a, hw1, hw2⟩ := (walk_append _ _ _ _ _).1 hwz'
              have ha : a = uOut := by rw [hB1] at hw2; exact walk_start hw2
              subst ha
              have hthw : s.thread w = a := ((walk_concat _ _ _ _ _).1 hw1).2
              have hrv : s.revThread a = w := rev_eq h hthw
              have hzj : Anc p z join := by
                rw [h4, hrv, ← mem_blk h z, hXY]; simp
              have := ls_down h hzj (by rw [h2]; exact anc_trans hjuo hlsOutS)
              rw [this, h2]
            -- hence the block of `join` is `join` followed by the subtree
            obtain ⟨X, Y, hXY⟩ := blk_nested h hjuo
            obtain ⟨_, _, _, ⟨Bj, hBj⟩, hlj', _, _, hwj, _⟩ := blk_spec h join
            obtain ⟨_, _, _, ⟨B1, hB1⟩, hl1, _⟩ := blk_spec h uOut
            have hnd := nodup_blk h join
            have hY : Y = [] := by
              rcases List.eq_nil_or_concat Y with h' | ⟨Y', w, h'⟩
              · exact h'
              · exfalso
                rw [hXY, h', List.concat_eq_append, ← List.append_assoc, List.getLast?_concat] at hlj'
                have hw : w = s.lastSucc join := Option.some.inj hlj'
                rw [hXY] at hnd
                exact (List.disjoint_of_nodup_append hnd) (by
                  rw [List.mem_append]; right; rw [mem_blk h]; exact hju ▸ hlsOutS) (by rw [h', ← hw]; simp)
            rw [hY, List.append_nil] at hXY
            have hX0 : X ≠ [] := by
              rintro rfl
              rw [hBj, hB1] at hXY
              simp at hXY
              exact hjne hXY.1
            obtain ⟨X1, w, rfl⟩ : ∃ X' w, X = X' ++ [w] := ⟨X.dropLast, X.getLast hX0, (List.dropLast_append_getLast hX0).symm⟩
            have hwj' := hwj
            rw [hXY] at hwj' hnd
            obtain ⟨a, hw1, hw2⟩ := (walk_append _ _ _ _ _).1 hwj'
            have ha : a = uOut := by rw [hB1] at hw2; exact walk_start hw2
            subst ha
            have hthw : s.thread w = a := ((walk_concat _ _ _ _ _).1 hw1).2
            have hrv : s.revThread a = w := rev_eq h hthw
            have hwjoin : w = join := by rw [← hrv, h4]
            -- so `X1` is empty
            have hX1 : X1 = [] := by
              cases X1 with
              | nil => rfl
              | cons b X1 =>
                exfalso
                rw [hBj] at hXY
                simp only [List.cons_append, List.cons.injEq] at hXY
                rw [hwjoin, ← hXY.1] at hnd
                simp at hnd
            rw [hX1, hwjoin, List.nil_append] at hXY
            have hvm : vIn ∈ blk L p join := (mem_blk h _ _).2 hj.right
            rw [hXY] at hvm
            simp only [List.cons_append, List.nil_append, List.mem_cons] at hvm
            rcases hvm with h5 | h5
            · exact h5.symm
            · exact absurd ((mem_blk h _ _).1 h5) hv
      · rw [if_neg h2, if_neg]
        rintro ⟨_, _, h3⟩
        exact h2 h3
  -- paths
  obtain ⟨pi, hpi, hpin, hpim⟩ := pathTo_spec hr' hra' (rank L p) fuel (rk vIn hv) ((anc_out h T hin hv hv).2 hj.right)
    (by have := rkf vIn; omega)
  obtain ⟨po, hpo, hpon, hpom⟩ := pathTo_spec hr' hra' (rank L p) fuel (rk vOut hvoS) ((anc_out h T hin hv hvoS).2 hjvo)
    (by have := rkf vOut; omega)
  obtain ⟨L', hw', hL'0⟩ := T.newList
  have hL' := hL'0 (fun x => Anc p uOut x) (fun x => Iff.rfl)
  have hlenN := length_N h T hin hv
  -- the subtree of `uIn` in the new tree
  have hsub : ∀ x, Anc t.parent uIn x ↔ Anc p uOut x := by
    intro x
    rw [anc_on h T hin hv ⟨anc_refl _, hin⟩]
    refine ⟨fun h' => h'.1, fun h' => ⟨h', fun c hc hcu => ?_⟩⟩
    exact absurd hcu (not_anc_parent h.root_none h.root_anc hc)
  have hmemL' : ∀ x, x ∈ L' := by
    intro x
    rw [hL', mem_mv _ vIn N hv]
    by_cases hx : Anc p uOut x
    · exact Or.inr ⟨(T.mem x).2 hx, h.mem vIn⟩
    · exact Or.inl ⟨hx, h.mem x⟩
  have hndL' : L'.Nodup := by
    have hlen : L'.length = L.length := by
      -- from the block of the root
      obtain ⟨P, B, Q, h1, h2, h3, h4⟩ := block_out h T hin hv L' hL' hrootS
      rw [if_pos (h.root_anc _), if_pos (h.root_anc _)] at h4
      have hbl : blk L p root = L := by
        unfold blk
        rw [List.filter_eq_self]
        intro a _
        simpa using h.root_anc a
      rw [hbl, ← hL'] at h3
      rw [h3] at h4
      obtain ⟨_, _, _, _, _, hs, _⟩ := blk_spec h root
      rw [hbl] at hs
      rw [hs] at h4
      omega
    have hsubL : L.Subperm L' := List.subperm_of_subset h.nodup (fun x _ => hmemL' x)
    have hperm := hsubL.perm_of_length_le (le_of_eq hlen)
    exact hperm.nodup_iff.1 h.nodup
  have hlenL' : L'.length = L.length := by
    refine ((List.perm_ext_iff_of_nodup hndL' h.nodup).2 fun a => ?_).length_eq
    exact ⟨fun _ => h.mem a, fun _ => hmemL' a⟩
  refine ⟨{ s with
      parent := t.parent, thread := t.thread, revThread := t.rev
      pred := Function.update l.pred uIn e
      forward := Function.update l.forward uIn (decide (uIn = net.src e))
      succNum := addSucc po (-s.succNum uOut) (addSucc pi (s.succNum uOut) (Function.update l.succNum uIn (s.succNum uOut)))
      lastSucc := ls2 }, L', ?_, ⟨hr', hra', hndL', hmemL', hw', T.rev, ?_⟩, hlenL', rfl, rfl, rfl, ⟨?_, ?_, ?_, ?_⟩⟩
  · unfold updateTreeStructure
    rw [← hp, hvOut]
    simp only [ht, hl, hls1, hls2, hpi, hpo]
  · -- blocks
    intro u
    have hsn : addSucc po (-s.succNum uOut) (addSucc pi (s.succNum uOut) (Function.update l.succNum uIn (s.succNum uOut))) u
        = Function.update l.succNum uIn (s.succNum uOut) u + (if u ∈ pi then s.succNum uOut else 0) +
          (if u ∈ po then -s.succNum uOut else 0) := by
      rw [addSucc_spec _ _ hpon, addSucc_spec _ _ hpin]
    by_cases hu : Anc p uOut u
    · have hupi : u ∉ pi := by
        rw [hpim, anc_out h T hin hv hv]
        exact fun h' => hv (anc_trans hu h'.1)
      have hupo : u ∉ po := by
        rw [hpom, anc_out h T hin hv hvoS]
        exact fun h' => hvoS (anc_trans hu h'.1)
      rw [if_neg hupi, if_neg hupo] at hsn
      obtain ⟨l1, l2, hL12⟩ := List.append_of_mem (h.mem vIn)
      have hdec : L' = (mv (fun x => Anc p uOut x) vIn N l1 ++ [vIn]) ++ N ++ mv (fun x => Anc p uOut x) vIn N l2 := by
        have : l1 ++ vIn :: l2 = l1 ++ [vIn] ++ l2 := by simp
        rw [hL', hL12, this, mv_append, mv_append, mv_vin _ _ _ hv]
        simp
      by_cases hst : Anc p u uIn
      · obtain ⟨P, B, hPB, hB⟩ := T.block_on u hu hst
        refine ⟨mv (fun x => Anc p uOut x) vIn N l1 ++ [vIn] ++ P, B, mv (fun x => Anc p uOut x) vIn N l2, ?_, ?_, ?_, ?_⟩
        · rw [hdec, hPB]; simp
        · intro x
          rw [anc_on h T hin hv ⟨hst, hu⟩]
          exact hB x
        · dsimp only
          rw [hls2On u hu, hlsOn u ⟨hst, hu⟩]
          have := T.last
          rw [hPB, List.getLast?_append] at this
          rw [← this]
          have hne : (u :: B).getLast? ≠ none := by simp
          cases hh : (u :: B).getLast? with
          | none => exact absurd hh hne
          | some w => rfl
        · dsimp only
          rw [hsn]
          by_cases huu : u = uIn
          · subst huu
            simp only [Function.update_self, add_zero]
            rw [← hlenN]
            have hp' : N.Perm (u :: B) := by
              have hnd : (u :: B).Nodup := by
                have := T.nodup; rw [hPB] at this
                exact (List.nodup_append.1 this).2.1
              rw [List.perm_ext_iff_of_nodup T.nodup hnd]
              intro a
              rw [T.mem, hB]
              refine ⟨fun h' => ⟨h', fun c hc hcu => ?_⟩, fun h' => h'.1⟩
              exact absurd hcu (not_anc_parent h.root_none h.root_anc hc)
            rw [hp'.length_eq]
          · rw [Function.update_of_ne huu]
            obtain ⟨c, hc, hcu⟩ := anc_child hst huu
            rw [(hI.done c u hc hcu hu hst huu).2.2]
            simp only [add_zero]
            -- the descendants of `uOut` split into the new block of `u` and the old block of `c`
            have hcuo : Anc p uOut c := anc_of_parent hc hu
            obtain ⟨_, _, _, _, _, hsc, _⟩ := blk_spec h c
            have hp' : N.Perm ((u :: B) ++ blk L p c) := by
              have hnd : ((u :: B) ++ blk L p c).Nodup := by
                rw [List.nodup_append]
                refine ⟨?_, nodup_blk h c, ?_⟩
                · have := T.nodup; rw [hPB] at this
                  exact (List.nodup_append.1 this).2.1
                · rintro a ha b hb rfl
                  rw [hB] at ha
                  exact ha.2 c hc hcu ((mem_blk h _ _).1 hb)
              rw [List.perm_ext_iff_of_nodup T.nodup hnd]
              intro a
              rw [T.mem, List.mem_append, hB, mem_blk h]
              constructor
              · intro ha
                by_cases hca : Anc p c a
                · exact Or.inr hca
                · refine Or.inl ⟨ha, fun d hd hdu hda => hca ?_⟩
                  rw [stem_child_unique h.root_none h.root_anc hc hd hcu hdu]
                  exact hda
              · rintro (ha | ha)
                · exact ha.1
                · exact anc_trans hcuo ha
            have := hp'.length_eq
            rw [List.length_append] at this
            rw [← hlenN, this, hsc]
            push_cast
            ring
      · obtain ⟨P, Q, hPQ⟩ := T.block_off u hu hst
        obtain ⟨_, _, _, ⟨B, hB⟩, hbl, hbs, _⟩ := blk_spec h u
        refine ⟨mv (fun x => Anc p uOut x) vIn N l1 ++ [vIn] ++ P, B, Q ++ mv (fun x => Anc p uOut x) vIn N l2, ?_, ?_, ?_, ?_⟩
        · rw [hdec, hPQ, hB]; simp
        · intro x
          rw [anc_off h T hin hv hu hst, ← hB, mem_blk h]
        · dsimp only
          rw [hls2On u hu, hlsOff u (fun h' => hst h'.1), ← hB]
          exact hbl
        · dsimp only
          have huu : u ≠ uIn := by rintro rfl; exact hst (anc_refl _)
          rw [hsn, Function.update_of_ne huu, (hI.rest u fun h' => hst h'.2.1).2.2, ← hB, hbs]
          simp
    · obtain ⟨P, B, Q, h1, h2, h3, h4⟩ := block_out h T hin hv L' hL' hu
      refine ⟨P, B, Q, h1, h2, ?_, ?_⟩
      · have hlast := last_out h T hin hv hu
        dsimp only
        rw [hls2Out u hu, h3]
        exact hlast
      · dsimp only
        have huu : u ≠ uIn := by rintro rfl; exact hu hin
        rw [h4, hsn, Function.update_of_ne huu, (hI.rest u fun h' => hu h'.1).2.2]
        have e1 : u ∈ pi ↔ Anc p u vIn ∧ Anc p join u ∧ u ≠ join := by
          rw [hpim, anc_out h T hin hv hv, anc_out h T hin hv hu]
        have e2 : u ∈ po ↔ Anc p u uOut ∧ Anc p join u ∧ u ≠ join := by
          rw [hpom, anc_out h T hin hv hvoS, anc_out h T hin hv hu]
          refine and_congr_left fun _ => ⟨fun h' => anc_trans h' (anc_parent hvOut), fun h' => anc_of_ne h' ?_ hvOut⟩
          rintro rfl; exact hu (anc_refl _)
        have comm : Anc p u join → Anc p u vIn ∧ Anc p u uOut := fun h' => ⟨anc_trans h' hj.right, anc_trans h' hjuo⟩
        have both : Anc p u vIn → Anc p u uOut → Anc p u join := fun h5 h6 => hj.least u (anc_trans h6 hin) h5
        have cmpV : Anc p u vIn → Anc p u join ∨ Anc p join u := fun h5 => anc_total h5 hj.right
        have cmpO : Anc p u uOut → Anc p u join ∨ Anc p join u := fun h5 => anc_total h5 hjuo
        have anti : Anc p u join → Anc p join u → u = join := fun h5 h6 => anc_antisymm h.root_none h.root_anc h5 h6
        have ejo : u = join → Anc p u join := by rintro rfl; exact anc_refl _
        by_cases c1 : Anc p u vIn <;> by_cases c2 : Anc p u uOut
        · have c3 := both c1 c2
          have n1 : u ∉ pi := by rw [e1]; rintro ⟨_, h6, h7⟩; exact h7 (anti c3 h6)
          have n2 : u ∉ po := by rw [e2]; rintro ⟨_, h6, h7⟩; exact h7 (anti c3 h6)
          rw [if_pos c2, if_pos c1, if_neg n1, if_neg n2]; ring
        · have n1 : u ∈ pi := by
            rw [e1]
            refine ⟨c1, (cmpV c1).resolve_left fun h5 => c2 (comm h5).2, fun h5 => c2 (comm (ejo h5)).2⟩
          have n2 : u ∉ po := by rw [e2]; exact fun h' => c2 h'.1
          rw [if_neg c2, if_pos c1, if_pos n1, if_neg n2]; ring
        · have n1 : u ∉ pi := by rw [e1]; exact fun h' => c1 h'.1
          have n2 : u ∈ po := by
            rw [e2]
            refine ⟨c2, (cmpO c2).resolve_left fun h5 => c1 (comm h5).1, fun h5 => c1 (comm (ejo h5)).1⟩
          rw [if_pos c2, if_neg c1, if_neg n1, if_pos n2]; ring
        · have n1 : u ∉ pi := by rw [e1]; exact fun h' => c1 h'.1
          have n2 : u ∉ po := by rw [e2]; exact fun h' => c2 h'.1
          rw [if_neg c2, if_neg c1, if_neg n1, if_neg n2]; ring
  · intro x hx
    have hxu : x ≠ uIn := by rintro rfl; exact hx ⟨anc_refl _, hin⟩
    have := hI.rest x fun h' => hx ⟨h'.2.1, h'.1⟩
    refine ⟨par_off T hx, ?_, ?_⟩
    · dsimp only; rw [Function.update_of_ne hxu, this.1]
    · dsimp only; rw [Function.update_of_ne hxu, this.2.1]
  · refine ⟨T.par_in, ?_, ?_⟩
    · dsimp only; rw [Function.update_self]
    · dsimp only; rw [Function.update_self]
  · intro c z hc hcu huz
    have hzu : z ≠ uIn := by rintro rfl; exact not_anc_parent h.root_none h.root_anc hc hcu
    have := hI.done c z hc hcu huz (anc_trans (anc_parent hc) hcu) hzu
    refine ⟨T.par_rev c z hc hcu huz, ?_, ?_⟩
    · dsimp only; rw [Function.update_of_ne hzu, this.1]
    · dsimp only; rw [Function.update_of_ne hzu, this.2.1]
  · exact hsub

end update

end POT.Simplex
