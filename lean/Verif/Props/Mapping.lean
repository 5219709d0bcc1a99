import Verif.Lemmas.Mapping
import Verif.Props.DaReg

/-! # C96: joint estimation of a transport plan and a map (`ot/mapping.py`) -/

set_option linter.unusedSectionVars false

namespace POT.Props

open Finset Spec Optim Mapping Matrix

variable {I J D F : Type*} [Fintype I] [Fintype J] [Fintype D] [Fintype F] [DecidableEq I] [DecidableEq D] [DecidableEq F]

theorem fit_eq (p : Args I J D) (R : Matrix I D ℝ) (T : I → D → ℝ) (hT : ∀ i d, R i d = T i d) (G : Matrix I J ℝ) :
    ∑ i, ∑ d, ((R - p.xst G) i d) ^ 2 + p.mu * ∑ i, ∑ j, G i j * p.M i j = fitTerm p.xs p.xt p.mu T G := by
  unfold fitTerm sqEuclid
  congr 1
  · refine sum_congr rfl fun i _ => sum_congr rfl fun d _ => ?_
    simp only [Args.xst, Matrix.sub_apply, Matrix.smul_apply, Matrix.mul_apply, smul_eq_mul, hT]
  · congr 1
    refine sum_congr rfl fun i _ => sum_congr rfl fun j _ => ?_
    unfold Args.M sqEuclid; ring

/-- C96. The recorded loss of `joint_OT_mapping_linear` is the documented objective of the linear map `x ↦ x L`. -/
theorem C96_loss_linear (p : Args I J D) (L : Matrix D D ℝ) (G : Matrix I J ℝ) :
    loss p (linear p.xs p.eta) L G = fitTerm p.xs p.xt p.mu (fun i => affineMap L (fun _ => 0) (p.xs i)) G + p.eta * distId L := by
  have h := fit_eq p (p.xs * L) (fun i => affineMap L (fun _ => 0) (p.xs i)) (fun i d => by simp [affineMap, Matrix.mul_apply]) G
  rw [← h]
  rfl

/-- C96. With `bias=True` the last row is an offset, which is not penalised. -/
theorem C96_loss_linear_bias (p : Args I J D) (L : Matrix (D ⊕ Unit) D ℝ) (G : Matrix I J ℝ) :
    loss p (linearBias p.xs p.eta) L G =
      fitTerm p.xs p.xt p.mu (fun i => affineMap (fun d e => L (Sum.inl d) e) (L (Sum.inr ())) (p.xs i)) G + p.eta * distId fun d e => L (Sum.inl d) e := by
  have h := fit_eq p (withOne p.xs * L) (fun i => affineMap (fun d e => L (Sum.inl d) e) (L (Sum.inr ())) (p.xs i))
    (fun i e => by have := withOne_mulVec p.xs (fun f => L f e) i; exact this) G
  rw [← h]
  rfl

/-- C96. The recorded loss of `joint_OT_mapping_kernel` is the documented objective of the kernel expansion. -/
theorem C96_loss_kernel (p : Args I J D) (sigma : ℝ) (L : Matrix I D ℝ) (G : Matrix I J ℝ) :
    loss p (kernel p.xs sigma p.eta) L G = fitTerm p.xs p.xt p.mu (fun i => kernelMap sigma p.xs L (fun _ => 0) (p.xs i)) G + p.eta * rkhsNorm sigma p.xs L := by
  have h := fit_eq p (kern p.xs sigma * L) (fun i => kernelMap sigma p.xs L (fun _ => 0) (p.xs i)) (fun i d => by simp [kernelMap, Matrix.mul_apply, kern, gauss]) G
  rw [← h]
  unfold loss
  congr 2
  show (Lᵀ * kern p.xs sigma * L).trace = _
  rw [quad_trace]; rfl

/-- C96. With `bias=True` the kernel version, unlike the linear one and unlike its documentation, also penalises the offset. -/
theorem C96_loss_kernel_bias (p : Args I J D) (sigma : ℝ) (L : Matrix (I ⊕ Unit) D ℝ) (G : Matrix I J ℝ) :
    loss p (kernelBias p.xs sigma p.eta) L G = fitTerm p.xs p.xt p.mu (fun i => kernelMap sigma p.xs (fun k e => L (Sum.inl k) e) (L (Sum.inr ())) (p.xs i)) G
      + p.eta * (rkhsNorm sigma p.xs (fun k e => L (Sum.inl k) e) + ∑ e, L (Sum.inr ()) e ^ 2) := by
  have h := fit_eq p (withOne (kern p.xs sigma) * L) (fun i => kernelMap sigma p.xs (fun k e => L (Sum.inl k) e) (L (Sum.inr ())) (p.xs i))
    (fun i e => by have := withOne_mulVec (kern p.xs sigma) (fun f => L f e) i; exact this) G
  rw [← h]
  unfold loss
  congr 2
  show (Lᵀ * Matrix.fromBlocks (kern p.xs sigma) 0 0 1 * L).trace = _
  rw [quad_trace]
  unfold rkhsNorm
  rw [← sum_add_distrib]
  refine sum_congr rfl fun e _ => ?_
  have := block_quad (kern p.xs sigma) 1 fun f => L f e
  rw [this, Matrix.one_apply_eq, one_mul]; rfl

/-- The update of the coefficients solves the normal equations of a convex quadratic problem. -/
def Exact (p : Args I J D) (v : Variant I D F) : Prop := ∃ P L0, Ridge p.eta v P L0

/-- C96. The linear versions (any samples) and the kernel version without bias (the Gaussian kernel is positive semidefinite) qualify whenever `eta > 0`, and the kernel
version with bias whenever its system is regular. -/
theorem C96_variants (p : Args I J D) (heta : 0 < p.eta) (sigma : ℝ) :
    Exact p (linear p.xs p.eta) ∧ (Nonempty I → Exact p (linearBias p.xs p.eta)) ∧ Exact p (kernel p.xs sigma p.eta) ∧
      (((withOne (kern p.xs sigma))ᵀ * withOne (kern p.xs sigma) + p.eta • (Matrix.fromBlocks (kern p.xs sigma) 0 0 1 : Matrix (I ⊕ Unit) (I ⊕ Unit) ℝ)).det ≠ 0 →
        Exact p (kernelBias p.xs sigma p.eta)) :=
  ⟨⟨_, _, linear_ridge p.xs heta⟩, fun _ => ⟨_, _, linearBias_ridge p.xs heta⟩, ⟨_, _, kernel_ridge p.xs sigma heta⟩,
    fun h => ⟨_, _, kernelBias_ridge p.xs sigma (isUnit_iff_ne_zero.2 h)⟩⟩

/-- C96. Refuted for the kernel version with bias: when two source samples coincide, the system that `solve_L` hands to `nx.solve` is singular. -/
theorem C96_kernel_bias_refuted (xs : Matrix I D ℝ) (sigma eta : ℝ) {i k : I} (hik : i ≠ k) (hx : xs i = xs k) :
    ((withOne (kern xs sigma))ᵀ * withOne (kern xs sigma) + eta • (Matrix.fromBlocks (kern xs sigma) 0 0 1 : Matrix (I ⊕ Unit) (I ⊕ Unit) ℝ)).det = 0 := by
  refine Matrix.exists_mulVec_eq_zero_iff.1 ⟨fun f => if f = Sum.inl i then 1 else if f = Sum.inl k then -1 else 0, fun h => ?_, ?_⟩
  · have := congrFun h (Sum.inl i)
    simp at this
  · obtain ⟨c, hc⟩ : ∃ c : I ⊕ Unit → ℝ, c = fun f => if f = Sum.inl i then 1 else if f = Sum.inl k then -1 else 0 := ⟨_, rfl⟩
    rw [← hc]
    have hker : ∀ l, ∑ f, kern xs sigma l f * c (Sum.inl f) = 0 := fun l => by
      have e : ∀ f, kern xs sigma l f * c (Sum.inl f) = (if f = i then kern xs sigma l i else 0) - if f = k then kern xs sigma l k else 0 := fun f => by
        rw [hc]
        by_cases h1 : f = i
        · subst h1; simp [hik]
        · by_cases h2 : f = k
          · subst h2; simp [h1]
          · simp [h1, h2]
      simp only [e, sum_sub_distrib, sum_ite_eq', mem_univ, if_true]
      unfold kern
      rw [hx, sub_self]
    have h0 : c (Sum.inr ()) = 0 := by rw [hc]; simp
    rw [Matrix.add_mulVec, Matrix.smul_mulVec, ← Matrix.mulVec_mulVec]
    have h1 : withOne (kern xs sigma) *ᵥ c = 0 := by
      funext l
      rw [withOne_mulVec, hker, h0, add_zero]; rfl
    have h2 : (Matrix.fromBlocks (kern xs sigma) 0 0 1 : Matrix (I ⊕ Unit) (I ⊕ Unit) ℝ) *ᵥ c = 0 := by
      funext f
      rcases f with f | f
      · simp only [mulVec, dotProduct, Fintype.sum_sum_type, Matrix.fromBlocks_apply₁₁, Matrix.fromBlocks_apply₁₂, Matrix.zero_apply, zero_mul, sum_const_zero, add_zero]
        exact hker f
      · simp only [mulVec, dotProduct, Fintype.sum_sum_type, Matrix.fromBlocks_apply₂₁, Matrix.fromBlocks_apply₂₂, Matrix.zero_apply, zero_mul, sum_const_zero, zero_add,
          univ_unique, sum_singleton]
        show _ * c (Sum.inr ()) = 0
        rw [h0, mul_zero]
    rw [h1, h2, Matrix.mulVec_zero, smul_zero, add_zero]

/-- C96. For a fixed plan the new coefficients are optimal: no coefficients have a smaller loss. -/
theorem C96_update {p : Args I J D} {v : Variant I D F} (hv : Exact p v) (heta : 0 ≤ p.eta) (G : Matrix I J ℝ) (L : Matrix F D ℝ) :
    loss p v (v.solveL (p.xst G)) G ≤ loss p v L G := by
  obtain ⟨P, L0, h⟩ := hv
  have e := h.expand (p := p) G G L
  dsimp only at e
  rw [e]
  simp only [sub_self, zero_mul, mul_zero, sum_const_zero, add_zero]
  have h1 : 0 ≤ ∑ i, ∑ d, ((v.feat * (L - v.solveL (p.xst G)) - p.xst 0) i d) ^ 2 := sum_nonneg fun _ _ => sum_nonneg fun _ _ => sq_nonneg _
  have h2 := mul_nonneg heta (h.quad_nonneg (L - v.solveL (p.xst G)))
  linarith

/-- The cost matrix of the linearised problem at `(L, G)`. -/
noncomputable def linearised (p : Args I J D) (v : Variant I D F) (L : Matrix F D ℝ) (G : Matrix I J ℝ) : I → J → ℝ := fun i j => p.M i j + 1 / p.mu * dfG p v L G i j

/-- C96. The joint problem is convex and the certificate is global: for a plan `G` with its own coefficients, no coupling together with any coefficients is better by more than
`mu` times the gap of the linearised transport problem at `G`. -/
theorem C96_global {p : Args I J D} {v : Variant I D F} (hv : Exact p v) (heta : 0 ≤ p.eta) (hmu : 0 < p.mu) {a : I → ℝ} {b : J → ℝ} (hlp : ∀ Mi, IsOptimal a b Mi (p.lp Mi))
    (G : Matrix I J ℝ) {G' : Matrix I J ℝ} (hG' : IsCoupling a b G') (L' : Matrix F D ℝ) :
    let L := v.solveL (p.xst G)
    let N := linearised p v L G
    loss p v L G - loss p v L' G' ≤ p.mu * (cost N G - cost N (p.lp N)) := by
  intro L N
  obtain ⟨P, L0, h⟩ := hv
  have e := h.expand (p := p) G G' L'
  dsimp only at e
  rw [e]
  have h1 : 0 ≤ ∑ i, ∑ d, ((v.feat * (L' - L) - p.xst (G' - G)) i d) ^ 2 := sum_nonneg fun _ _ => sum_nonneg fun _ _ => sq_nonneg _
  have h2 := mul_nonneg heta (h.quad_nonneg (L' - L))
  have h3 := (hlp N).2 G' hG'
  have h4 : p.mu * (cost N G - cost N G') = -(p.mu * ∑ i, ∑ j, (G' i j - G i j) * p.M i j) - ∑ i, ∑ j, dfG p v L G i j * (G' i j - G i j) := by
    unfold cost
    rw [← sum_sub_distrib, mul_sum, mul_sum, ← sum_neg_distrib, ← sum_sub_distrib]
    refine sum_congr rfl fun i _ => ?_
    rw [← sum_sub_distrib, mul_sum, mul_sum, ← sum_neg_distrib, ← sum_sub_distrib]
    refine sum_congr rfl fun j _ => ?_
    show _ * (_ * (p.M i j + 1 / p.mu * dfG p v L G i j) - _ * (p.M i j + 1 / p.mu * dfG p v L G i j)) = _
    field_simp; ring
  have h5 := mul_le_mul_of_nonneg_left h3 hmu.le
  linarith

/-- C96. The inner solver never increases the loss and returns a coupling. -/
theorem C96_inner (p : Args I J D) (v : Variant I D F) (hmu : 0 < p.mu) {a : I → ℝ} {b : J → ℝ} (hlp : ∀ Mi, IsOptimal a b Mi (p.lp Mi)) {c1 : ℝ} (hc1 : 0 ≤ c1)
    (hs : SearchOk c1 p.search) (L : Matrix F D ℝ) {G : Matrix I J ℝ} (hG : IsCoupling a b G) :
    IsCoupling a b (solveG p v L G) ∧ loss p v L (solveG p v L G) ≤ loss p v L G := by
  have h := C36_cg_armijo a b p.M (fun G => fG p v L G) (fun G => dfG p v L G) (1 / p.mu) c1 hc1 p.lp hlp p.search hs p.numInnerItermax p.stopInnerThr p.stopInnerThr2 G hG
  obtain ⟨s, h1, h2, _, h4⟩ := Problem.returned (P := Mapping.inner p v L) (G0 := G) (Inv := IsCoupling a b) (obj := fun G => Spec.inner p.M G + 1 / p.mu * fG p v L G) h
  have e : solveG p v L G = s.G := by
    unfold solveG
    have : (Mapping.inner p v L).loop (max 1 p.numInnerItermax) ((Mapping.inner p v L).init G) = some s := h1
    rw [this]
  rw [e]
  refine ⟨h2, ?_⟩
  have hobj : ∀ X : Matrix I J ℝ, loss p v L X = p.mu * (Spec.inner p.M X + 1 / p.mu * fG p v L X) + p.eta * v.pen L := fun X => by
    unfold loss fG Spec.inner
    have : ∑ i, ∑ j, X i j * p.M i j = ∑ i, ∑ j, p.M i j * X i j := sum_congr rfl fun i _ => sum_congr rfl fun j _ => mul_comm _ _
    rw [this]
    field_simp; ring
  have e1 := hobj s.G
  have e2 := hobj G
  have e3 := mul_le_mul_of_nonneg_left h4 hmu.le
  linarith

/-- What the variables satisfy at every test of the outer loop. -/
structure BcdInv (p : Args I J D) (v : Variant I D F) (a : I → ℝ) (b : J → ℝ) (s : Mapping.State I J D F) : Prop where
  coupling : IsCoupling a b s.G
  coeff : s.L = v.solveL (p.xst s.G)
  head : s.vloss.head? = some (loss p v s.L s.G)
  sorted : s.vloss.Pairwise (· ≤ ·)
  length : s.vloss.length = s.it + 1
  last : s.vloss.getLast? = some (loss p v (start p v).L (start p v).G)

theorem bcd_step {p : Args I J D} {v : Variant I D F} (hv : Exact p v) (heta : 0 ≤ p.eta) (hmu : 0 < p.mu) {a : I → ℝ} {b : J → ℝ} (hlp : ∀ Mi, IsOptimal a b Mi (p.lp Mi))
    {c1 : ℝ} (hc1 : 0 ≤ c1) (hs : SearchOk c1 p.search) {s : Mapping.State I J D F} (h : BcdInv p v a b s) : BcdInv p v a b (step p v s) := by
  obtain ⟨h1, h2⟩ := C96_inner p v hmu hlp hc1 hs s.L h.coupling
  have h3 := C96_update hv heta (solveG p v s.L s.G) s.L
  have hle := h3.trans h2
  obtain ⟨rest, hrest⟩ : ∃ rest, s.vloss = loss p v s.L s.G :: rest := by
    have hh := h.head
    cases hv' : s.vloss with
    | nil => rw [hv'] at hh; simp at hh
    | cons x t => rw [hv'] at hh; simp at hh; exact ⟨t, by rw [hh]⟩
  have hst := h.sorted
  rw [hrest] at hst
  refine ⟨h1, rfl, rfl, ?_, ?_, ?_⟩
  · show (_ :: s.vloss).Pairwise (· ≤ ·)
    rw [hrest, List.pairwise_cons]
    refine ⟨fun x hx => ?_, hst⟩
    rcases List.mem_cons.1 hx with rfl | hx
    · exact hle
    · exact hle.trans ((List.pairwise_cons.1 hst).1 x hx)
  · show (_ :: s.vloss).length = s.it + 1 + 1
    rw [List.length_cons, h.length]
  · show (_ :: s.vloss).getLast? = _
    rw [← h.last, hrest]
    simp [List.getLast?_cons_cons]

theorem bcd_loop {p : Args I J D} {v : Variant I D F} (hv : Exact p v) (heta : 0 ≤ p.eta) (hmu : 0 < p.mu) {a : I → ℝ} {b : J → ℝ} (hlp : ∀ Mi, IsOptimal a b Mi (p.lp Mi))
    {c1 : ℝ} (hc1 : 0 ≤ c1) (hs : SearchOk c1 p.search) : ∀ (fuel : ℕ) (s : Mapping.State I J D F), BcdInv p v a b s → 0 < fuel → s.it + fuel = p.numItermax →
      ∃ s', Mapping.loop p v fuel s = some s' ∧ BcdInv p v a b s' ∧ s'.it ≤ p.numItermax ∧
        (s'.it = p.numItermax ∨ ∃ v1 v0 t, s'.vloss = v1 :: v0 :: t ∧ v0 ≠ 0 ∧ |v1 - v0| / |v0| < p.stopThr) := by
  intro fuel
  induction fuel with
  | zero => intro s _ h0; omega
  | succ fuel ih =>
    intro s h _ hit
    have h' := bcd_step hv heta hmu hlp hc1 hs h
    have hit' : (step p v s).it = s.it + 1 := rfl
    unfold Mapping.loop
    dsimp only
    split_ifs with hst
    · refine ⟨_, rfl, h', by omega, ?_⟩
      unfold Mapping.stop at hst
      rw [Bool.or_eq_true, decide_eq_true_eq] at hst
      rcases hst with hst | hst
      · left; omega
      · right
        cases hvl : (step p v s).vloss with
        | nil => rw [hvl] at hst; simp at hst
        | cons v1 t =>
          cases t with
          | nil => rw [hvl] at hst; simp at hst
          | cons v0 t =>
            rw [hvl] at hst
            simp only [Bool.and_eq_true, decide_eq_true_eq] at hst
            exact ⟨v1, v0, t, rfl, hst.1, hst.2⟩
    · have : 0 < fuel := by
        by_contra hf
        apply hst
        unfold Mapping.stop
        have : p.numItermax ≤ (step p v s).it := by omega
        simp [this]
      exact ih _ h' this (by omega)

/-- C96. The functions terminate; they return a coupling and the optimal coefficients for it; the recorded losses (newest first) are sorted, end with the loss of the start
(the optimal plan for the squared distances with its own coefficients) and begin with the loss of the result, one per iteration plus one; the iterations stop at `numItermax` or
when the relative change is below the threshold; and the result is within `mu` times the linearised gap of the minimum over all couplings and all coefficients. -/
theorem C96_joint {p : Args I J D} {v : Variant I D F} (hv : Exact p v) (heta : 0 ≤ p.eta) (hmu : 0 < p.mu) {a : I → ℝ} {b : J → ℝ} (hlp : ∀ Mi, IsOptimal a b Mi (p.lp Mi))
    {c1 : ℝ} (hc1 : 0 ≤ c1) (hs : SearchOk c1 p.search) :
    ∃ s, run p v = some s ∧ IsCoupling a b s.G ∧ (∀ L, loss p v s.L s.G ≤ loss p v L s.G) ∧
      s.vloss.head? = some (loss p v s.L s.G) ∧ s.vloss.Pairwise (· ≤ ·) ∧ s.vloss.length = s.it + 1 ∧ s.it ≤ p.numItermax ∧
      (∃ G0 : Matrix I J ℝ, IsOptimal a b p.M G0 ∧ ∃ l0, s.vloss.getLast? = some l0 ∧ ∀ L, l0 ≤ loss p v L G0) ∧
      (s.it = p.numItermax ∨ ∃ v1 v0 t, s.vloss = v1 :: v0 :: t ∧ v0 ≠ 0 ∧ |v1 - v0| / |v0| < p.stopThr) ∧
      ∀ (G' : Matrix I J ℝ) (L' : Matrix F D ℝ), IsCoupling a b G' →
        loss p v s.L s.G - loss p v L' G' ≤ p.mu * (cost (linearised p v s.L s.G) s.G - cost (linearised p v s.L s.G) (p.lp (linearised p v s.L s.G))) := by
  have h0 : BcdInv p v a b (start p v) := ⟨(hlp p.M).1, rfl, rfl, List.pairwise_singleton _ _, rfl, rfl⟩
  have key : ∃ s, run p v = some s ∧ BcdInv p v a b s ∧ s.it ≤ p.numItermax ∧
      (s.it = p.numItermax ∨ ∃ v1 v0 t, s.vloss = v1 :: v0 :: t ∧ v0 ≠ 0 ∧ |v1 - v0| / |v0| < p.stopThr) := by
    unfold run
    split_ifs with h
    · exact bcd_loop hv heta hmu hlp hc1 hs p.numItermax (start p v) h0 h (Nat.zero_add _)
    · have : (start p v).it = 0 := rfl
      exact ⟨_, rfl, h0, by omega, Or.inl (by omega)⟩
  obtain ⟨s, h1, h2, h3, h4⟩ := key
  refine ⟨s, h1, h2.coupling, fun L => ?_, h2.head, h2.sorted, h2.length, h3, ⟨p.lp p.M, hlp _, _, h2.last, fun L => ?_⟩, h4, fun G' L' hG' => ?_⟩
  · rw [h2.coeff]; exact C96_update hv heta _ L
  · exact C96_update hv heta _ L
  · have := C96_global hv heta hmu hlp s.G hG' L'
    dsimp only at this
    rw [← h2.coeff] at this
    exact this

/-- The hypotheses can be met: two samples on each side, `eta = mu = 1`, the linear version. -/
example : ∃ p : Args (Fin 2) (Fin 2) (Fin 1), 0 < p.mu ∧ 0 < p.eta ∧ Exact p (linear p.xs p.eta) ∧ (∀ Mi : Fin 2 → Fin 2 → ℝ, IsOptimal (fun _ => (1 / 2 : ℝ)) (fun _ => (1 / 2 : ℝ)) Mi (p.lp Mi)) ∧
    SearchOk (1 / 2) p.search ∧ p.xs 0 ≠ p.xs 1 := by
  have hne : ∀ Mi : Fin 2 → Fin 2 → ℝ, ∃ G, IsOptimal (fun _ => (1 / 2 : ℝ)) (fun _ => (1 / 2 : ℝ)) Mi G := fun Mi =>
    exists_optimal _ _ Mi ⟨_, exHalfCoupling⟩
  choose lp hlp using hne
  refine ⟨⟨fun i _ => if i = 0 then 0 else 1, fun i _ => if i = 0 then 3 else 1, 1, 1, lp, _, 10, 10, 0, 0, 0⟩, zero_lt_one, zero_lt_one, ⟨_, _, linear_ridge _ zero_lt_one⟩, hlp, exSearch, fun h => ?_⟩
  have := congrFun h 0
  simp at this

/-- A regular system with bias: a single sample. -/
example : ((withOne (kern (0 : Matrix (Fin 1) (Fin 1) ℝ) 1))ᵀ * withOne (kern (0 : Matrix (Fin 1) (Fin 1) ℝ) 1) +
    (1 : ℝ) • (Matrix.fromBlocks (kern (0 : Matrix (Fin 1) (Fin 1) ℝ) 1) 0 0 1 : Matrix (Fin 1 ⊕ Unit) (Fin 1 ⊕ Unit) ℝ)).det ≠ 0 := by
  have hk : ∀ i k, kern (0 : Matrix (Fin 1) (Fin 1) ℝ) 1 i k = 1 := fun i k => by simp [kern, sqEuclid]
  refine (isUnit_of_ker fun c hc => ?_).ne_zero
  have h := gram_quad (withOne (kern (0 : Matrix (Fin 1) (Fin 1) ℝ) 1)) (Matrix.fromBlocks (kern (0 : Matrix (Fin 1) (Fin 1) ℝ) 1) 0 0 1) 1 c
  rw [hc, dotProduct_zero, block_quad] at h
  simp only [hk, univ_unique, sum_singleton, Matrix.one_apply_eq, Fin.default_eq_zero, Fin.isValue] at h
  have h0 := sq_nonneg ((withOne (kern (0 : Matrix (Fin 1) (Fin 1) ℝ) 1) *ᵥ c) 0)
  have h1 : c (Sum.inl 0) = 0 := by nlinarith [sq_nonneg (c (Sum.inl 0)), sq_nonneg (c (Sum.inr ()))]
  have h2 : c (Sum.inr ()) = 0 := by nlinarith [sq_nonneg (c (Sum.inl 0)), sq_nonneg (c (Sum.inr ()))]
  funext f
  rcases f with f | f
  · rw [Subsingleton.elim f 0]; exact h1
  · exact h2

end POT.Props
