import Verif.Spec.Nystroem
import Verif.Model.Nystroem
import Verif.Lemmas.SinkhornLoop
import Verif.Props.LowRank
import Verif.Props.ProjSdp
import Verif.Props.Sinkhorn

/-!
# C134: Sinkhorn with a Nyström kernel

`kernel_nystroem`, `empirical_sinkhorn_nystroem`, `empirical_sinkhorn_nystroem2`. Specification: `Verif/Spec/Nystroem.lean`.
-/

set_option linter.unusedSectionVars false

namespace POT.Props

open Finset POT.Spec POT.LowRank POT.Sinkhorn POT.Nystroem

variable {n m : ℕ} {D : Type*} [Fintype D]

/-- **Pseudo-inverses.** Every symmetric matrix has a Moore-Penrose inverse, so the assumption on `pinv` below can be met for all the matrices it is called with. -/
theorem C134_pinv_exists {L : Type*} [Fintype L] (B : Matrix L L ℝ) (hB : ∀ i j, B i j = B j i) : ∃ P, IsPinv B P := by
  classical
  obtain ⟨⟨w, V⟩, h1, h2, h3⟩ := C133_eigh_exists B hB
  have hS : B = V * Matrix.diagonal w * V.transpose := by
    ext i j
    rw [h3, Matrix.mul_apply]
    exact sum_congr rfl fun k _ => by rw [Matrix.mul_diagonal, Matrix.transpose_apply]
  have key : ∀ x y : L → ℝ, V * Matrix.diagonal x * V.transpose * (V * Matrix.diagonal y * V.transpose) = V * Matrix.diagonal (fun k => x k * y k) * V.transpose := fun x y => by
    rw [← Matrix.diagonal_mul_diagonal]
    calc V * Matrix.diagonal x * V.transpose * (V * Matrix.diagonal y * V.transpose)
        = V * Matrix.diagonal x * (V.transpose * V) * Matrix.diagonal y * V.transpose := by simp only [Matrix.mul_assoc]
      _ = _ := by rw [show V.transpose * V = 1 from h1, Matrix.mul_one]; simp only [Matrix.mul_assoc]
  have tr : ∀ x : L → ℝ, (V * Matrix.diagonal x * V.transpose).transpose = V * Matrix.diagonal x * V.transpose := fun x => by
    rw [Matrix.transpose_mul, Matrix.transpose_mul, Matrix.transpose_transpose, Matrix.diagonal_transpose, Matrix.mul_assoc]
  refine ⟨V * Matrix.diagonal (fun k => (w k)⁻¹) * V.transpose, ?_, ?_, ?_, ?_⟩ <;> rw [hS] <;> simp only [key, tr]
  · congr 3; funext k
    exact mul_inv_mul_cancel (w k)
  · congr 3; funext k
    by_cases h : w k = 0
    · simp [h]
    · field_simp

private theorem gauss_symm {L : Type*} (σ : ℝ) (Z : L → D → ℝ) (i j : L) : gauss σ Z Z i j = gauss σ Z Z j i := by
  unfold gauss sqEuclid
  congr 3
  exact sum_congr rfl fun d _ => by ring

/-- **Only the number of anchors is refused.** `ValueError` exactly for fewer than two anchors. -/
theorem C134_rejects [NeZero n] [NeZero m] (pinv : ∀ k, Matrix (Anchor n m k) (Anchor n m k) ℝ → Matrix (Anchor n m k) (Anchor n m k) ℝ) (X : Fin n → D → ℝ) (Y : Fin m → D → ℝ) (p : Equiv.Perm (Fin n)) (q : Equiv.Perm (Fin m)) (reg : ℝ) (anchors : ℤ)
    (a : Option (Fin n → ℝ)) (b : Option (Fin m → ℝ)) (numItermax : ℕ) (stopThr : ℝ) (warm : Option ((Fin n → ℝ) × (Fin m → ℝ))) :
    empirical pinv X Y p q reg anchors a b numItermax stopThr warm = none ↔ anchors < 2 := by
  unfold empirical
  split_ifs with h <;> simp [h]

/-- The product of the kernel factors reproduces the Gaussian kernel between anchors. -/
private theorem anchors_exact {k : ℕ} {pinv : Matrix (Anchor n m k) (Anchor n m k) ℝ → Matrix (Anchor n m k) (Anchor n m k) ℝ} (X : Fin n → D → ℝ) (Y : Fin m → D → ℝ) (p : Equiv.Perm (Fin n)) (q : Equiv.Perm (Fin m)) (σ : ℝ)
    (hp : IsPinv (gauss σ (basis X Y k p q) (basis X Y k p q)) (pinv (gauss σ (basis X Y k p q) (basis X Y k p q)))) {i : Fin n} {j : Fin m} (hi : (p.symm i).val < k) (hj : (q.symm j).val < k) :
    ∑ c, (factors pinv X Y p q σ).1 i c * (factors pinv X Y p q σ).2 j c = Real.exp (-(sqEuclid (X i) (Y j)) / (2 * σ ^ 2)) := by
  obtain ⟨Z, hZ⟩ : ∃ Z, Z = basis X Y k p q := ⟨_, rfl⟩
  have h1 : X i = Z (.inl ⟨(p.symm i).val, lt_min (p.symm i).isLt hi⟩) := by
    rw [hZ]
    simp only [basis]
    rw [show Fin.castLE (min_le_left n k) ⟨(p.symm i).val, lt_min (p.symm i).isLt hi⟩ = p.symm i from rfl, Equiv.apply_symm_apply]
  have h2 : Y j = Z (.inr ⟨(q.symm j).val, lt_min (q.symm j).isLt hj⟩) := by
    rw [hZ]
    simp only [basis]
    rw [show Fin.castLE (min_le_left m k) ⟨(q.symm j).val, lt_min (q.symm j).isLt hj⟩ = q.symm j from rfl, Equiv.apply_symm_apply]
  generalize hr : (Sum.inl ⟨(p.symm i).val, lt_min (p.symm i).isLt hi⟩ : Anchor n m k) = r at h1
  generalize hs : (Sum.inr ⟨(q.symm j).val, lt_min (q.symm j).isLt hj⟩ : Anchor n m k) = s at h2
  unfold factors
  dsimp only
  rw [← hZ] at hp ⊢
  have e : ∑ c, (gauss σ X Z * pinv (gauss σ Z Z)) i c * gauss σ Y Z j c = (gauss σ Z Z * pinv (gauss σ Z Z) * gauss σ Z Z) r s := by
    rw [Matrix.mul_apply]
    refine sum_congr rfl fun c _ => ?_
    congr 1
    · rw [Matrix.mul_apply, Matrix.mul_apply]
      refine sum_congr rfl fun d _ => ?_
      congr 1
      unfold gauss
      rw [h1]
    · rw [gauss_symm]
      unfold gauss
      rw [h2]
  rw [e, hp.inner]
  unfold gauss
  rw [h1, h2]

private theorem sigma_sq {reg : ℝ} (h : 0 < reg) : 2 * √(reg / 2) ^ 2 = reg := by
  rw [Real.sq_sqrt (by positivity)]; ring

private theorem loss_cost {C E : Type*} [Fintype C] [Fintype E] {M1 : Fin n → E → ℝ} {M2 : Fin m → E → ℝ} {M : Fin n → Fin m → ℝ} (hM : ∀ i j, ∑ e, M1 i e * M2 j e = M i j) (K1 : Fin n → C → ℝ) (K2 : Fin m → C → ℝ) (s : UV (Fin n) (Fin m)) :
    loss M1 M2 K1 K2 s = cost M (lrkPlan K1 K2 s) := by
  unfold loss cost lrkPlan
  simp_rw [← hM]
  calc ∑ c, ∑ e, (∑ i, s.u i * K1 i c * M1 i e) * ∑ j, s.v j * K2 j c * M2 j e
      = ∑ c, ∑ e, ∑ i, ∑ j, s.u i * K1 i c * M1 i e * (s.v j * K2 j c * M2 j e) := sum_congr rfl fun c _ => sum_congr rfl fun e _ => sum_mul_sum _ _ _ _
    _ = ∑ c, ∑ i, ∑ e, ∑ j, s.u i * K1 i c * M1 i e * (s.v j * K2 j c * M2 j e) := sum_congr rfl fun c _ => sum_comm
    _ = ∑ i, ∑ c, ∑ e, ∑ j, s.u i * K1 i c * M1 i e * (s.v j * K2 j c * M2 j e) := sum_comm
    _ = ∑ i, ∑ c, ∑ j, ∑ e, s.u i * K1 i c * M1 i e * (s.v j * K2 j c * M2 j e) := sum_congr rfl fun i _ => sum_congr rfl fun c _ => sum_comm
    _ = ∑ i, ∑ j, ∑ c, ∑ e, s.u i * K1 i c * M1 i e * (s.v j * K2 j c * M2 j e) := sum_congr rfl fun i _ => sum_comm
    _ = _ := sum_congr rfl fun i _ => sum_congr rfl fun j _ => by
      rw [sum_mul_sum]
      exact sum_congr rfl fun e _ => sum_congr rfl fun c _ => by ring

section
variable [NeZero n] [NeZero m] {pinv : ∀ k, Matrix (Anchor n m k) (Anchor n m k) ℝ → Matrix (Anchor n m k) (Anchor n m k) ℝ} {X : Fin n → D → ℝ} {Y : Fin m → D → ℝ} {p : Equiv.Perm (Fin n)} {q : Equiv.Perm (Fin m)} {reg : ℝ} {anchors : ℤ}
  {a : Option (Fin n → ℝ)} {b : Option (Fin m → ℝ)} {numItermax : ℕ} {stopThr : ℝ} {warm : Option ((Fin n → ℝ) × (Fin m → ℝ))}

private theorem out_eq {o : Out n m} (h : empirical pinv X Y p q reg anchors a b numItermax stopThr warm = some o) :
    o = ⟨(anchors / 2).toNat, (factors (pinv (anchors / 2).toNat) X Y p q (√(reg / 2))).1, (factors (pinv (anchors / 2).toNat) X Y p q (√(reg / 2))).2,
      lrKernel (factors (pinv (anchors / 2).toNat) X Y p q (√(reg / 2))).1 (factors (pinv (anchors / 2).toNat) X Y p q (√(reg / 2))).2 (a.getD fun _ => 1 / n) (b.getD fun _ => 1 / m) numItermax stopThr warm,
      lrkPlan (factors (pinv (anchors / 2).toNat) X Y p q (√(reg / 2))).1 (factors (pinv (anchors / 2).toNat) X Y p q (√(reg / 2))).2
        (lrKernel (factors (pinv (anchors / 2).toNat) X Y p q (√(reg / 2))).1 (factors (pinv (anchors / 2).toNat) X Y p q (√(reg / 2))).2 (a.getD fun _ => 1 / n) (b.getD fun _ => 1 / m) numItermax stopThr warm).s,
      loss (lrSq X Y false).1 (lrSq X Y false).2 (factors (pinv (anchors / 2).toNat) X Y p q (√(reg / 2))).1 (factors (pinv (anchors / 2).toNat) X Y p q (√(reg / 2))).2
        (lrKernel (factors (pinv (anchors / 2).toNat) X Y p q (√(reg / 2))).1 (factors (pinv (anchors / 2).toNat) X Y p q (√(reg / 2))).2 (a.getD fun _ => 1 / n) (b.getD fun _ => 1 / m) numItermax stopThr warm).s⟩ := by
  unfold empirical at h
  split_ifs at h with h0
  exact (Option.some.inj h).symm

/-- **Kernel between anchors.** The product of the two logged factors equals the Gibbs kernel `exp(-|x - y|²/reg)` at every pair of points that were both drawn as anchors, for every draw. -/
theorem C134_anchor_kernel (hp : ∀ k B, (∀ i j, B i j = B j i) → IsPinv B (pinv k B)) (hreg : 0 < reg) {o : Out n m} (h : empirical pinv X Y p q reg anchors a b numItermax stopThr warm = some o) {i : Fin n} {j : Fin m}
    (hi : ((p.symm i : ℕ) : ℤ) < anchors / 2) (hj : ((q.symm j : ℕ) : ℤ) < anchors / 2) : ∑ c, o.left i c * o.right j c = Real.exp (-(sqEuclid (X i) (Y j)) / reg) := by
  obtain rfl := out_eq h
  have := anchors_exact (pinv := pinv (anchors / 2).toNat) X Y p q (√(reg / 2)) (hp _ _ (gauss_symm _ _)) (i := i) (j := j) (by omega) (by omega)
  rwa [sigma_sq hreg] at this

/-- **Kernel at one anchor.** If the kernel matrix between the drawn anchors is invertible, the product of the factors is exact at every pair of points of which one was drawn. -/
theorem C134_one_anchor (hp : ∀ k B, (∀ i j, B i j = B j i) → IsPinv B (pinv k B)) (hreg : 0 < reg) {o : Out n m} (h : empirical pinv X Y p q reg anchors a b numItermax stopThr warm = some o)
    (hinv : ∃ Q : Matrix (Anchor n m (anchors / 2).toNat) (Anchor n m (anchors / 2).toNat) ℝ,
      ∀ r s, ∑ t, Q r t * Real.exp (-(sqEuclid (basis X Y (anchors / 2).toNat p q t) (basis X Y (anchors / 2).toNat p q s)) / reg) = if r = s then 1 else 0)
    {i : Fin n} {j : Fin m} (hij : ((p.symm i : ℕ) : ℤ) < anchors / 2 ∨ ((q.symm j : ℕ) : ℤ) < anchors / 2) : ∑ c, o.left i c * o.right j c = Real.exp (-(sqEuclid (X i) (Y j)) / reg) := by
  obtain rfl := out_eq h
  have hij' : (p.symm i).val < (anchors / 2).toNat ∨ (q.symm j).val < (anchors / 2).toNat := by omega
  clear hij h
  dsimp only
  generalize (anchors / 2).toNat = k at hinv hij' ⊢
  obtain ⟨Q, hQ⟩ := hinv
  obtain ⟨Z, hZ⟩ : ∃ Z, Z = basis X Y k p q := ⟨_, rfl⟩
  obtain ⟨B, hB⟩ : ∃ B, B = gauss (√(reg / 2)) Z Z := ⟨_, rfl⟩
  have hpB : IsPinv B (pinv k B) := hp k B fun i j => by rw [hB]; exact gauss_symm _ _ i j
  have hQB : Q * B = 1 := by
    ext r s
    rw [Matrix.mul_apply, Matrix.one_apply, ← hQ r s, hB]
    unfold gauss
    rw [sigma_sq hreg, hZ]
  have hBQ : B * Q = 1 := mul_eq_one_comm.1 hQB
  have hPB : pinv k B * B = 1 := by
    have := congrArg (Q * ·) hpB.inner
    rwa [Matrix.mul_assoc B, ← Matrix.mul_assoc Q, hQB, Matrix.one_mul] at this
  have hBP : B * pinv k B = 1 := mul_eq_one_comm.1 hPB
  unfold factors
  dsimp only
  rw [← hZ, ← hB]
  rcases hij' with hi | hj
  · have h1 : X i = Z (.inl ⟨(p.symm i).val, lt_min (p.symm i).isLt hi⟩) := by
      rw [hZ]
      simp only [basis]
      rw [show Fin.castLE (min_le_left n k) ⟨(p.symm i).val, lt_min (p.symm i).isLt hi⟩ = p.symm i from rfl, Equiv.apply_symm_apply]
    generalize (Sum.inl ⟨(p.symm i).val, lt_min (p.symm i).isLt hi⟩ : Anchor n m k) = r at h1
    have hl : ∀ c, (gauss (√(reg / 2)) X Z * pinv k B) i c = if r = c then 1 else 0 := fun c => by
      rw [← Matrix.one_apply, ← hBP, Matrix.mul_apply, Matrix.mul_apply, hB]
      unfold gauss
      rw [h1]
    simp only [hl, ite_mul, one_mul, zero_mul, sum_ite_eq, mem_univ, if_true]
    unfold gauss
    rw [sigma_sq hreg, h1, show sqEuclid (Y j) (Z r) = sqEuclid (Z r) (Y j) from sum_congr rfl fun d _ => by ring]
  · have h2 : Y j = Z (.inr ⟨(q.symm j).val, lt_min (q.symm j).isLt hj⟩) := by
      rw [hZ]
      simp only [basis]
      rw [show Fin.castLE (min_le_left m k) ⟨(q.symm j).val, lt_min (q.symm j).isLt hj⟩ = q.symm j from rfl, Equiv.apply_symm_apply]
    generalize (Sum.inr ⟨(q.symm j).val, lt_min (q.symm j).isLt hj⟩ : Anchor n m k) = r at h2
    have hr : ∀ c, gauss (√(reg / 2)) Y Z j c = B c r := fun c => by
      rw [hB, gauss_symm]
      unfold gauss
      rw [h2]
    simp only [hr]
    rw [← Matrix.mul_apply, Matrix.mul_assoc, hPB, Matrix.mul_one]
    unfold gauss
    rw [sigma_sq hreg, h2]

/-- **All points as anchors.** With at least `2 max(n, m)` anchors the call is the Sinkhorn solver on the squared Euclidean distances: same scalings, iteration count and way of stopping, same plan. -/
theorem C134_exact (hp : ∀ k B, (∀ i j, B i j = B j i) → IsPinv B (pinv k B)) (hreg : 0 < reg) (hn : (2 * n : ℤ) ≤ anchors) (hm : (2 * m : ℤ) ≤ anchors) (ha : ∀ w ∈ a, ∀ i, 0 < w i) {o : Out n m}
    (h : empirical pinv X Y p q reg anchors a b numItermax stopThr warm = some o) :
    o.run = sinkhornKnopp (a.getD fun _ => 1 / n) (b.getD fun _ => 1 / m) (fun i j => sqEuclid (X i) (Y j)) reg numItermax stopThr warm ∧ o.plan = plan (kernel (fun i j => sqEuclid (X i) (Y j)) reg) o.run.s := by
  have hK : ∀ i j, ∑ c, o.left i c * o.right j c = Real.exp (-(sqEuclid (X i) (Y j)) / reg) := fun i j =>
    C134_anchor_kernel hp hreg h (by have := (p.symm i).isLt; omega) (by have := (q.symm j).isLt; omega)
  have ha' : ∀ i, 0 < (a.getD fun _ => (1 / n : ℝ)) i := by
    cases a with
    | none =>
      intro i
      have := NeZero.pos n
      show (0 : ℝ) < 1 / n
      positivity
    | some w => exact ha w rfl
  obtain rfl := out_eq h
  obtain ⟨h1, h2⟩ := C100_kernel _ _ hK (b.getD fun _ => 1 / m) ha' numItermax stopThr warm
  exact ⟨h1, h2 _⟩

/-- **All points as anchors: a plan.** For positive weights, at least one iteration and `2 max(n, m)` anchors, the returned plan is positive with row sums exactly `a`. -/
theorem C134_exact_plan (hp : ∀ k B, (∀ i j, B i j = B j i) → IsPinv B (pinv k B)) (hreg : 0 < reg) (hn : (2 * n : ℤ) ≤ anchors) (hm : (2 * m : ℤ) ≤ anchors) (hit : 0 < numItermax) {a : Fin n → ℝ} {b : Fin m → ℝ} (ha : ∀ i, 0 < a i) (hb : ∀ j, 0 < b j)
    {o : Out n m} (h : empirical pinv X Y p q reg anchors (some a) (some b) numItermax stopThr warm = some o) : (∀ i, ∑ j, o.plan i j = a i) ∧ ∀ i j, 0 < o.plan i j := by
  obtain ⟨h1, h2⟩ := C134_exact hp hreg hn hm (fun w hw => by rw [← Option.some.inj hw]; exact ha) h
  obtain ⟨-, h3⟩ := C25_sinkhorn_knopp a b (fun i j => sqEuclid (X i) (Y j)) reg numItermax stopThr warm (fun i => (ha i).le) ⟨0, ha 0⟩ (fun j => (hb j).le) ⟨0, hb 0⟩ (.inl ha)
  obtain ⟨h4, -, -, h5⟩ := h3 hit
  rw [h2, h1]
  exact ⟨h4, fun i j => (h5 i j (ha i) (hb j)).2.2⟩

/-- **Form and marginals for every draw.** The plan is the product kernel scaled by the two logged vectors. If the loop met no numerical error and ran at least once, the row sums are exactly `a`; if it stopped by the tolerance, the column sums are within `stopThr` of `b` in Euclidean norm. -/
theorem C134_marginals {o : Out n m} (h : empirical pinv X Y p q reg anchors a b numItermax stopThr warm = some o) :
    (∀ i j, o.plan i j = o.run.s.u i * (∑ c, o.left i c * o.right j c) * o.run.s.v j) ∧
    (o.run.exit ≠ .numerical → 0 < numItermax → ∀ i, ∑ j, o.plan i j = (a.getD fun _ => 1 / n) i) ∧
    (o.run.exit = .converged → norm2 (fun j => ∑ i, o.plan i j - (b.getD fun _ => 1 / m) j) < stopThr) := by
  obtain rfl := out_eq h
  dsimp only
  generalize factors (pinv (anchors / 2).toNat) X Y p q (√(reg / 2)) = f
  obtain ⟨K1, K2⟩ := f
  dsimp only
  generalize a.getD _ = a'
  generalize b.getD _ = b'
  have hform : ∀ s i j, lrkPlan K1 K2 s i j = s.u i * (∑ c, K1 i c * K2 j c) * s.v j := fun s i j => by
    unfold lrkPlan
    rw [mul_sum, sum_mul]
    exact sum_congr rfl fun c _ => by ring
  have hrow : ∀ (s : UV (Fin n) (Fin m)) i, ∑ j, lrkPlan K1 K2 s i j = s.u i * lrkV K1 K2 s.v i := fun s i => by
    unfold lrkPlan lrkV
    simp_rw [mul_sum]
    rw [sum_comm]
    exact sum_congr rfl fun c _ => sum_congr rfl fun j _ => by ring
  have hcol : ∀ (s : UV (Fin n) (Fin m)) j, ∑ i, lrkPlan K1 K2 s i j = s.v j * lrkTu K1 K2 s.u j := fun s j => by
    unfold lrkPlan lrkTu
    simp_rw [mul_sum]
    rw [sum_comm]
    exact sum_congr rfl fun c _ => sum_congr rfl fun i _ => by ring
  refine ⟨fun i j => hform _ i j, fun hx hn i => ?_, fun hx => ?_⟩
  · obtain ⟨k, hk, e, hb, -, x1, x2, -⟩ := loop_spec (step := lrkStep K1 K2 a' b') (bad := lrkBad K1 K2 b')
      (stop := fun ii _ s => ii % 10 = 0 ∧ lrkErr K1 K2 b' s < stopThr) numItermax 0 (knoppInit warm)
    have hk0 : ∃ l, k = l + 1 := by
      rcases h' : (lrKernel K1 K2 a' b' numItermax stopThr warm).exit with _ | _ | _
      · obtain ⟨l, hl, -⟩ := x2 h'
        exact ⟨l, hl⟩
      · exact ⟨numItermax - 1, by rw [x1 h']; omega⟩
      · exact absurd h' hx
    obtain ⟨l, rfl⟩ := hk0
    have e' : (lrKernel K1 K2 a' b' numItermax stopThr warm).s = lrkStep K1 K2 a' b' ((lrkStep K1 K2 a' b')^[l] (knoppInit warm)) := e.trans (Function.iterate_succ_apply' _ _ _)
    have hbad := hb l (Nat.lt_succ_self l)
    rw [e', hrow]
    refine div_mul_cancel₀ _ fun h0 => hbad (.inr ⟨i, h0⟩)
  · obtain ⟨k, hk, e, hb, -, x1, x2, -⟩ := loop_spec (step := lrkStep K1 K2 a' b') (bad := lrkBad K1 K2 b')
      (stop := fun ii _ s => ii % 10 = 0 ∧ lrkErr K1 K2 b' s < stopThr) numItermax 0 (knoppInit warm)
    obtain ⟨l, rfl, -, -, hs⟩ := x2 hx
    have e' : (lrKernel K1 K2 a' b' numItermax stopThr warm).s = (lrkStep K1 K2 a' b')^[l + 1] (knoppInit warm) := e
    rw [e']
    simp_rw [hcol]
    exact hs

/-- **The loss is the transport cost of the plan.** `empirical_sinkhorn_nystroem2` returns the sum of the squared Euclidean distances weighted by the plan that `empirical_sinkhorn_nystroem` returns for the same draw. -/
theorem C134_loss {o : Out n m} (h : empirical pinv X Y p q reg anchors a b numItermax stopThr warm = some o) : o.loss = cost (fun i j => sqEuclid (X i) (Y j)) o.plan := by
  obtain rfl := out_eq h
  dsimp only
  exact loss_cost (C100_cost X Y).1 _ _ _

end

/-! ### `solve_sample` -/

/-- **`solve_sample(method="nystroem")`: refusals.** `NotImplementedError` exactly for other metrics than `sqeuclidean`; for this metric an error exactly for a rank below two or an iteration limit of zero. -/
theorem C134_sample_errors [NeZero n] [NeZero m] (pinv : ∀ k, Matrix (Anchor n m k) (Anchor n m k) ℝ → Matrix (Anchor n m k) (Anchor n m k) ℝ) (X : Fin n → D → ℝ) (Y : Fin m → D → ℝ) (p : Equiv.Perm (Fin n)) (q : Equiv.Perm (Fin m)) (sq : Bool) (reg : Option ℝ)
    (rank : ℤ) (a : Option (Fin n → ℝ)) (b : Option (Fin m → ℝ)) (maxIter : Option ℕ) (tol : Option ℝ) (lazy0 : Bool) :
    (solveSample pinv X Y p q sq reg rank a b maxIter tol lazy0 = .notImplemented ↔ sq = false) ∧
    (sq = true → (solveSample pinv X Y p q sq reg rank a b maxIter tol lazy0 = .error ↔ rank < 2 ∨ maxIter = some 0)) := by
  have h := C134_rejects pinv X Y p q (reg.getD 1) rank a b (maxIter.getD 1000) (tol.getD (1 / 10 ^ 7)) none
  unfold solveSample
  cases sq with
  | false => simp
  | true =>
    by_cases h0 : maxIter = some 0
    · simp [h0]
    · cases ho : empirical pinv X Y p q (reg.getD 1) rank a b (maxIter.getD 1000) (tol.getD (1 / 10 ^ 7)) none with
      | none => simp [h0, h.1 ho]
      | some o =>
        have : ¬ rank < 2 := fun hr => by rw [h.2 hr] at ho; cases ho
        simp [h0, this]

/-- **`solve_sample(method="nystroem")`: results.** The value is the squared Euclidean cost of the lazy plan, the dense plan (given unless `lazy`) is the lazy plan, and with a rank of at least `2 max(n, m)` the plan is that of the
Sinkhorn solver on the squared distances with `reg` (default 1), `max_iter` (default 1000) and `tol` (default `1e-7`). -/
theorem C134_sample [NeZero n] [NeZero m] {pinv : ∀ k, Matrix (Anchor n m k) (Anchor n m k) ℝ → Matrix (Anchor n m k) (Anchor n m k) ℝ} {X : Fin n → D → ℝ} {Y : Fin m → D → ℝ} {p : Equiv.Perm (Fin n)} {q : Equiv.Perm (Fin m)} {sq : Bool} {reg : Option ℝ}
    {rank : ℤ} {a : Option (Fin n → ℝ)} {b : Option (Fin m → ℝ)} {maxIter : Option ℕ} {tol : Option ℝ} {lazy0 : Bool} {value : ℝ} {P : Option (Fin n → Fin m → ℝ)} {L : Fin n → Fin m → ℝ}
    (h : solveSample pinv X Y p q sq reg rank a b maxIter tol lazy0 = .ok value P L) :
    value = cost (fun i j => sqEuclid (X i) (Y j)) L ∧ (lazy0 = true → P = none) ∧ (lazy0 = false → P = some L) ∧
    ((∀ k B, (∀ i j, B i j = B j i) → IsPinv B (pinv k B)) → (∀ r ∈ reg, 0 < r) → (∀ w ∈ a, ∀ i, 0 < w i) → (2 * n : ℤ) ≤ rank → (2 * m : ℤ) ≤ rank →
      L = plan (kernel (fun i j => sqEuclid (X i) (Y j)) (reg.getD 1)) (sinkhornKnopp (a.getD fun _ => 1 / n) (b.getD fun _ => 1 / m) (fun i j => sqEuclid (X i) (Y j)) (reg.getD 1) (maxIter.getD 1000) (tol.getD (1 / 10 ^ 7)) none).s) := by
  unfold solveSample at h
  split_ifs at h
  all_goals
    cases ho : empirical pinv X Y p q (reg.getD 1) rank a b (maxIter.getD 1000) (tol.getD (1 / 10 ^ 7)) none with
    | none => rw [ho] at h; cases h
    | some o =>
      rw [ho] at h
      simp only [SampleOut.ok.injEq] at h
      obtain ⟨rfl, rfl, rfl⟩ := h
      refine ⟨C134_loss ho, fun hl => by simp_all, fun hl => by simp_all, fun hp hr ha h1 h2 => ?_⟩
      have hr' : 0 < reg.getD 1 := by
        cases reg with
        | none => exact one_pos
        | some r => exact hr r rfl
      obtain ⟨e1, e2⟩ := C134_exact hp hr' h1 h2 ha ho
      rw [e2, e1]

/-! ### negative plans -/

open Matrix in
/-- Entries of the product kernel where the kernel row and column are combinations of the rows and columns between anchors. -/
private theorem comb_exact {L : Type*} [Fintype L] {B P : Matrix L L ℝ} (h : IsPinv B P) {x y w z : L → ℝ} (hx : x = w ᵥ* B) (hy : y = B *ᵥ z) : ∑ c, (x ᵥ* P) c * y c = ∑ c, x c * z c := by
  change (x ᵥ* P) ⬝ᵥ y = x ⬝ᵥ z
  rw [hy, hx, dotProduct_mulVec, vecMul_vecMul, vecMul_vecMul, ← Matrix.mul_assoc, h.inner]

/-- the source points `0, -√(log 2)` -/
noncomputable def nyX (i : Fin 2) (_ : Fin 1) : ℝ := -((i : ℕ) : ℝ) * √(Real.log 2)

/-- the target points `√(log 2), 2 √(log 2)` -/
noncomputable def nyY (j : Fin 2) (_ : Fin 1) : ℝ := (((j : ℕ) : ℝ) + 1) * √(Real.log 2)

private theorem exp_val (N : ℕ) {t : ℝ} (ht : t = N * Real.log 2) : Real.exp (-t / 1) = (1 / 2) ^ N := by
  rw [ht, div_one, ← mul_neg, Real.exp_nat_mul, Real.exp_neg, Real.exp_log (by norm_num), one_div]

private theorem sq_val (x y : ℝ) (N : ℕ) (h : (x - y) ^ 2 = N) : sqEuclid (fun _ : Fin 1 => x * √(Real.log 2)) (fun _ => y * √(Real.log 2)) = N * Real.log 2 := by
  unfold sqEuclid
  rw [Fin.sum_univ_one, ← sub_mul, mul_pow, Real.sq_sqrt (Real.log_nonneg (by norm_num)), h]

/-- the only anchor of a side -/
private def A0 : Fin (min 2 1) := ⟨0, by decide⟩

private theorem signs {pinv : Matrix (Anchor 2 2 1) (Anchor 2 2 1) ℝ → Matrix (Anchor 2 2 1) (Anchor 2 2 1) ℝ} (hp : ∀ B, (∀ i j, B i j = B j i) → IsPinv B (pinv B)) {f : Matrix (Fin 2) (Anchor 2 2 1) ℝ × Matrix (Fin 2) (Anchor 2 2 1) ℝ}
    (hf : f = factors pinv nyX nyY 1 1 (√(1 / 2))) :
    ∑ c, f.1 0 c * f.2 0 c = 1 / 2 ∧ ∑ c, f.1 0 c * f.2 1 c = 1 / 16 ∧ ∑ c, f.1 1 c * f.2 0 c = 1 / 16 ∧ ∑ c, f.1 1 c * f.2 1 c = -11 / 128 := by
  have hσ : 2 * √(1 / 2 : ℝ) ^ 2 = 1 := sigma_sq one_pos
  obtain ⟨Z, hZ⟩ : ∃ Z, Z = basis nyX nyY 1 1 1 := ⟨_, rfl⟩
  have z0 : Z (.inl A0) = fun _ => 0 * √(Real.log 2) := by rw [hZ]; funext d; simp [basis, nyX, A0]
  have z1 : Z (.inr A0) = fun _ => 1 * √(Real.log 2) := by rw [hZ]; funext d; simp [basis, nyY, A0]
  have x0 : nyX 0 = fun _ => 0 * √(Real.log 2) := by funext d; simp [nyX]
  have x1 : nyX 1 = fun _ => -1 * √(Real.log 2) := by funext d; simp [nyX]
  have y0 : nyY 0 = fun _ => 1 * √(Real.log 2) := by funext d; simp [nyY]
  have y1 : nyY 1 = fun _ => 2 * √(Real.log 2) := by funext d; simp [nyY]; norm_num
  have val : ∀ (x y : ℝ) (N : ℕ), (x - y) ^ 2 = N → Real.exp (-(sqEuclid (fun _ : Fin 1 => x * √(Real.log 2)) (fun _ => y * √(Real.log 2))) / (2 * √(1 / 2 : ℝ) ^ 2)) = (1 / 2) ^ N := fun x y N h => by
    rw [hσ]; exact exp_val N (sq_val x y N h)
  obtain ⟨B, hB⟩ : ∃ B, B = gauss (√(1 / 2)) Z Z := ⟨_, rfl⟩
  have hpB : IsPinv B (pinv B) := hp B fun i j => by rw [hB]; exact gauss_symm _ _ i j
  have b00 : B (.inl A0) (.inl A0) = 1 := by rw [hB]; unfold gauss; rw [z0, val _ _ 0 (by norm_num)]; norm_num
  have b01 : B (.inl A0) (.inr A0) = 1 / 2 := by rw [hB]; unfold gauss; rw [z0, z1, val _ _ 1 (by norm_num)]; norm_num
  have b10 : B (.inr A0) (.inl A0) = 1 / 2 := by rw [hB]; unfold gauss; rw [z0, z1, val _ _ 1 (by norm_num)]; norm_num
  have b11 : B (.inr A0) (.inr A0) = 1 := by rw [hB]; unfold gauss; rw [z1, val _ _ 0 (by norm_num)]; norm_num
  have gx : ∀ (i : Fin 2) (c : Anchor 2 2 1), gauss (√(1 / 2)) nyX Z i c = (if i = 0 then Sum.elim (fun _ => 1) (fun _ => 1 / 2) c else Sum.elim (fun _ => 1 / 2) (fun _ => 1 / 16) c : ℝ) := by
    intro i c
    unfold gauss
    fin_cases i <;> rcases c with c | c <;> obtain rfl : c = A0 := Subsingleton.elim (α := Fin 1) c A0 <;> simp only [Fin.zero_eta, Fin.mk_one, Fin.isValue, x0, x1, z0, z1]
    · rw [val _ _ 0 (by norm_num)]; norm_num
    · rw [val _ _ 1 (by norm_num)]; norm_num
    · rw [val _ _ 1 (by norm_num)]; norm_num
    · rw [val _ _ 4 (by norm_num)]; norm_num
  have gy : ∀ (j : Fin 2) (c : Anchor 2 2 1), gauss (√(1 / 2)) nyY Z j c = (if j = 0 then Sum.elim (fun _ => 1 / 2) (fun _ => 1) c else Sum.elim (fun _ => 1 / 16) (fun _ => 1 / 2) c : ℝ) := by
    intro j c
    unfold gauss
    fin_cases j <;> rcases c with c | c <;> obtain rfl : c = A0 := Subsingleton.elim (α := Fin 1) c A0 <;> simp only [Fin.zero_eta, Fin.mk_one, Fin.isValue, y0, y1, z0, z1]
    · rw [val _ _ 1 (by norm_num)]; norm_num
    · rw [val _ _ 0 (by norm_num)]; norm_num
    · rw [val _ _ 4 (by norm_num)]; norm_num
    · rw [val _ _ 1 (by norm_num)]; norm_num
  have sums : ∀ g : Anchor 2 2 1 → ℝ, ∑ c, g c = g (.inl A0) + g (.inr A0) := fun g => by
    rw [Fintype.sum_sum_type]
    exact congrArg₂ _ (Fin.sum_univ_one fun c : Fin 1 => g (.inl c)) (Fin.sum_univ_one fun c : Fin 1 => g (.inr c))
  have hw : ∀ i : Fin 2, (fun c => gauss (√(1 / 2)) nyX Z i c) = Matrix.vecMul (if i = 0 then Sum.elim (fun _ => 1) (fun _ => 0) else Sum.elim (fun _ => 5 / 8) (fun _ => -1 / 4)) B := by
    intro i; funext c
    rw [gx, Matrix.vecMul, dotProduct, sums]
    fin_cases i <;> rcases c with c | c <;> obtain rfl : c = A0 := Subsingleton.elim (α := Fin 1) c A0 <;> norm_num [b00, b01, b10, b11]
  have hz : ∀ j : Fin 2, (fun c => gauss (√(1 / 2)) nyY Z j c) = Matrix.mulVec B (if j = 0 then Sum.elim (fun _ => 0) (fun _ => 1) else Sum.elim (fun _ => -1 / 4) (fun _ => 5 / 8)) := by
    intro j; funext c
    rw [gy, Matrix.mulVec, dotProduct, sums]
    fin_cases j <;> rcases c with c | c <;> obtain rfl : c = A0 := Subsingleton.elim (α := Fin 1) c A0 <;> norm_num [b00, b01, b10, b11]
  have main : ∀ i j : Fin 2, ∑ c, f.1 i c * f.2 j c = ∑ c, gauss (√(1 / 2)) nyX Z i c * (if j = 0 then Sum.elim (fun _ => 0) (fun _ => 1) else Sum.elim (fun _ => -1 / 4) (fun _ => 5 / 8) : Anchor 2 2 1 → ℝ) c := by
    intro i j
    rw [← comb_exact hpB (hw i) (hz j), hf]
    unfold factors
    dsimp only
    rw [← hZ, ← hB]
    rfl
  simp only [main, sums, gx]
  norm_num

/-- **The plan can be negative.** Two source points, two target points, `reg = 1`, two anchors (the first point of each side): for all positive weights, all iteration limits, tolerances and warm starts the returned plan has a negative entry. -/
theorem C134_negative_refuted {pinv : ∀ k, Matrix (Anchor 2 2 k) (Anchor 2 2 k) ℝ → Matrix (Anchor 2 2 k) (Anchor 2 2 k) ℝ} (hp : ∀ k B, (∀ i j, B i j = B j i) → IsPinv B (pinv k B)) {a b : Fin 2 → ℝ} (ha : ∀ i, 0 < a i) (hb : ∀ j, 0 < b j)
    (numItermax : ℕ) (stopThr : ℝ) (warm : Option ((Fin 2 → ℝ) × (Fin 2 → ℝ))) :
    ∃ o, empirical pinv nyX nyY 1 1 1 2 (some a) (some b) numItermax stopThr warm = some o ∧ ∃ i j, o.plan i j < 0 := by
  obtain ⟨f, hf⟩ : ∃ f, f = factors (pinv 1) nyX nyY 1 1 (√(1 / 2)) := ⟨_, rfl⟩
  obtain ⟨k00, k01, k10, k11⟩ := signs (hp 1) hf
  refine ⟨⟨1, f.1, f.2, lrKernel f.1 f.2 a b numItermax stopThr warm, lrkPlan f.1 f.2 (lrKernel f.1 f.2 a b numItermax stopThr warm).s,
    loss (lrSq nyX nyY false).1 (lrSq nyX nyY false).2 f.1 f.2 (lrKernel f.1 f.2 a b numItermax stopThr warm).s⟩, by rw [hf]; rfl, ?_⟩
  dsimp only
  obtain ⟨k, hk, e, hbad, -⟩ := loop_spec (step := lrkStep f.1 f.2 a b) (bad := lrkBad f.1 f.2 b)
      (stop := fun ii _ s => ii % 10 = 0 ∧ lrkErr f.1 f.2 b s < stopThr) numItermax 0 (knoppInit warm)
  have hne : (∀ i, (lrKernel f.1 f.2 a b numItermax stopThr warm).s.u i ≠ 0) ∧ ∀ j, (lrKernel f.1 f.2 a b numItermax stopThr warm).s.v j ≠ 0 := by
    have e' : (lrKernel f.1 f.2 a b numItermax stopThr warm).s = (lrkStep f.1 f.2 a b)^[k] (knoppInit warm) := e
    rw [e']
    cases k with
    | zero => exact ⟨fun i => ((knoppInit_pos warm).1 i).ne', fun j => ((knoppInit_pos warm).2 j).ne'⟩
    | succ l =>
      have h := hbad l (Nat.lt_succ_self l)
      rw [Function.iterate_succ_apply']
      exact ⟨fun i => div_ne_zero (ha i).ne' fun h0 => h (.inr ⟨i, h0⟩), fun j => div_ne_zero (hb j).ne' fun h0 => h (.inl ⟨j, h0⟩)⟩
  generalize (lrKernel f.1 f.2 a b numItermax stopThr warm).s = s at hne
  have hform : ∀ i j, lrkPlan f.1 f.2 s i j = s.u i * (∑ c, f.1 i c * f.2 j c) * s.v j := fun i j => by
    unfold lrkPlan
    rw [mul_sum, sum_mul]
    exact sum_congr rfl fun c _ => by ring
  by_contra hcon
  push Not at hcon
  have h00 := hcon 0 0
  have h01 := hcon 0 1
  have h10 := hcon 1 0
  have h11 := hcon 1 1
  rw [hform] at h00 h01 h10 h11
  rw [k00] at h00
  rw [k01] at h01
  rw [k10] at h10
  rw [k11] at h11
  have p1 : 0 ≤ (s.u 0 * s.v 0) * -(s.u 1 * s.v 1) → False := by
    intro hh
    have q1 : 0 ≤ (s.u 0 * s.v 1) * (s.u 1 * s.v 0) := mul_nonneg (by linarith) (by linarith)
    have q2 : (s.u 0 * s.v 1) * (s.u 1 * s.v 0) ≠ 0 := mul_ne_zero (mul_ne_zero (hne.1 0) (hne.2 1)) (mul_ne_zero (hne.1 1) (hne.2 0))
    exact q2 (by nlinarith)
  exact p1 (mul_nonneg (by linarith) (by linarith))

/-! ### non-vacuity -/

open Classical in
/-- a pseudo-inverse for all symmetric matrices -/
noncomputable def somePinv (n m k : ℕ) (B : Matrix (Anchor n m k) (Anchor n m k) ℝ) : Matrix (Anchor n m k) (Anchor n m k) ℝ := if h : ∀ i j, B i j = B j i then (C134_pinv_exists B h).choose else 0

theorem somePinv_spec (n m k : ℕ) (B : Matrix (Anchor n m k) (Anchor n m k) ℝ) (h : ∀ i j, B i j = B j i) : IsPinv B (somePinv n m k B) := by
  unfold somePinv
  rw [dif_pos h]
  exact (C134_pinv_exists B h).choose_spec

example := C134_negative_refuted (somePinv_spec 2 2) (a := fun _ => 1 / 2) (b := fun j => if j = 0 then 1 / 3 else 2 / 3) (fun _ => by norm_num) (fun j => by split_ifs <;> norm_num) 1000 (1 / 10 ^ 9) none
example {o} (h : empirical (somePinv 2 2) nyX nyY (Equiv.swap 0 1) 1 3 5 (some fun _ => 1 / 2) (some fun _ => 1 / 2) 7 0 none = some o) : ∀ i j, 0 < o.plan i j :=
  (C134_exact_plan (somePinv_spec 2 2) (by norm_num) (by norm_num) (by norm_num) (by norm_num) (fun _ => by norm_num) (fun _ => by norm_num) h).2
example : ∃ o, empirical (somePinv 2 2) nyX nyY (Equiv.swap 0 1) 1 3 5 none none 7 0 none = some o :=
  Option.ne_none_iff_exists'.1 fun h => absurd ((C134_rejects _ _ _ _ _ _ _ _ _ _ _ _).1 h) (by norm_num)

example : ∃ v L, solveSample (somePinv 2 2) nyX nyY (Equiv.swap 0 1) 1 true none 100 none none none none false = .ok v (some L) L := by
  unfold solveSample
  cases ho : empirical (somePinv 2 2) nyX nyY (Equiv.swap 0 1) 1 ((none : Option ℝ).getD 1) 100 none none ((none : Option ℕ).getD 1000) ((none : Option ℝ).getD (1 / 10 ^ 7)) none with
  | none => exact absurd ((C134_rejects _ _ _ _ _ _ _ _ _ _ _ _).1 ho) (by norm_num)
  | some o => exact ⟨o.loss, o.plan, by simp⟩

example : ∃ Q : Matrix (Anchor 2 2 1) (Anchor 2 2 1) ℝ, ∀ r s, ∑ t, Q r t * Real.exp (-(sqEuclid (basis nyX nyY 1 1 1 t) (basis nyX nyY 1 1 1 s)) / 1) = if r = s then 1 else 0 := by
  have z0 : basis nyX nyY 1 1 1 (.inl A0) = fun _ => 0 * √(Real.log 2) := by funext d; simp [basis, nyX, A0]
  have z1 : basis nyX nyY 1 1 1 (.inr A0) = fun _ => 1 * √(Real.log 2) := by funext d; simp [basis, nyY, A0]
  refine ⟨fun r t => if r = t then 4 / 3 else -2 / 3, fun r s => ?_⟩
  have sums : ∀ g : Anchor 2 2 1 → ℝ, ∑ c, g c = g (.inl A0) + g (.inr A0) := fun g => by
    rw [Fintype.sum_sum_type]
    exact congrArg₂ _ (Fin.sum_univ_one fun c : Fin 1 => g (.inl c)) (Fin.sum_univ_one fun c : Fin 1 => g (.inr c))
  rw [sums]
  rcases r with r | r <;> rcases s with s | s <;> obtain rfl : r = A0 := Subsingleton.elim (α := Fin 1) r A0 <;> obtain rfl : s = A0 := Subsingleton.elim (α := Fin 1) s A0 <;> rw [z0, z1]
  · rw [exp_val 0 (sq_val _ _ 0 (by norm_num)), exp_val 1 (sq_val _ _ 1 (by norm_num))]; norm_num; try (split_ifs with h <;> first | contradiction | (cases h; done) | norm_num)
  · rw [exp_val 1 (sq_val _ _ 1 (by norm_num)), exp_val 0 (sq_val _ _ 0 (by norm_num))]; norm_num; try (split_ifs with h <;> first | contradiction | (cases h; done) | norm_num)
  · rw [exp_val 0 (sq_val _ _ 0 (by norm_num)), exp_val 1 (sq_val _ _ 1 (by norm_num))]; norm_num; try (split_ifs with h <;> first | contradiction | (cases h; done) | norm_num)
  · rw [exp_val 1 (sq_val _ _ 1 (by norm_num)), exp_val 0 (sq_val _ _ 0 (by norm_num))]; norm_num; try (split_ifs with h <;> first | contradiction | (cases h; done) | norm_num)

end POT.Props
