import Verif.Model.DaReg
import Verif.Props.Optim
import Verif.Props.GwEntropic
import Mathlib.Tactic.FinCases
import Verif.Lemmas.ExactEmd

/-! # C94, C95: Laplacian and group lasso regularisation (`ot/da.py`), generalised conditional gradient (`ot/optim.py`) -/

set_option linter.unusedSectionVars false

namespace POT.DaReg

open Finset Spec Optim Matrix

variable {I J D : Type*} [Fintype I] [Fintype J] [Fintype D] [DecidableEq I] [DecidableEq J]

/-! ## Traces -/

theorem inner_trace (A B : Matrix I J ℝ) : Spec.inner A B = (Aᵀ * B).trace := by
  unfold Spec.inner
  rw [sum_comm]
  simp [Matrix.trace, Matrix.mul_apply]

theorem trace_flip (L : Matrix I I ℝ) (Y Z : Matrix I D ℝ) : (Yᵀ * Lᵀ * Z).trace = (Zᵀ * L * Y).trace := by
  rw [← Matrix.trace_transpose (Zᵀ * L * Y), Matrix.transpose_mul, Matrix.transpose_mul, Matrix.transpose_transpose, Matrix.mul_assoc]

theorem lap_quad {S : Matrix I I ℝ} (hS : ∀ i k, S i k = S k i) (Y : Matrix I D ℝ) : (Yᵀ * laplacian S * Y).trace = dirichlet S Y := by
  have e1 : (Yᵀ * laplacian S * Y).trace = ∑ i, ∑ k, S i k * ∑ d, Y i d ^ 2 - ∑ i, ∑ k, S i k * ∑ d, Y i d * Y k d := by
    unfold laplacian
    rw [Matrix.mul_sub, Matrix.sub_mul, Matrix.trace_sub]
    congr 1
    · have hd : ∀ d, (Yᵀ * Matrix.diagonal (fun k => ∑ l, S l k) * Y) d d = ∑ i, Y i d * (∑ l, S l i) * Y i d := fun d => by
        rw [Matrix.mul_apply]
        exact sum_congr rfl fun i _ => by rw [Matrix.mul_diagonal]; rfl
      simp only [Matrix.trace, Matrix.diag_apply, hd]
      rw [sum_comm]
      refine sum_congr rfl fun i _ => ?_
      rw [← sum_mul, mul_sum]
      refine sum_congr rfl fun d _ => ?_
      rw [show (∑ l, S l i) = ∑ k, S i k from sum_congr rfl fun k _ => hS k i]; ring
    · simp only [Matrix.trace, Matrix.diag_apply, Matrix.mul_apply, Matrix.transpose_apply, sum_mul, mul_sum]
      rw [sum_comm]
      refine sum_congr rfl fun i _ => ?_
      rw [sum_comm]
      refine sum_congr rfl fun k _ => sum_congr rfl fun d _ => ?_
      rw [hS k i]; ring
  have e2 : ∑ i, ∑ k, S i k * ∑ d, Y k d ^ 2 = ∑ i, ∑ k, S i k * ∑ d, Y i d ^ 2 := by
    rw [sum_comm]
    exact sum_congr rfl fun i _ => sum_congr rfl fun k _ => by rw [hS]
  have e3 : ∑ i, ∑ k, S i k * sqEuclid (Y i) (Y k) = ∑ i, ∑ k, S i k * ∑ d, Y i d ^ 2 + ∑ i, ∑ k, S i k * ∑ d, Y k d ^ 2 - 2 * ∑ i, ∑ k, S i k * ∑ d, Y i d * Y k d := by
    rw [mul_sum, ← sum_add_distrib, ← sum_sub_distrib]
    refine sum_congr rfl fun i _ => ?_
    rw [mul_sum, ← sum_add_distrib, ← sum_sub_distrib]
    refine sum_congr rfl fun k _ => ?_
    unfold sqEuclid
    have : ∑ d, (Y i d - Y k d) ^ 2 = ∑ d, Y i d ^ 2 + ∑ d, Y k d ^ 2 - 2 * ∑ d, Y i d * Y k d := by
      rw [mul_sum, ← sum_add_distrib, ← sum_sub_distrib]
      exact sum_congr rfl fun d _ => by ring
    rw [this]; ring
  unfold dirichlet
  rw [e1, e3, e2]; ring

theorem dirichlet_add {S : Matrix I I ℝ} (hS : ∀ i k, S i k = S k i) (X Y : Matrix I D ℝ) :
    dirichlet S (X + Y) = dirichlet S X + (Xᵀ * (laplacian S + (laplacian S)ᵀ) * Y).trace + dirichlet S Y := by
  have h1 : ((X + Y)ᵀ * laplacian S * (X + Y)).trace = dirichlet S (X + Y) := lap_quad hS (X + Y)
  rw [← h1, ← lap_quad hS, ← lap_quad hS, Matrix.transpose_add]
  have h := trace_flip (laplacian S) X Y
  simp only [Matrix.add_mul, Matrix.mul_add, Matrix.trace_add]
  rw [h]; ring

theorem src_eq (p : Lap I J D) (G : Matrix I J ℝ) (L : Matrix I I ℝ) : (p.xtᵀ * Gᵀ * L * G * p.xt).trace = ((G * p.xt)ᵀ * L * (G * p.xt)).trace := by
  rw [Matrix.transpose_mul]; simp only [Matrix.mul_assoc]

theorem tgt_eq (p : Lap I J D) (G : Matrix I J ℝ) (L : Matrix J J ℝ) : (p.xsᵀ * G * L * Gᵀ * p.xs).trace = ((Gᵀ * p.xs)ᵀ * L * (Gᵀ * p.xs)).trace := by
  rw [Matrix.transpose_mul, Matrix.transpose_transpose]; simp only [Matrix.mul_assoc]

theorem quad_add (L : Matrix I I ℝ) (Y Z : Matrix I D ℝ) :
    ((Y + Z)ᵀ * L * (Y + Z)).trace = (Yᵀ * L * Y).trace + (Yᵀ * (L + Lᵀ) * Z).trace + (Zᵀ * L * Z).trace := by
  have h := trace_flip L Y Z
  rw [Matrix.transpose_add]
  simp only [Matrix.add_mul, Matrix.mul_add, Matrix.trace_add]
  rw [h]; ring

theorem src_inner (L : Matrix I I ℝ) (xt : Matrix J D ℝ) (X : Matrix I D ℝ) (Δ : Matrix I J ℝ) :
    Spec.inner ((L + Lᵀ) * X * xtᵀ) Δ = (Xᵀ * (L + Lᵀ) * (Δ * xt)).trace := by
  rw [inner_trace, Matrix.transpose_mul, Matrix.transpose_mul, Matrix.transpose_transpose, Matrix.transpose_add, Matrix.transpose_transpose, add_comm Lᵀ L,
    Matrix.mul_assoc, Matrix.trace_mul_comm]
  simp only [Matrix.mul_assoc]

theorem tgt_inner (L : Matrix J J ℝ) (xs : Matrix I D ℝ) (X : Matrix J D ℝ) (Δ : Matrix I J ℝ) :
    Spec.inner (xs * Xᵀ * (L + Lᵀ)) Δ = (Xᵀ * (L + Lᵀ) * (Δᵀ * xs)).trace := by
  have h : Spec.inner (xs * Xᵀ * (L + Lᵀ)) Δ = Spec.inner ((L + Lᵀ) * X * xsᵀ) Δᵀ := by
    rw [inner_trace, inner_trace, ← Matrix.trace_transpose]
    simp only [Matrix.transpose_mul, Matrix.transpose_transpose, Matrix.transpose_add]
    rw [Matrix.trace_mul_comm, add_comm Lᵀ L]
    simp only [Matrix.mul_assoc]
  rw [h, src_inner]

theorem inner_add_smul (A B : Matrix I J ℝ) (c : ℝ) (Δ : Matrix I J ℝ) : Spec.inner (A + c • B) Δ = Spec.inner A Δ + c * Spec.inner B Δ := by
  unfold Spec.inner
  simp only [Matrix.add_apply, Matrix.smul_apply, smul_eq_mul, add_mul, sum_add_distrib, mul_sum, mul_assoc]

theorem inner_smul_left' (B : Matrix I J ℝ) (c : ℝ) (Δ : Matrix I J ℝ) : Spec.inner (c • B) Δ = c * Spec.inner B Δ := by
  unfold Spec.inner
  simp only [Matrix.smul_apply, smul_eq_mul, mul_sum, mul_assoc]

theorem f_expand (p : Lap I J D) (G Δ : Matrix I J ℝ) : p.f (G + Δ) = p.f G + Spec.inner (p.df G) Δ + p.f Δ := by
  have h : Spec.inner (p.df G) Δ = p.alpha * ((G * p.xt)ᵀ * (laplacian p.sS + (laplacian p.sS)ᵀ) * (Δ * p.xt)).trace
      + (1 - p.alpha) * ((Gᵀ * p.xs)ᵀ * (laplacian p.sT + (laplacian p.sT)ᵀ) * (Δᵀ * p.xs)).trace := by
    unfold Lap.df
    have a1 : (laplacian p.sS + (laplacian p.sS)ᵀ) * G * (p.xt * p.xtᵀ) = (laplacian p.sS + (laplacian p.sS)ᵀ) * (G * p.xt) * p.xtᵀ := by simp only [Matrix.mul_assoc]
    have a2 : p.xs * p.xsᵀ * G * (laplacian p.sT + (laplacian p.sT)ᵀ) = p.xs * (Gᵀ * p.xs)ᵀ * (laplacian p.sT + (laplacian p.sT)ᵀ) := by
      rw [Matrix.transpose_mul, Matrix.transpose_transpose]; simp only [Matrix.mul_assoc]
    rw [inner_add_smul, inner_smul_left', ← src_inner, ← tgt_inner, a1, a2]
  unfold Lap.f
  simp only [src_eq, tgt_eq]
  have a3 : (G + Δ) * p.xt = G * p.xt + Δ * p.xt := Matrix.add_mul _ _ _
  have a4 : (G + Δ)ᵀ * p.xs = Gᵀ * p.xs + Δᵀ * p.xs := by rw [Matrix.transpose_add, Matrix.add_mul]
  rw [h, a3, a4, quad_add, quad_add]
  ring

theorem dirichlet_nonneg {S : I → I → ℝ} (hS : ∀ i k, 0 ≤ S i k) (y : I → D → ℝ) : 0 ≤ dirichlet S y := by
  unfold dirichlet
  have : 0 ≤ ∑ i, ∑ k, S i k * sqEuclid (y i) (y k) := sum_nonneg fun i _ => sum_nonneg fun k _ => mul_nonneg (hS i k) (sum_nonneg fun _ _ => sq_nonneg _)
  linarith

end POT.DaReg

namespace POT.Props

open Finset Spec Optim DaReg Matrix

variable {I J D : Type*} [Fintype I] [Fintype J] [Fintype D] [DecidableEq I] [DecidableEq J]

/-- What `emd_laplace` needs of the similarities: symmetric and nonnegative. -/
structure SimOk (p : Lap I J D) : Prop where
  symS : ∀ i k, p.sS i k = p.sS k i
  symT : ∀ j l, p.sT j l = p.sT l j
  posS : ∀ i k, 0 ≤ p.sS i k
  posT : ∀ j l, 0 ≤ p.sT j l

/-- C94. Both kinds of similarity qualify: Gaussian, and symmetrised neighbour graphs. -/
theorem C94_similarities (x : I → D → ℝ) (sigma : ℝ) (s : Matrix I I ℝ) (hs : ∀ i k, 0 ≤ s i k) :
    (∀ i k, gaussSim x sigma i k = gaussSim x sigma k i ∧ 0 ≤ gaussSim x sigma i k) ∧ ∀ i k, knnSim s i k = knnSim s k i ∧ 0 ≤ knnSim s i k := by
  refine ⟨fun i k => ⟨?_, (Real.exp_pos _).le⟩, fun i k => ⟨?_, ?_⟩⟩
  · unfold gaussSim sqEuclid
    congr 3
    exact sum_congr rfl fun d _ => by ring
  · unfold knnSim; ring
  · unfold knnSim; linarith [hs i k, hs k i]

/-- C94, `reg='pos'`: the objective of `emd_laplace` is the transport cost plus `eta` times the smoothness of the (unnormalised) images of the source samples
(weight `alpha`) and of the target samples (weight `1 - alpha`) with respect to the similarities. -/
theorem C94_objective (p : Lap I J D) (hp : SimOk p) (hd : p.disp = false) (G : Matrix I J ℝ) :
    Spec.inner p.cost G + p.eta * p.f G = Spec.inner p.M G
      + p.eta * (p.alpha * dirichlet p.sS (push G p.xt) + (1 - p.alpha) * dirichlet p.sT (push (fun j i => G i j) p.xs)) := by
  have h1 : p.cost = p.M := by unfold Lap.cost; rw [hd]; rfl
  unfold Lap.f
  rw [h1, src_eq, tgt_eq, lap_quad hp.symS, lap_quad hp.symT]
  rfl

/-- C94, `reg='disp'`: the same with the displacements of the samples in place of their images, up to a constant independent of the plan. -/
theorem C94_objective_disp (p : Lap I J D) (hp : SimOk p) (hd : p.disp = true) (hI : 0 < Fintype.card I) (hJ : 0 < Fintype.card J) : ∃ const : ℝ, ∀ G : Matrix I J ℝ,
    Spec.inner p.cost G + p.eta * p.f G = Spec.inner p.M G
      + p.eta * (p.alpha * dirichlet p.sS (fun i d => push G p.xt i d - p.xs i d / Fintype.card I)
        + (1 - p.alpha) * dirichlet p.sT (fun j d => push (fun j i => G i j) p.xs j d - p.xt j d / Fintype.card J)) + const := by
  refine ⟨-p.eta * (p.alpha * dirichlet p.sS (((-1 : ℝ) / Fintype.card I) • p.xs) + (1 - p.alpha) * dirichlet p.sT (((-1 : ℝ) / Fintype.card J) • p.xt)), fun G => ?_⟩
  have h1 : p.cost = p.M + (-p.eta * p.alpha / Fintype.card I) • ((laplacian p.sS + (laplacian p.sS)ᵀ) * p.xs * p.xtᵀ)
      + (-p.eta * (1 - p.alpha) / Fintype.card J) • (p.xs * p.xtᵀ * (laplacian p.sT + (laplacian p.sT)ᵀ)) := by unfold Lap.cost; rw [hd]; rfl
  have e1 : (fun i d => push G p.xt i d - p.xs i d / Fintype.card I) = (((-1 : ℝ) / Fintype.card I) • p.xs) + G * p.xt := by
    funext i d
    show (∑ j, G i j * p.xt j d) - p.xs i d / Fintype.card I = ((-1 : ℝ) / Fintype.card I) * p.xs i d + (G * p.xt) i d
    rw [Matrix.mul_apply]; ring
  have e2 : (fun j d => push (fun j i => G i j) p.xs j d - p.xt j d / Fintype.card J) = (((-1 : ℝ) / Fintype.card J) • p.xt) + Gᵀ * p.xs := by
    funext j d
    show (∑ i, G i j * p.xs i d) - p.xt j d / Fintype.card J = ((-1 : ℝ) / Fintype.card J) * p.xt j d + (Gᵀ * p.xs) j d
    rw [Matrix.mul_apply]; simp only [Matrix.transpose_apply]; ring
  unfold Lap.f
  rw [e1, e2, h1, inner_add_smul, inner_add_smul, src_inner, tgt_inner, src_eq, tgt_eq, dirichlet_add hp.symS, dirichlet_add hp.symT, lap_quad hp.symS, lap_quad hp.symT]
  simp only [Matrix.transpose_smul, Matrix.smul_mul, Matrix.trace_smul, smul_eq_mul]
  ring

/-- C94: for uniform weights the images in `C94_objective` are the barycentric images divided by the number of samples, so that the regulariser is the documented
one with factor `1/2` and with `alpha` and `1 - alpha` exchanged. -/
theorem C94_uniform (P : I → J → ℝ) (x : J → D → ℝ) (h : ∀ i, ∑ j, P i j = 1 / Fintype.card I) (S : I → I → ℝ) (T : I → D → ℝ) (hT : ∀ i, IsWeightedMean (P i) x (T i)) :
    dirichlet S (push P x) = 1 / 2 * (1 / (Fintype.card I : ℝ) ^ 2 * ∑ i, ∑ k, S i k * sqEuclid (T i) (T k)) := by
  have e : ∀ i d, push P x i d = 1 / Fintype.card I * T i d := by
    intro i d
    rw [← h i, hT i d]; rfl
  unfold dirichlet sqEuclid
  congr 1
  rw [mul_sum]
  refine sum_congr rfl fun i _ => ?_
  rw [mul_sum]
  refine sum_congr rfl fun k _ => ?_
  rw [mul_left_comm]
  congr 1
  rw [mul_sum]
  refine sum_congr rfl fun d _ => ?_
  rw [e, e]; ring

/-- C94: the documented regulariser: weight `1 - alpha` for the source and `alpha` for the target samples. -/
noncomputable def docLaplace (p : Lap I J D) (G : Matrix I J ℝ) : ℝ :=
  (1 - p.alpha) * dirichlet p.sS (push G p.xt) + p.alpha * dirichlet p.sT (push (fun j i => G i j) p.xs)

/-- C94 as documented fails: the weights of the two terms are exchanged. Here `alpha = 1`, and the documented regulariser of the plan is `0`, while the program penalises it. -/
theorem C94_alpha_refuted : ∃ (p : Lap (Fin 2) (Fin 2) (Fin 1)) (G : Matrix (Fin 2) (Fin 2) ℝ), SimOk p ∧ p.alpha = 1 ∧ p.disp = false ∧
    IsCoupling (fun _ => 1 / 2) (fun _ => 1 / 2) G ∧ docLaplace p G = 0 ∧ 0 < p.f G := by
  obtain ⟨p, hpd⟩ : ∃ p : Lap (Fin 2) (Fin 2) (Fin 1), p = ⟨fun _ _ => 0, fun j _ => (j : ℝ), fun _ _ => 1, fun _ _ => 1, 0, 1, 1, false⟩ := ⟨_, rfl⟩
  have hp : SimOk p := by rw [hpd]; exact ⟨fun _ _ => rfl, fun _ _ => rfl, fun _ _ => zero_le_one, fun _ _ => zero_le_one⟩
  obtain ⟨G, hG⟩ : ∃ G : Matrix (Fin 2) (Fin 2) ℝ, G = fun i j => if i = j then 1 / 2 else 0 := ⟨_, rfl⟩
  refine ⟨p, G, hp, by rw [hpd], by rw [hpd], ?_, ?_, ?_⟩
  · rw [hG]
    refine ⟨?_, ?_, ?_⟩
    · intro i j; split_ifs <;> norm_num
    · intro i; fin_cases i <;> simp
    · intro j; fin_cases j <;> simp
  · unfold docLaplace dirichlet push sqEuclid; rw [hpd]; simp
  · unfold Lap.f
    rw [src_eq, tgt_eq, lap_quad hp.symS, lap_quad hp.symT]
    have h0 : ∀ i k, (G * p.xt) i k = (i : ℝ) / 2 := by
      intro i k
      rw [Matrix.mul_apply, Fin.sum_univ_two, hG, hpd]
      fin_cases i <;> simp
    have h1 : dirichlet p.sS (G * p.xt) = 1 / 4 := by
      unfold dirichlet sqEuclid
      simp only [h0]
      rw [hpd]
      simp [Fin.sum_univ_two]
      norm_num
    have h2 : p.alpha = 1 := by rw [hpd]
    rw [h1, h2]; norm_num

/-- C94. The gradient is exact: along every direction the regulariser is its linearisation plus a nonnegative quadratic term, so it is convex. -/
theorem C94_gradient (p : Lap I J D) (hp : SimOk p) (h0 : 0 ≤ p.alpha) (h1 : p.alpha ≤ 1) (G Δ : Matrix I J ℝ) :
    (∀ t : ℝ, p.f (G + t • Δ) = p.f G + t * Spec.inner (p.df G) Δ + t ^ 2 * p.f Δ) ∧ 0 ≤ p.f Δ := by
  constructor
  · intro t
    have e : p.f (t • Δ) = t ^ 2 * p.f Δ := by
      unfold Lap.f
      simp only [Matrix.transpose_smul, Matrix.mul_smul, Matrix.smul_mul, Matrix.trace_smul, smul_eq_mul]
      ring
    have e2 : Spec.inner (p.df G) (t • Δ) = t * Spec.inner (p.df G) Δ := by
      unfold Spec.inner
      simp only [Matrix.smul_apply, smul_eq_mul, mul_sum]
      exact sum_congr rfl fun i _ => sum_congr rfl fun j _ => by ring
    rw [f_expand, e, e2]
  · unfold Lap.f
    rw [src_eq, tgt_eq, lap_quad hp.symS, lap_quad hp.symT]
    have := mul_nonneg h0 (dirichlet_nonneg hp.posS (Δ * p.xt))
    have := mul_nonneg (sub_nonneg.2 h1) (dirichlet_nonneg hp.posT (Δᵀ * p.xs))
    linarith

/-- C94. `emd_laplace`: every iterate is a coupling, the recorded losses are the values of the objective, they never increase, and the distance of every iterate to
the minimum is at most the gap of the linearised problem; in particular a plan that the linearised problem does not improve is a global minimiser. -/
theorem C94_emd_laplace (p : Lap I J D) (hp : SimOk p) (h0 : 0 ≤ p.alpha) (h1 : p.alpha ≤ 1) (heta : 0 ≤ p.eta) (a : I → ℝ) (b : J → ℝ) (c1 : ℝ) (hc1 : 0 ≤ c1)
    (lp : (I → J → ℝ) → I → J → ℝ) (hlp : ∀ Mi, IsOptimal a b Mi (lp Mi)) (search : (ℝ → ℝ) → ℝ → ℝ → Option (ℝ × ℝ)) (hs : SearchOk c1 search) (numItermax : ℕ)
    (stopThr stopThr2 : ℝ) (G0 : I → J → ℝ) (hG0 : IsCoupling a b G0) :
    let P := p.problem lp search numItermax stopThr stopThr2
    let obj : (I → J → ℝ) → ℝ := fun G => Spec.inner p.cost G + p.eta * p.f G
    ∀ k, IsCoupling a b (P.iter G0 k).G ∧ (P.iter G0 k).losses = (List.range (k + 1)).reverse.map (fun i => obj (P.iter G0 i).G) ∧
      obj (P.iter G0 (k + 1)).G ≤ obj (P.iter G0 k).G ∧
      ∃ N : I → J → ℝ, (∀ i j, N i j = p.cost i j + p.eta * p.df (P.iter G0 k).G i j) ∧
        ∀ Q, IsCoupling a b Q → obj (P.iter G0 k).G - obj Q ≤ cost N (P.iter G0 k).G - cost N (lp N) := by
  intro P obj k
  obtain ⟨hc, hl, hm⟩ := C36_cg_armijo a b p.cost p.f p.df p.eta c1 hc1 lp hlp search hs numItermax stopThr stopThr2 G0 hG0 k
  refine ⟨hc, hl, hm, _, fun i j => rfl, fun Q hQ => ?_⟩
  obtain ⟨G, hG⟩ : ∃ G : Matrix I J ℝ, G = (P.iter G0 k).G := ⟨_, rfl⟩
  rw [← hG]
  obtain ⟨Q, hQ'⟩ : ∃ Q' : Matrix I J ℝ, Q' = Q := ⟨_, rfl⟩
  rw [← hQ'] at hQ ⊢
  obtain ⟨e, hpos⟩ := C94_gradient p hp h0 h1 G (Q - G)
  have e := e 1
  rw [one_smul, one_mul, one_pow, one_mul, show (G + (Q - G)) = Q from by funext i j; show G i j + (Q i j - G i j) = _; ring] at e
  have hopt := (hlp fun i j => p.cost i j + p.eta * p.df G i j).2 Q hQ
  have h3 : cost (fun i j => p.cost i j + p.eta * p.df G i j) G - cost (fun i j => p.cost i j + p.eta * p.df G i j) Q
      = Spec.inner p.cost G - Spec.inner p.cost Q - p.eta * Spec.inner (p.df G) (Q - G) := by
    unfold cost Spec.inner
    rw [mul_sum, ← sum_sub_distrib, ← sum_sub_distrib, ← sum_sub_distrib]
    refine sum_congr rfl fun i _ => ?_
    rw [mul_sum, ← sum_sub_distrib, ← sum_sub_distrib, ← sum_sub_distrib]
    refine sum_congr rfl fun j _ => ?_
    show _ = p.cost i j * G i j - p.cost i j * Q i j - p.eta * (p.df G i j * (Q i j - G i j))
    ring
  have h4 := mul_nonneg heta hpos
  have h5 : obj Q = Spec.inner p.cost Q + p.eta * (p.f G + Spec.inner (p.df G) (Q - G) + p.f (Q - G)) := by rw [← e]
  rw [h5]
  show Spec.inner p.cost G + p.eta * p.f G - _ ≤ _
  nlinarith

/-! ## C95: generalised conditional gradient -/

section Gcg

variable {M : I → J → ℝ} {reg1 reg2 : ℝ} {f : (I → J → ℝ) → ℝ} {df : (I → J → ℝ) → I → J → ℝ} {sk : (I → J → ℝ) → I → J → ℝ} {search : (ℝ → ℝ) → ℝ → ℝ → Option (ℝ × ℝ)}
  {numItermax : ℕ} {stopThr stopThr2 : ℝ}

theorem gcg_step {c1 : ℝ} (hs : SearchOk c1 search) (s : State ℝ I J) (hdf : s.dfG = none)
    (hcost : s.costG = (gcgProblem M reg2 f df sk search numItermax stopThr stopThr2).cost s.G) :
    let P := gcgProblem M reg2 f df sk search numItermax stopThr stopThr2
    let N : I → J → ℝ := fun i j => M i j + reg2 * df s.G i j
    ∃ t : ℝ, 0 ≤ t ∧ t ≤ 1 ∧ (P.step s).G = (fun i j => s.G i j + t * (sk N i j - s.G i j)) ∧ (P.step s).costG = P.cost (P.step s).G ∧ (P.step s).dfG = none ∧
      (P.step s).losses = P.cost (P.step s).G :: s.losses ∧
      (0 < t → P.cost (P.step s).G ≤ P.cost s.G + c1 * t * ∑ i, ∑ j, (sk N i j - s.G i j) * N i j) := by
  intro P N
  obtain ⟨Δ, hΔ⟩ : ∃ Δ : I → J → ℝ, Δ = fun i j => sk N i j - s.G i j := ⟨_, rfl⟩
  have hstep : P.step s = ⟨fun i j => s.G i j + (armijo search 0 none P.cost s.G Δ N s.costG).alpha * Δ i j,
       (armijo search 0 none P.cost s.G Δ N s.costG).cost, (armijo search 0 none P.cost s.G Δ N s.costG).df,
       s.it + 1, (armijo search 0 none P.cost s.G Δ N s.costG).cost :: s.losses⟩ := by
    unfold Problem.step; rw [hdf, hΔ]; rfl
  have eΔ : ∀ i j, Δ i j = sk N i j - s.G i j := fun i j => by rw [hΔ]
  simp only [← eΔ]
  rw [hstep]
  cases hsr : search (fun x => P.cost fun i j => s.G i j + clip 0 none x * Δ i j) s.costG (∑ i, ∑ j, Δ i j * N i j) with
  | none =>
    have harm : armijo search 0 none P.cost s.G Δ N s.costG = { alpha := 0, cost := s.costG, df := none } := by simp only [armijo]; rw [hsr]
    rw [harm]
    have e : (fun i j => s.G i j + 0 * Δ i j) = s.G := by funext i j; ring
    exact ⟨0, le_rfl, zero_le_one, rfl, by dsimp only; rw [e]; exact hcost, rfl, by dsimp only; rw [e, hcost], fun h => absurd h (lt_irrefl _)⟩
  | some xy =>
    obtain ⟨x, y⟩ := xy
    have harm : armijo search 0 none P.cost s.G Δ N s.costG = { alpha := clip 0 none x, cost := y, df := none } := by simp only [armijo]; rw [hsr]
    rw [harm]
    obtain ⟨h1, h2, h3⟩ := hs _ _ _ _ _ hsr
    refine ⟨clip 0 none x, le_max_left _ _, max_le zero_le_one h3, rfl, h1, rfl, by dsimp only; rw [h1], fun ht => ?_⟩
    have hx : 0 < x := by
      by_contra hc
      have : clip (0 : ℝ) none x = 0 := max_eq_left (not_lt.1 hc)
      rw [this] at ht; exact lt_irrefl _ ht
    have e : clip (0 : ℝ) none x = x := max_eq_right hx.le
    dsimp only at h1 ⊢
    rw [← h1, ← hcost, e]
    exact h2

/-- C95. Every iterate of `gcg` is a coupling, and the recorded losses are `⟨M, G⟩ + reg2 f(G)` of the iterates — without the entropic term of the documented objective. -/
theorem C95_iterates (a : I → ℝ) (b : J → ℝ) (hsk : SolvesEntropic a b reg1 sk) {c1 : ℝ} (hs : SearchOk c1 search) (G0 : I → J → ℝ) (h0 : IsCoupling a b G0) :
    let P := gcgProblem M reg2 f df sk search numItermax stopThr stopThr2
    ∀ k, IsCoupling a b (P.iter G0 k).G ∧ (P.iter G0 k).losses = (List.range (k + 1)).reverse.map (fun i => Spec.inner M (P.iter G0 i).G + reg2 * f (P.iter G0 i).G) := by
  intro P k
  have key : ∀ k, IsCoupling a b (P.iter G0 k).G ∧ (P.iter G0 k).costG = P.cost (P.iter G0 k).G ∧ (P.iter G0 k).dfG = none ∧
      (P.iter G0 k).losses = (List.range (k + 1)).reverse.map (fun i => Spec.inner M (P.iter G0 i).G + reg2 * f (P.iter G0 i).G) := by
    intro k
    induction k with
    | zero => exact ⟨h0, rfl, rfl, rfl⟩
    | succ k ih =>
      obtain ⟨ih1, ih2, ih3, ih4⟩ := ih
      obtain ⟨t, t0, t1, e1, e2, e3, e4, -⟩ := gcg_step (M := M) (reg2 := reg2) (f := f) (df := df) (sk := sk) (numItermax := numItermax) (stopThr := stopThr) (stopThr2 := stopThr2)
        hs (P.iter G0 k) ih3 ih2
      refine ⟨?_, e2, e3, ?_⟩
      · have := ih1.line (hsk fun i j => M i j + reg2 * df (P.iter G0 k).G i j).1 t0 t1
        rw [← e1] at this
        exact this
      · rw [List.range_succ, List.reverse_append, List.reverse_singleton, List.singleton_append, List.map_cons, ← ih4]
        exact e4
  exact ⟨(key k).1, (key k).2.2.2⟩

/-- The documented objective of `gcg`. -/
noncomputable def gcgObj (M : I → J → ℝ) (reg1 reg2 : ℝ) (f : (I → J → ℝ) → ℝ) (G : I → J → ℝ) : ℝ := entropicObjective M reg1 G + reg2 * f G

/-- `df` gives subgradients of `f` up to an error `δ`. -/
def IsSubgrad (f : (I → J → ℝ) → ℝ) (df : (I → J → ℝ) → I → J → ℝ) (δ : ℝ) : Prop := ∀ G Q : I → J → ℝ, f G + ∑ i, ∑ j, df G i j * (Q i j - G i j) - δ ≤ f Q

/-- C95. The direction of `gcg` is right: the distance to the minimum of the documented objective is at most the gap between the plan and the solution of the
linearised entropic problem. A plan which that problem returns unchanged is the minimiser (up to the error of the gradient). -/
theorem C95_gap (a : I → ℝ) (b : J → ℝ) (hreg2 : 0 ≤ reg2) (hsk : SolvesEntropic a b reg1 sk) {δ : ℝ} (hf : IsSubgrad f df δ) (G Q : I → J → ℝ) (hQ : IsCoupling a b Q) :
    let N : I → J → ℝ := fun i j => M i j + reg2 * df G i j
    gcgObj M reg1 reg2 f G - gcgObj M reg1 reg2 f Q ≤ entropicObjective N reg1 G - entropicObjective N reg1 (sk N) + reg2 * δ ∧
    (sk N = G → gcgObj M reg1 reg2 f G ≤ gcgObj M reg1 reg2 f Q + reg2 * δ) := by
  intro N
  have h1 := ((hsk N).2 Q hQ).1
  have h2 := mul_le_mul_of_nonneg_left (hf G Q) hreg2
  have h3 : ∀ R : I → J → ℝ, entropicObjective N reg1 R = entropicObjective M reg1 R + reg2 * ∑ i, ∑ j, df G i j * R i j := by
    intro R
    unfold entropicObjective cost
    have : ∀ i j, R i j * N i j = R i j * M i j + reg2 * (df G i j * R i j) := fun i j => by show R i j * (M i j + reg2 * df G i j) = _; ring
    simp only [this, sum_add_distrib, mul_sum]; ring
  have h4 : ∑ i, ∑ j, df G i j * (Q i j - G i j) = ∑ i, ∑ j, df G i j * Q i j - ∑ i, ∑ j, df G i j * G i j := by
    simp only [mul_sub, sum_sub_distrib]
  rw [h4] at h2
  have hmain : gcgObj M reg1 reg2 f G - gcgObj M reg1 reg2 f Q ≤ entropicObjective N reg1 G - entropicObjective N reg1 (sk N) + reg2 * δ := by
    rw [h3 Q] at h1
    rw [h3 G]
    unfold gcgObj
    nlinarith
  refine ⟨hmain, fun e => ?_⟩
  rw [e] at hmain
  linarith

end Gcg

/-- C95 fails as documented: the line search ignores the entropic term. With `f = 0` the documented objective is that of the entropic problem; started at the plan of exact
transport (a coupling), `gcg` never moves, although this plan is not the minimiser. -/
theorem C95_gcg_refuted : ∃ (M G0 : Fin 2 → Fin 2 → ℝ), IsCoupling (fun _ => 1 / 2) (fun _ => 1 / 2) G0 ∧
    ∀ (reg1 reg2 c1 : ℝ) (sk : (Fin 2 → Fin 2 → ℝ) → Fin 2 → Fin 2 → ℝ) (search : (ℝ → ℝ) → ℝ → ℝ → Option (ℝ × ℝ)) (numItermax : ℕ) (stopThr stopThr2 : ℝ), 0 < reg1 → c1 < 1 →
      SolvesEntropic (fun _ => 1 / 2) (fun _ => 1 / 2) reg1 sk → SearchOk c1 search →
      (∀ k, ((gcgProblem M reg2 (fun _ => 0) (fun _ _ _ => 0) sk search numItermax stopThr stopThr2).iter G0 k).G = G0) ∧
      ∃ Q, IsCoupling (fun _ => 1 / 2) (fun _ => 1 / 2) Q ∧ gcgObj M reg1 reg2 (fun _ => 0) Q < gcgObj M reg1 reg2 (fun _ => 0) G0 := by
  obtain ⟨M, hM⟩ : ∃ M : Fin 2 → Fin 2 → ℝ, M = fun i j => if i = j then 0 else 1 := ⟨_, rfl⟩
  obtain ⟨G0, hG⟩ : ∃ G0 : Fin 2 → Fin 2 → ℝ, G0 = fun i j => if i = j then 1 / 2 else 0 := ⟨_, rfl⟩
  have hc0 : IsCoupling (fun _ => 1 / 2) (fun _ => 1 / 2) G0 := by
    rw [hG]
    refine ⟨?_, ?_, ?_⟩
    · intro i j; split_ifs <;> norm_num
    · intro i; fin_cases i <;> simp
    · intro j; fin_cases j <;> simp
  refine ⟨M, G0, hc0, ?_⟩
  intro reg1 reg2 c1 sk search numItermax stopThr stopThr2 hreg hc1 hsk hs
  have hN : (fun i j => M i j + reg2 * 0) = M := by funext i j; ring
  have ho := hsk M
  obtain ⟨hpos, -⟩ := GwEntropic.form_of_optimal (fun _ => by norm_num) (fun _ => by norm_num) (by simp) hreg ho
  have hne : sk M ≠ G0 := by
    intro e
    have := hpos 0 1
    rw [e, hG] at this
    simp at this
  constructor
  · intro k
    have key : ((gcgProblem M reg2 (fun _ => 0) (fun _ _ _ => 0) sk search numItermax stopThr stopThr2).iter G0 k).G = G0 ∧
        ((gcgProblem M reg2 (fun _ => 0) (fun _ _ _ => 0) sk search numItermax stopThr stopThr2).iter G0 k).dfG = none ∧
        ((gcgProblem M reg2 (fun _ => 0) (fun _ _ _ => 0) sk search numItermax stopThr stopThr2).iter G0 k).costG
          = (gcgProblem M reg2 (fun _ => 0) (fun _ _ _ => 0) sk search numItermax stopThr stopThr2).cost G0 := by
      induction k with
      | zero => exact ⟨rfl, rfl, rfl⟩
      | succ k ih =>
        obtain ⟨i1, i2, i3⟩ := ih
        obtain ⟨t, t0, t1, e1, e2, e3, -, e5⟩ := gcg_step (M := M) (reg2 := reg2) (f := fun _ => 0) (df := fun _ _ _ => 0) (sk := sk) (numItermax := numItermax) (stopThr := stopThr)
          (stopThr2 := stopThr2) hs _ i2 (by rw [i3, i1])
        rw [i1] at e1 e5
        rw [hN] at e1 e5
        have hder : 0 < ∑ i, ∑ j, (sk M i j - G0 i j) * M i j := by
          have h01 := hpos 0 1
          have h10 := hpos 1 0
          rw [hG]
          conv => rhs; rw [show (fun i => ∑ j, (sk M i j - (if i = j then 1 / 2 else 0)) * M i j) = fun i => ∑ j, (sk M i j - (if i = j then 1 / 2 else 0)) * (if i = j then 0 else 1) from by rw [hM]]
          simp [Fin.sum_univ_two]
          linarith
        have hcost : ∀ R, (gcgProblem M reg2 (fun _ => 0) (fun _ _ _ => 0) sk search numItermax stopThr stopThr2).cost R = ∑ i, ∑ j, M i j * R i j := by
          intro R
          show ∑ i, ∑ j, M i j * R i j + reg2 * 0 = _
          ring
        have ht : t = 0 := by
          by_contra hne0
          have htp : 0 < t := lt_of_le_of_ne t0 (Ne.symm hne0)
          have h := e5 htp
          have e1' : ((gcgProblem M reg2 (fun _ => 0) (fun _ _ _ => 0) sk search numItermax stopThr stopThr2).step
            ((gcgProblem M reg2 (fun _ => 0) (fun _ _ _ => 0) sk search numItermax stopThr stopThr2).iter G0 k)).G = fun i j => G0 i j + t * (sk M i j - G0 i j) := e1
          rw [hcost, hcost, e1'] at h
          have e : ∑ i, ∑ j, M i j * (G0 i j + t * (sk M i j - G0 i j)) = ∑ i, ∑ j, M i j * G0 i j + t * ∑ i, ∑ j, (sk M i j - G0 i j) * M i j := by
            simp only [mul_sum, ← sum_add_distrib]
            exact sum_congr rfl fun i _ => sum_congr rfl fun j _ => by ring
          rw [e] at h
          have := mul_pos htp hder
          nlinarith
        have eG : ((gcgProblem M reg2 (fun _ => 0) (fun _ _ _ => 0) sk search numItermax stopThr stopThr2).iter G0 (k + 1)).G = G0 := by
          refine e1.trans ?_
          funext i j; rw [ht]; ring
        refine ⟨eG, e3, ?_⟩
        refine e2.trans ?_
        exact congrArg _ eG
    exact key.1
  · refine ⟨sk M, ho.1, ?_⟩
    unfold gcgObj
    have h1 := (ho.2 G0 hc0).1
    have : entropicObjective M reg1 (sk M) < entropicObjective M reg1 G0 := lt_of_not_ge fun h => hne ((ho.2 G0 hc0).2 h).symm
    linarith

/-! ### `sinkhorn_l1l2_gl` -/

variable {L : ℕ}

/-- C95. The regulariser of `sinkhorn_l1l2_gl` is the sum over target samples and classes of the Euclidean norms of the class parts of the columns. -/
theorem C95_group_norm (idx : I → Fin L) (G : I → J → ℝ) : glF idx G = groupNorm idx G := by
  unfold glF groupNorm
  refine sum_congr rfl fun j _ => sum_congr rfl fun c _ => ?_
  congr 1
  refine sum_congr rfl fun i _ => ?_
  dsimp only
  by_cases h : idx i = c
  · rw [if_pos h, if_pos h.symm, mul_one]
  · rw [if_neg h, if_neg (fun e => h e.symm), mul_zero]; norm_num

theorem glDf_eq (idx : I → Fin L) (eps : ℝ) (G : I → J → ℝ) (i : I) (j : J) :
    glDf idx eps G i j = G i j / max (Real.sqrt (∑ i', if idx i' = idx i then G i' j ^ 2 else 0)) eps := by
  unfold glDf
  dsimp only
  rw [sum_eq_single (idx i)]
  · rw [if_pos rfl, mul_one]
    congr 3
    refine sum_congr rfl fun i' _ => ?_
    by_cases h : idx i' = idx i
    · rw [if_pos h, if_pos h.symm, mul_one, mul_one]
    · rw [if_neg h, if_neg (fun e => h e.symm), mul_zero]; norm_num
  · intro c _ hc; rw [if_neg hc, mul_zero, zero_div]
  · intro h; exact absurd (mem_univ _) h

/-- One group: `⟨g, h - g⟩ / max ‖g‖ eps ≤ ‖h‖ - ‖g‖ + eps / 4`, without error if `‖g‖` is zero or at least `eps`. -/
theorem group_subgrad {K : Type*} [Fintype K] (g h : K → ℝ) {eps : ℝ} (heps : 0 < eps) :
    Real.sqrt (∑ k, g k ^ 2) + (∑ k, g k * (h k - g k)) / max (Real.sqrt (∑ k, g k ^ 2)) eps - eps / 4 ≤ Real.sqrt (∑ k, h k ^ 2) ∧
    (Real.sqrt (∑ k, g k ^ 2) = 0 ∨ eps ≤ Real.sqrt (∑ k, g k ^ 2) →
      Real.sqrt (∑ k, g k ^ 2) + (∑ k, g k * (h k - g k)) / max (Real.sqrt (∑ k, g k ^ 2)) eps ≤ Real.sqrt (∑ k, h k ^ 2)) := by
  have hg0 : 0 ≤ ∑ k, g k ^ 2 := sum_nonneg fun _ _ => sq_nonneg _
  have hh0 : 0 ≤ ∑ k, h k ^ 2 := sum_nonneg fun _ _ => sq_nonneg _
  obtain ⟨x, hx⟩ : ∃ x, x = Real.sqrt (∑ k, g k ^ 2) := ⟨_, rfl⟩
  obtain ⟨y, hy⟩ : ∃ y, y = Real.sqrt (∑ k, h k ^ 2) := ⟨_, rfl⟩
  have hx0 : 0 ≤ x := hx ▸ Real.sqrt_nonneg _
  have hy0 : 0 ≤ y := hy ▸ Real.sqrt_nonneg _
  have hcs : ∑ k, g k * h k ≤ x * y := by
    rw [hx, hy]
    exact Real.sum_mul_le_sqrt_mul_sqrt _ _ _
  have e : ∑ k, g k * (h k - g k) = ∑ k, g k * h k - x ^ 2 := by
    rw [hx, Real.sq_sqrt hg0, ← sum_sub_distrib]
    exact sum_congr rfl fun k _ => by ring
  rw [e, ← hx, ← hy]
  obtain ⟨w, hw⟩ : ∃ w, w = max x eps := ⟨_, rfl⟩
  rw [← hw]
  have hw0 : 0 < w := hw ▸ lt_max_of_lt_right heps
  have hwx : x ≤ w := hw ▸ le_max_left _ _
  have h1 : (∑ k, g k * h k - x ^ 2) / w ≤ (x * y - x ^ 2) / w := by gcongr
  have h2 : (x * y - x ^ 2) / w = x / w * y - x / w * x := by ring
  have h3 : x / w ≤ 1 := (div_le_one hw0).2 hwx
  have h4 : 0 ≤ x / w := div_nonneg hx0 hw0.le
  have h5 : x / w * y ≤ y := by nlinarith
  constructor
  · rcases le_total eps x with hc | hc
    · have : w = x := by rw [hw]; exact max_eq_left hc
      have hx1 : x / w = 1 := by rw [this]; exact div_self (by linarith)
      rw [hx1] at h2
      linarith
    · have hwe : w = eps := by rw [hw]; exact max_eq_right hc
      have : x - x / w * x ≤ eps / 4 := by
        rw [hwe]
        have : x - x / eps * x = eps / 4 - (x - eps / 2) ^ 2 / eps := by field_simp; ring
        have h6 : 0 ≤ (x - eps / 2) ^ 2 / eps := by positivity
        linarith
      linarith
  · rintro (hc | hc)
    · have h6 : x / w * y - x / w * x = 0 := by rw [hc]; ring
      linarith
    · have : w = x := by rw [hw]; exact max_eq_left hc
      have hx1 : x / w = 1 := by rw [this]; exact div_self (by linarith)
      rw [hx1] at h2
      linarith

/-- C95. The gradient used by `sinkhorn_l1l2_gl` gives subgradients of the group lasso penalty up to the clipping error, at most `eps / 4` for every target sample and class. -/
theorem C95_group_subgrad (idx : I → Fin L) {eps : ℝ} (heps : 0 < eps) : IsSubgrad (glF (J := J) idx) (glDf idx eps) (Fintype.card J * L * (eps / 4)) := by
  intro G Q
  rw [C95_group_norm, C95_group_norm]
  have e : ∑ i, ∑ j, glDf idx eps G i j * (Q i j - G i j) = ∑ j, ∑ c, (∑ i, (if idx i = c then G i j else 0) * ((if idx i = c then Q i j else 0) - (if idx i = c then G i j else 0)))
      / max (Real.sqrt (∑ i, if idx i = c then G i j ^ 2 else 0)) eps := by
    rw [sum_comm]
    refine sum_congr rfl fun j _ => ?_
    simp only [sum_div]
    rw [sum_comm]
    refine sum_congr rfl fun i _ => ?_
    rw [glDf_eq, sum_eq_single (idx i)]
    · simp only [if_true]; ring
    · intro c _ hc; simp only [if_neg (fun h => hc h.symm : ¬ idx i = c)]; ring
    · intro h; exact absurd (mem_univ _) h
  have hsq : ∀ (R : I → J → ℝ) j c, (∑ i, if idx i = c then R i j ^ 2 else 0) = ∑ i, (if idx i = c then R i j else 0) ^ 2 := by
    intro R j c
    exact sum_congr rfl fun i _ => by split_ifs <;> ring
  have hcard : (Fintype.card J * L * (eps / 4) : ℝ) = ∑ _j : J, ∑ _c : Fin L, eps / 4 := by simp [mul_assoc]
  rw [e, hcard]
  unfold groupNorm
  rw [← sum_add_distrib, ← sum_sub_distrib]
  refine sum_le_sum fun j _ => ?_
  rw [← sum_add_distrib, ← sum_sub_distrib]
  refine sum_le_sum fun c _ => ?_
  rw [hsq G, hsq Q]
  exact (group_subgrad (fun i => if idx i = c then G i j else 0) (fun i => if idx i = c then Q i j else 0) heps).1

/-- C95. A plan that the inner solver of `sinkhorn_l1l2_gl` returns unchanged minimises the documented objective up to `eta * n_t * n_classes * eps / 4`. -/
theorem C95_group_lasso (idx : I → Fin L) {eps eta reg : ℝ} (heps : 0 < eps) (heta : 0 ≤ eta) (M : I → J → ℝ) (a : I → ℝ) (b : J → ℝ) (sk : (I → J → ℝ) → I → J → ℝ)
    (hsk : SolvesEntropic a b reg sk) (G : I → J → ℝ) (hfix : sk (fun i j => M i j + eta * glDf idx eps G i j) = G) (Q : I → J → ℝ) (hQ : IsCoupling a b Q) :
    entropicObjective M reg G + eta * groupNorm idx G ≤ entropicObjective M reg Q + eta * groupNorm idx Q + eta * (Fintype.card J * L * (eps / 4)) := by
  have h := (C95_gap (M := M) a b heta hsk (C95_group_subgrad (J := J) idx heps) G Q hQ).2 hfix
  unfold gcgObj at h
  rw [C95_group_norm, C95_group_norm] at h
  exact h

/-! ### The hypotheses can be met -/

theorem exSearch {c1 : ℝ} : SearchOk c1 (fun phi phi0 der => if phi 1 ≤ phi0 + c1 * 1 * der then some (1, phi 1) else none) := by
  intro phi phi0 der x y h
  dsimp only at h
  split_ifs at h with hc
  simp only [Option.some.injEq, Prod.mk.injEq] at h
  obtain ⟨rfl, rfl⟩ := h
  exact ⟨rfl, hc, le_rfl⟩

theorem exHalfCoupling : IsCoupling (fun _ : Fin 2 => (1 / 2 : ℝ)) (fun _ : Fin 2 => (1 / 2 : ℝ)) (fun _ _ => 1 / 4) :=
  ⟨fun _ _ => by norm_num, fun _ => by simp; norm_num, fun _ => by simp; norm_num⟩

/-- An instance of `C94_emd_laplace`: two samples on the line in each domain, Gaussian similarities, displacements. -/
example : ∃ (lp : (Fin 2 → Fin 2 → ℝ) → Fin 2 → Fin 2 → ℝ) (G0 : Fin 2 → Fin 2 → ℝ), (∀ Mi, IsOptimal (fun _ => 1 / 2) (fun _ => 1 / 2) Mi (lp Mi)) ∧
    IsCoupling (fun _ => 1 / 2) (fun _ => 1 / 2) G0 ∧
    SimOk (⟨fun i _ => (i : ℝ), fun j _ => 2 * (j : ℝ), gaussSim (D := Fin 1) (fun i _ => (i : ℝ)) 1, gaussSim (D := Fin 1) (fun j _ => 2 * (j : ℝ)) 1, fun _ _ => 1, 1, 1 / 2, true⟩ : Lap (Fin 2) (Fin 2) (Fin 1)) := by
  refine ⟨fun Mi => Classical.choose (exists_optimal (fun _ => 1 / 2) (fun _ => 1 / 2) Mi ⟨_, exHalfCoupling⟩), _, fun Mi => Classical.choose_spec (exists_optimal _ _ Mi ⟨_, exHalfCoupling⟩),
    exHalfCoupling, ?_⟩
  have g1 := (C94_similarities (D := Fin 1) (fun (i : Fin 2) _ => (i : ℝ)) 1 0 fun _ _ => le_rfl).1
  have g2 := (C94_similarities (D := Fin 1) (fun (j : Fin 2) _ => 2 * (j : ℝ)) 1 0 fun _ _ => le_rfl).1
  exact ⟨fun i k => (g1 i k).1, fun i k => (g2 i k).1, fun i k => (g1 i k).2, fun i k => (g2 i k).2⟩

/-- An instance of `C95_iterates`, `C95_gap` and of the hypotheses of `C95_gcg_refuted`: solvers of the entropic problem exist. -/
example : ∃ sk, SolvesEntropic (fun _ : Fin 2 => (1 / 2 : ℝ)) (fun _ : Fin 2 => (1 / 2 : ℝ)) 1 sk :=
  exists_solver (fun _ => by norm_num) (fun _ => by norm_num) (by simp) one_pos

/-- An instance of `C95_group_lasso`: all samples in one class, no cost; the plan `1/4` is a fixed point. -/
example (sk : (Fin 2 → Fin 2 → ℝ) → Fin 2 → Fin 2 → ℝ) (hsk : SolvesEntropic (fun _ : Fin 2 => (1 / 2 : ℝ)) (fun _ : Fin 2 => (1 / 2 : ℝ)) 1 sk) :
    sk (fun i j => 0 + 1 * glDf (L := 1) (fun _ => 0) (1 / 10 ^ 12) (fun _ _ : Fin 2 => 1 / 4) i j) = fun _ _ => 1 / 4 := by
  obtain ⟨c, hc⟩ : ∃ c : ℝ, ∀ i j, glDf (L := 1) (fun _ : Fin 2 => 0) (1 / 10 ^ 12) (fun _ _ : Fin 2 => 1 / 4) i j = c :=
    ⟨_, fun i j => by rw [glDf_eq]⟩
  have ho := hsk fun i j => 0 + 1 * glDf (L := 1) (fun _ => 0) (1 / 10 ^ 12) (fun _ _ : Fin 2 => 1 / 4) i j
  have h : IsEntropicOptimal (fun _ : Fin 2 => (1 / 2 : ℝ)) (fun _ : Fin 2 => (1 / 2 : ℝ)) (fun i j => 0 + 1 * glDf (L := 1) (fun _ => 0) (1 / 10 ^ 12) (fun _ _ : Fin 2 => 1 / 4) i j) 1 (fun _ _ => 1 / 4) :=
    Sinkhorn.optimal_of_form one_pos exHalfCoupling (fun _ _ => by norm_num) (x := fun _ => Real.log (1 / 4) + c) (y := fun _ => 0) fun i j => by rw [hc]; ring
  exact (h.2 _ ho.1).2 (ho.2 _ h.1).1

end POT.Props
