import Verif.Spec.Divergence

/-! # Specification vocabulary: the documented objective of the unbalanced across-spaces solvers

(docstring of `fused_unbalanced_across_spaces_divergence`, ot/gromov/_unbalanced.py 62-101) -/

namespace POT.Spec

open Finset

variable {I J D E : Type*} [Fintype I] [Fintype J] [Fintype D] [Fintype E]

/-- A plan as a measure on pairs. -/
def asMeasure {K L : Type*} (P : K → L → ℝ) : K × L → ℝ := fun x => P x.1 x.2

/-- First and second marginal. -/
def marg1 {K L : Type*} [Fintype L] (P : K → L → ℝ) : K → ℝ := fun k => ∑ l, P k l
def marg2 {K L : Type*} [Fintype K] (P : K → L → ℝ) : L → ℝ := fun l => ∑ k, P k l

/-- `∑ (X_ik - Y_jl)² P_ij Q_kl` -/
def cootLinear (X : I → D → ℝ) (Y : J → E → ℝ) (P : I → J → ℝ) (Q : D → E → ℝ) : ℝ :=
  ∑ i, ∑ j, ∑ k, ∑ l, (X i k - Y j l) ^ 2 * P i j * Q k l

/-- The two divergences offered by the API. -/
noncomputable def divergence {K : Type*} [Fintype K] (kl : Bool) (p q : K → ℝ) : ℝ :=
  if kl then klDivergence p q else l2Divergence p q

/-- The objective of an unbalanced OT problem with reference measures `wx`, `wy`, `wxy`. -/
noncomputable def uotObjective (kl : Bool) (M : I → J → ℝ) (wx : I → ℝ) (wy : J → ℝ)
    (wxy : I → J → ℝ) (rhoX rhoY eps : ℝ) (G : I → J → ℝ) : ℝ :=
  (∑ i, ∑ j, G i j * M i j) + rhoX * divergence kl (marg1 G) wx + rhoY * divergence kl (marg2 G) wy
    + eps * divergence kl (asMeasure G) (asMeasure wxy)

/-- The documented joint objective. -/
noncomputable def cootObjective (kl joint : Bool) (X : I → D → ℝ) (Y : J → E → ℝ) (wxs : I → ℝ) (wxf : D → ℝ) (wys : J → ℝ) (wyf : E → ℝ)
    (Ms : I → J → ℝ) (Mf : D → E → ℝ) (rhoX rhoY epsS epsF : ℝ) (P : I → J → ℝ) (Q : D → E → ℝ) : ℝ :=
  cootLinear X Y P Q
    + rhoX * divergence kl (prodMeasure (marg1 P) (marg1 Q)) (prodMeasure wxs wxf)
    + rhoY * divergence kl (prodMeasure (marg2 P) (marg2 Q)) (prodMeasure wys wyf)
    + (∑ i, ∑ j, P i j * Ms i j) + (∑ k, ∑ l, Q k l * Mf k l)
    + if joint then
        epsS * divergence kl (prodMeasure (asMeasure P) (asMeasure Q)) (prodMeasure (prodMeasure wxs wys) (prodMeasure wxf wyf))
      else epsS * divergence kl (asMeasure P) (prodMeasure wxs wys) + epsF * divergence kl (asMeasure Q) (prodMeasure wxf wyf)

end POT.Spec
