import Verif.Spec.Transport
import Mathlib.Data.Real.Basic
import Mathlib.Analysis.SpecialFunctions.Sqrt

/-! # Vocabulary for the initial plans of the semi-relaxed problems -/

namespace POT.Spec

variable {I J K : Type*} [Fintype I] [Fintype J] [Fintype K] [DecidableEq K]

/-- `T` is admissible for the semi-relaxed problems with weights `p`: nonnegative with row sums `p`, the column sums are free -/
structure IsSemiRelaxed (p : I → ℝ) (T : I → J → ℝ) : Prop where
  nonneg : ∀ i j, 0 ≤ T i j
  row : ∀ i, ∑ j, T i j = p i

/-- a cheapest admissible plan for the cost `M` (semi-relaxed Wasserstein) -/
def IsSemiRelaxedOptimal (p : I → ℝ) (M : I → J → ℝ) (T : I → J → ℝ) : Prop :=
  IsSemiRelaxed p T ∧ ∀ T', IsSemiRelaxed p T' → cost M T ≤ cost M T'

/-- weight of the cluster `c` -/
def clusterMass (w : I → ℝ) (part : I → K) (c : K) : ℝ := ∑ i, if part i = c then w i else 0

/-- weighted square error of approximating the structure `C` by a structure `B` between the clusters -/
def clusterError (w : I → ℝ) (C : I → I → ℝ) (part : I → K) (B : K → K → ℝ) : ℝ :=
  ∑ i, ∑ j, w i * w j * (C i j - B (part i) (part j)) ^ 2

/-- Euclidean distance of two rows -/
noncomputable def rowDistance (x y : K → ℝ) : ℝ := Real.sqrt (∑ k, (x k - y k) ^ 2)

end POT.Spec
