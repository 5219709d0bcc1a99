import Verif.Spec.Entropic
import Mathlib.Data.Matrix.Mul
import Mathlib.LinearAlgebra.Matrix.Trace

/-! # Specification vocabulary: dimension reduction -/

namespace POT.Spec

open Finset Matrix

variable {I J D K C : Type*} [Fintype I] [Fintype J] [Fintype D] [Fintype K] [Fintype C]

/-- The columns of `U` are orthonormal: `U` is a point of the Stiefel manifold. -/
def IsStiefel [DecidableEq K] (U : Matrix D K ℝ) : Prop := Uᵀ * U = 1

/-- Squared distance between the projections `Uᵀ x` and `Uᵀ y`. -/
def projSq (U : Matrix D K ℝ) (x y : D → ℝ) : ℝ := ∑ c, (∑ d, U d c * (x d - y d)) ^ 2

/-- Second order matrix of the displacements, `∑ P i j (x i - y j) (x i - y j)ᵀ`. -/
def dispMatrix (P : I → J → ℝ) (X : I → D → ℝ) (Y : J → D → ℝ) : Matrix D D ℝ :=
  of fun d e => ∑ i, ∑ j, P i j * ((X i d - Y j d) * (X i e - Y j e))

/-- Frobenius norm. -/
noncomputable def frob (A : Matrix D K ℝ) : ℝ := Real.sqrt (∑ d, ∑ c, A d c ^ 2)

/-- Squared distance between `x` and the point `U Uᵀ y` of the subspace spanned by `U`. -/
def reconSq (U : Matrix D K ℝ) (x y : D → ℝ) : ℝ := ∑ d, (x d - ∑ c, U d c * ∑ e, U e c * y e) ^ 2

/-- `f` is an entrywise QR factorisation: orthonormal columns, and every column of the input is a combination of them. -/
def IsQr [DecidableEq K] (qr : Matrix D K ℝ → Matrix D K ℝ) : Prop :=
  ∀ A, IsStiefel (qr A) ∧ ∃ T : Matrix K K ℝ, A = qr A * T

/-- Mean of the points, feature by feature. -/
noncomputable def featMean (x : I → D → ℝ) (d : D) : ℝ := (∑ i, x i d) / Fintype.card I

/-- The points with the mean of every feature removed. -/
noncomputable def centered (x : I → D → ℝ) : I → D → ℝ := fun i d => x i d - featMean x d

/-- Costs of moving each centred point to the projections of all centred points on the span of `U`. -/
noncomputable def componentCost (x : I → D → ℝ) (U : Matrix D K ℝ) : I → I → ℝ := fun i j => reconSq U (centered x i) (centered x j)

/-- The entropic transport objective from the centred points to their projections on the span of `U`, uniform weights. -/
def IsComponentValue (x : I → D → ℝ) (reg : ℝ) (U : Matrix D K ℝ) (v : ℝ) : Prop :=
  ∃ P, IsEntropicOptimal (fun _ => 1 / (Fintype.card I : ℝ)) (fun _ => 1 / (Fintype.card I : ℝ)) (componentCost x U) reg P ∧ entropicObjective (componentCost x U) reg P = v

/-! ## Discriminant analysis -/

section labelled

variable {N : Type*} [Fintype N] [DecidableEq C]

/-- Mean of the points of class `c`, feature by feature. -/
noncomputable def classFeatMean (X : N → D → ℝ) (y : N → C) (c : C) (d : D) : ℝ := (∑ i with y i = c, X i d) / #{i | y i = c}

/-- Spread of the class means along `v`: `∑ ((m c - mean of the class means) · v)²`. -/
noncomputable def fisherBetween (X : N → D → ℝ) (y : N → C) (v : D → ℝ) : ℝ :=
  ∑ c, (∑ d, (classFeatMean X y c d - (∑ c', classFeatMean X y c' d) / Fintype.card C) * v d) ^ 2

/-- Mean over the classes of the (unbiased) variance of the class along `v`. -/
noncomputable def fisherWithin (X : N → D → ℝ) (y : N → C) (v : D → ℝ) : ℝ :=
  (∑ c, (∑ i with y i = c, (∑ d, (X i d - classFeatMean X y c d) * v d) ^ 2) / ((#{i | y i = c} : ℝ) - 1)) / Fintype.card C

/-- Mean over the classes of the (unbiased) covariance matrix of the class. -/
noncomputable def withinScatter (X : N → D → ℝ) (y : N → C) (d e : D) : ℝ :=
  (∑ c, (∑ i with y i = c, (X i d - classFeatMean X y c d) * (X i e - classFeatMean X y c e)) / ((#{i | y i = c} : ℝ) - 1)) / Fintype.card C

/-- Mean over all features of the points of class `c`: one number per class. -/
noncomputable def classScalarMean (X : N → D → ℝ) (y : N → C) (c : C) : ℝ := (∑ d, classFeatMean X y c d) / Fintype.card D

/-- `v` maximises the (ridge regularised) Fisher ratio. -/
def IsFisherDirection (X : N → D → ℝ) (y : N → C) (reg : ℝ) (v : D → ℝ) : Prop :=
  ∀ u, fisherBetween X y u * (fisherWithin X y v + reg * ∑ d, v d ^ 2) ≤ fisherBetween X y v * (fisherWithin X y u + reg * ∑ d, u d ^ 2)

/-- The transport cost of the entropic plan between the points of class `c` and of class `c'` projected by `P`, uniform weights. -/
def IsClassCost (X : N → D → ℝ) (y : N → C) (P : Matrix D K ℝ) (reg : ℝ) (c c' : C) (w : ℝ) : Prop :=
  ∃ G : {i // y i = c} → {i // y i = c'} → ℝ, IsEntropicOptimal (fun _ => 1 / (Fintype.card {i // y i = c} : ℝ)) (fun _ => 1 / (Fintype.card {i // y i = c'} : ℝ)) (fun i j => projSq P (X i.1) (X j.1)) reg G ∧
    cost (fun i j => projSq P (X i.1) (X j.1)) G = w

end labelled

end POT.Spec
