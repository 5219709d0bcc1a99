import Verif.Spec.Transport
import Mathlib.Order.Bounds.Basic
import Mathlib.Data.Fin.Basic

/-! # Specification vocabulary: barycenters and linear programs -/

namespace POT.Spec

open Finset

variable {K : Type*} [Field K] [LinearOrder K] [IsStrictOrderedRing K]

/-- `v` is the optimal transport value. -/
def IsOtValue {I J : Type*} [Fintype I] [Fintype J] (a : I → K) (b : J → K) (M : I → J → K) (v : K) : Prop := IsLeast {c | ∃ P, IsCoupling a b P ∧ cost M P = c} v

/-- squared Euclidean distance -/
def sqEuclid {D : Type*} [Fintype D] (x y : D → K) : K := ∑ d, (x d - y d) ^ 2

/-- `x` solves: minimise `c x` subject to `A x = b`, `x ≥ 0`. -/
def IsLpOptimal {V E : Type*} [Fintype V] (c : V → K) (A : E → V → K) (b : E → K) (x : V → K) : Prop :=
  ((∀ v, 0 ≤ x v) ∧ ∀ e, ∑ v, A e v * x v = b e) ∧ ∀ y : V → K, (∀ v, 0 ≤ y v) → (∀ e, ∑ v, A e v * y v = b e) → ∑ v, c v * x v ≤ ∑ v, c v * y v

/-- `b` is a barycenter of the histograms `A s` with coefficients `w s` for the ground cost `M`: no other histogram, whatever plans are used to reach it, has a smaller weighted sum of transport costs. -/
def IsBarycenter {S I J : Type*} [Fintype S] [Fintype I] [Fintype J] (A : S → I → K) (w : S → K) (M : I → J → K) (b : J → K) : Prop :=
  ∃ P : S → I → J → K, (∀ s, IsCoupling (A s) b (P s)) ∧ ∀ (b' : J → K) (P' : S → I → J → K), (∀ s, IsCoupling (A s) b' (P' s)) → ∑ s, w s * cost M (P s) ≤ ∑ s, w s * cost M (P' s)

end POT.Spec
