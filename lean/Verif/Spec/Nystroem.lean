import Mathlib.Data.Matrix.Mul
import Mathlib.Data.Real.Basic

/-! # Specification vocabulary: Moore-Penrose inverse -/

namespace POT.Spec

/-- `P` is the Moore-Penrose inverse of the square matrix `B` (the four Penrose conditions). -/
structure IsPinv {n : Type*} [Fintype n] (B P : Matrix n n ℝ) : Prop where
  inner : B * P * B = B
  outer : P * B * P = P
  left : (B * P).transpose = B * P
  right : (P * B).transpose = P * B

end POT.Spec
