import Mathlib.LinearAlgebra.Matrix.ConjTranspose
import Mathlib.Data.Complex.Basic

/-!
# The Moore-Penrose inverse
-/

namespace Cyten.Spec
open Matrix

variable {m n : Type} [Fintype m] [Fintype n]

/-- The four equations that characterise the pseudo-inverse `P` of `A`. -/
structure MoorePenrose (A : Matrix m n ℂ) (P : Matrix n m ℂ) : Prop where
  left : A * P * A = A
  right : P * A * P = P
  range : (A * P)ᴴ = A * P
  corange : (P * A)ᴴ = P * A

/-- There is at most one pseudo-inverse. -/
theorem MoorePenrose.unique {A : Matrix m n ℂ} {P Q : Matrix n m ℂ} (hP : MoorePenrose A P)
    (hQ : MoorePenrose A Q) : P = Q := by
  have h1 : A * P = A * Q := by
    calc A * P = (A * Q * A) * P := by rw [hQ.left]
      _ = (A * Q)ᴴ * (A * P)ᴴ := by rw [hQ.range, hP.range]; simp only [Matrix.mul_assoc]
      _ = (A * P * (A * Q))ᴴ := (conjTranspose_mul _ _).symm
      _ = (A * P * A * Q)ᴴ := by simp only [Matrix.mul_assoc]
      _ = A * Q := by rw [hP.left, hQ.range]
  have h2 : P * A = Q * A := by
    calc P * A = P * (A * Q * A) := by rw [hQ.left]
      _ = (P * A)ᴴ * (Q * A)ᴴ := by rw [hQ.corange, hP.corange]; simp only [Matrix.mul_assoc]
      _ = (Q * A * (P * A))ᴴ := (conjTranspose_mul _ _).symm
      _ = (Q * (A * P * A))ᴴ := by simp only [Matrix.mul_assoc]
      _ = Q * A := by rw [hP.left, hQ.corange]
  calc P = P * A * P := hP.right.symm
    _ = Q * A * P := by rw [h2]
    _ = Q * (A * P) := Matrix.mul_assoc _ _ _
    _ = Q * (A * Q) := by rw [h1]
    _ = Q * A * Q := (Matrix.mul_assoc _ _ _).symm
    _ = Q := hQ.right

end Cyten.Spec
