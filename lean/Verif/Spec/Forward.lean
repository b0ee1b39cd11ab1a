import Verif.Spec.Rounded
import Mathlib.Analysis.InnerProductSpace.PiL2

/-! # Specification: lengths and the smallest singular value -/

namespace LinfaLinalg

open Matrix

/-- The Euclidean length of a vector. -/
noncomputable def len {n : Nat} (x : Fin n → ℝ) : ℝ := Real.sqrt (∑ i, x i ^ 2)

/-- The smallest singular value of `A` is at least `c`: no vector is shrunk by more than the factor `c`. -/
def SvMin {m n : Nat} (A : Matrix (Fin m) (Fin n) ℝ) (c : ℝ) : Prop := ∀ x : Fin n → ℝ, c * len x ≤ len (A *ᵥ x)

/-- `x` is a least squares solution of `A x = b`. -/
def IsLsq {m n : Nat} (A : Matrix (Fin m) (Fin n) ℝ) (b : Fin m → ℝ) (x : Fin n → ℝ) : Prop :=
  ∀ y, len (A *ᵥ x - b) ≤ len (A *ᵥ y - b)

/-- `x` is the solution of `Aᵀ x = b` of least length. -/
def IsMinNorm {m n : Nat} (A : Matrix (Fin m) (Fin n) ℝ) (b : Fin n → ℝ) (x : Fin m → ℝ) : Prop :=
  Aᵀ *ᵥ x = b ∧ ∀ y, Aᵀ *ᵥ y = b → len x ≤ len y

end LinfaLinalg
