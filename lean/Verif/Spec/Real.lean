import Verif.Model.Basic
import Verif.Model.Triangular
import Mathlib.Analysis.SpecialFunctions.Pow.Real
import Mathlib.LinearAlgebra.Matrix.PosDef
import Mathlib.LinearAlgebra.Matrix.NonsingularInverse

/-! # Exact real arithmetic as a scalar type, and the vocabulary of the specifications -/

namespace LinfaLinalg

/-- Exact real arithmetic. Differences from IEEE floats: no rounding, no NaN, no infinities, no
signed zero (so `signum 0 = 1`, `is_sign_negative 0 = false`), `x / 0 = 0`.
`negInf` is only used as the initial value of maxima of absolute values or norms, for which any
negative number serves; `epsilon` is that of `f64`. -/
noncomputable instance instNdFloatReal : NdFloat ℝ where
  sqrt := Real.sqrt
  abs x := |x|
  signum x := if x < 0 then -1 else 1
  hypot x y := Real.sqrt (x * x + y * y)
  max := max
  lt x y := decide (x < y)
  le x y := decide (x ≤ y)
  isZero x := decide (x = 0)
  isSignNeg x := decide (x < 0)
  ofRat q := (q : ℝ)
  negInf := -1
  epsilon := (2 : ℝ)⁻¹ ^ 52
  dot l := (l.map fun p => p.1 * p.2).sum

@[simp] theorem real_sqrt (x : ℝ) : NdFloat.sqrt x = Real.sqrt x := rfl
@[simp] theorem real_abs (x : ℝ) : NdFloat.abs x = |x| := rfl
theorem real_signum (x : ℝ) : NdFloat.signum x = if x < 0 then -1 else 1 := rfl
theorem real_hypot (x y : ℝ) : NdFloat.hypot x y = Real.sqrt (x * x + y * y) := rfl
@[simp] theorem real_max (x y : ℝ) : NdFloat.max x y = max x y := rfl
@[simp] theorem real_lt (x y : ℝ) : NdFloat.lt x y = decide (x < y) := rfl
@[simp] theorem real_le (x y : ℝ) : NdFloat.le x y = decide (x ≤ y) := rfl
@[simp] theorem real_isZero (x : ℝ) : NdFloat.isZero x = decide (x = 0) := rfl
@[simp] theorem real_isSignNeg (x : ℝ) : NdFloat.isSignNeg x = decide (x < 0) := rfl
@[simp] theorem real_ofRat (q : ℚ) : (NdFloat.ofRat q : ℝ) = (q : ℝ) := rfl
@[simp] theorem real_negInf : (NdFloat.negInf : ℝ) = -1 := rfl
theorem real_epsilon : (NdFloat.epsilon : ℝ) = (2 : ℝ)⁻¹ ^ 52 := rfl

variable {α : Type}

/-- The array has `n` rows and `m` columns. -/
def HasShape (a : Arr2 α) (n m : Nat) : Prop := a.nr = n ∧ a.nc = m

/-- Same shape and same entries. -/
def SameArr (a b : Arr2 α) : Prop :=
  a.nr = b.nr ∧ a.nc = b.nc ∧ ∀ i j, i < a.nr → j < a.nc → a.get i j = b.get i j

/-- Same length and same entries. -/
def SameArr1 (a b : Arr1 α) : Prop := a.len = b.len ∧ ∀ i, i < a.len → a.get i = b.get i

/-- The contents of an `n × m` array as a matrix. -/
def toMat (n m : Nat) (a : Arr2 α) : Matrix (Fin n) (Fin m) α := Matrix.of fun i j => a.get i j

/-- The contents of an array of length `n` as a vector. -/
def toVec (n : Nat) (a : Arr1 α) : Fin n → α := fun i => a.get i

@[simp] theorem toMat_apply (n m : Nat) (a : Arr2 α) (i : Fin n) (j : Fin m) :
    toMat n m a i j = a.get i j := rfl
@[simp] theorem toVec_apply (n : Nat) (a : Arr1 α) (i : Fin n) : toVec n a i = a.get i := rfl

/-- Position `(i, j)` is on the diagonal or on the `uplo` side of it. -/
def InTri (uplo : UPLO) (i j : Nat) : Prop :=
  match uplo with
  | .upper => i ≤ j
  | .lower => j ≤ i

instance (uplo : UPLO) (i j : Nat) : Decidable (InTri uplo i j) := by
  unfold InTri; cases uplo <;> infer_instance

@[simp] theorem inTri_upper (i j : Nat) : InTri .upper i j ↔ i ≤ j := Iff.rfl
@[simp] theorem inTri_lower (i j : Nat) : InTri .lower i j ↔ j ≤ i := Iff.rfl

/-- The `uplo` triangle of a matrix, other entries replaced by zero. -/
def triPart {n : Nat} (uplo : UPLO) (A : Matrix (Fin n) (Fin n) ℝ) : Matrix (Fin n) (Fin n) ℝ :=
  Matrix.of fun i j => if InTri uplo i j then A i j else 0

/-- Symmetric positive definite (real matrices). -/
def SymPosDef {n : Nat} (A : Matrix (Fin n) (Fin n) ℝ) : Prop :=
  A.IsSymm ∧ ∀ x : Fin n → ℝ, x ≠ 0 → 0 < dotProduct x (A.mulVec x)

/-- Lower triangular with positive diagonal. -/
def LowerPos {n : Nat} (L : Matrix (Fin n) (Fin n) ℝ) : Prop :=
  (∀ i j, i < j → L i j = 0) ∧ ∀ i, 0 < L i i

/-- An array given by rows (for concrete examples). -/
def ofRows (r c : Nat) (l : List (List ℝ)) : Arr2 ℝ := ⟨r, c, fun i j => (l.getD i []).getD j 0⟩

theorem sumTo_eq (n : Nat) (f : Nat → ℝ) : sumTo n f = ∑ k ∈ Finset.range n, f k := by
  unfold sumTo
  induction n with
  | zero => rfl
  | succ n ih => rw [List.range_succ, List.foldl_append, ih, Finset.sum_range_succ]; rfl

theorem dotTo_eq (n : Nat) (f g : Nat → ℝ) : dotTo n f g = ∑ k ∈ Finset.range n, f k * g k := by
  show (((List.range n).map fun k => (f k, g k)).map fun p => p.1 * p.2).sum = _
  rw [List.map_map]
  induction n with
  | zero => rfl
  | succ n ih => rw [List.range_succ, List.map_append, List.sum_append, ih, Finset.sum_range_succ]; simp

theorem matrix_mul_left_cancel {n m : Nat} {A : Matrix (Fin n) (Fin n) ℝ}
    {X Y : Matrix (Fin n) (Fin m) ℝ} (hA : IsUnit A) (h : A * X = A * Y) : X = Y := by
  have hd : IsUnit A.det := (Matrix.isUnit_iff_isUnit_det A).1 hA
  rw [← Matrix.nonsing_inv_mul_cancel_left A X hd, h, Matrix.nonsing_inv_mul_cancel_left A Y hd]

end LinfaLinalg
