import Verif.Spec.Real
import Mathlib.Analysis.Matrix.Normed
import Mathlib.LinearAlgebra.Matrix.Trace

/-! # The Frobenius norm -/

namespace LinfaLinalg

open Matrix

/-- The Frobenius norm. -/
noncomputable def frob {n m : Nat} (A : Matrix (Fin n) (Fin m) ℝ) : ℝ :=
  Real.sqrt (∑ i, ∑ j, A i j ^ 2)

section
variable {n m k : Nat}

open scoped Matrix.Norms.Frobenius in
theorem frob_eq_norm (A : Matrix (Fin n) (Fin m) ℝ) : frob A = ‖A‖ := by
  rw [Matrix.frobenius_norm_def, frob, Real.sqrt_eq_rpow]
  simp

theorem frob_nonneg (A : Matrix (Fin n) (Fin m) ℝ) : 0 ≤ frob A := Real.sqrt_nonneg _

open scoped Matrix.Norms.Frobenius in
theorem frob_add_le (A B : Matrix (Fin n) (Fin m) ℝ) : frob (A + B) ≤ frob A + frob B := by
  simp only [frob_eq_norm]; exact norm_add_le A B

open scoped Matrix.Norms.Frobenius in
theorem frob_sub_le (A B C : Matrix (Fin n) (Fin m) ℝ) :
    frob (A - C) ≤ frob (A - B) + frob (B - C) := by
  simp only [frob_eq_norm]; exact norm_sub_le_norm_sub_add_norm_sub A B C

open scoped Matrix.Norms.Frobenius in
theorem frob_smul (c : ℝ) (A : Matrix (Fin n) (Fin m) ℝ) : frob (c • A) = |c| * frob A := by
  simp only [frob_eq_norm]; rw [norm_smul]; rfl

@[simp] theorem frob_zero : frob (0 : Matrix (Fin n) (Fin m) ℝ) = 0 := by simp [frob]

theorem frob_transpose (A : Matrix (Fin n) (Fin m) ℝ) : frob Aᵀ = frob A := by
  unfold frob
  rw [Finset.sum_comm]
  rfl

theorem frob_sq (A : Matrix (Fin n) (Fin m) ℝ) : frob A ^ 2 = ∑ i, ∑ j, A i j ^ 2 :=
  Real.sq_sqrt (Finset.sum_nonneg fun _ _ => Finset.sum_nonneg fun _ _ => sq_nonneg _)

theorem frob_sq_trace (A : Matrix (Fin n) (Fin m) ℝ) : frob A ^ 2 = (Aᵀ * A).trace := by
  rw [frob_sq, Finset.sum_comm]
  simp only [Matrix.trace, Matrix.diag, Matrix.mul_apply, Matrix.transpose_apply, sq]

theorem frob_le_of_sq {A : Matrix (Fin n) (Fin m) ℝ} {c : ℝ} (hc : 0 ≤ c)
    (h : ∑ i, ∑ j, A i j ^ 2 ≤ c ^ 2) : frob A ≤ c := by
  rw [← frob_sq] at h
  exact abs_le_of_sq_le_sq' h hc |>.2

theorem frob_eq_zero {A : Matrix (Fin n) (Fin m) ℝ} (h : frob A = 0) : A = 0 := by
  have h2 := frob_sq A
  rw [h] at h2
  have h3 : ∑ i, ∑ j, A i j ^ 2 = 0 := by rw [← h2]; norm_num
  ext i j
  have h4 := (Finset.sum_eq_zero_iff_of_nonneg
    (fun _ _ => Finset.sum_nonneg fun _ _ => sq_nonneg _)).1 h3 i (Finset.mem_univ _)
  have h5 := (Finset.sum_eq_zero_iff_of_nonneg (fun _ _ => sq_nonneg _)).1 h4 j (Finset.mem_univ _)
  exact pow_eq_zero_iff (two_ne_zero) |>.1 h5

/-- Multiplication by a matrix with orthonormal columns preserves the norm. -/
theorem frob_orth_mul {Q : Matrix (Fin k) (Fin n) ℝ} (hQ : Qᵀ * Q = 1)
    (A : Matrix (Fin n) (Fin m) ℝ) : frob (Q * A) = frob A := by
  have h : frob (Q * A) ^ 2 = frob A ^ 2 := by
    rw [frob_sq_trace, frob_sq_trace, Matrix.transpose_mul, Matrix.mul_assoc,
      ← Matrix.mul_assoc Qᵀ, hQ, Matrix.one_mul]
  exact (pow_left_inj₀ (frob_nonneg _) (frob_nonneg _) two_ne_zero).1 h

theorem frob_mul_orth {Q : Matrix (Fin m) (Fin k) ℝ} (hQ : Q * Qᵀ = 1)
    (A : Matrix (Fin n) (Fin m) ℝ) : frob (A * Q) = frob A := by
  rw [← frob_transpose, Matrix.transpose_mul, frob_orth_mul (by rw [Matrix.transpose_transpose, hQ]),
    frob_transpose]

/-- One entry is at most the norm. -/
theorem abs_le_frob (A : Matrix (Fin n) (Fin m) ℝ) (i : Fin n) (j : Fin m) : |A i j| ≤ frob A := by
  rw [frob, ← Real.sqrt_sq_eq_abs]
  apply Real.sqrt_le_sqrt
  calc A i j ^ 2 ≤ ∑ j, A i j ^ 2 :=
        Finset.single_le_sum (f := fun j => A i j ^ 2) (fun _ _ => sq_nonneg _) (Finset.mem_univ j)
    _ ≤ _ := Finset.single_le_sum (f := fun i => ∑ j, A i j ^ 2)
        (fun _ _ => Finset.sum_nonneg fun _ _ => sq_nonneg _) (Finset.mem_univ i)

/-- Entrywise smaller matrices have a smaller norm. -/
theorem frob_mono {A B : Matrix (Fin n) (Fin m) ℝ} (h : ∀ i j, |A i j| ≤ |B i j|) :
    frob A ≤ frob B := by
  apply Real.sqrt_le_sqrt
  refine Finset.sum_le_sum fun i _ => Finset.sum_le_sum fun j _ => ?_
  exact sq_le_sq.2 (h i j)

theorem frob_submatrix_perm (A : Matrix (Fin n) (Fin m) ℝ) (σ : Equiv.Perm (Fin n))
    (τ : Equiv.Perm (Fin m)) : frob (A.submatrix σ τ) = frob A := by
  unfold frob
  simp only [Matrix.submatrix_apply]
  congr 1
  rw [Equiv.sum_comp σ (fun i => ∑ j, A i (τ j) ^ 2)]
  exact Finset.sum_congr rfl fun i _ => Equiv.sum_comp τ (fun j => A i j ^ 2)

end

end LinfaLinalg
