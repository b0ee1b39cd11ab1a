import Verif.Proofs.RoundedBidiag
import Verif.Props.RoundingQr
import Verif.Props.Bidiagonal
import Verif.Props.Accuracy

/-! # C82: rounding errors of the bidiagonal decomposition

The scalar type is `Rnd R`, the standard model of floating-point arithmetic. The constant is that of C79:
`reflErrs R m n = (1 + 3 γ_(5 m + 31))^n - 1` for `n` reflections of vectors of length at most `m`. -/

namespace LinfaLinalg

open Matrix

variable {R : StdModel}

/-! ## Matrices close to one with orthonormal columns -/

theorem frob_le_of_columns {m n : Nat} {E : Matrix (Fin m) (Fin n) ℝ} {δ : ℝ} (hδ : 0 ≤ δ)
    (h : ∀ j, colNorm E j ≤ δ) : frob E ≤ Real.sqrt n * δ := by
  refine frob_le_of_sq (mul_nonneg (Real.sqrt_nonneg _) hδ) ?_
  rw [← frob_sq, frob_sq_colNorm, mul_pow, Real.sq_sqrt (Nat.cast_nonneg n)]
  calc ∑ j, colNorm E j ^ 2 ≤ ∑ _j : Fin n, δ ^ 2 :=
        Finset.sum_le_sum fun j _ => pow_le_pow_left₀ (colNorm_nonneg _ _) (h j) 2
    _ = n * δ ^ 2 := by simp

theorem near_orthonormal {m n : Nat} {P Q : Matrix (Fin m) (Fin n) ℝ} {δ : ℝ} (hδ : 0 ≤ δ) (hQ : Qᵀ * Q = 1)
    (h : ∀ j, colNorm (P - Q) j ≤ δ) (i j : Fin n) :
    |(Pᵀ * P - (1 : Matrix (Fin n) (Fin n) ℝ)) i j| ≤ δ * (2 + δ) := by
  have e : Pᵀ * P - 1 = Qᵀ * (P - Q) + ((P - Q)ᵀ * Q + (P - Q)ᵀ * (P - Q)) := by
    rw [← hQ, Matrix.transpose_sub]
    simp only [Matrix.mul_sub, Matrix.sub_mul]
    abel
  rw [e, Matrix.add_apply, Matrix.add_apply]
  have b1 := abs_dot_le_colNorm Q (P - Q) i j
  have b2 := abs_dot_le_colNorm (P - Q) Q i j
  have b3 := abs_dot_le_colNorm (P - Q) (P - Q) i j
  rw [colNorm_of_orth hQ] at b1 b2
  have b4 := mul_le_mul (h i) (h j) (colNorm_nonneg _ _) hδ
  have t1 := abs_add_le ((Qᵀ * (P - Q)) i j) (((P - Q)ᵀ * Q) i j + ((P - Q)ᵀ * (P - Q)) i j)
  have t2 := abs_add_le (((P - Q)ᵀ * Q) i j) (((P - Q)ᵀ * (P - Q)) i j)
  have := h i
  have := h j
  calc _ ≤ δ + (δ + δ * δ) := by linarith
    _ = _ := by ring

/-- Replacing the factors with orthonormal columns and rows by nearby ones. -/
theorem near_product {m d n : Nat} {A Δ : Matrix (Fin m) (Fin n) ℝ} {P U : Matrix (Fin m) (Fin d) ℝ}
    {B : Matrix (Fin d) (Fin d) ℝ} {Q V : Matrix (Fin d) (Fin n) ℝ} {δ η : ℝ} (hη : 0 ≤ η)
    (hP : Pᵀ * P = 1) (hQ : Q * Qᵀ = 1) (hA : A + Δ = P * B * Q) (hΔ : frob Δ ≤ δ * frob A)
    (hU : frob (U - P) ≤ η) (hV : frob (V - Q) ≤ η) :
    frob (A - U * B * V) ≤ ((1 + δ) * (1 + η) ^ 2 - 1) * frob A := by
  have hB : frob B ≤ (1 + δ) * frob A := by
    rw [← frob_orth_mul hP B, ← frob_mul_orth hQ (P * B), ← hA]
    have := frob_add_le A Δ
    linarith
  have e : A - U * B * V = -(Δ + ((U - P) * B * Q + (P * B * (V - Q) + (U - P) * B * (V - Q)))) := by
    have : A = P * B * Q - Δ := by rw [← hA]; abel
    rw [this]
    simp only [Matrix.mul_sub, Matrix.sub_mul]
    abel
  rw [e, frob_neg]
  have t1 := frob_add_le Δ ((U - P) * B * Q + (P * B * (V - Q) + (U - P) * B * (V - Q)))
  have t2 := frob_add_le ((U - P) * B * Q) (P * B * (V - Q) + (U - P) * B * (V - Q))
  have t3 := frob_add_le (P * B * (V - Q)) ((U - P) * B * (V - Q))
  have hUB : frob ((U - P) * B) ≤ η * frob B :=
    (frob_mul_le _ _).trans (mul_le_mul_of_nonneg_right hU (frob_nonneg _))
  have t4 : frob ((U - P) * B * Q) ≤ η * frob B := by rw [frob_mul_orth hQ]; exact hUB
  have t5 : frob (P * B * (V - Q)) ≤ frob B * η := by
    rw [Matrix.mul_assoc, frob_orth_mul hP]
    exact (frob_mul_le _ _).trans (mul_le_mul_of_nonneg_left hV (frob_nonneg _))
  have t6 : frob ((U - P) * B * (V - Q)) ≤ η * frob B * η :=
    (frob_mul_le _ _).trans (mul_le_mul hUB hV (frob_nonneg _) (mul_nonneg hη (frob_nonneg _)))
  have h7 : (2 * η + η ^ 2) * frob B ≤ (2 * η + η ^ 2) * ((1 + δ) * frob A) :=
    mul_le_mul_of_nonneg_left hB (by positivity)
  calc _ ≤ δ * frob A + (2 * η + η ^ 2) * frob B := by nlinarith
    _ ≤ δ * frob A + (2 * η + η ^ 2) * ((1 + δ) * frob A) := by linarith
    _ = _ := by ring

/-- The singular values of `B` are those of `P B Q`. -/
theorem near_singularValue {m d n : Nat} {A : Matrix (Fin m) (Fin n) ℝ} {P : Matrix (Fin m) (Fin d) ℝ}
    {B : Matrix (Fin d) (Fin d) ℝ} {Q : Matrix (Fin d) (Fin n) ℝ} (hP : Pᵀ * P = 1) (hQ : Q * Qᵀ = 1)
    (hdn : d ≤ n) (j : Nat) (hj : j < d) :
    |singularValue B j - singularValue A j| ≤ frob (A - P * B * Q) := by
  obtain ⟨h0, hL, W, hW, hAW⟩ := singularValue_spec A
  obtain ⟨h0', hL', Z, hZ, hBZ⟩ := singularValue_spec B
  have hG : (P * B * Q)ᵀ * (P * B * Q) = (Qᵀ * Z) * diagonal (fun i : Fin d => singularValue B i ^ 2) * (Qᵀ * Z)ᵀ := by
    calc (P * B * Q)ᵀ * (P * B * Q) = Qᵀ * (Bᵀ * (Pᵀ * P) * B) * Q := by
          simp only [transpose_mul, Matrix.mul_assoc]
      _ = _ := by
        rw [hP, Matrix.mul_one, hBZ, Matrix.transpose_mul, Matrix.transpose_transpose]
        simp only [Matrix.mul_assoc]
  have hQZ : (Qᵀ * Z)ᵀ * (Qᵀ * Z) = 1 := by
    rw [Matrix.transpose_mul, Matrix.transpose_transpose, Matrix.mul_assoc, ← Matrix.mul_assoc Q, hQ,
      Matrix.one_mul, hZ]
  exact weyl_sv_abs (s := fun i : Fin n => singularValue A i) (s' := fun i : Fin d => singularValue B i) hW hQZ hAW hG
    (fun i j hij => hL hij) (fun i => h0 i) (fun i j hij => hL' hij) (fun i => h0' i) j (by omega) hj

/-! ## C82 -/

/-- **C82**: `bidiagonal` is backward stable. In floating point the `B` returned is upper (lower, for wide matrices)
bidiagonal with nonnegative entries, and it is the exact bidiagonal factor `P B Q` of a matrix within
`reflErrs · ‖A‖_F` of `A`, for exactly orthonormal `P` and `Q`; every column of the `U` returned and every row
of the `V^T` returned is within `reflErrs` of that of `P` and `Q`. -/
theorem C82_bidiagonal {m n : Nat} (a : Arr2 (Rnd R)) (ha : HasShape a m n) (h0 : m ≠ 0 ∧ n ≠ 0)
    (hu : ((5 * max m n + 31 : Nat) : ℝ) * R.u < 1) :
    ∃ b U B Vt, bidiagonal a = .ok b ∧ b.generateU = .ok U ∧ b.intoB = .ok B ∧ b.generateVt = .ok Vt ∧
      HasShape U m (min m n) ∧ HasShape B (min m n) (min m n) ∧ HasShape Vt (min m n) n ∧
      (n ≤ m → IsUpperBidiagonal (toMat (min m n) (min m n) (Rnd.vals B))) ∧
      (m < n → IsUpperBidiagonal (toMat (min m n) (min m n) (Rnd.vals B))ᵀ) ∧
      (∀ i j, i < min m n → j < min m n → 0 ≤ (B.get i j).v) ∧
      ∃ (P : Matrix (Fin m) (Fin (min m n)) ℝ) (Q : Matrix (Fin (min m n)) (Fin n) ℝ)
        (Δ : Matrix (Fin m) (Fin n) ℝ), Pᵀ * P = 1 ∧ Q * Qᵀ = 1 ∧
        toMat m n (Rnd.vals a) + Δ = P * toMat (min m n) (min m n) (Rnd.vals B) * Q ∧
        frob Δ ≤ reflErrs R (max m n) (2 * min m n - 1) * frob (toMat m n (Rnd.vals a)) ∧
        (∀ j, colNorm (toMat m (min m n) (Rnd.vals U) - P) j ≤ reflErrs R (max m n) (min m n)) ∧
        ∀ j, colNorm (toMat (min m n) n (Rnd.vals Vt) - Q)ᵀ j ≤ reflErrs R (max m n) (min m n) := by
  obtain ⟨b, U, Vt, e1, e2, e3, hup, hd, ho, s1, s2, P, Q, Δ, o1, o2, he, hΔ, hU, hV⟩ :=
    bidiagonal_rnd a ha (by omega) hu
  obtain ⟨B, e4, b1, b2, b3⟩ := intoB_eq b (by rw [hd]; omega) (by rw [ho, hd])
  rw [hd] at b1 b2 b3
  have hB : toMat (min m n) (min m n) (Rnd.vals B) = b.bMatV (min m n) := by
    ext i j
    rw [toMat_apply]
    show (B.get i j).v = _
    rw [b3 i j i.2 j.2, BidiagonalDecomp.bMatV]
    cases b.upperDiag
    · simp only [Bool.false_eq_true, false_and, if_false, true_and, Matrix.transpose_apply, bidiag,
        Matrix.of_apply]
      split_ifs <;> first | rfl | omega | (rename_i h; rw [h]; rfl)
    · simp only [Bool.true_eq_false, false_and, if_false, true_and, if_true, bidiag,
        Matrix.of_apply]
      split_ifs <;> rfl
  refine ⟨b, U, B, Vt, e1, e2, e4, e3, s1, ⟨b1, b2⟩, s2, ?_, ?_, ?_, P, Q, Δ, o1, o2, ?_, hΔ, hU, hV⟩
  · intro h i j h1 h2
    rw [hB, BidiagonalDecomp.bMatV, hup]
    simp only [h, decide_true, if_true, bidiag, Matrix.of_apply]
    rw [if_neg h1, if_neg h2]
  · intro h i j h1 h2
    rw [hB, BidiagonalDecomp.bMatV, hup]
    simp only [not_le.2 h, decide_false, Bool.false_eq_true, if_false, bidiag, Matrix.of_apply,
      Matrix.transpose_apply]
    rw [if_neg h1, if_neg h2]
  · intro i j hi hj
    rw [b3 i j hi hj]
    split_ifs <;> first | exact abs_nonneg _ | exact le_rfl
  · rw [hB]; exact he

/-- **C82**: the computed factors reproduce `A` up to `(1 + δ') (1 + √d δ)² - 1`, relative in the Frobenius norm. -/
theorem C82_residual {m n : Nat} (a : Arr2 (Rnd R)) (ha : HasShape a m n) (h0 : m ≠ 0 ∧ n ≠ 0)
    (hu : ((5 * max m n + 31 : Nat) : ℝ) * R.u < 1) (b : BidiagonalDecomp (Rnd R)) (U B Vt : Arr2 (Rnd R))
    (hb : bidiagonal a = .ok b) (hU : b.generateU = .ok U) (hB : b.intoB = .ok B) (hV : b.generateVt = .ok Vt) :
    frob (toMat m n (Rnd.vals a) - toMat m (min m n) (Rnd.vals U) * toMat (min m n) (min m n) (Rnd.vals B) *
        toMat (min m n) n (Rnd.vals Vt)) ≤
      ((1 + reflErrs R (max m n) (2 * min m n - 1)) *
        (1 + Real.sqrt (min m n : Nat) * reflErrs R (max m n) (min m n)) ^ 2 - 1) *
        frob (toMat m n (Rnd.vals a)) := by
  obtain ⟨b', U', B', V', e1, e2, e3, e4, -, -, -, -, -, -, P, Q, Δ, hP, hQ, hA, hΔ, dU, dV⟩ := C82_bidiagonal a ha h0 hu
  cases hb.symm.trans e1
  cases hU.symm.trans e2
  cases hB.symm.trans e3
  cases hV.symm.trans e4
  have hδ : 0 ≤ reflErrs R (max m n) (min m n) := reflErrs_nonneg hu
  refine near_product (mul_nonneg (Real.sqrt_nonneg _) hδ) hP hQ hA hΔ (frob_le_of_columns hδ dU) ?_
  rw [← frob_transpose]
  exact frob_le_of_columns hδ dV

/-- **C82**: the columns of the computed `U` and the rows of the computed `V^T` are orthonormal up to `δ (2 + δ)`,
however `A` is conditioned. -/
theorem C82_orthonormal {m n : Nat} (a : Arr2 (Rnd R)) (ha : HasShape a m n) (h0 : m ≠ 0 ∧ n ≠ 0)
    (hu : ((5 * max m n + 31 : Nat) : ℝ) * R.u < 1) (b : BidiagonalDecomp (Rnd R)) (U Vt : Arr2 (Rnd R))
    (hb : bidiagonal a = .ok b) (hU : b.generateU = .ok U) (hV : b.generateVt = .ok Vt) (i j : Fin (min m n)) :
    |((toMat m (min m n) (Rnd.vals U))ᵀ * toMat m (min m n) (Rnd.vals U) -
        (1 : Matrix (Fin (min m n)) (Fin (min m n)) ℝ)) i j| ≤
      reflErrs R (max m n) (min m n) * (2 + reflErrs R (max m n) (min m n)) ∧
    |(toMat (min m n) n (Rnd.vals Vt) * (toMat (min m n) n (Rnd.vals Vt))ᵀ -
        (1 : Matrix (Fin (min m n)) (Fin (min m n)) ℝ)) i j| ≤
      reflErrs R (max m n) (min m n) * (2 + reflErrs R (max m n) (min m n)) := by
  obtain ⟨b', U', B', V', e1, e2, e3, e4, -, -, -, -, -, -, P, Q, Δ, hP, hQ, hA, hΔ, dU, dV⟩ := C82_bidiagonal a ha h0 hu
  cases hb.symm.trans e1
  cases hU.symm.trans e2
  cases hV.symm.trans e4
  have hδ : 0 ≤ reflErrs R (max m n) (min m n) := reflErrs_nonneg hu
  refine ⟨near_orthonormal hδ hP dU i j, ?_⟩
  have := near_orthonormal (P := (toMat (min m n) n (Rnd.vals Vt))ᵀ) (Q := Qᵀ) hδ
    (by rw [Matrix.transpose_transpose]; exact hQ) dV i j
  rwa [Matrix.transpose_transpose] at this

/-- **C82**: every singular value of the computed `B` is within `reflErrs · ‖A‖_F` of the corresponding singular
value of `A`. -/
theorem C82_singular_values {m n : Nat} (a : Arr2 (Rnd R)) (ha : HasShape a m n) (h0 : m ≠ 0 ∧ n ≠ 0)
    (hu : ((5 * max m n + 31 : Nat) : ℝ) * R.u < 1) (b : BidiagonalDecomp (Rnd R)) (B : Arr2 (Rnd R))
    (hb : bidiagonal a = .ok b) (hB : b.intoB = .ok B) (j : Nat) (hj : j < min m n) :
    |singularValue (toMat (min m n) (min m n) (Rnd.vals B)) j - singularValue (toMat m n (Rnd.vals a)) j| ≤
      reflErrs R (max m n) (2 * min m n - 1) * frob (toMat m n (Rnd.vals a)) := by
  obtain ⟨b', U', B', V', e1, e2, e3, e4, -, -, -, -, -, -, P, Q, Δ, hP, hQ, hA, hΔ, -⟩ := C82_bidiagonal a ha h0 hu
  cases hb.symm.trans e1
  cases hB.symm.trans e3
  refine (near_singularValue hP hQ (min_le_right _ _) j hj).trans ?_
  rw [← hA, show toMat m n (Rnd.vals a) - (toMat m n (Rnd.vals a) + Δ) = -Δ by abel, frob_neg]
  exact hΔ

/-- The hypotheses of C82 are met by concrete square and wide arrays in double precision, on which every call
succeeds. -/
example : (∃ b U B Vt, bidiagonal (exRnd .double) = .ok b ∧ b.generateU = .ok U ∧ b.intoB = .ok B ∧
      b.generateVt = .ok Vt) ∧
    ∃ b U B Vt, bidiagonal (exWideRnd .double) = .ok b ∧ b.generateU = .ok U ∧ b.intoB = .ok B ∧
      b.generateVt = .ok Vt := by
  have h : ((5 * max 2 2 + 31 : Nat) : ℝ) * StdModel.double.u < 1 := by norm_num [StdModel.double]
  have h' : ((5 * max 1 2 + 31 : Nat) : ℝ) * StdModel.double.u < 1 := by norm_num [StdModel.double]
  obtain ⟨b, U, B, Vt, e1, e2, e3, e4, -⟩ := C82_bidiagonal (m := 2) (n := 2) (exRnd .double) ⟨rfl, rfl⟩ (by omega) h
  obtain ⟨b', U', B', Vt', f1, f2, f3, f4, -⟩ :=
    C82_bidiagonal (m := 1) (n := 2) (exWideRnd .double) ⟨rfl, rfl⟩ (by omega) h'
  exact ⟨⟨b, U, B, Vt, e1, e2, e3, e4⟩, b', U', B', Vt', f1, f2, f3, f4⟩

end LinfaLinalg
