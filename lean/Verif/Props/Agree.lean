import Verif.Props.Qr

/-! # C114: the different routes to the solution of a linear system agree

The crate has four ways to solve a system: triangular solves, Cholesky (`solvec`), QR (`solve`, `least_squares`) and
the transposed QR solve behind `least_squares` on wide matrices. They share no code above the triangular solve. In
exact real arithmetic they return the same array wherever two of them apply. -/

namespace LinfaLinalg

open Matrix

theorem sameArr_of_toMat {n m : Nat} {a b : Arr2 ℝ} (ha : HasShape a n m) (hb : HasShape b n m)
    (h : toMat n m a = toMat n m b) : SameArr a b := by
  obtain ⟨rfl, rfl⟩ := ha
  exact ⟨hb.1.symm, hb.2.symm, fun i j hi hj => congrFun (congrFun h ⟨i, hi⟩) ⟨j, hj⟩⟩

/-- **C114, `solvec` and QR**: on a symmetric positive definite matrix, `solvec`, `QR::solve` and `least_squares`
return the same solution for every right hand side. -/
theorem C114_solvec_qr {n k : Nat} (a b : Arr2 ℝ) (ha : HasShape a n n) (hb : HasShape b n k)
    (hpd : SymPosDef (toMat n n a)) :
    ∃ q x y, solvec a b = .ok x ∧ qrInto a = .ok q ∧ q.solveInto b = .ok y ∧ leastSquares a b = .ok y ∧ SameArr x y := by
  obtain ⟨x, hx, sx, -, ux⟩ := C13_solvec a b ha hb hpd
  obtain ⟨q, y, hq, hy, hl, sy, ey⟩ := C19_square a b ha hb (posDef_isUnit hpd)
  exact ⟨q, x, y, hx, hq, hy, hl, sameArr_of_toMat sx sy (ux _ ey).symm⟩

/-- **C114, inverses**: on a symmetric positive definite matrix, `invc` and `QR::inverse` return the same matrix. -/
theorem C114_invc_qr {n : Nat} (a : Arr2 ℝ) (ha : HasShape a n n) (hpd : SymPosDef (toMat n n a)) :
    ∃ q x y, invc a = .ok x ∧ qrInto a = .ok q ∧ q.inverse = .ok y ∧ SameArr x y := by
  obtain ⟨x, hx, sx, -, ex⟩ := C14_invc a ha hpd
  obtain ⟨q, -, hq, -⟩ := C19_square (k := n) a a ha ha (posDef_isUnit hpd)
  obtain ⟨y, hy, sy, ey, -⟩ := (C21_inverse a ha le_rfl q hq).2.2 rfl (posDef_isUnit hpd)
  refine ⟨q, x, y, hx, hq, hy, sameArr_of_toMat sx sy ?_⟩
  calc toMat n n x = toMat n n x * (toMat n n a * toMat n n y) := by rw [ey, Matrix.mul_one]
    _ = _ := by rw [← Matrix.mul_assoc, ex, Matrix.one_mul]

/-- **C114, inverse and solve**: on an invertible matrix, `QR::solve` returns the product of `QR::inverse` and the
right hand side. -/
theorem C114_inverse_solve {n k : Nat} (a b : Arr2 ℝ) (ha : HasShape a n n) (hb : HasShape b n k)
    (hu : IsUnit (toMat n n a)) :
    ∃ q x y, qrInto a = .ok q ∧ q.inverse = .ok x ∧ q.solveInto b = .ok y ∧
      toMat n k y = toMat n n x * toMat n k b := by
  obtain ⟨q, y, hq, hy, -, sy, ey⟩ := C19_square a b ha hb hu
  obtain ⟨x, hx, sx, -, ex⟩ := (C21_inverse a ha le_rfl q hq).2.2 rfl hu
  refine ⟨q, x, y, hq, hx, hy, ?_⟩
  rw [← ey, ← Matrix.mul_assoc, ex, Matrix.one_mul]

/-- **C114, triangular and QR**: on a triangular matrix without zero on the diagonal, `solve_triangular` and
`QR::solve` return the same solution. -/
theorem C114_triangular_qr {n k : Nat} (a b : Arr2 ℝ) (uplo : UPLO) (ha : HasShape a n n) (hb : HasShape b n k)
    (ht : triPart uplo (toMat n n a) = toMat n n a) (hd : ∀ i, i < n → a.get i i ≠ 0) :
    ∃ q x y, solveTriangular a b uplo = .ok x ∧ qrInto a = .ok q ∧ q.solveInto b = .ok y ∧ SameArr x y := by
  obtain ⟨x, hx, sx, ex, ux⟩ := C03_solve_triangular a b uplo ha hb hd
  have hu : IsUnit (toMat n n a) := by
    obtain ⟨z, -, -, ez, -⟩ := C03_solve_triangular (m := n) a (Arr2.eye n n) uplo ha ⟨rfl, rfl⟩ hd
    rw [ht, toMat_eye] at ez
    exact IsUnit.of_mul_eq_one _ ez
  obtain ⟨q, y, hq, hy, -, sy, ey⟩ := C19_square a b ha hb hu
  exact ⟨q, x, y, hx, hq, hy, sameArr_of_toMat sx sy (ux _ (by rw [ht]; exact ey)).symm⟩

/-- The Gram matrix of independent columns is positive definite. -/
theorem gram_symPosDef {m n : Nat} {A : Matrix (Fin m) (Fin n) ℝ} (hr : LinearIndependent ℝ A.col) :
    SymPosDef (Aᵀ * A) := by
  refine ⟨by unfold Matrix.IsSymm; rw [transpose_mul, transpose_transpose], fun x hx => ?_⟩
  rw [← Matrix.mulVec_mulVec, Matrix.dotProduct_mulVec, Matrix.vecMul_transpose]
  have h : A *ᵥ x ≠ 0 := fun h => hx ((Matrix.mulVec_injective_iff.2 hr) (by rw [h, Matrix.mulVec_zero]))
  exact lt_of_le_of_ne (sqNorm_nonneg _) fun h' => h (dotProduct_self_eq_zero.1 h'.symm)

/-- **C114, normal equations**: for a matrix of full column rank, `least_squares` returns what `solvec` returns for the
normal equations `AᵀA X = AᵀB`. -/
theorem C114_normal_equations {m n k : Nat} (a b g c : Arr2 ℝ) (ha : HasShape a m n) (hb : HasShape b m k)
    (hg : HasShape g n n) (hc : HasShape c n k) (hnm : n ≤ m) (hr : LinearIndependent ℝ (toMat m n a).col)
    (eg : toMat n n g = (toMat m n a)ᵀ * toMat m n a) (ec : toMat n k c = (toMat m n a)ᵀ * toMat m k b) :
    ∃ x y, leastSquares a b = .ok x ∧ solvec g c = .ok y ∧ SameArr x y := by
  obtain ⟨q, x, -, -, hx, sx, mx, -⟩ := C19_least_squares a b ha hb hnm hr
  obtain ⟨y, hy, sy, ey, -⟩ := C13_solvec g c hg hc (by rw [eg]; exact gram_symPosDef hr)
  refine ⟨x, y, hx, hy, sameArr_of_toMat sx sy ?_⟩
  rw [eg, ec, Matrix.mul_assoc] at ey
  ext i j
  set A := toMat m n a
  set X := toMat n k x
  set Y := toMat n k y
  have horth : Aᵀ *ᵥ (A *ᵥ Y.col j - (toMat m k b).col j) = 0 := by
    rw [Matrix.mulVec_sub, sub_eq_zero]
    funext l
    have := congrFun (congrFun ey l) j
    simpa [Matrix.mul_apply, Matrix.mulVec, dotProduct] using this
  have hle : sqNorm (A *ᵥ Y.col j - (toMat m k b).col j) ≤ sqNorm (A *ᵥ X.col j - (toMat m k b).col j) := by
    have h1 : A *ᵥ X.col j - (toMat m k b).col j =
        (A *ᵥ Y.col j - (toMat m k b).col j) + A *ᵥ (X.col j - Y.col j) := by
      rw [Matrix.mulVec_sub]; abel
    rw [h1, sqNorm_add_of_orth]
    · exact le_add_of_nonneg_right (sqNorm_nonneg _)
    · rw [Matrix.dotProduct_mulVec, ← Matrix.mulVec_transpose, horth, zero_dotProduct]
  have h2 := mx j (Y.col j)
  exact (congrFun (h2.2 (le_antisymm h2.1 hle)) i).symm

/-- **C114, minimum norm**: for a wide matrix of full row rank, `least_squares` returns `Aᵀ W`, where `W` is what
`solvec` returns for `AAᵀ W = B`. -/
theorem C114_minimum_norm {m n k : Nat} (a b g : Arr2 ℝ) (ha : HasShape a m n) (hb : HasShape b m k)
    (hg : HasShape g m m) (hmn : m < n) (hr : LinearIndependent ℝ (toMat m n a).row)
    (eg : toMat m m g = toMat m n a * (toMat m n a)ᵀ) :
    ∃ x w, leastSquares a b = .ok x ∧ solvec g b = .ok w ∧ toMat n k x = (toMat m n a)ᵀ * toMat m k w := by
  obtain ⟨x, hx, sx, ex, mx⟩ := C20_least_squares_wide a b ha hb hmn hr
  have hpd : SymPosDef (toMat m m g) := by
    have := gram_symPosDef (A := (toMat m n a)ᵀ) hr
    rwa [transpose_transpose, ← eg] at this
  obtain ⟨w, hw, sw, ew, -⟩ := C13_solvec g b hg hb hpd
  refine ⟨x, w, hx, hw, ?_⟩
  rw [eg, Matrix.mul_assoc] at ew
  ext i j
  set A := toMat m n a
  set X := toMat n k x
  have hA : ∀ Z : Matrix (Fin n) (Fin k) ℝ, A * Z = toMat m k b → A *ᵥ Z.col j = (toMat m k b).col j := by
    intro Z hZ
    rw [← hZ]
    funext l
    simp [Matrix.mul_apply, Matrix.mulVec, dotProduct]
  have hle : sqNorm ((Aᵀ * toMat m k w).col j) ≤ sqNorm (X.col j) := by
    have h1 : X.col j = (Aᵀ * toMat m k w).col j + (X.col j - (Aᵀ * toMat m k w).col j) := by abel
    rw [h1, sqNorm_add_of_orth]
    · exact le_add_of_nonneg_right (sqNorm_nonneg _)
    · have h2 : (Aᵀ * toMat m k w).col j = Aᵀ *ᵥ (toMat m k w).col j := by
        funext l
        simp [Matrix.mul_apply, Matrix.mulVec, dotProduct]
      rw [dotProduct_comm]
      conv_lhs => rw [h2]
      rw [Matrix.dotProduct_mulVec, Matrix.vecMul_transpose, ← h2, Matrix.mulVec_sub, hA _ ex, hA _ ew, sub_self,
        zero_dotProduct]
  have h3 := mx j _ (hA _ ew)
  exact (congrFun (h3.2 (le_antisymm h3.1 hle)) i).symm

/-- The hypotheses are met: a positive definite matrix, a triangular one, and a tall one of full rank with its normal
equations. -/
example : SymPosDef (toMat 2 2 exSpd) ∧
    (triPart .lower (toMat 2 2 (ofRows 2 2 [[2, 0], [1, 3]] : Arr2 ℝ)) = toMat 2 2 (ofRows 2 2 [[2, 0], [1, 3]]) ∧
      ∀ i, i < 2 → (ofRows 2 2 [[2, 0], [1, 3]] : Arr2 ℝ).get i i ≠ 0) ∧
    (LinearIndependent ℝ (toMat 3 2 (ofRows 3 2 [[1, 0], [1, 1], [0, 1]] : Arr2 ℝ)).col ∧
      toMat 2 2 (ofRows 2 2 [[2, 1], [1, 2]] : Arr2 ℝ) =
        (toMat 3 2 (ofRows 3 2 [[1, 0], [1, 1], [0, 1]] : Arr2 ℝ))ᵀ * toMat 3 2 (ofRows 3 2 [[1, 0], [1, 1], [0, 1]])) := by
  refine ⟨exSpd_posDef, ⟨?_, ?_⟩, ?_, ?_⟩
  · ext i j; fin_cases i <;> fin_cases j <;> simp [triPart, InTri, toMat, ofRows]
  · intro i hi; interval_cases i <;> simp [ofRows]
  · rw [← Matrix.mulVec_injective_iff]
    intro x y h
    have h0 := congrFun h 0
    have h2 := congrFun h 2
    simp [Matrix.mulVec, dotProduct, Fin.sum_univ_two, toMat, ofRows] at h0 h2
    funext i; fin_cases i
    · exact h0
    · exact h2
  · ext i j
    fin_cases i <;> fin_cases j <;> simp [Matrix.mul_apply, Fin.sum_univ_three, toMat, ofRows] <;> norm_num

end LinfaLinalg
