import Verif.Props.Perturb
import Verif.Props.Agree

/-! # C116: the decompositions of one matrix are consistent with each other

Each decomposition is specified on its own by C08, C16, C75 and C76. Here two of them, which run different code, are
compared on the same matrix. Exact real arithmetic. -/

namespace LinfaLinalg

open Matrix

/-- **C116, determinant, Cholesky**: the determinant of a matrix accepted by `cholesky` is the squared product of the
diagonal of the factor. -/
theorem C116_cholesky_det {n : Nat} (a l : Arr2 ℝ) (ha : HasShape a n n) (hs : (toMat n n a).IsSymm)
    (h : cholesky a = .ok l) : (toMat n n a).det = (∏ i : Fin n, l.get i i) ^ 2 := by
  obtain ⟨-, hl, he⟩ := C08_cholesky_factor a l ha hs h
  rw [← he, Matrix.det_mul, Matrix.det_transpose, Matrix.det_of_isLowerTriangular _ (fun i j hij => hl.1 i j hij), sq]
  rfl

/-- **C116, determinant, QR**: the product of the diagonal of `R` of a square matrix is the absolute value of its
determinant. -/
theorem C116_qr_det {n : Nat} (a : Arr2 ℝ) (ha : HasShape a n n) :
    ∃ q R, qrInto a = .ok q ∧ q.intoR = .ok R ∧ ∏ i : Fin n, R.get i i = |(toMat n n a).det| := by
  obtain ⟨q, Q, R, hq, -, -, hR, -, -, oQ, hu, hd, he⟩ := C16_qr a ha le_rfl
  refine ⟨q, R, hq, hR, ?_⟩
  have h1 : (toMat n n Q).det * (toMat n n Q).det = 1 := by
    have := congrArg Matrix.det oQ
    rwa [Matrix.det_mul, Matrix.det_transpose, Matrix.det_one] at this
  have h2 : (toMat n n R).det = ∏ i : Fin n, R.get i i :=
    Matrix.det_of_isUpperTriangular (fun i j hij => hu i j hij)
  have h3 : |(toMat n n Q).det| = 1 := by
    rcases mul_self_eq_one_iff.1 h1 with h | h <;> rw [h] <;> simp
  rw [← he, Matrix.det_mul, abs_mul, h3, one_mul, h2, abs_of_nonneg]
  exact Finset.prod_nonneg fun i _ => hd i

/-- **C116, Cholesky and QR**: on a symmetric positive definite matrix, the product of the diagonal of `R` is the squared
product of the diagonal of the Cholesky factor. -/
theorem C116_cholesky_qr {n : Nat} (a : Arr2 ℝ) (ha : HasShape a n n) (hpd : SymPosDef (toMat n n a)) :
    ∃ l q R, cholesky a = .ok l ∧ qrInto a = .ok q ∧ q.intoR = .ok R ∧
      ∏ i : Fin n, R.get i i = (∏ i : Fin n, l.get i i) ^ 2 := by
  obtain ⟨l, hl⟩ := (C09_cholesky_iff_posDef a ha hpd.1).1.2 hpd
  obtain ⟨q, R, hq, hR, he⟩ := C116_qr_det a ha
  refine ⟨l, q, R, hl, hq, hR, ?_⟩
  rw [he, C116_cholesky_det a l ha hpd.1 hl, abs_of_nonneg (sq_nonneg _)]

/-- **C116, eigenvalues and singular values**: on every positive semidefinite matrix, `eigvalsh` and `svd` both return,
and their sorted values agree up to the errors of the two runs. -/
theorem C116_psd {n : Nat} (a : Arr2 ℝ) (ha : HasShape a n n) (hn : n ≠ 0) (hs : (toMat n n a).IsSymm)
    (hp : ∀ x : Fin n → ℝ, 0 ≤ x ⬝ᵥ toMat n n a *ᵥ x) (cu cv : Bool) (order : Order) :
    ∃ N vals x u s vt u' y vt', eigvalsh N a = .ok vals ∧ sortEigVals vals order = .ok x ∧
      svd (svdFuel n n) a cu cv = .ok (u, s, vt) ∧ sortSvd u s vt order = .ok (u', y, vt') ∧ ∀ j < n,
        |x.get j - y.get j| ≤ eigTol (toMat n n a) + svdTol (toMat n n a) := by
  obtain ⟨N, vals, x, h1, h2, -, ex⟩ := C75_semidefinite_total a ha hs (Or.inl hp) order
  obtain ⟨u, s, vt, u', y, vt', h3, h4, -, ey⟩ := C76_svd_accuracy a ha hn hn cu cv order
  refine ⟨N, vals, x, u, s, vt, u', y, vt', h1 N le_rfl, h2, h3, h4, fun j hj => ?_⟩
  have h5 : nthSingularValue order (toMat n n a) j = nthEigenvalue order hs ⟨j, hj⟩ := by
    cases order
    · exact singularValue_psd hs hp ⟨j, hj⟩
    · have := singularValue_psd hs hp (Fin.rev ⟨j, hj⟩)
      simp only [nthSingularValue, nthEigenvalue, min_self]
      rw [← this, Fin.val_rev]
      congr 1
      simp only
      omega
  have h6 := abs_le.1 (ex ⟨j, hj⟩)
  have h7 := abs_le.1 (ey j (by omega))
  rw [h5] at h7
  simp only at h6
  unfold eigTol svdTol
  rw [abs_le]
  constructor <;> linarith [h6.1, h6.2, h7.1, h7.2]

/-- **C116, Gram matrix**: for every matrix with at least as many rows as columns, `eigvalsh` of `AᵀA` and `svd` of `A`
both return, and the sorted values of the first are the squares of those of the second up to the errors of the runs. -/
theorem C116_gram {m n : Nat} (a g : Arr2 ℝ) (ha : HasShape a m n) (hg : HasShape g n n) (hn : n ≠ 0) (hnm : n ≤ m)
    (eg : toMat n n g = (toMat m n a)ᵀ * toMat m n a) (cu cv : Bool) (order : Order) :
    ∃ N vals x u s vt u' y vt', eigvalsh N g = .ok vals ∧ sortEigVals vals order = .ok x ∧
      svd (svdFuel m n) a cu cv = .ok (u, s, vt) ∧ sortSvd u s vt order = .ok (u', y, vt') ∧ ∀ j < n,
        |x.get j - y.get j ^ 2| ≤ eigTol (toMat n n g) +
          svdTol (toMat m n a) * (2 * |y.get j| + svdTol (toMat m n a)) := by
  have hs : (toMat n n g).IsSymm := by
    unfold Matrix.IsSymm; rw [eg, transpose_mul, transpose_transpose]
  have hp : ∀ x : Fin n → ℝ, 0 ≤ x ⬝ᵥ toMat n n g *ᵥ x := fun x => by
    rw [eg, ← Matrix.mulVec_mulVec, Matrix.dotProduct_mulVec, Matrix.vecMul_transpose]
    exact sqNorm_nonneg _
  obtain ⟨N, vals, x, h1, h2, -, ex⟩ := C75_semidefinite_total g hg hs (Or.inl hp) order
  obtain ⟨u, s, vt, u', y, vt', h3, h4, -, ey⟩ := C76_svd_accuracy a ha (by omega) hn cu cv order
  refine ⟨N, vals, x, u, s, vt, u', y, vt', h1 N le_rfl, h2, h3, h4, fun j hj => ?_⟩
  have hdesc : ∀ j : Fin n, eigenvalueDesc hs j = singularValue (toMat m n a) j ^ 2 := by
    intro j
    have key : ∀ (G : Matrix (Fin n) (Fin n) ℝ) (hG : G.IsSymm), G = (toMat m n a)ᵀ * toMat m n a →
        eigenvalueDesc hG j = singularValue (toMat m n a) j ^ 2 := by
      rintro _ hG rfl
      exact eigenvalueDesc_gram _ hG j
    exact key _ hs eg
  have h5 : nthEigenvalue order hs ⟨j, hj⟩ = nthSingularValue order (toMat m n a) j ^ 2 := by
    cases order
    · exact hdesc ⟨j, hj⟩
    · simp only [nthSingularValue, nthEigenvalue, hdesc, Fin.val_rev]
      congr 2
      omega
  have h6 := ex ⟨j, hj⟩
  have h7 := ey j (by omega)
  rw [h5] at h6
  simp only at h6
  have h8 : svdTol (toMat m n a) = 2 * (min m n - 1 : Nat) * (5 * (2 : ℝ)⁻¹ ^ 52) * frob (toMat m n a) := rfl
  rw [← h8] at h7
  set τ := svdTol (toMat m n a)
  set σ := nthSingularValue order (toMat m n a) j
  have h9 : |σ ^ 2 - y.get j ^ 2| ≤ τ * (2 * |y.get j| + τ) := by
    rw [abs_sub_comm] at h7
    have e : σ ^ 2 - y.get j ^ 2 = (σ - y.get j) * (2 * y.get j + (σ - y.get j)) := by ring
    rw [e, abs_mul]
    refine mul_le_mul h7 ?_ (abs_nonneg _) ((abs_nonneg _).trans h7)
    refine (abs_add_le _ _).trans ?_
    rw [abs_mul, abs_two]
    linarith
  calc |x.get j - y.get j ^ 2| = |(x.get j - σ ^ 2) + (σ ^ 2 - y.get j ^ 2)| := by ring_nf
    _ ≤ _ := (abs_add_le _ _).trans (add_le_add h6 h9)

/-- **C116, transpose**: `svd` of a square matrix and of its transpose both return, and their sorted values agree up to
twice the error of a run. (C99 has the other shapes, without error.) -/
theorem C116_svd_transpose {n : Nat} (a : Arr2 ℝ) (ha : HasShape a n n) (hn : n ≠ 0) (cu cv : Bool) (order : Order) :
    ∃ u s vt u' x vt' w t zt w' y zt', svd (svdFuel n n) a cu cv = .ok (u, s, vt) ∧
      sortSvd u s vt order = .ok (u', x, vt') ∧ svd (svdFuel n n) a.t cu cv = .ok (w, t, zt) ∧
      sortSvd w t zt order = .ok (w', y, zt') ∧ ∀ j < n,
        |x.get j - y.get j| ≤ 2 * svdTol (toMat n n a) := by
  obtain ⟨u, s, vt, u', x, vt', h1, h2, -, ex⟩ := C76_svd_accuracy a ha hn hn cu cv order
  obtain ⟨w, t, zt, w', y, zt', g1, g2, -, ey⟩ := C76_svd_accuracy (m := n) (n := n) a.t ⟨ha.2, ha.1⟩ hn hn cu cv order
  refine ⟨u, s, vt, u', x, vt', w, t, zt, w', y, zt', h1, h2, g1, g2, fun j hj => ?_⟩
  have e : toMat n n a.t = (toMat n n a)ᵀ := rfl
  rw [e, frob_transpose] at ey
  have hσ : nthSingularValue order (toMat n n a)ᵀ j = nthSingularValue order (toMat n n a) j := by
    cases order
    · exact singularValue_transpose _ _ hj
    · exact singularValue_transpose _ _ (by omega)
  have h6 := abs_le.1 (ex j (by omega))
  have h7 := abs_le.1 (ey j (by omega))
  rw [hσ] at h7
  unfold svdTol
  rw [abs_le]
  constructor <;> linarith [h6.1, h6.2, h7.1, h7.2]

/-- The hypotheses are met: a positive definite matrix, and a tall matrix with its Gram matrix. -/
example : SymPosDef (toMat 2 2 exSpd) ∧ toMat 2 2 (ofRows 2 2 [[2, 1], [1, 2]] : Arr2 ℝ) =
    (toMat 3 2 (ofRows 3 2 [[1, 0], [1, 1], [0, 1]] : Arr2 ℝ))ᵀ * toMat 3 2 (ofRows 3 2 [[1, 0], [1, 1], [0, 1]]) := by
  refine ⟨exSpd_posDef, ?_⟩
  ext i j
  fin_cases i <;> fin_cases j <;> simp [Matrix.mul_apply, Fin.sum_univ_three, toMat, ofRows] <;> norm_num

end LinfaLinalg
