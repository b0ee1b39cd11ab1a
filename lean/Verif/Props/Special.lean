import Verif.Props.Cross
import Verif.Props.Forward

/-! # C142: orthogonal columns, and eigenvalues that solve an equation

Matrices for which the results can be written down although they are not diagonal. -/

namespace LinfaLinalg

open Matrix

/-- The columns of `A` are orthogonal and have lengths `d`. -/
def OrthCols {m n : Nat} (A : Matrix (Fin m) (Fin n) ℝ) (d : Fin n → ℝ) : Prop :=
  (∀ i j, i ≠ j → ∑ k, A k i * A k j = 0) ∧ ∀ j, ∑ k, A k j ^ 2 = d j ^ 2

theorem OrthCols.gram {m n : Nat} {A : Matrix (Fin m) (Fin n) ℝ} {d : Fin n → ℝ} (h : OrthCols A d) :
    Aᵀ * A = diagonal fun j => d j ^ 2 := by
  ext i j
  rw [Matrix.mul_apply, Matrix.diagonal_apply]
  simp only [Matrix.transpose_apply]
  split_ifs with e
  · subst e
    rw [← h.2 i]
    exact Finset.sum_congr rfl fun k _ => (sq _).symm
  · exact h.1 i j e

theorem OrthCols.indep {m n : Nat} {A : Matrix (Fin m) (Fin n) ℝ} {d : Fin n → ℝ} (h : OrthCols A d) (hd : ∀ j, 0 < d j) :
    LinearIndependent ℝ A.col := by
  rw [← Matrix.mulVec_injective_iff]
  intro x y e
  have h1 : (Aᵀ * A) *ᵥ x = (Aᵀ * A) *ᵥ y := by
    rw [← Matrix.mulVec_mulVec, ← Matrix.mulVec_mulVec]; exact congrArg _ e
  rw [h.gram] at h1
  funext j
  have := congrFun h1 j
  rw [Matrix.mulVec_diagonal, Matrix.mulVec_diagonal] at this
  exact mul_left_cancel₀ (pow_pos (hd j) 2).ne' this

/-- **C142, qr**: if the columns are orthogonal and not zero, `R` is the diagonal matrix of their lengths and `Q` holds the
columns divided by their lengths. -/
theorem C142_qr {m n : Nat} (a : Arr2 ℝ) (ha : HasShape a m n) (hnm : n ≤ m) (d : Fin n → ℝ) (hd : ∀ j, 0 < d j)
    (h : OrthCols (toMat m n a) d) : ∃ q Q R, qrInto a = .ok q ∧ q.intoDecomp = .ok (Q, R) ∧
      toMat n n R = diagonal d ∧ ∀ (i : Fin m) (j : Fin n), Q.get i j = a.get i j / d j := by
  obtain ⟨q, Q, R, hq, hdec, -, -, -, -, oQ, hup, hdg, he⟩ := C16_qr a ha hnm
  have hRR : (toMat n n R)ᵀ * toMat n n R = diagonal fun j => d j ^ 2 := by
    rw [← h.gram, ← he, Matrix.transpose_mul, Matrix.mul_assoc, ← Matrix.mul_assoc (toMat m n Q)ᵀ, oQ, Matrix.one_mul]
  have hpos : ∀ i, 0 < toMat n n R i i := fun i => lt_of_le_of_ne (hdg i) fun h => by
    have hdet := congrArg Matrix.det hRR
    rw [Matrix.det_mul, Matrix.det_transpose, Matrix.det_diagonal,
      Matrix.det_of_isUpperTriangular (fun i j hij => hup i j hij),
      Finset.prod_eq_zero (f := fun k => toMat n n R k k) (Finset.mem_univ i) h.symm, mul_zero] at hdet
    exact Finset.prod_ne_zero_iff.2 (fun (j : Fin n) _ => (pow_pos (hd j) 2).ne') hdet.symm
  have hR : toMat n n R = diagonal d := by
    have h1 : LowerPos (toMat n n R)ᵀ := ⟨fun i j hij => hup j i hij, hpos⟩
    have h2 : LowerPos (diagonal d) :=
      ⟨fun i j hij => Matrix.diagonal_apply_ne _ hij.ne, fun i => by rw [Matrix.diagonal_apply_eq]; exact hd i⟩
    have := LowerPos.unique h1 h2 (by
      rw [Matrix.transpose_transpose, hRR, Matrix.diagonal_transpose, Matrix.diagonal_mul_diagonal]
      simp only [sq])
    rw [← Matrix.transpose_transpose (toMat n n R), this, Matrix.diagonal_transpose]
  refine ⟨q, Q, R, hq, hdec, hR, fun i j => ?_⟩
  have := congrFun (congrFun he i) j
  rw [hR, Matrix.mul_diagonal] at this
  exact eq_div_of_mul_eq (hd j).ne' this

/-- **C142, least squares**: if the columns are orthogonal and not zero, the least squares solution consists of the Fourier
coefficients of the right-hand sides. -/
theorem C142_least_squares {m n k : Nat} (a b : Arr2 ℝ) (ha : HasShape a m n) (hb : HasShape b m k) (hnm : n ≤ m)
    (d : Fin n → ℝ) (hd : ∀ j, 0 < d j) (h : OrthCols (toMat m n a) d) :
    ∃ x, leastSquares a b = .ok x ∧ HasShape x n k ∧
      ∀ (i : Fin n) (j : Fin k), x.get i j = (∑ l : Fin m, a.get l i * b.get l j) / d i ^ 2 := by
  obtain ⟨q, x, -, -, hx, sx, mx, -⟩ := C19_least_squares a b ha hb hnm (h.indep hd)
  refine ⟨x, hx, sx, fun i j => ?_⟩
  have hn : IsLsq (toMat m n a) ((toMat m k b).col j) ((toMat n k x).col j) := fun y => by
    refine Real.sqrt_le_sqrt ?_
    have := (mx j y).1
    simpa only [sqNorm, dotProduct, ← sq] using this
  have := congrFun hn.normal i
  rw [Matrix.mulVec_sub, Matrix.mulVec_mulVec, h.gram] at this
  simp only [Pi.sub_apply, Matrix.mulVec_diagonal, Pi.zero_apply] at this
  rw [eq_div_iff (pow_pos (hd i) 2).ne', mul_comm]
  exact (sub_eq_zero.1 this).symm

/-- **C142, inverse**: the inverse of an orthogonal matrix is its transpose. -/
theorem C142_inverse {n : Nat} (a : Arr2 ℝ) (ha : HasShape a n n) (h : OrthCols (toMat n n a) fun _ => 1) :
    ∃ q x, qrInto a = .ok q ∧ q.inverse = .ok x ∧ HasShape x n n ∧ ∀ i j, i < n → j < n → x.get i j = a.get j i := by
  have hg : (toMat n n a)ᵀ * toMat n n a = 1 := by rw [h.gram]; simp
  have hu : IsUnit (toMat n n a) := IsUnit.of_mul_eq_one _ (mul_eq_one_comm.1 hg)
  obtain ⟨q, -, hq, -⟩ := C19_square (k := n) a a ha ha hu
  obtain ⟨x, hx, sx, h1, -⟩ := (C21_inverse a ha le_rfl q hq).2.2 rfl hu
  refine ⟨q, x, hq, hx, sx, fun i j hi hj => ?_⟩
  have : toMat n n x = (toMat n n a)ᵀ := by
    calc toMat n n x = (toMat n n a)ᵀ * toMat n n a * toMat n n x := by rw [hg, Matrix.one_mul]
      _ = _ := by rw [Matrix.mul_assoc, h1, Matrix.mul_one]
  exact congrFun (congrFun this ⟨i, hi⟩) ⟨j, hj⟩

/-- The exact singular values of a matrix with orthogonal columns. -/
theorem OrthCols.singularValue {m n : Nat} {A : Matrix (Fin m) (Fin n) ℝ} {d : Fin n → ℝ} (h : OrthCols A d)
    (hd : ∀ j, 0 ≤ d j) (π : Equiv.Perm (Fin n)) (hπ : Antitone fun i => d (π i)) (j : Fin n) :
    singularValue A j = d (π j) := by
  refine singularValue_unique (Q := (1 : Matrix (Fin n) (Fin n) ℝ).submatrix id π) (s := fun i => d (π i)) ?_ hπ
    (fun i => hd _) ?_ j
  · rw [Matrix.transpose_submatrix, Matrix.transpose_one, show (1 : Matrix (Fin n) (Fin n) ℝ).submatrix π id * (1 : Matrix (Fin n) (Fin n) ℝ).submatrix id π =
        ((1 : Matrix (Fin n) (Fin n) ℝ) * 1).submatrix π π from (Matrix.submatrix_mul_equiv 1 1 π (Equiv.refl (Fin n)) π),
      Matrix.mul_one, Matrix.submatrix_one_equiv]
  · rw [Matrix.transpose_submatrix, Matrix.transpose_one, conj_perm 1 (fun i => d i ^ 2) 1 π, h.gram, Matrix.one_mul,
      Matrix.mul_one]

/-- **C142, svd**: if the columns are orthogonal, `svd` returns and its sorted values are the sorted lengths of the columns
up to the error of `svd` in exact arithmetic (C76). -/
theorem C142_svd {m n : Nat} (a : Arr2 ℝ) (ha : HasShape a m n) (hn : n ≠ 0) (hnm : n ≤ m) (d : Fin n → ℝ)
    (hd : ∀ j, 0 ≤ d j) (h : OrthCols (toMat m n a) d) (cu cv : Bool) (order : Order) (π : Equiv.Perm (Fin n))
    (hπ : Ordered order fun i => d (π i)) :
    ∃ u s vt u' s' vt', svd (svdFuel m n) a cu cv = .ok (u, s, vt) ∧ sortSvd u s vt order = .ok (u', s', vt') ∧
      s'.len = n ∧ ∀ j : Fin n, |s'.get j - d (π j)| ≤ svdTol (toMat m n a) := by
  obtain ⟨u, s, vt, u', s', vt', h1, h2, h3, h4⟩ := C76_svd_accuracy a ha (by omega) hn cu cv order
  have hmin : min m n = n := by omega
  refine ⟨u, s, vt, u', s', vt', h1, h2, h3.trans hmin, fun j => ?_⟩
  have h5 := h4 j (by omega)
  cases order
  · rwa [nthSingularValue, h.singularValue hd π (fun i j hij => hπ i j hij)] at h5
  · have e : (min m n - 1 - (j : Nat)) = (Fin.rev j : Fin n) := by rw [Fin.val_rev]; omega
    simp only [nthSingularValue] at h5
    rw [e, h.singularValue hd (Fin.revPerm.trans π) (fun i j hij => hπ _ _ (Fin.rev_le_rev.2 hij))] at h5
    simpa only [svdTol, Equiv.trans_apply, Fin.revPerm_apply, Fin.rev_rev] using h5

/-- **C142, svd of an isometry**: all values are `1` up to the error of `svd`. -/
theorem C142_svd_isometry {m n : Nat} (a : Arr2 ℝ) (ha : HasShape a m n) (hn : n ≠ 0) (hnm : n ≤ m)
    (h : OrthCols (toMat m n a) fun _ => 1) (cu cv : Bool) (order : Order) :
    ∃ u s vt u' s' vt', svd (svdFuel m n) a cu cv = .ok (u, s, vt) ∧ sortSvd u s vt order = .ok (u', s', vt') ∧
      s'.len = n ∧ ∀ j < n, |s'.get j - 1| ≤ 10 * (n - 1 : Nat) * (2 : ℝ)⁻¹ ^ 52 * √n := by
  obtain ⟨u, s, vt, u', s', vt', h1, h2, h3, h4⟩ := C142_svd a ha hn hnm (fun _ => 1) (fun _ => zero_le_one) h cu cv order 1
    (by cases order <;> exact fun _ _ _ => le_rfl)
  refine ⟨u, s, vt, u', s', vt', h1, h2, h3, fun j hj => (h4 ⟨j, hj⟩).trans (le_of_eq ?_)⟩
  have hf : frob (toMat m n a) = √n := by
    unfold frob
    rw [Finset.sum_comm]
    simp only [h.2]
    simp
  rw [svdTol, hf, show min m n = n by omega]
  ring

theorem aeval_mulVec {n : Nat} {A : Matrix (Fin n) (Fin n) ℝ} {v : Fin n → ℝ} {r : ℝ} (h : A *ᵥ v = r • v)
    (p : Polynomial ℝ) : (Polynomial.aeval A p) *ᵥ v = p.eval r • v := by
  have hk : ∀ k : Nat, A ^ k *ᵥ v = r ^ k • v := by
    intro k
    induction k with
    | zero => simp
    | succ k ih => rw [pow_succ, ← Matrix.mulVec_mulVec, h, Matrix.mulVec_smul, ih, smul_smul, pow_succ, mul_comm]
  induction p using Polynomial.induction_on' with
  | add p q hp hq => rw [map_add, Matrix.add_mulVec, hp, hq, Polynomial.eval_add, add_smul]
  | monomial k c =>
    rw [Polynomial.aeval_monomial, Polynomial.eval_monomial, ← Matrix.mulVec_mulVec, hk, Matrix.mulVec_smul,
      Matrix.algebraMap_eq_diagonal]
    ext i
    simp [Matrix.mulVec_diagonal]
    ring

/-- The eigenvalues of a symmetric matrix that solves a polynomial equation are roots. -/
theorem eigenvalueDesc_root {n : Nat} {A : Matrix (Fin n) (Fin n) ℝ} (hs : A.IsSymm) {p : Polynomial ℝ}
    (hp : Polynomial.aeval A p = 0) (j : Fin n) : p.eval (eigenvalueDesc hs j) = 0 := by
  obtain ⟨-, Q, hQ, hA⟩ := eigenvalueDesc_spec hs
  have h1 : A *ᵥ Q.col j = eigenvalueDesc hs j • Q.col j := by
    have h2 : A * Q = Q * diagonal (eigenvalueDesc hs) := by
      conv_lhs => rw [hA]
      rw [Matrix.mul_assoc, hQ, Matrix.mul_one]
    funext i
    have := congrFun (congrFun h2 i) j
    rw [Matrix.mul_diagonal] at this
    rw [Pi.smul_apply, smul_eq_mul, mul_comm]
    exact this
  have h3 := aeval_mulVec h1 p
  rw [hp, Matrix.zero_mulVec] at h3
  rcases smul_eq_zero.1 h3.symm with h4 | h4
  · exact h4
  · exfalso
    have := congrFun (congrFun hQ j) j
    rw [Matrix.mul_apply, Matrix.one_apply_eq] at this
    have h5 : ∀ k, Q k j = 0 := fun k => congrFun h4 k
    simp [h5] at this

/-- **C142, eigenvalues**: if a symmetric matrix solves the equation `p(A) = 0`, every value that `eigvalsh` returns is near
a root of `p`. -/
theorem C142_polynomial {n : Nat} (fuel : Nat) (a : Arr2 ℝ) (ha : HasShape a n n) (hs : (toMat n n a).IsSymm)
    (p : Polynomial ℝ) (hp : Polynomial.aeval (toMat n n a) p = 0) (vals : Arr1 ℝ) (h : eigvalsh fuel a = .ok vals) :
    vals.len = n ∧ ∀ i < n, ∃ r, p.eval r = 0 ∧ |vals.get i - r| ≤ eigTol (toMat n n a) := by
  obtain ⟨out, h1, h2, h3⟩ := C75_eigvalsh_accuracy fuel a ha hs vals h .largest
  obtain ⟨out', τ, ho, -, hl, hg⟩ := C33_sort_eig_values vals (NaNFree.real vals) .largest
  rw [h1] at ho
  cases ho
  have hv : vals.len = n := hl.symm.trans h2
  refine ⟨hv, fun i hi => ?_⟩
  have hi' : i < vals.len := hv ▸ hi
  have hj := (τ.symm ⟨i, hi'⟩).2
  have h4 := h3 ⟨τ.symm ⟨i, hi'⟩, hv ▸ hj⟩
  refine ⟨_, eigenvalueDesc_root hs hp ⟨τ.symm ⟨i, hi'⟩, hv ▸ hj⟩, ?_⟩
  have h5 := hg (τ.symm ⟨i, hi'⟩)
  rw [Equiv.apply_symm_apply] at h5
  rw [← h5]
  exact h4

/-- **C142, projections**: `eigvalsh` returns on every orthogonal projection, and all values are near `0` or `1`. -/
theorem C142_projection {n : Nat} (a : Arr2 ℝ) (ha : HasShape a n n) (hs : (toMat n n a).IsSymm)
    (hp : toMat n n a * toMat n n a = toMat n n a) :
    ∃ N vals, (∀ fuel, N ≤ fuel → eigvalsh fuel a = .ok vals) ∧ vals.len = n ∧
      ∀ i < n, |vals.get i| ≤ eigTol (toMat n n a) ∨ |vals.get i - 1| ≤ eigTol (toMat n n a) := by
  obtain ⟨N, vals, -, h1, -⟩ := C75_semidefinite_total a ha hs (Or.inl fun x => by
    rw [← hp, ← Matrix.mulVec_mulVec, Matrix.dotProduct_mulVec, ← Matrix.mulVec_transpose, hs.eq]
    exact Finset.sum_nonneg fun i _ => mul_self_nonneg _) .largest
  obtain ⟨h2, h3⟩ := C142_polynomial N a ha hs (Polynomial.X ^ 2 - Polynomial.X) (by
    rw [map_sub, map_pow, Polynomial.aeval_X, sq, hp, sub_self]) vals (h1 N le_rfl)
  refine ⟨N, vals, h1, h2, fun i hi => ?_⟩
  obtain ⟨r, hr, hb⟩ := h3 i hi
  rw [Polynomial.eval_sub, Polynomial.eval_pow, Polynomial.eval_X] at hr
  have : r * (r - 1) = 0 := by linarith
  rcases mul_eq_zero.1 this with e | e
  · left; rwa [e, sub_zero] at hb
  · right; rwa [sub_eq_zero.1 e] at hb

/-- **C142, involutions**: on a matrix that is its own inverse, such as a reflection, all values that `eigvalsh` returns are
near `1` or `-1`. -/
theorem C142_involution {n : Nat} (fuel : Nat) (a : Arr2 ℝ) (ha : HasShape a n n) (hs : (toMat n n a).IsSymm)
    (hp : toMat n n a * toMat n n a = 1) (vals : Arr1 ℝ) (h : eigvalsh fuel a = .ok vals) :
    vals.len = n ∧ ∀ i < n, |vals.get i - 1| ≤ eigTol (toMat n n a) ∨ |vals.get i + 1| ≤ eigTol (toMat n n a) := by
  obtain ⟨h2, h3⟩ := C142_polynomial fuel a ha hs (Polynomial.X ^ 2 - 1) (by
    rw [map_sub, map_pow, Polynomial.aeval_X, sq, hp, map_one, sub_self]) vals h
  refine ⟨h2, fun i hi => ?_⟩
  obtain ⟨r, hr, hb⟩ := h3 i hi
  rw [Polynomial.eval_sub, Polynomial.eval_pow, Polynomial.eval_X, Polynomial.eval_one] at hr
  have : (r - 1) * (r + 1) = 0 := by linarith
  rcases mul_eq_zero.1 this with e | e
  · left; rwa [sub_eq_zero.1 e] at hb
  · right; rwa [eq_neg_of_add_eq_zero_left e, sub_neg_eq_add] at hb

/-- A matrix with orthogonal columns of lengths `5` and `10` in the wrong order for `sort_svd`. -/
def exOrth : Arr2 ℝ := ofRows 3 2 [[3, 8], [4, -6], [0, 0]]

example : HasShape exOrth 3 2 ∧ OrthCols (toMat 3 2 exOrth) ![5, 10] ∧ (∀ j, 0 < (![5, 10] : Fin 2 → ℝ) j) ∧
    Ordered .largest fun i => (![5, 10] : Fin 2 → ℝ) (Equiv.swap 0 1 i) := by
  refine ⟨⟨rfl, rfl⟩, ⟨fun i j hij => ?_, fun j => ?_⟩, fun j => ?_, fun i j hij => ?_⟩
  · fin_cases i <;> fin_cases j <;> simp_all [exOrth, ofRows, Fin.sum_univ_three] <;> norm_num
  · fin_cases j <;> simp [exOrth, ofRows, Fin.sum_univ_three] <;> norm_num
  · fin_cases j <;> simp
  · fin_cases i <;> fin_cases j <;> simp_all; norm_num

/-- A projection onto a line that is not an axis. -/
noncomputable def exProj : Arr2 ℝ := ofRows 2 2 [[9 / 25, 12 / 25], [12 / 25, 16 / 25]]

example : HasShape exProj 2 2 ∧ (toMat 2 2 exProj).IsSymm ∧ toMat 2 2 exProj * toMat 2 2 exProj = toMat 2 2 exProj := by
  refine ⟨⟨rfl, rfl⟩, ?_, ?_⟩
  · ext i j; fin_cases i <;> fin_cases j <;> simp [exProj, ofRows]
  · ext i j; fin_cases i <;> fin_cases j <;> simp [exProj, ofRows, Matrix.mul_apply, Fin.sum_univ_two] <;> norm_num

end LinfaLinalg
