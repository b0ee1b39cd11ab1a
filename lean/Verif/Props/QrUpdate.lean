import Verif.Props.Bases
import Verif.Props.LobpcgScale
import Mathlib.Data.Matrix.ColumnRowPartitioned

/-! # C139: factors of a product and of a stacked matrix

There is one factorisation `A = Q R` with orthonormal columns in `Q` and a positive diagonal in the upper triangular `R`, and one
Cholesky factor. So the factors of a matrix that was changed on the triangular side, or that is cut into two groups of rows, follow
from factors computed before, in exact real arithmetic. -/

namespace LinfaLinalg

open Matrix

variable {m n p k : Nat}

/-- **C139, uniqueness**: whatever factors `A = P T` are known, with orthonormal columns in `P` and `T` upper triangular with a
positive diagonal, these are the factors which `qr` returns. -/
theorem C139_qr_unique (a : Arr2 ℝ) (ha : HasShape a m n) {P : Matrix (Fin m) (Fin n) ℝ} {T : Matrix (Fin n) (Fin n) ℝ}
    (hP : Pᵀ * P = 1) (hT : LowerPos Tᵀ) (h : toMat m n a = P * T) :
    ∃ q Q R, qrInto a = .ok q ∧ q.intoDecomp = .ok (Q, R) ∧ HasShape Q m n ∧ HasShape R n n ∧
      toMat m n Q = P ∧ toMat n n R = T := by
  have hnm := rows_of_orth hP
  obtain ⟨q, Q, R, hq, hd, -, -, sQ, sR, oQ, up, dg, eA⟩ := C16_qr a ha hnm
  have gram : (toMat n n R)ᵀ * toMat n n R = Tᵀ * T := by
    have h1 : (toMat m n a)ᵀ * toMat m n a = Tᵀ * T := by
      rw [h, transpose_mul, Matrix.mul_assoc, ← Matrix.mul_assoc Pᵀ, hP, Matrix.one_mul]
    rw [← h1, ← eA, transpose_mul, Matrix.mul_assoc, ← Matrix.mul_assoc (toMat m n Q)ᵀ, oQ, Matrix.one_mul]
  have uT : IsUnit T := by simpa using (Matrix.isUnit_transpose _).2 hT.isUnit
  have dT := (isUnit_iff_isUnit_det _).1 uT
  have dR : (toMat n n R).det ≠ 0 := by
    intro h0
    have := congrArg det gram
    rw [det_mul, det_mul, det_transpose, det_transpose, h0] at this
    have h1 : T.det ≠ 0 := dT.ne_zero
    exact (mul_ne_zero h1 h1) (by rw [← this]; ring)
  have pR : LowerPos (toMat n n R)ᵀ := by
    refine ⟨fun i j hij => up j i hij, fun i => lt_of_le_of_ne (dg i) fun h0 => dR ?_⟩
    rw [det_of_isUpperTriangular (fun i j hij => up i j hij)]
    exact Finset.prod_eq_zero (Finset.mem_univ i) h0.symm
  have hRT : toMat n n R = T := by
    have := LowerPos.unique pR hT (by simpa using gram)
    simpa using congrArg transpose this
  refine ⟨q, Q, R, hq, hd, sQ, sR, ?_, hRT⟩
  have h2 : toMat m n Q * T = P * T := by rw [← h, ← hRT, eA]
  have h3 := congrArg (fun M => M * T⁻¹) h2
  simpa only [mul_nonsing_inv_cancel_right _ _ dT] using h3

/-- The upper factor of independent columns has a positive diagonal. -/
theorem qr_upper_pos {a : Arr2 ℝ} (hr : LinearIndependent ℝ (toMat m n a).col) {Q : Matrix (Fin m) (Fin n) ℝ}
    {R : Matrix (Fin n) (Fin n) ℝ} (up : ∀ i j, j < i → R i j = 0) (dg : ∀ i, 0 ≤ R i i) (h : Q * R = toMat m n a) :
    LowerPos Rᵀ := by
  refine ⟨fun i j hij => up j i hij, fun i => lt_of_le_of_ne (dg i) fun h0 => ?_⟩
  have hu : IsUnit R := by
    rw [← mulVec_injective_iff_isUnit]
    intro x y hxy
    apply mulVec_injective_iff.2 hr
    rw [← h, ← mulVec_mulVec, ← mulVec_mulVec, hxy]
  have h1 := ((isUnit_iff_isUnit_det _).1 hu).ne_zero
  apply h1
  rw [det_of_isUpperTriangular (fun i j hij => up i j hij)]
  exact Finset.prod_eq_zero (Finset.mem_univ i) h0.symm

/-- **C139, columns combined triangularly**: `A T` with `T` upper triangular and a positive diagonal has the same `Q` as `A`, and
`R T` for its upper factor. -/
theorem C139_qr_mul {a a' : Arr2 ℝ} (ha : HasShape a m n) (ha' : HasShape a' m n) (hnm : n ≤ m)
    (hr : LinearIndependent ℝ (toMat m n a).col) {T : Matrix (Fin n) (Fin n) ℝ} (hT : LowerPos Tᵀ)
    (h : toMat m n a' = toMat m n a * T) :
    ∃ q q' Q Q' R R', qrInto a = .ok q ∧ q.intoDecomp = .ok (Q, R) ∧ qrInto a' = .ok q' ∧ q'.intoDecomp = .ok (Q', R') ∧
      SameArr Q' Q ∧ toMat n n R' = toMat n n R * T := by
  obtain ⟨q, Q, R, hq, hd, -, -, sQ, sR, oQ, up, dg, eA⟩ := C16_qr a ha hnm
  have pR := qr_upper_pos hr up dg eA
  obtain ⟨q', Q', R', hq', hd', sQ', sR', eQ, eR⟩ := C139_qr_unique a' ha' oQ (T := toMat n n R * T)
    (by rw [transpose_mul]; exact lowerPos_mul hT pR) (by rw [h, ← eA, Matrix.mul_assoc])
  exact ⟨q, q', Q, Q', R, R', hq, hd, hq', hd', sameArr_of_toMat sQ' sQ eQ, eR⟩

/-- **C139, factoring the factors**: `qr` of the `Q` it returned gives that `Q` and the unit matrix; `qr` of the `R` it returned
for independent columns gives the unit matrix and that `R`. -/
theorem C139_qr_again {a : Arr2 ℝ} (ha : HasShape a m n) (hnm : n ≤ m) :
    ∃ q Q R, qrInto a = .ok q ∧ q.intoDecomp = .ok (Q, R) ∧
      (∃ q₁ Q₁ R₁, qrInto Q = .ok q₁ ∧ q₁.intoDecomp = .ok (Q₁, R₁) ∧ SameArr Q₁ Q ∧ toMat n n R₁ = 1) ∧
      (LinearIndependent ℝ (toMat m n a).col →
        ∃ q₂ Q₂ R₂, qrInto R = .ok q₂ ∧ q₂.intoDecomp = .ok (Q₂, R₂) ∧ toMat n n Q₂ = 1 ∧ SameArr R₂ R) := by
  obtain ⟨q, Q, R, hq, hd, -, -, sQ, sR, oQ, up, dg, eA⟩ := C16_qr a ha hnm
  refine ⟨q, Q, R, hq, hd, ?_, fun hr => ?_⟩
  · obtain ⟨q₁, Q₁, R₁, h1, h2, s1, -, e1, e2⟩ := C139_qr_unique Q sQ oQ (T := 1)
      (by rw [transpose_one]; exact ⟨fun i j hij => one_apply_ne hij.ne, fun i => by simp⟩) (by rw [Matrix.mul_one])
    exact ⟨q₁, Q₁, R₁, h1, h2, sameArr_of_toMat s1 sQ e1, e2⟩
  · obtain ⟨q₂, Q₂, R₂, h1, h2, -, s2, e1, e2⟩ := C139_qr_unique R sR (P := 1) (by simp) (qr_upper_pos hr up dg eA)
      (by rw [Matrix.one_mul])
    exact ⟨q₂, Q₂, R₂, h1, h2, e1, sameArr_of_toMat s2 sR e2⟩

/-- **C139, Cholesky**: the factor of `K A Kᵀ`, where `K` is lower triangular with a positive diagonal, is `K` times the factor
of `A`; and one exists exactly if the other does. -/
theorem C139_cholesky_mul {a a' : Arr2 ℝ} (ha : HasShape a n n) (ha' : HasShape a' n n) (hs : (toMat n n a).IsSymm)
    {K : Matrix (Fin n) (Fin n) ℝ} (hK : LowerPos K) (h : toMat n n a' = K * toMat n n a * Kᵀ) :
    (∃ l l', cholesky a = .ok l ∧ cholesky a' = .ok l' ∧ toMat n n l' = K * toMat n n l) ∨
    (cholesky a = .error (.err .notPositiveDefinite) ∧ cholesky a' = .error (.err .notPositiveDefinite)) := by
  have hs' : (toMat n n a').IsSymm := by
    rw [h]; unfold Matrix.IsSymm; simp only [transpose_mul, transpose_transpose, hs.eq, Matrix.mul_assoc]
  by_cases hpd : SymPosDef (toMat n n a)
  · obtain ⟨l, hl⟩ := (C09_cholesky_iff_posDef a ha hs).1.2 hpd
    obtain ⟨-, pl, el⟩ := C08_cholesky_factor a l ha hs hl
    obtain ⟨l', hl', e'⟩ := C12_cholesky_unique a' ha' (K * toMat n n l) (lowerPos_mul hK pl)
      (by rw [h, ← el, transpose_mul]; simp only [Matrix.mul_assoc])
    exact .inl ⟨l, l', hl, hl', e'⟩
  · refine .inr ⟨(C09_cholesky_iff_posDef a ha hs).2 hpd, (C09_cholesky_iff_posDef a' ha' hs').2 fun hpd' => hpd ⟨hs, fun x hx => ?_⟩⟩
    have dK : IsUnit Kᵀ.det := by rw [det_transpose]; exact (isUnit_iff_isUnit_det _).1 hK.isUnit
    have e : Kᵀ *ᵥ (Kᵀ⁻¹ *ᵥ x) = x := by rw [mulVec_mulVec, mul_nonsing_inv _ dK, one_mulVec]
    have h3 := hpd'.2 (Kᵀ⁻¹ *ᵥ x) fun h0 => hx (by rw [← e, h0, mulVec_zero])
    rw [h, ← mulVec_mulVec, ← mulVec_mulVec, e, dotProduct_mulVec _ K, ← mulVec_transpose, e] at h3
    exact h3

/-- **C139, other unknowns**: `least_squares` for `A T` with an invertible `T`, in unknowns `y` with `x = T y`, has the solution for `A`
in these unknowns. -/
theorem C139_least_squares_mul {a a' b : Arr2 ℝ} (ha : HasShape a m n) (ha' : HasShape a' m n) (hb : HasShape b m k) (hnm : n ≤ m)
    {T : Matrix (Fin n) (Fin n) ℝ} (hT : IsUnit T) (h : toMat m n a' = toMat m n a * T) :
    (∃ x y, leastSquares a b = .ok x ∧ leastSquares a' b = .ok y ∧ toMat n k x = T * toMat n k y) ∨
    (leastSquares a b = .error (.err .nonInvertible) ∧ leastSquares a' b = .error (.err .nonInvertible)) := by
  have hiff : LinearIndependent ℝ (toMat m n a').col ↔ LinearIndependent ℝ (toMat m n a).col := by
    have dT := (isUnit_iff_isUnit_det _).1 hT
    have inj := mulVec_injective_iff_isUnit.2 hT
    rw [← mulVec_injective_iff, ← mulVec_injective_iff, h]
    constructor
    · intro h1 x y hxy
      have e : ∀ z, T *ᵥ (T⁻¹ *ᵥ z) = z := fun z => by rw [mulVec_mulVec, mul_nonsing_inv _ dT, one_mulVec]
      have h2 := @h1 (T⁻¹ *ᵥ x) (T⁻¹ *ᵥ y) (by rw [← mulVec_mulVec, ← mulVec_mulVec, e, e, hxy])
      rw [← e x, h2, e]
    · intro h1 x y hxy
      simp only [← mulVec_mulVec] at hxy
      exact inj (h1 hxy)
  by_cases hr : LinearIndependent ℝ (toMat m n a).col
  · obtain ⟨x, hx, -, ux⟩ := leastSquares_normal ha hb hnm hr
    obtain ⟨y, hy, -, uy⟩ := leastSquares_normal ha' hb hnm (hiff.2 hr)
    refine .inl ⟨x, y, hx, hy, ((ux _).1 ?_).symm⟩
    have e := (uy _).2 rfl
    rw [h, transpose_mul] at e
    simp only [Matrix.mul_assoc] at e ⊢
    have dT : IsUnit Tᵀ.det := by rw [det_transpose]; exact (isUnit_iff_isUnit_det _).1 hT
    have e2 := congrArg (fun M => Tᵀ⁻¹ * M) e
    simpa only [nonsing_inv_mul_cancel_left _ _ dT] using e2
  · obtain ⟨q, -, -, hq, -⟩ := C16_qr a ha hnm
    obtain ⟨q', -, -, hq', -⟩ := C16_qr a' ha' hnm
    exact .inr ⟨((C19_errors a b ha hnm q hq).2 hb.1 hr).2, ((C19_errors a' b ha' hnm q' hq').2 hb.1 (mt hiff.1 hr)).2⟩

/-! ## Two groups of rows -/

/-- The rows of `a` followed by the rows of `b`. -/
def stackRows (a b : Arr2 ℝ) : Arr2 ℝ := ⟨a.nr + b.nr, a.nc, fun i j => if i < a.nr then a.get i j else b.get (i - a.nr) j⟩

theorem stackRows_shape {a b : Arr2 ℝ} (ha : HasShape a m n) (hb : HasShape b p n) : HasShape (stackRows a b) (m + p) n := by
  obtain ⟨rfl, rfl⟩ := ha; obtain ⟨rfl, -⟩ := hb; exact ⟨rfl, rfl⟩

theorem toMat_stackRows {a b : Arr2 ℝ} (ha : HasShape a m n) (hb : HasShape b p n) :
    toMat (m + p) n (stackRows a b) = (fromRows (toMat m n a) (toMat p n b)).submatrix finSumFinEquiv.symm id := by
  obtain ⟨rfl, rfl⟩ := ha
  ext i j
  refine Fin.addCases (fun i => ?_) (fun i => ?_) i
  · simp [toMat, stackRows]
  · simp [toMat, stackRows]

/-- `Q` in one corner and the unit matrix in the other. -/
def cornerQ (p : Nat) (Q : Matrix (Fin m) (Fin n) ℝ) : Matrix (Fin (m + p)) (Fin (n + p)) ℝ :=
  (fromBlocks Q 0 0 1).submatrix finSumFinEquiv.symm finSumFinEquiv.symm

theorem cornerQ_orth {Q : Matrix (Fin m) (Fin n) ℝ} (h : Qᵀ * Q = 1) : (cornerQ p Q)ᵀ * cornerQ p Q = 1 := by
  unfold cornerQ
  rw [transpose_submatrix, submatrix_mul_equiv, fromBlocks_transpose, fromBlocks_multiply]
  simp [h]

theorem cornerQ_mul (Q : Matrix (Fin m) (Fin n) ℝ) (R : Matrix (Fin n) (Fin k) ℝ) (B : Matrix (Fin p) (Fin k) ℝ) :
    cornerQ p Q * (fromRows R B).submatrix finSumFinEquiv.symm id = (fromRows (Q * R) B).submatrix finSumFinEquiv.symm id := by
  unfold cornerQ
  rw [submatrix_mul_equiv, fromBlocks_mul_fromRows]
  simp

theorem cornerQ_transpose (Q : Matrix (Fin m) (Fin n) ℝ) : (cornerQ p Q)ᵀ = cornerQ p Qᵀ := by
  unfold cornerQ
  rw [transpose_submatrix, fromBlocks_transpose]
  simp

/-- **C139, `R` in two steps**: `R` of all rows is `R` of the rows that are left if the first group is replaced by its own `R`. -/
theorem C139_qr_stack {a b : Arr2 ℝ} (ha : HasShape a m n) (hb : HasShape b p n) (hnm : n ≤ m)
    (hr : LinearIndependent ℝ (toMat (m + p) n (stackRows a b)).col) :
    ∃ q Q R q₁ Q₁ R₁ q₂ Q₂ R₂, qrInto a = .ok q ∧ q.intoDecomp = .ok (Q, R) ∧
      qrInto (stackRows R b) = .ok q₁ ∧ q₁.intoDecomp = .ok (Q₁, R₁) ∧
      qrInto (stackRows a b) = .ok q₂ ∧ q₂.intoDecomp = .ok (Q₂, R₂) ∧ SameArr R₁ R₂ := by
  obtain ⟨q, Q, R, hq, hd, -, -, sQ, sR, oQ, -, -, eA⟩ := C16_qr a ha hnm
  have hW := cornerQ_orth (p := p) oQ
  have e : toMat (m + p) n (stackRows a b) = cornerQ p (toMat m n Q) * toMat (n + p) n (stackRows R b) := by
    rw [toMat_stackRows ha hb, toMat_stackRows sR hb, cornerQ_mul, eA]
  have hr' : LinearIndependent ℝ (toMat (n + p) n (stackRows R b)).col := by
    have := (independent_turn (V := 1) hW (by simp) (toMat (n + p) n (stackRows R b))).1
    rw [transpose_one, Matrix.mul_one, ← e] at this
    exact this hr
  obtain ⟨q₁, q₂, Q₁, Q₂, R₁, R₂, h1, h2, h3, h4, h5, -⟩ :=
    C132_qr hW (stackRows_shape sR hb) (stackRows_shape ha hb) (by omega) e hr'
  exact ⟨q, Q, R, q₁, Q₁, R₁, q₂, Q₂, R₂, hq, hd, h1, h2, h3, h4, h5⟩

/-- **C139, least squares in two steps**: the first group of equations may be replaced by `R` and `Qᵀ` times its right-hand side. -/
theorem C139_least_squares_stack {a b c d : Arr2 ℝ} (ha : HasShape a m n) (hb : HasShape b p n) (hc : HasShape c m k)
    (hd : HasShape d p k) (hnm : n ≤ m) :
    ∃ q Q R, qrInto a = .ok q ∧ q.intoDecomp = .ok (Q, R) ∧
      ∀ c', HasShape c' n k → toMat n k c' = (toMat m n Q)ᵀ * toMat m k c →
        (∃ x x', leastSquares (stackRows R b) (stackRows c' d) = .ok x ∧
          leastSquares (stackRows a b) (stackRows c d) = .ok x' ∧ SameArr x x') ∨
        (leastSquares (stackRows R b) (stackRows c' d) = .error (.err .nonInvertible) ∧
          leastSquares (stackRows a b) (stackRows c d) = .error (.err .nonInvertible)) := by
  obtain ⟨q, Q, R, hq, hqr, -, -, sQ, sR, oQ, -, -, eA⟩ := C16_qr a ha hnm
  refine ⟨q, Q, R, hq, hqr, fun c' hc' ec => ?_⟩
  have hW := cornerQ_orth (p := p) oQ
  have e : toMat (m + p) n (stackRows a b) = cornerQ p (toMat m n Q) * toMat (n + p) n (stackRows R b) := by
    rw [toMat_stackRows ha hb, toMat_stackRows sR hb, cornerQ_mul, eA]
  have e' : (cornerQ p (toMat m n Q))ᵀ * toMat (m + p) k (stackRows c d) = toMat (n + p) k (stackRows c' d) := by
    rw [toMat_stackRows hc hd, toMat_stackRows hc' hd, cornerQ_transpose, cornerQ_mul, ec]
  have hiff := independent_turn (V := 1) hW (by simp) (toMat (n + p) n (stackRows R b))
  rw [transpose_one, Matrix.mul_one, ← e] at hiff
  have s1 := stackRows_shape sR hb
  have s2 := stackRows_shape ha hb
  have s3 := stackRows_shape hc' hd
  have s4 := stackRows_shape hc hd
  by_cases hr : LinearIndependent ℝ (toMat (n + p) n (stackRows R b)).col
  · obtain ⟨x, hx, sx, ux⟩ := leastSquares_normal s1 s3 (by omega) hr
    obtain ⟨x', hx', sx', ux'⟩ := leastSquares_normal s2 s4 (by omega) (hiff.2 hr)
    refine .inl ⟨x, x', hx, hx', sameArr_of_toMat sx sx' ((ux' _).1 ?_)⟩
    have h1 := (ux _).2 rfl
    rw [e, transpose_mul, Matrix.mul_assoc (toMat (n + p) n (stackRows R b))ᵀ, ← Matrix.mul_assoc (cornerQ p (toMat m n Q))ᵀ, hW,
      Matrix.one_mul, Matrix.mul_assoc _ _ (toMat (m + p) k (stackRows c d)), e']
    exact h1
  · obtain ⟨q, -, -, hq, -⟩ := C16_qr (stackRows R b) s1 (by omega)
    obtain ⟨q', -, -, hq', -⟩ := C16_qr (stackRows a b) s2 (by omega)
    exact .inr ⟨((C19_errors _ _ s1 (by omega) q hq).2 s3.1 hr).2, ((C19_errors _ _ s2 (by omega) q' hq').2 s4.1 (mt hiff.1 hr)).2⟩

/-- Nonvacuous: the columns `(3, 4, 0)`, `(0, 0, 2)`, combined by `[[2, 1], [0, 3]]`; and `[[4, 2], [2, 5]]` turned by
`[[1, 0], [3, 2]]` into `[[4, 16], [16, 80]]`. -/
example : let P : Matrix (Fin 3) (Fin 2) ℝ := !![3/5, 0; 4/5, 0; 0, 1]
    let T : Matrix (Fin 2) (Fin 2) ℝ := !![10, 5; 0, 6]
    Pᵀ * P = 1 ∧ LowerPos Tᵀ ∧ toMat 3 2 (ofRows 3 2 [[6, 3], [8, 4], [0, 6]]) = P * T ∧
      T = !![5, 0; 0, 2] * !![2, 1; 0, 3] := by
  refine ⟨?_, ⟨?_, ?_⟩, ?_, ?_⟩
  · ext i j; fin_cases i <;> fin_cases j <;> norm_num [Matrix.mul_apply, Fin.sum_univ_succ]
  · intro i j hij; fin_cases i <;> fin_cases j <;> simp at hij ⊢
  · intro i; fin_cases i <;> norm_num
  · ext i j; fin_cases i <;> fin_cases j <;> norm_num [toMat, ofRows, Matrix.mul_apply, Fin.sum_univ_two]
  · ext i j; fin_cases i <;> fin_cases j <;> norm_num [Matrix.mul_apply, Fin.sum_univ_two]

example : let K : Matrix (Fin 2) (Fin 2) ℝ := !![1, 0; 3, 2]
    LowerPos K ∧ toMat 2 2 (ofRows 2 2 [[4, 16], [16, 80]]) = K * toMat 2 2 (ofRows 2 2 [[4, 2], [2, 5]]) * Kᵀ := by
  refine ⟨⟨?_, ?_⟩, ?_⟩
  · intro i j hij; fin_cases i <;> fin_cases j <;> simp at hij ⊢
  · intro i; fin_cases i <;> norm_num
  · ext i j; fin_cases i <;> fin_cases j <;> norm_num [toMat, ofRows, Matrix.mul_apply, Fin.sum_univ_two, vecHead, vecTail]

/-- The rows `(3)`, `(4)`, followed by the row `(12)`. -/
example : HasShape (ofRows 2 1 [[3], [4]]) 2 1 ∧ HasShape (ofRows 1 1 [[12]]) 1 1 ∧
    LinearIndependent ℝ (toMat (2 + 1) 1 (stackRows (ofRows 2 1 [[3], [4]]) (ofRows 1 1 [[12]]))).col := by
  refine ⟨⟨rfl, rfl⟩, ⟨rfl, rfl⟩, ?_⟩
  rw [← mulVec_injective_iff]
  intro x y hxy
  have h := congrFun hxy 0
  simp [mulVec, dotProduct, toMat, stackRows, ofRows] at h
  ext i; fin_cases i; exact h

end LinfaLinalg
