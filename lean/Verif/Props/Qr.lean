import Verif.Proofs.Qr
import Verif.Props.Cholesky

/-! # C15–C22: properties of `/repo/src/reflection.rs`, `householder.rs` and `qr.rs` -/

set_option linter.unusedSectionVars false

namespace LinfaLinalg

open Matrix

variable {α : Type} [Zero α] [One α] [Add α] [Sub α] [Mul α] [Div α] [Neg α] [NdFloat α]

/-- Squared Euclidean norm. -/
def sqNorm {n : Nat} (v : Fin n → ℝ) : ℝ := v ⬝ᵥ v

theorem sqNorm_nonneg {n : Nat} (v : Fin n → ℝ) : 0 ≤ sqNorm v := by
  unfold sqNorm dotProduct
  exact Finset.sum_nonneg fun _ _ => mul_self_nonneg _

theorem sqNorm_eq_zero {n : Nat} {v : Fin n → ℝ} (h : sqNorm v = 0) : v = 0 :=
  dotProduct_self_eq_zero.1 h

theorem sqNorm_add_of_orth {n : Nat} {u v : Fin n → ℝ} (h : u ⬝ᵥ v = 0) :
    sqNorm (u + v) = sqNorm u + sqNorm v := by
  unfold sqNorm
  rw [add_dotProduct, dotProduct_add, dotProduct_add, h, dotProduct_comm v u, h]
  ring

/-! ## C15 -/

/-- Mirror image of `x` in the plane `axis · x = bias`. -/
noncomputable def mirror {m : Nat} (axis : Fin m → ℝ) (bias : ℝ) (x : Fin m → ℝ) : Fin m → ℝ :=
  x - (2 * (axis ⬝ᵥ x - bias)) • axis

/-- Facts about mirror images in a plane with unit normal. -/
theorem mirror_facts {m : Nat} {axis : Fin m → ℝ} (bias : ℝ) (hu : axis ⬝ᵥ axis = 1) :
    (∀ x, axis ⬝ᵥ x = bias → mirror axis bias x = x) ∧
    (∀ x, mirror axis bias (mirror axis bias x) = x) ∧
    (∀ x y, sqNorm (mirror axis bias x - mirror axis bias y) = sqNorm (x - y)) := by
  refine ⟨?_, ?_, ?_⟩
  · intro x h
    simp [mirror, h]
  · intro x
    unfold mirror
    rw [dotProduct_sub, dotProduct_smul, hu]
    ext i
    simp only [Pi.sub_apply, Pi.smul_apply, smul_eq_mul]
    ring
  · intro x y
    have : mirror axis bias x - mirror axis bias y = (x - y) - (2 * (axis ⬝ᵥ (x - y))) • axis := by
      unfold mirror
      rw [dotProduct_sub]
      ext i
      simp only [Pi.sub_apply, Pi.smul_apply, smul_eq_mul]
      ring
    rw [this]
    unfold sqNorm
    generalize x - y = z
    rw [sub_dotProduct, dotProduct_sub, dotProduct_sub, smul_dotProduct, dotProduct_smul,
      smul_dotProduct, dotProduct_smul, hu, dotProduct_comm z axis]
    simp only [smul_eq_mul]
    ring

/-- C15: `reflect_cols` replaces every column by its mirror image. -/
theorem C15_reflect_cols {m n : Nat} (axis : Arr1 ℝ) (bias : ℝ) (rhs : Arr2 ℝ)
    (ha : axis.len = m) (hr : HasShape rhs m n) :
    ∃ r, reflectCols axis bias rhs = .ok r ∧ HasShape r m n ∧
      ∀ j, (toMat m n r).col j = mirror (toVec m axis) bias ((toMat m n rhs).col j) := by
  refine ⟨_, reflectCols_eq axis bias rhs (by rw [ha, hr.1]), hr, ?_⟩
  intro j
  ext i
  simp only [Matrix.col_apply, toMat_apply, mirror, Pi.sub_apply, Pi.smul_apply, smul_eq_mul,
    toVec_apply]
  rw [if_pos ⟨by rw [hr.1]; exact i.2, by rw [hr.2]; exact j.2⟩, reflEntry, dotTo_eq, ha,
    Finset.sum_range]
  simp only [dotProduct, Matrix.col_apply, toMat_apply, toVec_apply, real_ofRat]
  push_cast
  ring

/-- C15: `reflect_rows` replaces every row by its mirror image. -/
theorem C15_reflect_rows {m n : Nat} (axis : Arr1 ℝ) (bias : ℝ) (lhs : Arr2 ℝ)
    (ha : axis.len = n) (hr : HasShape lhs m n) :
    ∃ r, reflectRows axis bias lhs = .ok r ∧ HasShape r m n ∧
      ∀ i, (toMat m n r).row i = mirror (toVec n axis) bias ((toMat m n lhs).row i) := by
  obtain ⟨r, h1, h2, h3⟩ := C15_reflect_cols (n := m) axis bias lhs.t ha ⟨hr.2, hr.1⟩
  refine ⟨r.t, by unfold reflectRows; rw [h1]; rfl, ⟨h2.2, h2.1⟩, fun i => ?_⟩
  have := h3 i
  exact this

/-- C15: for a unit axis `reflect_cols` fixes the columns in the plane, is an involution, and keeps
the distances between columns. -/
theorem C15_reflection {m n : Nat} (axis : Arr1 ℝ) (bias : ℝ) (rhs : Arr2 ℝ)
    (ha : axis.len = m) (hr : HasShape rhs m n) (hu : sqNorm (toVec m axis) = 1) :
    ∃ r, reflectCols axis bias rhs = .ok r ∧ HasShape r m n ∧
      (∀ j, toVec m axis ⬝ᵥ (toMat m n rhs).col j = bias →
        (toMat m n r).col j = (toMat m n rhs).col j) ∧
      (∀ j k, sqNorm ((toMat m n r).col j - (toMat m n r).col k) =
        sqNorm ((toMat m n rhs).col j - (toMat m n rhs).col k)) ∧
      ∃ r', reflectCols axis bias r = .ok r' ∧ toMat m n r' = toMat m n rhs := by
  obtain ⟨r, h1, h2, h3⟩ := C15_reflect_cols axis bias rhs ha hr
  obtain ⟨r', h1', h2', h3'⟩ := C15_reflect_cols axis bias r ha h2
  obtain ⟨f1, f2, f3⟩ := mirror_facts bias hu
  refine ⟨r, h1, h2, ?_, ?_, r', h1', ?_⟩
  · intro j hj; rw [h3, f1 _ hj]
  · intro j k; rw [h3, h3, f3]
  · ext i j
    have : (toMat m n r').col j = (toMat m n rhs).col j := by rw [h3', h3, f2]
    exact congrFun this i

/-- The hypotheses of C15 are met by a concrete unit axis and matrix. -/
example : sqNorm (toVec 2 (⟨2, fun i => if i = 0 then 3 / 5 else 4 / 5⟩ : Arr1 ℝ)) = 1 ∧
    HasShape (ofRows 2 2 [[1, 2], [3, 4]]) 2 2 := by
  refine ⟨?_, rfl, rfl⟩
  simp [sqNorm, dotProduct, Fin.sum_univ_two, toVec]
  norm_num

/-! ## C16, C17 -/

/-- C16: `qr` succeeds on every matrix with rows ≥ cols and yields `Q` with orthonormal columns and
`R` upper triangular with non-negative diagonal, `Q R = A`. Exact real arithmetic. -/
theorem C16_qr {m n : Nat} (a : Arr2 ℝ) (ha : HasShape a m n) (hnm : n ≤ m) :
    ∃ q Q R, qrInto a = .ok q ∧ q.intoDecomp = .ok (Q, R) ∧
      q.generateQ = .ok Q ∧ q.intoR = .ok R ∧ HasShape Q m n ∧ HasShape R n n ∧
      (toMat m n Q)ᵀ * toMat m n Q = 1 ∧
      (∀ i j, j < i → toMat n n R i j = 0) ∧ (∀ i, 0 ≤ toMat n n R i i) ∧
      toMat m n Q * toMat n n R = toMat m n a := by
  obtain ⟨q, hq, h⟩ := qrInto_real a ha hnm
  obtain ⟨Q, hQ, sQ, oQ, -, eQ⟩ := h.generateQ hnm
  have hR := h.toQRShape.intoR_eq hnm
  refine ⟨q, Q, _, hq, ?_, hQ, hR, sQ, ⟨rfl, rfl⟩, oQ, ?_, ?_, ?_⟩
  · unfold QRDecomp.intoDecomp
    rw [hQ]
    simp only [ok_bind]
    rw [hR]
    rfl
  · intro i j hij
    have hij : (j : Nat) < i := hij
    simp only [toMat_apply]
    rw [if_neg (by omega), if_pos ⟨i.2, hij⟩]
  · intro i
    simp
  · rw [eQ]
    congr 1
    ext i j
    simp only [toMat_apply, triMat, Matrix.of_apply, inTri_upper, real_abs, i.2, and_true, true_and,
      Fin.ext_iff]
    by_cases hij : (i : Nat) = j
    · rw [if_pos hij, if_pos hij]
    · rw [if_neg hij, if_neg hij]
      by_cases h2 : (j : Nat) < i
      · rw [if_pos h2, if_neg (by omega)]
      · rw [if_neg h2, if_pos (by omega)]

/-- The hypotheses of C16 cover a rank-deficient matrix. -/
example : HasShape (ofRows 3 2 [[1, 2], [2, 4], [3, 6]]) 3 2 ∧ 2 ≤ 3 := ⟨⟨rfl, rfl⟩, by norm_num⟩

/-- C17: `qr` returns `NotThin` exactly for wide matrices and otherwise succeeds; for every scalar
type, without panic or out-of-bounds access. -/
theorem C17_qr_thin (a : Arr2 α) :
    (a.nr < a.nc → qrInto a = .error (.err (.notThin a.nr a.nc))) ∧
    (a.nc ≤ a.nr → ∃ q, qrInto a = .ok q) := by
  constructor
  · intro h
    unfold qrInto
    rw [if_pos h]; rfl
  · intro h
    obtain ⟨q, hq, -⟩ := qrInto_ok a h
    exact ⟨q, hq⟩

/-- C17: no method of the decomposition panics or accesses memory out of bounds, for every scalar
type; the shapes of the results. -/
theorem C17_qr_methods_safe (a b : Arr2 α) (q : QRDecomp α) (h : qrInto a = .ok q) :
    (∃ Q R, q.intoDecomp = .ok (Q, R) ∧ Q.nr = a.nr ∧ Q.nc = a.nc ∧ R.nr = a.nc ∧ R.nc = a.nc) ∧
    OnlyErr (q.solveInto b) ∧ OnlyErr (q.solveTrInto b) ∧ OnlyErr q.inverse ∧
    OnlyErr (leastSquares a b) := by
  have hle : a.nc ≤ a.nr := by
    by_contra hlt
    rw [(C17_qr_thin a).1 (by omega)] at h
    cases h
  obtain ⟨q', hq', hs⟩ := qrInto_ok a hle
  rw [h] at hq'
  injection hq' with hq'
  subst hq'
  have hsolve : ∀ b, OnlyErr (q.solveInto b) := by
    intro b f hf
    obtain ⟨c1, c2, c3⟩ := hs.solveInto_cases hle b
    by_cases hb : b.nr = a.nr
    · cases hi : q.isInvertible with
      | false => rw [c2 hb hi] at hf; injection hf with hf; exact ⟨_, hf.symm⟩
      | true =>
        obtain ⟨c, x, -, -, -, -, hx, -⟩ := c3 hb hi
        rw [hx] at hf; cases hf
    · rw [c1 hb] at hf; injection hf with hf; exact ⟨_, hf.symm⟩
  refine ⟨?_, hsolve b, ?_, ?_, ?_⟩
  · obtain ⟨Q, hQ, h1, h2⟩ := hs.generateQ_ok hle
    obtain ⟨R, hR, r1, r2⟩ : ∃ R, q.intoR = .ok R ∧ R.nr = a.nc ∧ R.nc = a.nc :=
      ⟨_, hs.intoR_eq hle, rfl, rfl⟩
    have hd : q.intoDecomp = .ok (Q, R) := by
      unfold QRDecomp.intoDecomp
      rw [hQ]
      simp only [ok_bind]
      rw [hR]
      rfl
    exact ⟨Q, R, hd, h1, h2, r1, r2⟩
  · intro f hf
    obtain ⟨c1, c2, c3⟩ := hs.solveTrInto_cases hle b
    by_cases hb : b.nr = a.nc
    · cases hi : q.isInvertible with
      | false => rw [c2 hb hi] at hf; injection hf with hf; exact ⟨_, hf.symm⟩
      | true =>
        obtain ⟨c, r, x, -, -, -, -, -, hx, -⟩ := c3 hb hi
        rw [hx] at hf; cases hf
    · rw [c1 hb] at hf; injection hf with hf; exact ⟨_, hf.symm⟩
  · intro f hf
    unfold QRDecomp.inverse at hf
    by_cases hsq : q.qr.nr = q.qr.nc
    · rw [checkSquare_ok hsq] at hf
      exact hsolve _ f hf
    · rw [checkSquare_err hsq] at hf
      injection hf with hf; exact ⟨_, hf.symm⟩
  · intro f hf
    unfold leastSquares at hf
    rw [if_pos hle, h] at hf
    exact hsolve b f hf

example : ∃ q : QRDecomp ℝ, qrInto (ofRows 3 2 [[1, 2], [2, 4], [3, 6]]) = .ok q :=
  (C17_qr_thin _).2 (by simp [ofRows])

/-! ## C18 -/

/-- C18: `is_invertible` is true exactly when the columns are linearly independent.
Exact real arithmetic. -/
theorem C18_is_invertible {m n : Nat} (a : Arr2 ℝ) (ha : HasShape a m n) (hnm : n ≤ m)
    (q : QRDecomp ℝ) (hq : qrInto a = .ok q) :
    q.isInvertible = true ↔ LinearIndependent ℝ (toMat m n a).col := by
  obtain ⟨q', hq', h⟩ := qrInto_real a ha hnm
  rw [hq] at hq'
  injection hq' with hq'
  subst hq'
  exact h.isInvertible_iff_rank hnm

/-- A concrete full-column-rank matrix. -/
noncomputable def exTall : Arr2 ℝ := ofRows 3 2 [[1, 2], [3, 4], [5, 6]]

theorem exTall_rank : LinearIndependent ℝ (toMat 3 2 exTall).col := by
  rw [← Matrix.mulVec_injective_iff]
  intro x y h
  have h0 := congrFun h 0
  have h1 := congrFun h 1
  simp [Matrix.mulVec, dotProduct, Fin.sum_univ_two, exTall, ofRows] at h0 h1
  ext i
  fin_cases i
  · simp; linarith
  · simp; linarith

example : ¬ LinearIndependent ℝ (toMat 3 2 (ofRows 3 2 [[1, 2], [2, 4], [3, 6]])).col := by
  rw [← Matrix.mulVec_injective_iff]
  intro h
  have : (![2, -1] : Fin 2 → ℝ) = 0 := by
    apply h
    ext i
    fin_cases i <;> simp [Matrix.mulVec, dotProduct, Fin.sum_univ_two, ofRows] <;> norm_num
  have := congrFun this 0
  simp at this

/-! ## C19 -/

/-- Normal equations characterize least squares solutions. -/
theorem least_squares_of_normal {m n : Nat} {A : Matrix (Fin m) (Fin n) ℝ} {x : Fin n → ℝ}
    {b : Fin m → ℝ} (h : Aᵀ *ᵥ (A *ᵥ x - b) = 0) (z : Fin n → ℝ) :
    sqNorm (A *ᵥ z - b) = sqNorm (A *ᵥ x - b) + sqNorm (A *ᵥ (z - x)) := by
  have : A *ᵥ z - b = (A *ᵥ x - b) + A *ᵥ (z - x) := by
    rw [Matrix.mulVec_sub]; abel
  rw [this, sqNorm_add_of_orth]
  rw [Matrix.dotProduct_mulVec, ← Matrix.mulVec_transpose, h, zero_dotProduct]

/-- C19: for a matrix with full column rank, `solve` and `least_squares` return the unique
minimizer of `‖A x - b‖` for every column `b` of `B`; in particular `A X = B` if the system is
solvable. Exact real arithmetic. -/
theorem C19_least_squares {m n k : Nat} (a b : Arr2 ℝ) (ha : HasShape a m n) (hb : HasShape b m k)
    (hnm : n ≤ m) (hr : LinearIndependent ℝ (toMat m n a).col) :
    ∃ q x, qrInto a = .ok q ∧ q.solveInto b = .ok x ∧ leastSquares a b = .ok x ∧
      HasShape x n k ∧
      (∀ (j : Fin k) (z : Fin n → ℝ),
        sqNorm (toMat m n a *ᵥ (toMat n k x).col j - (toMat m k b).col j) ≤
          sqNorm (toMat m n a *ᵥ z - (toMat m k b).col j) ∧
        (sqNorm (toMat m n a *ᵥ (toMat n k x).col j - (toMat m k b).col j) =
          sqNorm (toMat m n a *ᵥ z - (toMat m k b).col j) → z = (toMat n k x).col j)) ∧
      ((∃ Z, toMat m n a * Z = toMat m k b) → toMat m n a * toMat n k x = toMat m k b) := by
  obtain ⟨q, hq, h⟩ := qrInto_real a ha hnm
  have hi := (h.isInvertible_iff_rank hnm).2 hr
  obtain ⟨Q, x, hQ, hx, sx, ex⟩ := h.solveInto hnm b hb hi
  obtain ⟨Q', hQ', sQ, oQ, -, eA⟩ := h.generateQ hnm
  rw [hQ] at hQ'
  injection hQ' with hQ'
  subst hQ'
  have hls : leastSquares a b = .ok x := by
    unfold leastSquares
    rw [if_pos (by rw [ha.1, ha.2]; exact hnm), hq]
    exact hx
  have hnorm : (toMat m n a)ᵀ * (toMat m n a * toMat n k x - toMat m k b) = 0 := by
    rw [eA, Matrix.transpose_mul, Matrix.mul_assoc, Matrix.mul_sub, Matrix.mul_assoc,
      ← Matrix.mul_assoc (toMat m n Q)ᵀ, oQ, Matrix.one_mul, ex, sub_self, Matrix.mul_zero]
  refine ⟨q, x, hq, hx, hls, sx, ?_, ?_⟩
  · intro j z
    have hn : (toMat m n a)ᵀ *ᵥ (toMat m n a *ᵥ (toMat n k x).col j - (toMat m k b).col j) = 0 := by
      ext i
      have := congrFun (congrFun hnorm i) j
      exact this
    have e := least_squares_of_normal hn z
    rw [e]
    refine ⟨by linarith [sqNorm_nonneg (toMat m n a *ᵥ (z - (toMat n k x).col j))], ?_⟩
    intro h0
    have h0 : sqNorm (toMat m n a *ᵥ (z - (toMat n k x).col j)) = 0 := by linarith
    have h0 := sqNorm_eq_zero h0
    have hinj := Matrix.mulVec_injective_iff.2 hr
    have : z - (toMat n k x).col j = 0 := hinj (by rw [h0, Matrix.mulVec_zero])
    exact sub_eq_zero.1 this
  · rintro ⟨Z, hZ⟩
    have : q.rMat n * toMat n k x = q.rMat n * Z := by
      rw [ex, ← hZ, eA, ← Matrix.mul_assoc, ← Matrix.mul_assoc, oQ, Matrix.one_mul]
    rw [matrix_mul_left_cancel (h.rMat_isUnit hi) this, hZ]

/-- C19: a square non-singular system is solved exactly. -/
theorem C19_square {n k : Nat} (a b : Arr2 ℝ) (ha : HasShape a n n) (hb : HasShape b n k)
    (hr : IsUnit (toMat n n a)) :
    ∃ q x, qrInto a = .ok q ∧ q.solveInto b = .ok x ∧ leastSquares a b = .ok x ∧
      HasShape x n k ∧ toMat n n a * toMat n k x = toMat n k b := by
  have hr' : LinearIndependent ℝ (toMat n n a).col := by
    rw [← Matrix.mulVec_injective_iff]
    exact Matrix.mulVec_injective_of_isUnit hr
  obtain ⟨q, x, h1, h2, h3, h4, -, h5⟩ := C19_least_squares a b ha hb le_rfl hr'
  refine ⟨q, x, h1, h2, h3, h4, h5 ⟨(toMat n n a)⁻¹ * toMat n k b, ?_⟩⟩
  rw [Matrix.mul_nonsing_inv_cancel_left _ _ ((Matrix.isUnit_iff_isUnit_det _).1 hr)]

/-- C19, errors: a wrong number of rows gives `WrongRows`, rank deficiency gives `NonInvertible`.
Exact real arithmetic for the rank. -/
theorem C19_errors {m n : Nat} (a b : Arr2 ℝ) (ha : HasShape a m n) (hnm : n ≤ m)
    (q : QRDecomp ℝ) (hq : qrInto a = .ok q) :
    (b.nr ≠ m → q.solveInto b = .error (.err (.wrongRows m b.nr)) ∧
      leastSquares a b = .error (.err (.wrongRows m b.nr))) ∧
    (b.nr = m → ¬ LinearIndependent ℝ (toMat m n a).col →
      q.solveInto b = .error (.err .nonInvertible) ∧
      leastSquares a b = .error (.err .nonInvertible)) := by
  have hinv := C18_is_invertible a ha hnm q hq
  obtain ⟨q', hq', h⟩ := qrInto_real a ha hnm
  rw [hq] at hq'
  injection hq' with hq'
  subst hq'
  have hls : leastSquares a b = q.solveInto b := by
    unfold leastSquares
    rw [if_pos (by rw [ha.1, ha.2]; exact hnm), hq]
    rfl
  obtain ⟨c1, c2, -⟩ := h.toQRShape.solveInto_cases hnm b
  rw [hls]
  refine ⟨fun hb => ⟨c1 hb, c1 hb⟩, fun hb hr => ?_⟩
  have : q.isInvertible = false := by
    rw [← Bool.not_eq_true, hinv]; exact hr
  exact ⟨c2 hb this, c2 hb this⟩

/-- The hypotheses of C19 are met by a concrete overdetermined system. -/
example : HasShape exTall 3 2 ∧ HasShape (ofRows 3 1 [[1], [1], [2]]) 3 1 ∧
    LinearIndependent ℝ (toMat 3 2 exTall).col := ⟨⟨rfl, rfl⟩, ⟨rfl, rfl⟩, exTall_rank⟩

/-! ## C20 -/

/-- C20: `solve_tr` returns the solution of `Aᵀ X = B` whose columns have minimal norm (and it is
the only one with that norm). Exact real arithmetic. -/
theorem C20_solve_tr {m n k : Nat} (a b : Arr2 ℝ) (ha : HasShape a m n) (hb : HasShape b n k)
    (hnm : n ≤ m) (hr : LinearIndependent ℝ (toMat m n a).col) :
    ∃ q x, qrInto a = .ok q ∧ q.solveTrInto b = .ok x ∧ HasShape x m k ∧
      (toMat m n a)ᵀ * toMat m k x = toMat n k b ∧
      ∀ (j : Fin k) (z : Fin m → ℝ), (toMat m n a)ᵀ *ᵥ z = (toMat n k b).col j →
        sqNorm ((toMat m k x).col j) ≤ sqNorm z ∧
        (sqNorm ((toMat m k x).col j) = sqNorm z → z = (toMat m k x).col j) := by
  obtain ⟨q, hq, h⟩ := qrInto_real a ha hnm
  have hi := (h.isInvertible_iff_rank hnm).2 hr
  obtain ⟨Q, x, hQ, hx, sx, Y, eY, ex⟩ := h.solveTrInto hnm b hb hi
  obtain ⟨Q', hQ', sQ, oQ, -, eA⟩ := h.generateQ hnm
  rw [hQ] at hQ'
  injection hQ' with hQ'
  subst hQ'
  have hsol : (toMat m n a)ᵀ * toMat m k x = toMat n k b := by
    rw [eA, ex, Matrix.transpose_mul, Matrix.mul_assoc, ← Matrix.mul_assoc (toMat m n Q)ᵀ, oQ,
      Matrix.one_mul, eY]
  refine ⟨q, x, hq, hx, sx, hsol, ?_⟩
  intro j z hz
  have hxj : (toMat m n a)ᵀ *ᵥ (toMat m k x).col j = (toMat n k b).col j := by
    ext i
    exact congrFun (congrFun hsol i) j
  have hd : (toMat m n a)ᵀ *ᵥ (z - (toMat m k x).col j) = 0 := by
    rw [Matrix.mulVec_sub, hz, hxj, sub_self]
  have hQd : (toMat m n Q)ᵀ *ᵥ (z - (toMat m k x).col j) = 0 := by
    rw [eA, Matrix.transpose_mul, ← Matrix.mulVec_mulVec] at hd
    have hu : IsUnit (q.rMat n)ᵀ := (Matrix.isUnit_transpose _).2 (h.rMat_isUnit hi)
    exact Matrix.mulVec_injective_of_isUnit hu (by rw [hd, Matrix.mulVec_zero])
  have hxQ : (toMat m k x).col j = toMat m n Q *ᵥ Y.col j := by
    ext i
    exact congrFun (congrFun ex i) j
  have horth : (toMat m k x).col j ⬝ᵥ (z - (toMat m k x).col j) = 0 := by
    rw [hxQ, dotProduct_comm, Matrix.dotProduct_mulVec, ← Matrix.mulVec_transpose, ← hxQ, hQd,
      zero_dotProduct]
  have hz' : sqNorm z = sqNorm ((toMat m k x).col j) + sqNorm (z - (toMat m k x).col j) := by
    rw [← sqNorm_add_of_orth horth]; congr 1; abel
  refine ⟨by linarith [sqNorm_nonneg (z - (toMat m k x).col j)], fun h0 => ?_⟩
  exact sub_eq_zero.1 (sqNorm_eq_zero (by linarith))

/-- C20: `least_squares` on a wide matrix of full row rank returns the minimum-norm solution of
`A X = B`. Exact real arithmetic. -/
theorem C20_least_squares_wide {m n k : Nat} (a b : Arr2 ℝ) (ha : HasShape a m n)
    (hb : HasShape b m k) (hmn : m < n) (hr : LinearIndependent ℝ (toMat m n a).row) :
    ∃ x, leastSquares a b = .ok x ∧ HasShape x n k ∧ toMat m n a * toMat n k x = toMat m k b ∧
      ∀ (j : Fin k) (z : Fin n → ℝ), toMat m n a *ᵥ z = (toMat m k b).col j →
        sqNorm ((toMat n k x).col j) ≤ sqNorm z ∧
        (sqNorm ((toMat n k x).col j) = sqNorm z → z = (toMat n k x).col j) := by
  obtain ⟨q, x, hq, hx, sx, h1, h2⟩ := C20_solve_tr (m := n) (n := m) (k := k) a.t b
    ⟨ha.2, ha.1⟩ hb hmn.le hr
  refine ⟨x, ?_, sx, h1, h2⟩
  unfold leastSquares
  rw [if_neg (by rw [ha.1, ha.2]; omega), hq]
  exact hx

/-- C20, errors of `solve_tr` and of `least_squares` on wide matrices. -/
theorem C20_errors {m n : Nat} (a b : Arr2 ℝ) (ha : HasShape a m n) (hnm : n ≤ m)
    (q : QRDecomp ℝ) (hq : qrInto a = .ok q) :
    (b.nr ≠ n → q.solveTrInto b = .error (.err (.wrongRows n b.nr))) ∧
    (b.nr = n → ¬ LinearIndependent ℝ (toMat m n a).col →
      q.solveTrInto b = .error (.err .nonInvertible)) ∧
    (n < m → leastSquares a.t b = q.solveTrInto b) := by
  have hinv := C18_is_invertible a ha hnm q hq
  obtain ⟨q', hq', h⟩ := qrInto_real a ha hnm
  rw [hq] at hq'
  injection hq' with hq'
  subst hq'
  obtain ⟨c1, c2, -⟩ := h.toQRShape.solveTrInto_cases hnm b
  refine ⟨c1, fun hb hr => c2 hb ?_, fun hlt => ?_⟩
  · rw [← Bool.not_eq_true, hinv]; exact hr
  · unfold leastSquares
    rw [if_neg (by simp [ha.1, ha.2]; omega)]
    show (qrInto a >>= fun q => q.solveTrInto b) = _
    rw [hq]
    rfl

example : HasShape exTall 3 2 ∧ HasShape (ofRows 2 1 [[1], [2]]) 2 1 ∧
    LinearIndependent ℝ (toMat 3 2 exTall).col ∧
    LinearIndependent ℝ (toMat 2 3 exTall.t).row := ⟨⟨rfl, rfl⟩, ⟨rfl, rfl⟩, exTall_rank, exTall_rank⟩

/-! ## C21 -/

theorem toMat_eye (n : Nat) : toMat n n (Arr2.eye n n : Arr2 ℝ) = 1 := by
  ext i j
  simp [Arr2.eye, Matrix.one_apply, Fin.ext_iff]

/-- C21: `inverse` returns the two-sided inverse of a square non-singular matrix, `NonInvertible`
for a square singular matrix and `NotSquare` for every other (thin) matrix.
Exact real arithmetic. -/
theorem C21_inverse {m n : Nat} (a : Arr2 ℝ) (ha : HasShape a m n) (hnm : n ≤ m)
    (q : QRDecomp ℝ) (hq : qrInto a = .ok q) :
    (m ≠ n → q.inverse = .error (.err (.notSquare m n))) ∧
    (m = n → ¬ IsUnit (toMat n n a) → q.inverse = .error (.err .nonInvertible)) ∧
    (m = n → IsUnit (toMat n n a) → ∃ x, q.inverse = .ok x ∧ HasShape x n n ∧
      toMat n n a * toMat n n x = 1 ∧ toMat n n x * toMat n n a = 1) := by
  obtain ⟨q', hq', h⟩ := qrInto_real a ha hnm
  rw [hq] at hq'
  injection hq' with hq'
  subst hq'
  refine ⟨?_, ?_, ?_⟩
  · intro hne
    unfold QRDecomp.inverse
    rw [checkSquare_err (by rw [h.nr, h.nc]; exact hne), h.nr, h.nc]
    rfl
  · rintro rfl hs
    unfold QRDecomp.inverse
    rw [checkSquare_ok (by rw [h.nr, h.nc])]
    simp only [ok_bind]
    refine ((C19_errors a _ ha le_rfl q hq).2 (by rw [h.len]; rfl) ?_).1
    rw [← Matrix.mulVec_injective_iff]
    rwa [Matrix.mulVec_injective_iff_isUnit]
  · rintro rfl hu
    obtain ⟨q', x, hq', hx, -, sx, ex⟩ := C19_square (k := m) a (Arr2.eye m m) ha ⟨rfl, rfl⟩ hu
    rw [hq] at hq'
    injection hq' with hq'
    subst hq'
    rw [toMat_eye] at ex
    refine ⟨x, ?_, sx, ex, mul_eq_one_comm.1 ex⟩
    unfold QRDecomp.inverse
    rw [checkSquare_ok (by rw [h.nr, h.nc])]
    simp only [ok_bind]
    rw [h.len]
    exact hx

example : IsUnit (toMat 2 2 exSpd) := posDef_isUnit exSpd_posDef

/-! ## C22 -/

/-- C22: for full column rank, `into_r` is the transpose of the Cholesky factor of `AᵀA`
(so `R` is unique). `g` is any array holding the Gram matrix. Exact real arithmetic. -/
theorem C22_r_is_cholesky {m n : Nat} (a g : Arr2 ℝ) (ha : HasShape a m n) (hnm : n ≤ m)
    (hr : LinearIndependent ℝ (toMat m n a).col) (hg : HasShape g n n)
    (hgram : toMat n n g = (toMat m n a)ᵀ * toMat m n a) :
    ∃ q R l, qrInto a = .ok q ∧ q.intoR = .ok R ∧ cholesky g = .ok l ∧
      toMat n n R = (toMat n n l)ᵀ := by
  obtain ⟨q, Q, R, hq, -, -, hR, -, -, oQ, hup, hdiag, hA⟩ := C16_qr a ha hnm
  have hgr : (toMat n n R)ᵀ * toMat n n R = toMat n n g := by
    rw [hgram, ← hA, Matrix.transpose_mul, Matrix.mul_assoc, ← Matrix.mul_assoc (toMat m n Q)ᵀ, oQ,
      Matrix.one_mul]
  have hunit : IsUnit (toMat n n R) := by
    rw [← Matrix.mulVec_injective_iff_isUnit]
    have hinj := Matrix.mulVec_injective_iff.2 hr
    intro x y hxy
    apply hinj
    rw [← hA, ← Matrix.mulVec_mulVec, ← Matrix.mulVec_mulVec, hxy]
  have hlow : LowerPos (toMat n n R)ᵀ := by
    refine ⟨fun i j hij => hup j i hij, fun i => lt_of_le_of_ne (hdiag i) ?_⟩
    have hdet := (Matrix.isUnit_iff_isUnit_det _).1 hunit
    rw [Matrix.det_of_isUpperTriangular (fun i j hij => hup i j hij), isUnit_iff_ne_zero,
      Finset.prod_ne_zero_iff] at hdet
    exact (hdet i (Finset.mem_univ _)).symm
  obtain ⟨l, hl, el⟩ := C12_cholesky_unique g hg _ hlow (by rw [Matrix.transpose_transpose, hgr])
  exact ⟨q, R, l, hq, hR, hl, by rw [el, Matrix.transpose_transpose]⟩

/-- The hypotheses of C22 are met by a concrete matrix and its Gram matrix. -/
example : HasShape exTall 3 2 ∧ LinearIndependent ℝ (toMat 3 2 exTall).col ∧
    toMat 2 2 (ofRows 2 2 [[35, 44], [44, 56]]) = (toMat 3 2 exTall)ᵀ * toMat 3 2 exTall := by
  refine ⟨⟨rfl, rfl⟩, exTall_rank, ?_⟩
  ext i j
  fin_cases i <;> fin_cases j <;>
    simp [Matrix.mul_apply, Fin.sum_univ_three, exTall, ofRows] <;> norm_num

end LinfaLinalg
