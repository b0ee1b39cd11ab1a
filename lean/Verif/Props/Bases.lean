import Verif.Props.Agree
import Verif.Props.Norm
import Verif.Props.Perturb

/-! # C132: another orthonormal basis

`A' = W A Vᵀ`, where the columns of `W` and of `V` are orthonormal: the same linear map, written in other bases, or in a larger
space. The algorithms work on entries and take different steps on `A` and on `A'`; in exact real arithmetic their results are
nevertheless related as the maps are. -/

namespace LinfaLinalg

open Matrix

variable {m n p k : Nat}

/-- Independent columns stay independent. -/
theorem independent_turn {W : Matrix (Fin p) (Fin m) ℝ} (hW : Wᵀ * W = 1) {V : Matrix (Fin n) (Fin n) ℝ} (hV : Vᵀ * V = 1)
    (A : Matrix (Fin m) (Fin n) ℝ) : LinearIndependent ℝ (W * A * Vᵀ).col ↔ LinearIndependent ℝ A.col := by
  have hV' : V * Vᵀ = 1 := mul_eq_one_comm.1 hV
  rw [← mulVec_injective_iff, ← mulVec_injective_iff]
  constructor
  · intro h x y hxy
    have := @h (V *ᵥ x) (V *ᵥ y) (by
      rw [mulVec_mulVec, mulVec_mulVec, Matrix.mul_assoc, hV, Matrix.mul_one, ← mulVec_mulVec, ← mulVec_mulVec, hxy])
    have h2 := congrArg (fun z => Vᵀ *ᵥ z) this
    simpa [mulVec_mulVec, hV] using h2
  · intro h x y hxy
    have h1 : A *ᵥ (Vᵀ *ᵥ x) = A *ᵥ (Vᵀ *ᵥ y) := by
      have := congrArg (fun z => Wᵀ *ᵥ z) hxy
      simpa [mulVec_mulVec, ← Matrix.mul_assoc, hW] using this
    have h2 := congrArg (fun z => V *ᵥ z) (h h1)
    simpa [mulVec_mulVec, hV'] using h2

theorem rows_of_orth {W : Matrix (Fin p) (Fin m) ℝ} (hW : Wᵀ * W = 1) : m ≤ p := by
  have h : LinearIndependent ℝ W.col := by
    rw [← mulVec_injective_iff]
    intro x y hxy
    have := congrArg (fun z => Wᵀ *ᵥ z) hxy
    simpa [mulVec_mulVec, hW] using this
  simpa using h.fintype_card_le_finrank

/-- **C132, norm**: `norm_l2` of a matrix does not depend on the orthonormal bases. -/
theorem C132_norm {q : Nat} {W : Matrix (Fin p) (Fin m) ℝ} (hW : Wᵀ * W = 1) {V : Matrix (Fin q) (Fin n) ℝ} (hV : Vᵀ * V = 1)
    {a a' : Arr2 ℝ} (ha : HasShape a m n) (ha' : HasShape a' p q) (h : toMat p q a' = W * toMat m n a * Vᵀ) :
    normL2 a'.toList = normL2 a.toList := by
  rw [C41_norm_l2_frobenius p q a' ha', C41_norm_l2_frobenius m n a ha, h,
    frob_mul_orth (by rw [transpose_transpose]; exact hV), frob_orth_mul hW]

/-- **C132, rank**: `is_invertible` answers the same for both matrices. -/
theorem C132_is_invertible {W : Matrix (Fin p) (Fin m) ℝ} (hW : Wᵀ * W = 1) {V : Matrix (Fin n) (Fin n) ℝ} (hV : Vᵀ * V = 1)
    {a a' : Arr2 ℝ} (ha : HasShape a m n) (ha' : HasShape a' p n) (hnm : n ≤ m) (h : toMat p n a' = W * toMat m n a * Vᵀ)
    {q q' : QRDecomp ℝ} (hq : qrInto a = .ok q) (hq' : qrInto a' = .ok q') : q'.isInvertible = q.isInvertible := by
  rw [Bool.eq_iff_iff, C18_is_invertible a' ha' (hnm.trans (rows_of_orth hW)) q' hq', C18_is_invertible a ha hnm q hq, h]
  exact independent_turn hW hV _

/-- **C132, QR**: for a matrix with independent columns, `R` is the same for `A` and `W A`, and `Q` becomes `W Q`. -/
theorem C132_qr {W : Matrix (Fin p) (Fin m) ℝ} (hW : Wᵀ * W = 1) {a a' : Arr2 ℝ} (ha : HasShape a m n) (ha' : HasShape a' p n)
    (hnm : n ≤ m) (h : toMat p n a' = W * toMat m n a) (hr : LinearIndependent ℝ (toMat m n a).col) :
    ∃ q q' Q Q' R R', qrInto a = .ok q ∧ q.intoDecomp = .ok (Q, R) ∧ qrInto a' = .ok q' ∧ q'.intoDecomp = .ok (Q', R') ∧
      SameArr R R' ∧ HasShape Q m n ∧ HasShape Q' p n ∧ toMat p n Q' = W * toMat m n Q := by
  have hmp := rows_of_orth hW
  have hr' : LinearIndependent ℝ (toMat p n a').col := by
    have := (independent_turn (V := 1) hW (by simp) (toMat m n a)).2 hr
    rwa [transpose_one, Matrix.mul_one, ← h] at this
  obtain ⟨q, Q, R, hq, hd, hQ, hR, sQ, sR, oQ, -, -, eA⟩ := C16_qr a ha hnm
  obtain ⟨q', Q', R', hq', hd', hQ', hR', sQ', sR', oQ', -, -, eA'⟩ := C16_qr a' ha' (hnm.trans hmp)
  let g : Arr2 ℝ := ⟨n, n, fun i j => if hi : i < n then if hj : j < n then ((toMat m n a)ᵀ * toMat m n a) ⟨i, hi⟩ ⟨j, hj⟩ else 0 else 0⟩
  have hg : toMat n n g = (toMat m n a)ᵀ * toMat m n a := by
    ext i j; simp [toMat, g]
  have hg' : toMat n n g = (toMat p n a')ᵀ * toMat p n a' := by
    rw [hg, h, transpose_mul, Matrix.mul_assoc, ← Matrix.mul_assoc Wᵀ, hW, Matrix.one_mul]
  obtain ⟨q1, R1, l1, e1, e2, e3, e4⟩ := C22_r_is_cholesky a g ha hnm hr ⟨rfl, rfl⟩ hg
  obtain ⟨q2, R2, l2, f1, f2, f3, f4⟩ := C22_r_is_cholesky a' g ha' (hnm.trans hmp) hr' ⟨rfl, rfl⟩ hg'
  obtain rfl : q = q1 := by rw [hq] at e1; exact Except.ok.inj e1
  obtain rfl : R = R1 := by rw [hR] at e2; exact Except.ok.inj e2
  obtain rfl : q' = q2 := by rw [hq'] at f1; exact Except.ok.inj f1
  obtain rfl : R' = R2 := by rw [hR'] at f2; exact Except.ok.inj f2
  obtain rfl : l1 = l2 := by rw [e3] at f3; exact Except.ok.inj f3
  have hRR : toMat n n R = toMat n n R' := by rw [e4, f4]
  refine ⟨q, q', Q, Q', R, R', hq, hd, hq', hd', sameArr_of_toMat sR sR' hRR, sQ, sQ', ?_⟩
  have hu : IsUnit (toMat n n R) := by
    rw [← mulVec_injective_iff_isUnit]
    intro x y hxy
    apply mulVec_injective_iff.2 hr
    rw [← eA, ← mulVec_mulVec, ← mulVec_mulVec, hxy]
  have h1 : toMat p n Q' * toMat n n R = W * toMat m n Q * toMat n n R := by
    rw [hRR, eA', h, ← eA, hRR, Matrix.mul_assoc]
  have hdet := (isUnit_iff_isUnit_det _).1 hu
  have h2 := congrArg (fun M => M * (toMat n n R)⁻¹) h1
  simpa only [mul_nonsing_inv_cancel_right _ _ hdet] using h2

/-! ## Linear systems -/

/-- `least_squares` on independent columns solves the normal equations, which have one solution. -/
theorem leastSquares_normal {a b : Arr2 ℝ} (ha : HasShape a m n) (hb : HasShape b m k) (hnm : n ≤ m)
    (hr : LinearIndependent ℝ (toMat m n a).col) :
    ∃ x, leastSquares a b = .ok x ∧ HasShape x n k ∧
      ∀ Z, (toMat m n a)ᵀ * toMat m n a * Z = (toMat m n a)ᵀ * toMat m k b ↔ Z = toMat n k x := by
  let arr : ∀ {r c : Nat}, Matrix (Fin r) (Fin c) ℝ → Arr2 ℝ := fun {r c} M =>
    ⟨r, c, fun i j => if hi : i < r then if hj : j < c then M ⟨i, hi⟩ ⟨j, hj⟩ else 0 else 0⟩
  have harr : ∀ {r c : Nat} (M : Matrix (Fin r) (Fin c) ℝ), toMat r c (arr M) = M := by
    intro r c M; ext i j; simp [toMat, arr]
  obtain ⟨x, y, hx, hy, hxy⟩ := C114_normal_equations a b (arr ((toMat m n a)ᵀ * toMat m n a)) (arr ((toMat m n a)ᵀ * toMat m k b))
    ha hb ⟨rfl, rfl⟩ ⟨rfl, rfl⟩ hnm hr (harr _) (harr _)
  obtain ⟨z, hz, sz, ez, uz⟩ := C13_solvec (m := k) (arr ((toMat m n a)ᵀ * toMat m n a)) (arr ((toMat m n a)ᵀ * toMat m k b))
    ⟨rfl, rfl⟩ ⟨rfl, rfl⟩ (by rw [harr]; exact gram_symPosDef hr)
  obtain rfl : y = z := by rw [hy] at hz; exact Except.ok.inj hz
  have sx : HasShape x n k := ⟨hxy.1.trans sz.1, hxy.2.1.trans sz.2⟩
  have e : toMat n k x = toMat n k y := by
    ext i j; exact hxy.2.2 i j (by rw [sx.1]; exact i.2) (by rw [sx.2]; exact j.2)
  refine ⟨x, hx, sx, fun Z => ⟨fun h => ?_, fun h => ?_⟩⟩
  · rw [e]; exact uz Z (by rw [harr, harr]; exact h)
  · rw [h, e]; rw [harr, harr] at ez; exact ez

/-- **C132, `least_squares`, at least as many rows as columns**: the solution of `W A Vᵀ x = W b` is the one of `A x = b` in the
new basis, also when there is no exact solution; on dependent columns both fail. -/
theorem C132_least_squares {W : Matrix (Fin p) (Fin m) ℝ} (hW : Wᵀ * W = 1) {V : Matrix (Fin n) (Fin n) ℝ} (hV : Vᵀ * V = 1)
    {a a' b b' : Arr2 ℝ} (ha : HasShape a m n) (ha' : HasShape a' p n) (hb : HasShape b m k) (hb' : HasShape b' p k) (hnm : n ≤ m)
    (h : toMat p n a' = W * toMat m n a * Vᵀ) (h' : toMat p k b' = W * toMat m k b) :
    (LinearIndependent ℝ (toMat m n a).col ∧ ∃ x x', leastSquares a b = .ok x ∧ leastSquares a' b' = .ok x' ∧ HasShape x n k ∧
      HasShape x' n k ∧ toMat n k x' = V * toMat n k x) ∨
    (¬ LinearIndependent ℝ (toMat m n a).col ∧ leastSquares a b = .error (.err .nonInvertible) ∧
      leastSquares a' b' = .error (.err .nonInvertible)) := by
  have hV' : V * Vᵀ = 1 := mul_eq_one_comm.1 hV
  have hnp := hnm.trans (rows_of_orth hW)
  have hiff := independent_turn hW hV (toMat m n a)
  rw [← h] at hiff
  by_cases hr : LinearIndependent ℝ (toMat m n a).col
  · obtain ⟨x, hx, sx, ux⟩ := leastSquares_normal ha hb hnm hr
    obtain ⟨x', hx', sx', ux'⟩ := leastSquares_normal ha' hb' hnp (hiff.2 hr)
    refine .inl ⟨hr, x, x', hx, hx', sx, sx', ?_⟩
    have e := (ux _).2 rfl
    refine ((ux' _).1 ?_).symm
    rw [h, h']
    set A := toMat m n a
    have h1 : (W * A * Vᵀ)ᵀ = V * Aᵀ * Wᵀ := by simp only [transpose_mul, transpose_transpose, Matrix.mul_assoc]
    rw [h1]
    calc V * Aᵀ * Wᵀ * (W * A * Vᵀ) * (V * toMat n k x) = V * (Aᵀ * ((Wᵀ * W) * (A * ((Vᵀ * V) * toMat n k x)))) := by
          simp only [Matrix.mul_assoc]
      _ = V * (Aᵀ * A * toMat n k x) := by rw [hW, hV, Matrix.one_mul, Matrix.one_mul, Matrix.mul_assoc]
      _ = V * (Aᵀ * ((Wᵀ * W) * toMat m k b)) := by rw [e, hW, Matrix.one_mul]
      _ = V * Aᵀ * Wᵀ * (W * toMat m k b) := by simp only [Matrix.mul_assoc]
  · obtain ⟨q, -, -, hq, -⟩ := C16_qr a ha hnm
    obtain ⟨q', -, -, hq', -⟩ := C16_qr a' ha' hnp
    exact .inr ⟨hr, ((C19_errors a b ha hnm q hq).2 hb.1 hr).2, ((C19_errors a' b' ha' hnp q' hq').2 hb'.1 (mt hiff.1 hr)).2⟩

/-- **C132, `least_squares`, fewer rows than columns**: the solution of least norm of `W A Vᵀ x = W b` is the one of `A x = b` in
the new basis; on dependent rows both fail. -/
theorem C132_minimum_norm {q : Nat} {W : Matrix (Fin m) (Fin m) ℝ} (hW : Wᵀ * W = 1) {V : Matrix (Fin q) (Fin n) ℝ}
    (hV : Vᵀ * V = 1) {a a' b b' : Arr2 ℝ} (ha : HasShape a m n) (ha' : HasShape a' m q) (hb : HasShape b m k)
    (hb' : HasShape b' m k) (hmn : m < n) (h : toMat m q a' = W * toMat m n a * Vᵀ) (h' : toMat m k b' = W * toMat m k b) :
    (LinearIndependent ℝ (toMat m n a).row ∧ ∃ x x', leastSquares a b = .ok x ∧ leastSquares a' b' = .ok x' ∧ HasShape x n k ∧
      HasShape x' q k ∧ toMat q k x' = V * toMat n k x) ∨
    (¬ LinearIndependent ℝ (toMat m n a).row ∧ leastSquares a b = .error (.err .nonInvertible) ∧
      leastSquares a' b' = .error (.err .nonInvertible)) := by
  have hW' : W * Wᵀ = 1 := mul_eq_one_comm.1 hW
  have hiff : LinearIndependent ℝ (toMat m q a').row ↔ LinearIndependent ℝ (toMat m n a).row := by
    have := independent_turn hV hW (toMat m n a)ᵀ
    have e : V * (toMat m n a)ᵀ * Wᵀ = (toMat m q a')ᵀ := by rw [h]; simp only [transpose_mul, transpose_transpose, Matrix.mul_assoc]
    rw [e] at this
    exact this
  have hmq := hmn.trans_le (rows_of_orth hV)
  by_cases hr : LinearIndependent ℝ (toMat m n a).row
  swap
  · obtain ⟨r, -, -, hq, -⟩ := C16_qr a.t (m := n) (n := m) ⟨ha.2, ha.1⟩ hmn.le
    obtain ⟨r', -, -, hq', -⟩ := C16_qr a'.t (m := q) (n := m) ⟨ha'.2, ha'.1⟩ hmq.le
    obtain ⟨-, e1, e2⟩ := C20_errors (m := n) (n := m) a.t b ⟨ha.2, ha.1⟩ hmn.le r hq
    obtain ⟨-, f1, f2⟩ := C20_errors (m := q) (n := m) a'.t b' ⟨ha'.2, ha'.1⟩ hmq.le r' hq'
    exact .inr ⟨hr, (e2 hmn).trans (e1 hb.1 hr), (f2 hmq).trans (f1 hb'.1 (mt hiff.1 hr))⟩
  have hr' := hiff.2 hr
  left
  let arr : Matrix (Fin m) (Fin m) ℝ → Arr2 ℝ := fun M =>
    ⟨m, m, fun i j => if hi : i < m then if hj : j < m then M ⟨i, hi⟩ ⟨j, hj⟩ else 0 else 0⟩
  have harr : ∀ M, toMat m m (arr M) = M := by intro M; ext i j; simp [toMat, arr]
  obtain ⟨x, hx, sx, -⟩ := C20_least_squares_wide a b ha hb hmn hr
  obtain ⟨x', hx', sx', -⟩ := C20_least_squares_wide a' b' ha' hb' hmq hr'
  obtain ⟨y, w, hy, hw, ey⟩ := C114_minimum_norm a b (arr (toMat m n a * (toMat m n a)ᵀ)) ha hb ⟨rfl, rfl⟩ hmn hr (harr _)
  obtain ⟨y', w', hy', hw', ey'⟩ := C114_minimum_norm a' b' (arr (toMat m q a' * (toMat m q a')ᵀ)) ha' hb' ⟨rfl, rfl⟩ hmq hr' (harr _)
  obtain rfl : x = y := by rw [hx] at hy; exact Except.ok.inj hy
  obtain rfl : x' = y' := by rw [hx'] at hy'; exact Except.ok.inj hy'
  have hpd : SymPosDef (toMat m n a * (toMat m n a)ᵀ) := by
    have := gram_symPosDef (A := (toMat m n a)ᵀ) hr
    rwa [transpose_transpose] at this
  have hpd' : SymPosDef (toMat m q a' * (toMat m q a')ᵀ) := by
    have := gram_symPosDef (A := (toMat m q a')ᵀ) hr'
    rwa [transpose_transpose] at this
  obtain ⟨z, hz, sz, ez, uz⟩ := C13_solvec (m := k) (arr (toMat m n a * (toMat m n a)ᵀ)) b ⟨rfl, rfl⟩ hb (by rw [harr]; exact hpd)
  obtain ⟨z', hz', sz', ez', uz'⟩ := C13_solvec (m := k) (arr (toMat m q a' * (toMat m q a')ᵀ)) b' ⟨rfl, rfl⟩ hb' (by rw [harr]; exact hpd')
  obtain rfl : w = z := by rw [hw] at hz; exact Except.ok.inj hz
  obtain rfl : w' = z' := by rw [hw'] at hz'; exact Except.ok.inj hz'
  refine ⟨hr, x, x', hx, hx', sx, sx', ?_⟩
  rw [harr] at ez ez' uz'
  set A := toMat m n a
  have h1 : (toMat m q a')ᵀ = V * Aᵀ * Wᵀ := by rw [h]; simp only [transpose_mul, transpose_transpose, Matrix.mul_assoc]
  have e : W * toMat m k w = toMat m k w' := by
    refine uz' _ ?_
    rw [h1, h, h', ← ez]
    calc W * A * Vᵀ * (V * Aᵀ * Wᵀ) * (W * toMat m k w) = W * (A * ((Vᵀ * V) * (Aᵀ * ((Wᵀ * W) * toMat m k w)))) := by
          simp only [Matrix.mul_assoc]
      _ = _ := by rw [hW, hV, Matrix.one_mul, Matrix.one_mul, Matrix.mul_assoc]
  rw [ey', ey, h1, ← e]
  calc V * Aᵀ * Wᵀ * (W * toMat m k w) = V * Aᵀ * ((Wᵀ * W) * toMat m k w) := by simp only [Matrix.mul_assoc]
    _ = _ := by rw [hW, Matrix.one_mul, Matrix.mul_assoc]

theorem posDef_turn {W : Matrix (Fin n) (Fin n) ℝ} (hW : Wᵀ * W = 1) (A : Matrix (Fin n) (Fin n) ℝ) :
    SymPosDef (W * A * Wᵀ) ↔ SymPosDef A := by
  have hW' : W * Wᵀ = 1 := mul_eq_one_comm.1 hW
  have key : ∀ {W : Matrix (Fin n) (Fin n) ℝ}, Wᵀ * W = 1 → ∀ A, SymPosDef A → SymPosDef (W * A * Wᵀ) := by
    rintro W hW A ⟨h1, h2⟩
    refine ⟨by unfold Matrix.IsSymm; simp only [transpose_mul, transpose_transpose, h1.eq, Matrix.mul_assoc], fun x hx => ?_⟩
    have h3 := h2 (Wᵀ *ᵥ x) (fun h0 => hx (by
      have := congrArg (fun z => W *ᵥ z) h0
      simpa [mulVec_mulVec, mul_eq_one_comm.1 hW] using this))
    rw [← mulVec_mulVec, ← mulVec_mulVec, dotProduct_mulVec x W, ← mulVec_transpose]
    exact h3
  refine ⟨fun h => ?_, key hW A⟩
  have := key (W := Wᵀ) (by rw [transpose_transpose]; exact hW') _ h
  rw [transpose_transpose] at this
  have e : Wᵀ * (W * A * Wᵀ) * W = A := by
    calc Wᵀ * (W * A * Wᵀ) * W = (Wᵀ * W) * A * (Wᵀ * W) := by simp only [Matrix.mul_assoc]
      _ = A := by rw [hW, Matrix.one_mul, Matrix.mul_one]
  rwa [e] at this

/-- **C132, Cholesky**: for symmetric matrices, `cholesky` succeeds on `W A Wᵀ` exactly when it does on `A`; then the solution by `solvec` and the
inverse by `invc` are those of `A` in the new basis. -/
theorem C132_cholesky {W : Matrix (Fin n) (Fin n) ℝ} (hW : Wᵀ * W = 1) {a a' b b' : Arr2 ℝ} (ha : HasShape a n n)
    (ha' : HasShape a' n n) (hb : HasShape b n k) (hb' : HasShape b' n k) (hs : (toMat n n a).IsSymm)
    (h : toMat n n a' = W * toMat n n a * Wᵀ) (h' : toMat n k b' = W * toMat n k b) :
    ((∃ l, cholesky a' = .ok l) ↔ ∃ l, cholesky a = .ok l) ∧
    ∀ l, cholesky a = .ok l → ∃ x x' z z', solvec a b = .ok x ∧ solvec a' b' = .ok x' ∧ invc a = .ok z ∧ invc a' = .ok z' ∧
      toMat n k x' = W * toMat n k x ∧ toMat n n z' = W * toMat n n z * Wᵀ := by
  have hW' : W * Wᵀ = 1 := mul_eq_one_comm.1 hW
  have hs' : (toMat n n a').IsSymm := by
    rw [h]; unfold Matrix.IsSymm; simp only [transpose_mul, transpose_transpose, hs.eq, Matrix.mul_assoc]
  have hiff := posDef_turn hW (toMat n n a)
  rw [← h] at hiff
  refine ⟨by rw [(C09_cholesky_iff_posDef a' ha' hs').1, (C09_cholesky_iff_posDef a ha hs).1, hiff], fun l hl => ?_⟩
  have hpd := (C09_cholesky_iff_posDef a ha hs).1.1 ⟨l, hl⟩
  obtain ⟨x, hx, sx, ex, ux⟩ := C13_solvec a b ha hb hpd
  obtain ⟨x', hx', sx', ex', ux'⟩ := C13_solvec a' b' ha' hb' (hiff.2 hpd)
  obtain ⟨z, hz, sz, ez, uz⟩ := C14_invc a ha hpd
  obtain ⟨z', hz', sz', ez', uz'⟩ := C14_invc a' ha' (hiff.2 hpd)
  refine ⟨x, x', z, z', hx, hx', hz, hz', (ux' _ ?_).symm, ?_⟩
  · rw [h, h', ← ex]
    calc W * toMat n n a * Wᵀ * (W * toMat n k x) = W * toMat n n a * ((Wᵀ * W) * toMat n k x) := by simp only [Matrix.mul_assoc]
      _ = _ := by rw [hW, Matrix.one_mul, Matrix.mul_assoc]
  · have e : toMat n n a' * (W * toMat n n z * Wᵀ) = 1 := by
      rw [h]
      calc W * toMat n n a * Wᵀ * (W * toMat n n z * Wᵀ) = W * (toMat n n a * ((Wᵀ * W) * (toMat n n z * Wᵀ))) := by
            simp only [Matrix.mul_assoc]
        _ = W * ((toMat n n a * toMat n n z) * Wᵀ) := by rw [hW, Matrix.one_mul, Matrix.mul_assoc]
        _ = 1 := by rw [ez, Matrix.one_mul, hW']
    calc toMat n n z' = toMat n n z' * (toMat n n a' * (W * toMat n n z * Wᵀ)) := by rw [e, Matrix.mul_one]
      _ = _ := by rw [← Matrix.mul_assoc, uz', Matrix.one_mul]

/-- **C132, inverse**: `inverse` of `W A Vᵀ` is `V A⁻¹ Wᵀ`, and it fails exactly when the inverse of `A` does. -/
theorem C132_inverse {W V : Matrix (Fin n) (Fin n) ℝ} (hW : Wᵀ * W = 1) (hV : Vᵀ * V = 1) {a a' : Arr2 ℝ} (ha : HasShape a n n)
    (ha' : HasShape a' n n) (h : toMat n n a' = W * toMat n n a * Vᵀ) {q q' : QRDecomp ℝ} (hq : qrInto a = .ok q)
    (hq' : qrInto a' = .ok q') :
    (∃ x x', q.inverse = .ok x ∧ q'.inverse = .ok x' ∧ toMat n n x' = V * toMat n n x * Wᵀ) ∨
    (q.inverse = .error (.err .nonInvertible) ∧ q'.inverse = .error (.err .nonInvertible)) := by
  have hW' : W * Wᵀ = 1 := mul_eq_one_comm.1 hW
  have hV' : V * Vᵀ = 1 := mul_eq_one_comm.1 hV
  obtain ⟨-, n1, u1⟩ := C21_inverse a ha le_rfl q hq
  obtain ⟨-, n2, u2⟩ := C21_inverse a' ha' le_rfl q' hq'
  have hiff : IsUnit (toMat n n a') ↔ IsUnit (toMat n n a) := by
    have uW : IsUnit W := IsUnit.of_mul_eq_one _ hW'
    have uV : IsUnit Vᵀ := IsUnit.of_mul_eq_one _ hV
    rw [h]
    constructor
    · intro hu
      have e : toMat n n a = Wᵀ * (W * toMat n n a * Vᵀ) * V := by
        calc toMat n n a = (Wᵀ * W) * toMat n n a * (Vᵀ * V) := by rw [hW, hV, Matrix.one_mul, Matrix.mul_one]
          _ = _ := by simp only [Matrix.mul_assoc]
      rw [e]
      exact ((IsUnit.of_mul_eq_one _ hW).mul hu).mul (IsUnit.of_mul_eq_one _ hV')
    · intro hu
      exact (uW.mul hu).mul uV
  by_cases hu : IsUnit (toMat n n a)
  · obtain ⟨x, hx, sx, e1, e2⟩ := u1 rfl hu
    obtain ⟨x', hx', sx', f1, f2⟩ := u2 rfl (hiff.2 hu)
    refine .inl ⟨x, x', hx, hx', ?_⟩
    have e : toMat n n a' * (V * toMat n n x * Wᵀ) = 1 := by
      rw [h]
      calc W * toMat n n a * Vᵀ * (V * toMat n n x * Wᵀ) = W * (toMat n n a * ((Vᵀ * V) * (toMat n n x * Wᵀ))) := by
            simp only [Matrix.mul_assoc]
        _ = W * ((toMat n n a * toMat n n x) * Wᵀ) := by rw [hV, Matrix.one_mul, Matrix.mul_assoc]
        _ = 1 := by rw [e1, Matrix.one_mul, hW']
    calc toMat n n x' = toMat n n x' * (toMat n n a' * (V * toMat n n x * Wᵀ)) := by rw [e, Matrix.mul_one]
      _ = _ := by rw [← Matrix.mul_assoc, f2, Matrix.one_mul]
  · exact .inr ⟨n1 rfl hu, n2 rfl (mt hiff.1 hu)⟩

/-! ## Spectra -/

theorem eigenvalueDesc_turn {W : Matrix (Fin n) (Fin n) ℝ} (hW : Wᵀ * W = 1) {A A' : Matrix (Fin n) (Fin n) ℝ} (hA : A.IsSymm)
    (hA' : A'.IsSymm) (h : A' = W * A * Wᵀ) (j : Fin n) : eigenvalueDesc hA' j = eigenvalueDesc hA j := by
  obtain ⟨hL, Q, hQ, e⟩ := eigenvalueDesc_spec hA
  refine eigenvalueDesc_unique hA' (Q := W * Q) ?_ hL ?_ j
  · calc (W * Q)ᵀ * (W * Q) = Qᵀ * ((Wᵀ * W) * Q) := by simp only [transpose_mul, Matrix.mul_assoc]
      _ = 1 := by rw [hW, Matrix.one_mul, hQ]
  · rw [h]
    conv_lhs => rw [e]
    simp only [transpose_mul, Matrix.mul_assoc]

theorem singularValue_turn {W : Matrix (Fin p) (Fin m) ℝ} (hW : Wᵀ * W = 1) {V : Matrix (Fin n) (Fin n) ℝ} (hV : Vᵀ * V = 1)
    {A : Matrix (Fin m) (Fin n) ℝ} {A' : Matrix (Fin p) (Fin n) ℝ} (h : A' = W * A * Vᵀ) (j : Nat) (hj : j < n) :
    singularValue A' j = singularValue A j := by
  obtain ⟨h0, hL, Q, hQ, e⟩ := singularValue_spec A
  refine singularValue_unique (A := A') (Q := V * Q) (s := fun i : Fin n => singularValue A i) ?_ (fun i j hij => hL hij)
    (fun i => h0 i) ?_ ⟨j, hj⟩
  · calc (V * Q)ᵀ * (V * Q) = Qᵀ * ((Vᵀ * V) * Q) := by simp only [transpose_mul, Matrix.mul_assoc]
      _ = 1 := by rw [hV, Matrix.one_mul, hQ]
  · calc A'ᵀ * A' = V * (Aᵀ * ((Wᵀ * W) * (A * Vᵀ))) := by rw [h]; simp only [transpose_mul, transpose_transpose, Matrix.mul_assoc]
      _ = V * (Aᵀ * A) * Vᵀ := by rw [hW, Matrix.one_mul]; simp only [Matrix.mul_assoc]
      _ = _ := by rw [e]; simp only [transpose_mul, Matrix.mul_assoc]

/-- **C132, eigenvalues**: whenever `eigvalsh` returns on `A` and on `W A Wᵀ`, the sorted values differ by at most the errors of the
two runs. -/
theorem C132_eigvalsh {W : Matrix (Fin n) (Fin n) ℝ} (hW : Wᵀ * W = 1) {a a' : Arr2 ℝ} (ha : HasShape a n n) (ha' : HasShape a' n n)
    (hs : (toMat n n a).IsSymm) (h : toMat n n a' = W * toMat n n a * Wᵀ) {fuel fuel' : Nat} {v v' : Arr1 ℝ}
    (hv : eigvalsh fuel a = .ok v) (hv' : eigvalsh fuel' a' = .ok v') (order : Order) :
    ∃ x y, sortEigVals v order = .ok x ∧ sortEigVals v' order = .ok y ∧ x.len = n ∧ y.len = n ∧
      ∀ j < n, |x.get j - y.get j| ≤ 2 * eigTol (toMat n n a) := by
  have hs' : (toMat n n a').IsSymm := by
    rw [h]; unfold Matrix.IsSymm; simp only [transpose_mul, transpose_transpose, hs.eq, Matrix.mul_assoc]
  obtain ⟨x, hx, lx, ex⟩ := C75_eigvalsh_accuracy fuel a ha hs v hv order
  obtain ⟨y, hy, ly, ey⟩ := C75_eigvalsh_accuracy fuel' a' ha' hs' v' hv' order
  refine ⟨x, y, hx, hy, lx, ly, fun j hj => ?_⟩
  have h1 := abs_le.1 (ex ⟨j, hj⟩)
  have h2 := abs_le.1 (ey ⟨j, hj⟩)
  have h3 : frob (toMat n n a') = frob (toMat n n a) := by
    rw [h, frob_mul_orth (by rw [transpose_transpose]; exact hW), frob_orth_mul hW]
  have h4 : nthEigenvalue order hs' ⟨j, hj⟩ = nthEigenvalue order hs ⟨j, hj⟩ := by
    cases order <;> exact eigenvalueDesc_turn hW hs hs' h _
  rw [h3, h4] at h2
  unfold eigTol
  rw [abs_le]
  constructor <;> linarith [h1.1, h1.2, h2.1, h2.2]

/-- **C132, singular values**: sorted from the largest, the values that `svd` returns for `A` and for `W A Vᵀ` differ by at most the
errors of the two runs; the values which `W A Vᵀ` may have in addition, because it has more rows, are zero up to the error. -/
theorem C132_svd {W : Matrix (Fin p) (Fin m) ℝ} (hW : Wᵀ * W = 1) {V : Matrix (Fin n) (Fin n) ℝ} (hV : Vᵀ * V = 1)
    {a a' : Arr2 ℝ} (ha : HasShape a m n) (ha' : HasShape a' p n) (hm : m ≠ 0) (hn : n ≠ 0)
    (h : toMat p n a' = W * toMat m n a * Vᵀ) (cu cv cu' cv' : Bool) :
    ∃ u s vt u₁ x vt₁ u' s' vt' u₁' y vt₁', svd (svdFuel m n) a cu cv = .ok (u, s, vt) ∧
      sortSvd u s vt .largest = .ok (u₁, x, vt₁) ∧ svd (svdFuel p n) a' cu' cv' = .ok (u', s', vt') ∧
      sortSvd u' s' vt' .largest = .ok (u₁', y, vt₁') ∧
      (∀ j < min m n, |x.get j - y.get j| ≤ svdTol (toMat m n a) + svdTol (toMat p n a')) ∧
      ∀ j, m ≤ j → j < min p n → y.get j ≤ svdTol (toMat p n a') := by
  have hmp := rows_of_orth hW
  obtain ⟨u, s, vt, u1, x, vt1, h1, h2, -, ex⟩ := C76_svd_accuracy a ha hm hn cu cv .largest
  obtain ⟨u', s', vt', u1', y, vt1', g1, g2, -, ey⟩ := C76_svd_accuracy a' ha' (by omega) hn cu' cv' .largest
  refine ⟨u, s, vt, u1, x, vt1, u', s', vt', u1', y, vt1', h1, h2, g1, g2, fun j hj => ?_, fun j hj hj' => ?_⟩
  · have h3 := abs_le.1 (ex j hj)
    have h4 := abs_le.1 (ey j (by omega))
    simp only [nthSingularValue] at h3 h4
    rw [singularValue_turn hW hV h j (by omega)] at h4
    unfold svdTol
    rw [abs_le]
    constructor <;> linarith [h3.1, h3.2, h4.1, h4.2]
  · have h4 := abs_le.1 (ey j hj')
    simp only [nthSingularValue] at h4
    have h5 : singularValue (toMat m n a) j = 0 := by
      simp only [singularValue]
      rw [LinearMap.singularValues_eq_zero_iff_le_finrank_range]
      refine le_trans ?_ hj
      refine (Submodule.finrank_le _).trans ?_
      simp
    rw [singularValue_turn hW hV h j (by omega), h5] at h4
    unfold svdTol
    linarith [h4.2]

/-! ## A concrete case -/

/-- Two orthonormal columns. -/
def exFrame : Matrix (Fin 3) (Fin 2) ℝ := !![0, -1; 1, 0; 0, 0]

/-- Two axes exchanged, one of them reversed. -/
def exQuarter : Matrix (Fin 2) (Fin 2) ℝ := !![0, -1; 1, 0]

theorem exFrame_orth : exFrameᵀ * exFrame = 1 := by
  ext i j; fin_cases i <;> fin_cases j <;> simp [exFrame, Matrix.mul_apply, Fin.sum_univ_three]

theorem exQuarter_orth : exQuarterᵀ * exQuarter = 1 := by
  ext i j; fin_cases i <;> fin_cases j <;> simp [exQuarter, Matrix.mul_apply, Fin.sum_univ_two]

/-- The hypotheses of `C132_norm`, `C132_least_squares`, `C132_is_invertible` and `C132_svd`. -/
example : toMat 3 2 (ofRows 3 2 [[4, -3], [-2, 1], [0, 0]]) = exFrame * toMat 2 2 (ofRows 2 2 [[1, 2], [3, 4]]) * exQuarterᵀ ∧
    toMat 3 1 (ofRows 3 1 [[-6], [5], [0]]) = exFrame * toMat 2 1 (ofRows 2 1 [[5], [6]]) ∧
    ∃ x x', leastSquares (ofRows 2 2 [[1, 2], [3, 4]]) (ofRows 2 1 [[5], [6]]) = .ok x ∧
      leastSquares (ofRows 3 2 [[4, -3], [-2, 1], [0, 0]]) (ofRows 3 1 [[-6], [5], [0]]) = .ok x' ∧
      toMat 2 1 x' = exQuarter * toMat 2 1 x := by
  have h1 : toMat 3 2 (ofRows 3 2 [[4, -3], [-2, 1], [0, 0]]) =
      exFrame * toMat 2 2 (ofRows 2 2 [[1, 2], [3, 4]]) * exQuarterᵀ := by
    ext i j; fin_cases i <;> fin_cases j <;> simp [exFrame, exQuarter, toMat, ofRows, Matrix.mul_apply, Fin.sum_univ_two, vecHead, vecTail]
  have h2 : toMat 3 1 (ofRows 3 1 [[-6], [5], [0]]) = exFrame * toMat 2 1 (ofRows 2 1 [[5], [6]]) := by
    ext i j; fin_cases i <;> fin_cases j <;> simp [exFrame, toMat, ofRows, Matrix.mul_apply, Fin.sum_univ_two]
  refine ⟨h1, h2, ?_⟩
  rcases C132_least_squares exFrame_orth exQuarter_orth (k := 1) (a := ofRows 2 2 [[1, 2], [3, 4]])
    (a' := ofRows 3 2 [[4, -3], [-2, 1], [0, 0]]) (b := ofRows 2 1 [[5], [6]]) (b' := ofRows 3 1 [[-6], [5], [0]]) ⟨rfl, rfl⟩
    ⟨rfl, rfl⟩ ⟨rfl, rfl⟩ ⟨rfl, rfl⟩ le_rfl h1 h2 with
    ⟨-, x, x', hx, hx', -, -, e⟩ | ⟨hn, -⟩
  · exact ⟨x, x', hx, hx', e⟩
  · refine absurd ?_ hn
    rw [← mulVec_injective_iff]
    apply Matrix.mulVec_injective_of_isUnit
    rw [Matrix.isUnit_iff_isUnit_det, Matrix.det_fin_two]
    norm_num [toMat, ofRows]

/-- The hypotheses of `C132_cholesky` and of `C132_eigvalsh`. -/
example : (toMat 2 2 exSpd).IsSymm ∧ (∃ l, cholesky exSpd = .ok l) ∧
    toMat 2 2 (ofRows 2 2 [[5, -2], [-2, 4]]) = exQuarter * toMat 2 2 exSpd * exQuarterᵀ := by
  have h := exSpd_posDef
  refine ⟨h.1, (C09_cholesky_iff_posDef exSpd ⟨rfl, rfl⟩ h.1).1.2 h, ?_⟩
  ext i j; fin_cases i <;> fin_cases j <;> simp [exQuarter, exSpd, toMat, ofRows, Matrix.mul_apply, Fin.sum_univ_two, vecHead, vecTail]

/-- The hypotheses of `C132_minimum_norm`: `3 x + 4 y = 5`, and `-4 x + 3 y = 5` in the space turned by a quarter, placed in three
dimensions. -/
example : toMat 1 3 (ofRows 1 3 [[-4, 3, 0]]) = (1 : Matrix (Fin 1) (Fin 1) ℝ) * toMat 1 2 (ofRows 1 2 [[3, 4]]) * exFrameᵀ ∧
    LinearIndependent ℝ (toMat 1 2 (ofRows 1 2 [[3, 4]])).row := by
  constructor
  · ext i j; fin_cases i; fin_cases j <;> simp [exFrame, toMat, ofRows, Matrix.mul_apply, Fin.sum_univ_two]
  · refine LinearIndependent.of_subsingleton 0 fun h => ?_
    have := congrFun h 0
    norm_num [toMat, ofRows, Matrix.row] at this

end LinfaLinalg
