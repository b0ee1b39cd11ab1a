import Verif.Proofs.Diagonal
import Verif.Proofs.DiagonalRnd
import Verif.Props.Agree

/-! # C117: diagonal matrices

On a diagonal matrix no iteration of a main loop runs, whatever the bound on the number of iterations, and the results can
be written down: in exact real arithmetic without an error, and with rounding errors to full relative accuracy, however
far the entries are apart. -/

namespace LinfaLinalg

open Matrix

/-- All entries of `a` away from the diagonal are zero. -/
def IsDiagArr (a : Arr2 ℝ) : Prop := ∀ i j, i < a.nr → j < a.nc → i ≠ j → a.get i j = 0

/-- **C117, eigh**: on a diagonal matrix `eigh` returns the diagonal, in its order, and the identity, without entering its
loop. -/
theorem C117_eigh {n : Nat} (fuel : Nat) (a : Arr2 ℝ) (ha : HasShape a n n) (hd : IsDiagArr a) :
    ∃ v q, eigh fuel a = .ok (v, q) ∧ v.len = n ∧ (∀ i < n, v.get i = a.get i i) ∧ HasShape q n n ∧ toMat n n q = 1 := by
  rcases Nat.eq_zero_or_pos n with rfl | hn
  · refine ⟨Arr1.zeros 0, Arr2.zeros 0 0, ?_, rfl, fun _ h => absurd h (Nat.not_lt_zero _), ⟨rfl, rfl⟩,
      Subsingleton.elim _ _⟩
    unfold eigh eighInto
    rw [symmetricEig_empty fuel a true _ (ha.1.trans ha.2.symm) ha.1]
    rfl
  · have he : (0 : ℝ) ≤ NdFloat.epsilon := by rw [real_epsilon]; positivity
    obtain ⟨v, q, h1, h2, h3, h4, h5⟩ := symmetricEig_diag fuel a true NdFloat.epsilon he ha hn
      (fun i j hi hj => hd i j (by rw [ha.1]; exact hi) (by rw [ha.2]; exact hj))
    obtain ⟨x, rfl⟩ := Option.isSome_iff_exists.1 h4
    refine ⟨v, x, ?_, h2, h3, (h5 x rfl).1, (h5 x rfl).2⟩
    unfold eigh eighInto
    rw [h1]
    rfl

/-- **C117, eigvalsh**: the same values. -/
theorem C117_eigvalsh {n : Nat} (fuel : Nat) (a : Arr2 ℝ) (ha : HasShape a n n) (hd : IsDiagArr a) :
    ∃ v, eigvalsh fuel a = .ok v ∧ v.len = n ∧ ∀ i < n, v.get i = a.get i i := by
  obtain ⟨v, q, h1, h2, h3, -, -⟩ := C117_eigh fuel a ha hd
  exact ⟨v, ((C27_eigvalsh_eq_eigh fuel a).1 v).2 ⟨q, h1⟩, h2, h3⟩

/-- **C117, svd**: on a diagonal matrix, tall or wide, `svd` returns the absolute values of the diagonal, in its order, and
factors whose product is the matrix exactly, without entering its loop. -/
theorem C117_svd {m n : Nat} (fuel : Nat) (a : Arr2 ℝ) (ha : HasShape a m n) (hm : m ≠ 0) (hn : n ≠ 0) (hd : IsDiagArr a)
    (cu cv : Bool) : ∃ u s vt, svd fuel a cu cv = .ok (u, s, vt) ∧ s.len = min m n ∧
      (∀ i < min m n, s.get i = |a.get i i|) ∧ u.isSome = cu ∧ vt.isSome = cv ∧
      ∀ U V, u = some U → vt = some V → HasShape U m (min m n) ∧ HasShape V (min m n) n ∧
        (toMat m (min m n) U)ᵀ * toMat m (min m n) U = 1 ∧ toMat (min m n) n V * (toMat (min m n) n V)ᵀ = 1 ∧
        toMat m n a = toMat m (min m n) U * Matrix.diagonal (fun i : Fin (min m n) => s.get i) * toMat (min m n) n V :=
  svdGo_diag fuel a cu cv _ ha hm hn fun i j hi hj => hd i j (by rw [ha.1]; exact hi) (by rw [ha.2]; exact hj)

/-- **C117, cholesky**: on a diagonal matrix `cholesky` succeeds exactly if the diagonal is positive, and returns the square
roots. -/
theorem C117_cholesky {n : Nat} (a : Arr2 ℝ) (ha : HasShape a n n) (hd : IsDiagArr a) :
    ((∃ l, cholesky a = .ok l) ↔ ∀ i < n, 0 < a.get i i) ∧
    ∀ l, cholesky a = .ok l → toMat n n l = Matrix.diagonal fun i : Fin n => √(a.get i i) := by
  have hA : toMat n n a = Matrix.diagonal fun i : Fin n => a.get i i := by
    ext i j
    rw [toMat_apply, Matrix.diagonal_apply]
    split
    · rename_i h; rw [h]
    · rename_i h
      exact hd i j (by rw [ha.1]; exact i.2) (by rw [ha.2]; exact j.2) fun e => h (Fin.ext e)
  have hs : (toMat n n a).IsSymm := by rw [hA]; exact Matrix.diagonal_transpose _
  have hfwd : ∀ l, cholesky a = .ok l → ∀ i < n, 0 < a.get i i := fun l hl i hi => by
    have hpd := (C09_cholesky_iff_posDef a ha hs).1.1 ⟨l, hl⟩
    have := hpd.2 (Pi.single ⟨i, hi⟩ 1) (fun h => by have := congrFun h ⟨i, hi⟩; simp at this)
    rw [hA] at this
    simpa [Matrix.mulVec_diagonal, dotProduct, Pi.single_apply] using this
  have hbwd : (∀ i < n, 0 < a.get i i) → ∃ l, cholesky a = .ok l ∧
      toMat n n l = Matrix.diagonal fun i : Fin n => √(a.get i i) := fun hp => by
    refine C12_cholesky_unique a ha _ ⟨fun i j hij => Matrix.diagonal_apply_ne _ hij.ne, fun i => ?_⟩ ?_
    · rw [Matrix.diagonal_apply_eq]; exact Real.sqrt_pos.2 (hp i i.2)
    · rw [Matrix.diagonal_transpose, Matrix.diagonal_mul_diagonal, hA]
      congr 1
      funext i
      exact Real.mul_self_sqrt (hp i i.2).le
  refine ⟨⟨fun ⟨l, hl⟩ => hfwd l hl, fun h => ?_⟩, fun l hl => ?_⟩
  · obtain ⟨l, hl, -⟩ := hbwd h
    exact ⟨l, hl⟩
  · obtain ⟨l', hl', e⟩ := hbwd (hfwd l hl)
    rw [hl] at hl'; cases hl'
    exact e

/-- **C117, qr**: on a diagonal matrix with non-zero diagonal, `R` is the absolute value of the diagonal and `Q` holds the
signs. -/
theorem C117_qr {m n : Nat} (a : Arr2 ℝ) (ha : HasShape a m n) (hnm : n ≤ m) (hd : IsDiagArr a)
    (hz : ∀ i < n, a.get i i ≠ 0) : ∃ q Q R, qrInto a = .ok q ∧ q.intoDecomp = .ok (Q, R) ∧
      toMat n n R = Matrix.diagonal (fun i : Fin n => |a.get i i|) ∧
      ∀ (i : Fin m) (j : Fin n), toMat m n Q i j = if (i : Nat) = j then a.get j j / |a.get j j| else 0 := by
  have hA : ∀ (i : Fin m) (j : Fin n), toMat m n a i j = if (i : Nat) = j then a.get j j else 0 := fun i j => by
    rw [toMat_apply]
    split
    · rename_i h; rw [h]
    · rename_i h; exact hd i j (by rw [ha.1]; exact i.2) (by rw [ha.2]; exact j.2) h
  obtain ⟨q, Q, R, hq, hdec, -, -, -, -, oQ, hup, hdg, he⟩ := C16_qr a ha hnm
  have hG : (toMat m n a)ᵀ * toMat m n a = Matrix.diagonal fun j : Fin n => a.get j j * a.get j j := by
    ext i j
    rw [Matrix.mul_apply, Finset.sum_eq_single (⟨i, by omega⟩ : Fin m), Matrix.transpose_apply, hA, hA,
      Matrix.diagonal_apply]
    · simp only [if_true, Fin.ext_iff]
      split
      · rename_i h; rw [h]
      · exact mul_zero _
    · intro k _ hk
      rw [Matrix.transpose_apply, hA, if_neg (fun h => hk (Fin.ext h)), zero_mul]
    · intro h; exact absurd (Finset.mem_univ _) h
  have hRR : (toMat n n R)ᵀ * toMat n n R = Matrix.diagonal fun j : Fin n => a.get j j * a.get j j := by
    rw [← hG, ← he, Matrix.transpose_mul, Matrix.mul_assoc, ← Matrix.mul_assoc (toMat m n Q)ᵀ, oQ, Matrix.one_mul]
  have hpos : ∀ i, 0 < toMat n n R i i := fun i => lt_of_le_of_ne (hdg i) fun h => by
    have hdet := congrArg Matrix.det hRR
    rw [Matrix.det_mul, Matrix.det_transpose, Matrix.det_diagonal,
      Matrix.det_of_isUpperTriangular (fun i j hij => hup i j hij),
      Finset.prod_eq_zero (f := fun k => toMat n n R k k) (Finset.mem_univ i) h.symm, mul_zero] at hdet
    exact Finset.prod_ne_zero_iff.2 (fun (j : Fin n) _ => mul_ne_zero (hz j j.2) (hz j j.2)) hdet.symm
  have hR : toMat n n R = Matrix.diagonal fun i : Fin n => |a.get i i| := by
    have h1 : LowerPos (toMat n n R)ᵀ := ⟨fun i j hij => hup j i hij, hpos⟩
    have h2 : LowerPos (Matrix.diagonal fun i : Fin n => |a.get i i|) :=
      ⟨fun i j hij => Matrix.diagonal_apply_ne _ hij.ne, fun i => by
        rw [Matrix.diagonal_apply_eq]; exact abs_pos.2 (hz i i.2)⟩
    have := LowerPos.unique h1 h2 (by
      rw [Matrix.transpose_transpose, hRR, Matrix.diagonal_transpose, Matrix.diagonal_mul_diagonal]
      simp only [abs_mul_abs_self])
    rw [← Matrix.transpose_transpose (toMat n n R), this, Matrix.diagonal_transpose]
  refine ⟨q, Q, R, hq, hdec, hR, fun i j => ?_⟩
  have := congrFun (congrFun he i) j
  rw [hR, Matrix.mul_diagonal, hA] at this
  have h0 : |a.get j j| ≠ 0 := abs_ne_zero.2 (hz j j.2)
  rw [eq_div_of_mul_eq h0 this]
  split
  · rfl
  · exact zero_div _

/-- A diagonal matrix with entries of both signs, out of order. -/
def exDiag : Arr2 ℝ := ofRows 3 3 [[2, 0, 0], [0, -5, 0], [0, 0, 3]]

example : HasShape exDiag 3 3 ∧ IsDiagArr exDiag ∧ ∀ i < 3, exDiag.get i i ≠ 0 := by
  refine ⟨⟨rfl, rfl⟩, fun i j hi hj => ?_, fun i hi => ?_⟩
  · have hi : i < 3 := hi
    have hj : j < 3 := hj
    interval_cases i <;> interval_cases j <;> simp [exDiag, ofRows]
  · interval_cases i <;> simp [exDiag, ofRows]

/-- `svd` on it, with the bound `0` on the iterations. -/
example : ∃ u s vt, svd 0 exDiag false false = .ok (u, s, vt) ∧ s.get 0 = 2 ∧ s.get 1 = 5 ∧ s.get 2 = 3 := by
  obtain ⟨u, s, vt, h, -, hs, -⟩ := C117_svd (m := 3) (n := 3) 0 exDiag ⟨rfl, rfl⟩ (by omega) (by omega) (by
    intro i j hi hj
    have hi : i < 3 := hi
    have hj : j < 3 := hj
    interval_cases i <;> interval_cases j <;> simp [exDiag, ofRows]) false false
  refine ⟨u, s, vt, h, ?_, ?_, ?_⟩
  · rw [hs 0 (by norm_num)]; simp [exDiag, ofRows]
  · rw [hs 1 (by norm_num)]; simp [exDiag, ofRows]
  · rw [hs 2 (by norm_num)]; simp [exDiag, ofRows]

/-! ## With rounding errors -/

variable {R : StdModel}

/-- All entries of `a` away from the diagonal are zero. -/
def IsDiagRnd (a : Arr2 (Rnd R)) : Prop := ∀ i j, i < a.nr → j < a.nc → i ≠ j → (a.get i j).v = 0

/-- A relative error of `n` roundings. -/
theorem rel_of_near {n : Nat} {x y t : ℝ} (hn : (n : ℝ) * R.u < 1) (ht : Near R.u n t) (h : x = y * t) :
    |x - y| ≤ gam R.u n * |y| := by
  rw [h, show y * t - y = (t - 1) * y by ring, abs_mul]
  exact mul_le_mul_of_nonneg_right (ht.abs_sub_one R.u_nonneg R.u_lt_one hn) (abs_nonneg _)

/-- **C117, eigh, rounded**: `eigh` and `eigvalsh` return every entry of the diagonal with the relative error of two
roundings, also the entries that are tiny beside the largest one. -/
theorem C117_eigh_rounded {n : Nat} (fuel : Nat) (a : Arr2 (Rnd R)) (ha : HasShape a n n) (hd : IsDiagRnd a)
    (he : 0 ≤ R.eps) (hu : ((2 : Nat) : ℝ) * R.u < 1) :
    ∃ v q, eigh fuel a = .ok (v, q) ∧ eigvalsh fuel a = .ok v ∧ v.len = n ∧
      ∀ i < n, |(v.get i).v - (a.get i i).v| ≤ gam R.u 2 * |(a.get i i).v| := by
  rcases Nat.eq_zero_or_pos n with rfl | hn
  · have e : eigh fuel a = .ok (Arr1.zeros 0, Arr2.zeros 0 0) := by
      unfold eigh eighInto
      rw [symmetricEig_empty fuel a true _ (ha.1.trans ha.2.symm) ha.1]
      rfl
    exact ⟨_, _, e, ((C27_eigvalsh_eq_eigh fuel a).1 _).2 ⟨_, e⟩, rfl, fun _ h => absurd h (Nat.not_lt_zero _)⟩
  · obtain ⟨v, q, h1, h2, h3, h4⟩ := symmetricEig_diag_rnd fuel a true NdFloat.epsilon he ha hn
      (fun i j hi hj => hd i j (by rw [ha.1]; exact hi) (by rw [ha.2]; exact hj))
    obtain ⟨x, rfl⟩ := Option.isSome_iff_exists.1 h3
    have e : eigh fuel a = .ok (v, x) := by
      unfold eigh eighInto
      rw [h1]
      rfl
    refine ⟨v, x, e, ((C27_eigvalsh_eq_eigh fuel a).1 _).2 ⟨_, e⟩, h2, fun i hi => ?_⟩
    obtain ⟨t, ht, et⟩ := h4 i hi
    exact rel_of_near hu ht et

/-- **C117, svd, rounded**: `svd` returns the absolute value of every entry of the diagonal with the relative error of
`m + n + 4` roundings. -/
theorem C117_svd_rounded {m n : Nat} (fuel : Nat) (a : Arr2 (Rnd R)) (ha : HasShape a m n) (hm : m ≠ 0) (hn : n ≠ 0)
    (hd : IsDiagRnd a) (hu : ((m + n + 4 : Nat) : ℝ) * R.u < 1) (cu cv : Bool) :
    ∃ u s vt, svd fuel a cu cv = .ok (u, s, vt) ∧ s.len = min m n ∧
      ∀ i < min m n, |(s.get i).v - abs (a.get i i).v| ≤ gam R.u (m + n + 4) * |(a.get i i).v| := by
  obtain ⟨u, s, vt, h1, h2, h3⟩ := svdGo_diag_rnd fuel a cu cv (NdFloat.epsilon * NdFloat.ofRat 5) ha hm hn
    fun i j hi hj => hd i j (by rw [ha.1]; exact hi) (by rw [ha.2]; exact hj)
  refine ⟨u, s, vt, h1, h2, fun i hi => ?_⟩
  obtain ⟨hp, t, ht, et⟩ := h3 i hi
  rw [abs_of_nonneg hp] at et
  have := rel_of_near hu ht et
  rwa [abs_abs] at this

/-- **C117, cholesky, rounded**: on a matrix that is zero below the diagonal (of the rest `cholesky` reads nothing) it
succeeds exactly if the diagonal is positive, and returns a diagonal matrix with the square roots to two roundings. -/
theorem C117_cholesky_rounded {n : Nat} (a : Arr2 (Rnd R)) (ha : HasShape a n n)
    (hd : ∀ i j, i < n → j < i → (a.get i j).v = 0) (hu : ((2 : Nat) : ℝ) * R.u < 1) :
    ((∃ l, cholesky a = .ok l) ↔ ∀ i < n, 0 < (a.get i i).v) ∧
    ∀ l, cholesky a = .ok l → HasShape l n n ∧ (∀ i j, i < n → j < n → i ≠ j → (l.get i j).v = 0) ∧
      ∀ i < n, |(l.get i i).v - √(a.get i i).v| ≤ gam R.u 2 * √(a.get i i).v := by
  obtain ⟨h1, h2⟩ := cholesky_diag_rnd a ha hd
  refine ⟨h1, fun l hl => ?_⟩
  obtain ⟨h3, h4, h5⟩ := h2 l hl
  refine ⟨h3, h4, fun i hi => ?_⟩
  obtain ⟨t, ht, et⟩ := h5 i hi
  have := rel_of_near hu ht et
  rwa [abs_of_nonneg (Real.sqrt_nonneg _)] at this

/-- A diagonal matrix with entries far apart. -/
noncomputable def exFar (R : StdModel) : Arr2 (Rnd R) := ⟨2, 2, fun i j => ⟨if i = j then (10 : ℝ)⁻¹ ^ (300 * i) else 0⟩⟩

example : HasShape (exFar .double) 2 2 ∧ IsDiagRnd (exFar .double) ∧ 0 ≤ StdModel.double.eps ∧
    ((2 : Nat) : ℝ) * StdModel.double.u < 1 ∧ ((2 + 2 + 4 : Nat) : ℝ) * StdModel.double.u < 1 := by
  refine ⟨⟨rfl, rfl⟩, fun i j _ _ hij => if_neg hij, ?_, ?_, ?_⟩ <;> simp only [StdModel.double] <;> norm_num

/-- On it the small eigenvalue comes out to two roundings, while the bound of C84 for all symmetric matrices is relative to
the large one. -/
example : ∃ v, eigvalsh 0 (exFar .double) = .ok v ∧
    |(v.get 1).v - (10 : ℝ)⁻¹ ^ 300| ≤ gam StdModel.double.u 2 * (10 : ℝ)⁻¹ ^ 300 := by
  obtain ⟨v, q, -, h, -, hv⟩ := C117_eigh_rounded (n := 2) 0 (exFar .double) ⟨rfl, rfl⟩
    (fun i j _ _ hij => if_neg hij) (by simp only [StdModel.double]; norm_num) (by simp only [StdModel.double]; norm_num)
  refine ⟨v, h, ?_⟩
  have := hv 1 (by norm_num)
  simpa [exFar] using this

end LinfaLinalg
