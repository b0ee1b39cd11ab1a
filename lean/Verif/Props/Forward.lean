import Verif.Proofs.ForwardErr
import Verif.Props.RoundingOrth
import Verif.Props.RoundingQr

/-! # C122: how accurate the solutions are

The scalar type is `Rnd R`, the standard model of floating-point arithmetic. `c` is a lower bound for the smallest singular
value (`SvMin`), so `frob A / c` is an upper bound for the condition number. -/

namespace LinfaLinalg

open Matrix

variable {R : StdModel}

theorem svMin_iff_sq {m n : Nat} {A : Matrix (Fin m) (Fin n) ℝ} {c : ℝ} (hc : 0 ≤ c) :
    SvMin A c ↔ ∀ x : Fin n → ℝ, c ^ 2 * ∑ i, x i ^ 2 ≤ ∑ r, (A *ᵥ x) r ^ 2 := by
  have key : ∀ x : Fin n → ℝ, c * len x ≤ len (A *ᵥ x) ↔ c ^ 2 * ∑ i, x i ^ 2 ≤ ∑ r, (A *ᵥ x) r ^ 2 := fun x => by
    have e : c * len x = Real.sqrt (c ^ 2 * ∑ i, x i ^ 2) := by
      rw [Real.sqrt_mul (sq_nonneg c), Real.sqrt_sq hc]; rfl
    rw [e, len, Real.sqrt_le_sqrt_iff (Finset.sum_nonneg fun i _ => sq_nonneg _)]
  exact ⟨fun h x => (key x).1 (h x), fun h x => (key x).2 (h x)⟩

theorem triPart_diag_ne {n : Nat} {uplo : UPLO} {a : Matrix (Fin n) (Fin n) ℝ} {c : ℝ} (hc : 0 < c)
    (h : SvMin (triPart uplo a) c) (i : Fin n) : a i i ≠ 0 := by
  intro h0
  have hdet : (triPart uplo a).det = 0 := by
    cases uplo with
    | upper =>
      rw [Matrix.det_of_isUpperTriangular]
      · exact Finset.prod_eq_zero (Finset.mem_univ i) (by simp [triPart, h0])
      · intro r c hrc
        have hrc' : (c : Nat) < r := hrc
        simp only [triPart, Matrix.of_apply, inTri_upper]
        rw [if_neg (by omega)]
    | lower =>
      rw [Matrix.det_of_isLowerTriangular]
      · exact Finset.prod_eq_zero (Finset.mem_univ i) (by simp [triPart, h0])
      · intro r c hrc
        have hrc' : (r : Nat) < c := hrc
        simp only [triPart, Matrix.of_apply, inTri_lower]
        rw [if_neg (by omega)]
  obtain ⟨x, hx, h1⟩ := Matrix.exists_mulVec_eq_zero_iff.2 hdet
  exact hx (h.inj hc h1)

/-- **C122, triangular systems**: the relative error of `solve_triangular` is at most `2 γ_n` times the condition number. -/
theorem C122_triangular {n m : Nat} (a b : Arr2 (Rnd R)) (uplo : UPLO) (ha : HasShape a n n) (hb : HasShape b n m)
    (hn : n * R.u < 1) (c : ℝ) (hc : 0 < c) (hA : SvMin (triPart uplo (toMat n n (Rnd.vals a))) c)
    (hsmall : 2 * (gam R.u n * frob (triPart uplo (toMat n n (Rnd.vals a)))) ≤ c) :
    ∃ x, solveTriangular a b uplo = .ok x ∧ HasShape x n m ∧ ∀ (j : Fin m) (ξ : Fin n → ℝ),
      triPart uplo (toMat n n (Rnd.vals a)) *ᵥ ξ = (toMat n m (Rnd.vals b)).col j →
      len ((toMat n m (Rnd.vals x)).col j - ξ) ≤
        2 * gam R.u n * (frob (triPart uplo (toMat n n (Rnd.vals a))) / c) * len ξ := by
  obtain ⟨x, hx, sx, h⟩ := C65_backward_error a b uplo ha hb (fun i hi => triPart_diag_ne hc hA ⟨i, hi⟩) hn
  refine ⟨x, hx, sx, fun j ξ hξ => ?_⟩
  obtain ⟨E, hE, e⟩ := h j
  have hEn := frob_le_of_entries (B := absMat (triPart uplo (toMat n n (Rnd.vals a)))) (gam_nonneg R.u_nonneg hn) hE
  rw [frob_absMat] at hEn
  have := fwd_square (f := 0) (x' := (toMat n m (Rnd.vals x)).col j) hc hA hEn hsmall hξ (by rw [add_zero]; exact e)
  refine this.trans (le_of_eq ?_)
  have : len (0 : Fin n → ℝ) = 0 := by simp [len]
  rw [this]
  field_simp
  ring

/-- The factors which `qr` needs to succeed. -/
theorem svMin_strict {m n : Nat} {A : Matrix (Fin m) (Fin n) ℝ} {c e : ℝ} (hc : 0 < c) (hA : SvMin A c) (he0 : 0 ≤ e)
    (he : 2 * e ≤ c) (x : Fin n → ℝ) (hx : x ≠ 0) : e ^ 2 * ∑ i, x i ^ 2 < ∑ r, (A *ᵥ x) r ^ 2 := by
  refine lt_of_lt_of_le (mul_lt_mul_of_pos_right (pow_lt_pow_left₀ (by linarith : e < c) he0 (by norm_num)) ?_)
    ((svMin_iff_sq hc.le).1 hA x)
  have h0 : 0 ≤ ∑ i, x i ^ 2 := Finset.sum_nonneg fun i _ => sq_nonneg _
  refine lt_of_le_of_ne h0 fun h => hx ?_
  funext i
  have := (Finset.sum_eq_zero_iff_of_nonneg (fun i _ => sq_nonneg (x i))).1 h.symm i (Finset.mem_univ i)
  exact pow_eq_zero_iff (by norm_num) |>.1 this

theorem reflErrs_le_solveErr {m n : Nat} (hu : ((5 * m + 31 : Nat) : ℝ) * R.u < 1) (hn : n * R.u < 1) :
    reflErrs R m n ≤ solveErr R m n := by
  have h1 := reflErrs_nonneg (n := n) hu
  have h2 := gam_nonneg R.u_nonneg hn
  unfold solveErr
  have := mul_nonneg h2 (by linarith : 0 ≤ 1 + reflErrs R m n)
  linarith

/-- **C122, `solve` by QR**: the relative error is at most `2 (solveErr + reflErrs)` times the condition number. -/
theorem C122_solve {n k : Nat} (a b : Arr2 (Rnd R)) (ha : HasShape a n n) (hb : HasShape b n k)
    (hu : ((5 * n + 31 : Nat) : ℝ) * R.u < 1) (c : ℝ) (hc : 0 < c) (hA : SvMin (toMat n n (Rnd.vals a)) c)
    (hsmall : 2 * (solveErr R n n * frob (toMat n n (Rnd.vals a))) ≤ c) :
    ∃ q x, qrInto a = .ok q ∧ q.solveInto b = .ok x ∧ leastSquares a b = .ok x ∧ HasShape x n k ∧
      ∀ (j : Fin k) (ξ : Fin n → ℝ), toMat n n (Rnd.vals a) *ᵥ ξ = (toMat n k (Rnd.vals b)).col j →
      len ((toMat n k (Rnd.vals x)).col j - ξ) ≤
        2 * (solveErr R n n + reflErrs R n n) * (frob (toMat n n (Rnd.vals a)) / c) * len ξ := by
  have hn : (n : ℝ) * R.u < 1 := lt_of_le_of_lt (mul_le_mul_of_nonneg_right (by
    exact_mod_cast (by omega : n ≤ 5 * n + 31)) R.u_nonneg) hu
  have hr0 := reflErrs_nonneg (n := n) hu
  have hrs := reflErrs_le_solveErr hu hn
  have hF := frob_nonneg (toMat n n (Rnd.vals a))
  obtain ⟨q, x, hq, -, hx, hls⟩ := C80_succeeds a b ha hb le_rfl hu (svMin_strict hc hA (mul_nonneg hr0 hF) (by
    have := mul_le_mul_of_nonneg_right hrs hF; linarith))
  obtain ⟨sx, h⟩ := C80_square a b ha hb hu q hq x hx
  refine ⟨q, x, hq, hx, hls, sx, fun j ξ hξ => ?_⟩
  obtain ⟨E, f, h1, h2, h3⟩ := h j
  have hE := frob_le_of_colNorm (hr0.trans hrs) h1
  have := fwd_square (f := f) (x' := (toMat n k (Rnd.vals x)).col j) hc hA hE hsmall hξ h3
  have hb2 : len f ≤ reflErrs R n n * (frob (toMat n n (Rnd.vals a)) * len ξ) := by
    refine le_trans h2 (mul_le_mul_of_nonneg_left ?_ hr0)
    have := len_mulVec_le (toMat n n (Rnd.vals a)) ξ
    rw [hξ] at this
    exact this
  refine this.trans ((mul_le_mul_of_nonneg_left (add_le_add le_rfl hb2) (by positivity)).trans (le_of_eq ?_))
  field_simp

theorem mulVec_inv_col {n : Nat} {a : Matrix (Fin n) (Fin n) ℝ} (hdet : IsUnit a.det) (j : Fin n) :
    a *ᵥ (a⁻¹).col j = (toMat n n (Rnd.vals (Arr2.eye n n : Arr2 (Rnd R)))).col j := by
  have e := Matrix.mul_nonsing_inv _ hdet
  funext r
  have := congrFun (congrFun e r) j
  rw [Matrix.mul_apply] at this
  refine Eq.trans this ?_
  simp only [Matrix.col_apply, toMat_apply, Rnd.vals, Arr2.eye]
  by_cases hrj : r = j
  · rw [hrj, Matrix.one_apply_eq, if_pos rfl]; rfl
  · rw [Matrix.one_apply_ne hrj, if_neg (fun h => hrj (Fin.ext h))]; rfl

/-- **C122, `inverse`**: so is the relative error of the inverse. -/
theorem C122_inverse {n : Nat} (a : Arr2 (Rnd R)) (ha : HasShape a n n)
    (hu : ((5 * n + 31 : Nat) : ℝ) * R.u < 1) (c : ℝ) (hc : 0 < c) (hA : SvMin (toMat n n (Rnd.vals a)) c)
    (hsmall : 2 * (solveErr R n n * frob (toMat n n (Rnd.vals a))) ≤ c) :
    ∃ q x, qrInto a = .ok q ∧ q.inverse = .ok x ∧ HasShape x n n ∧
      frob (toMat n n (Rnd.vals x) - (toMat n n (Rnd.vals a))⁻¹) ≤
        2 * (solveErr R n n + reflErrs R n n) * (frob (toMat n n (Rnd.vals a)) / c) * frob (toMat n n (Rnd.vals a))⁻¹ := by
  obtain ⟨q, x, hq, hx, -, sx, h⟩ := C122_solve a (Arr2.eye n n) ha (k := n) ⟨rfl, rfl⟩ hu c hc hA hsmall
  have hr0 := reflErrs_nonneg (n := n) hu
  have hn : (n : ℝ) * R.u < 1 := lt_of_le_of_lt (mul_le_mul_of_nonneg_right (by
    exact_mod_cast (by omega : n ≤ 5 * n + 31)) R.u_nonneg) hu
  have hrs := reflErrs_le_solveErr hu hn
  have hF := frob_nonneg (toMat n n (Rnd.vals a))
  obtain ⟨q', W, hq', hs⟩ := qrInto_rnd a ha le_rfl hu
  rw [hq] at hq'
  cases hq'
  have hdet : IsUnit (toMat n n (Rnd.vals a)).det := by
    rw [isUnit_iff_ne_zero]
    intro h0
    obtain ⟨y, hy, h1⟩ := Matrix.exists_mulVec_eq_zero_iff.2 h0
    exact hy (hA.inj hc h1)
  refine ⟨q, x, hq, ?_, sx, frob_le_of_colNorm (mul_nonneg (mul_nonneg (by norm_num) (by linarith)) (div_nonneg hF hc.le))
    fun j => h j ((toMat n n (Rnd.vals a))⁻¹.col j) (mulVec_inv_col hdet j)⟩
  unfold QRDecomp.inverse
  rw [checkSquare_ok (by rw [hs.nr, hs.nc]), ok_bind, hs.len]
  exact hx

/-- **C122, least squares**: the error has a term proportional to the condition number, and a term proportional to its
square times the length of the residual. -/
theorem C122_least_squares {m n k : Nat} (a b : Arr2 (Rnd R)) (ha : HasShape a m n) (hb : HasShape b m k) (hnm : n ≤ m)
    (hu : ((5 * m + 31 : Nat) : ℝ) * R.u < 1) (c : ℝ) (hc : 0 < c) (hA : SvMin (toMat m n (Rnd.vals a)) c)
    (hsmall : 2 * (solveErr R m n * frob (toMat m n (Rnd.vals a))) ≤ c) :
    ∃ x, leastSquares a b = .ok x ∧ HasShape x n k ∧
      ∀ (j : Fin k) (ξ : Fin n → ℝ), IsLsq (toMat m n (Rnd.vals a)) ((toMat m k (Rnd.vals b)).col j) ξ →
      len ((toMat n k (Rnd.vals x)).col j - ξ) ≤
        2 / c * (solveErr R m n * frob (toMat m n (Rnd.vals a)) * len ξ +
          reflErrs R m n * len ((toMat m k (Rnd.vals b)).col j)) +
        4 * (solveErr R m n * frob (toMat m n (Rnd.vals a))) / c ^ 2 *
          len ((toMat m k (Rnd.vals b)).col j - toMat m n (Rnd.vals a) *ᵥ ξ) := by
  have hn : (n : ℝ) * R.u < 1 := lt_of_le_of_lt (mul_le_mul_of_nonneg_right (by
    exact_mod_cast (by omega : n ≤ 5 * m + 31)) R.u_nonneg) hu
  have hr0 := reflErrs_nonneg (n := n) hu
  have hrs := reflErrs_le_solveErr hu hn
  have hF := frob_nonneg (toMat m n (Rnd.vals a))
  obtain ⟨q, x, -, -, -, hls⟩ := C80_succeeds a b ha hb hnm hu (svMin_strict hc hA (mul_nonneg hr0 hF) (by
    have := mul_le_mul_of_nonneg_right hrs hF; linarith))
  obtain ⟨sx, h⟩ := C80_least_squares a b ha hb hnm hu x hls
  refine ⟨x, hls, sx, fun j ξ hξ => ?_⟩
  obtain ⟨E, f, h1, h2, h3⟩ := h j
  have hE := frob_le_of_colNorm (hr0.trans hrs) h1
  have := fwd_lsq (f := f) (x' := (toMat n k (Rnd.vals x)).col j) hc hA hE hsmall hξ
    (fun y => Real.sqrt_le_sqrt (h3 y))
  refine this.trans (add_le_add (mul_le_mul_of_nonneg_left (add_le_add le_rfl ?_) (by positivity)) le_rfl)
  exact h2

/-- **C122, underdetermined systems**: the relative error of `solve_tr`. -/
theorem C122_solve_tr {m n k : Nat} (a b : Arr2 (Rnd R)) (ha : HasShape a m n) (hb : HasShape b n k) (hnm : n ≤ m)
    (hu : ((5 * m + 31 : Nat) : ℝ) * R.u < 1) (c : ℝ) (hc : 0 < c) (hA : SvMin (toMat m n (Rnd.vals a)) c)
    (hsmall : 2 * (solveErr R m n * frob (toMat m n (Rnd.vals a))) ≤ c) :
    ∃ q x, qrInto a = .ok q ∧ q.solveTrInto b = .ok x ∧ HasShape x m k ∧
      ∀ (j : Fin k) (ξ : Fin m → ℝ), IsMinNorm (toMat m n (Rnd.vals a)) ((toMat n k (Rnd.vals b)).col j) ξ →
      len ((toMat m k (Rnd.vals x)).col j - ξ) ≤
        (3 * applyErr R m n + 4 * solveErr R m n * (frob (toMat m n (Rnd.vals a)) / c)) * len ξ := by
  have hlt : ∀ k : Nat, k ≤ 5 * m + 31 → (k : ℝ) * R.u < 1 := fun k hk => lt_of_le_of_lt
    (mul_le_mul_of_nonneg_right (by exact_mod_cast hk) R.u_nonneg) hu
  have hn : (n : ℝ) * R.u < 1 := hlt n (by omega)
  have hr0 := reflErrs_nonneg (n := n) hu
  have hrs := reflErrs_le_solveErr hu hn
  have hF := frob_nonneg (toMat m n (Rnd.vals a))
  obtain ⟨q, x, hq, hx⟩ := C81_solve_tr_succeeds a b ha hb hnm hu (svMin_strict hc hA (mul_nonneg hr0 hF) (by
    have := mul_le_mul_of_nonneg_right hrs hF; linarith))
  obtain ⟨sx, h⟩ := C81_solve_tr a b ha hb hnm hu q hq x hx
  refine ⟨q, x, hq, hx, sx, fun j ξ hξ => ?_⟩
  obtain ⟨E, z, h1, h2, h3, h4⟩ := h j
  have hE := frob_le_of_colNorm (hr0.trans hrs) h1
  have hz := fwd_minNorm (z := z) hc hA hE hsmall hξ ⟨h2, fun y hy => Real.sqrt_le_sqrt (h3 y hy)⟩
  have happ : 0 ≤ applyErr R m n := by
    have := gam_nonneg R.u_nonneg (hlt (n + 1) (by omega))
    unfold applyErr
    positivity
  have h4' : len ((toMat m k (Rnd.vals x)).col j - z) ≤ applyErr R m n * len z := h4
  have hl := len_nonneg ξ
  have hz2 : len z ≤ 3 * len ξ := by
    have t1 := len_add_le (z - ξ) ξ
    rw [sub_add_cancel] at t1
    have t2 : 4 * (solveErr R m n * frob (toMat m n (Rnd.vals a))) / c ≤ 2 := by
      rw [div_le_iff₀ hc]; linarith
    have t3 := mul_le_mul_of_nonneg_right t2 hl
    linarith
  have t1 := len_add_le ((toMat m k (Rnd.vals x)).col j - z) (z - ξ)
  rw [sub_add_sub_cancel] at t1
  have t2 := mul_le_mul_of_nonneg_left hz2 happ
  have t3 : 4 * (solveErr R m n * frob (toMat m n (Rnd.vals a))) / c * len ξ =
      4 * solveErr R m n * (frob (toMat m n (Rnd.vals a)) / c) * len ξ := by ring
  rw [add_mul, ← t3]
  linarith

/-! ## Positive definite systems -/

/-- A lower bound for the smallest eigenvalue is one for the smallest singular value. -/
theorem svMin_of_quad {n : Nat} {A : Matrix (Fin n) (Fin n) ℝ} {c : ℝ} (h : ∀ x : Fin n → ℝ, c * ∑ i, x i ^ 2 ≤ x ⬝ᵥ A *ᵥ x) :
    SvMin A c := by
  intro x
  have h1 := (h x).trans ((le_abs_self _).trans (abs_dot_le_len x (A *ᵥ x)))
  have h2 : ∑ i, x i ^ 2 = len x ^ 2 := (Real.sq_sqrt (Finset.sum_nonneg fun i _ => sq_nonneg _)).symm
  rw [h2] at h1
  rcases (len_nonneg x).eq_or_lt with h0 | h0
  · rw [← h0, mul_zero]; exact len_nonneg _
  · refine le_of_mul_le_mul_left ?_ h0
    linarith [h1, (by ring : c * len x ^ 2 = len x * (c * len x))]

theorem frob_absLL {n : Nat} {A L : Matrix (Fin n) (Fin n) ℝ} {g : ℝ} (hg : g < 1)
    (h : ∀ i, |(L * L.transpose - A) i i| ≤ g * (absMat L * (absMat L).transpose) i i) :
    frob (absMat L * (absMat L)ᵀ) ≤ A.trace / (1 - g) := by
  have h1 := fun i j => abs_mul_transpose_le hg h i j
  have hq : 0 < 1 - g := by linarith
  have htr : 0 ≤ A.trace := Finset.sum_nonneg fun i _ => (h1 i i).1
  refine abs_le_of_sq_le_sq' ?_ (div_nonneg htr hq.le) |>.2
  rw [frob_sq, div_pow, sq A.trace, Matrix.trace, Finset.sum_mul_sum, Finset.sum_div]
  refine Finset.sum_le_sum fun i _ => ?_
  rw [Finset.sum_div]
  refine Finset.sum_le_sum fun j _ => ?_
  have h0 : 0 ≤ (absMat L * (absMat L)ᵀ) i j := by
    rw [Matrix.mul_apply]; exact Finset.sum_nonneg fun k _ => mul_nonneg (abs_nonneg _) (abs_nonneg _)
  refine (pow_le_pow_left₀ h0 (h1 i j).2 2).trans (le_of_eq ?_)
  rw [div_pow, Real.sq_sqrt (mul_nonneg (h1 i i).1 (h1 j j).1)]
  rfl

/-- **C122, `solvec`**: on a symmetric matrix whose eigenvalues are at least `c`, the relative error is at most `3 γ`
times `trace A / c`. -/
theorem C122_solvec {n m : Nat} (a b : Arr2 (Rnd R)) (ha : HasShape a n n) (hb : HasShape b n m) (hn : 1 ≤ n)
    (hs : (toMat n n (Rnd.vals a)).IsSymm) (hu : ((3 * n + 2 : Nat) : ℝ) * R.u < 1) (c : ℝ) (hc : 0 < c)
    (hA : ∀ x : Fin n → ℝ, c * ∑ i, x i ^ 2 ≤ x ⬝ᵥ toMat n n (Rnd.vals a) *ᵥ x)
    (hsmall : 4 * n * gam R.u (3 * n + 2) * (toMat n n (Rnd.vals a)).trace ≤ c) :
    ∃ x, solvec a b = .ok x ∧ HasShape x n m ∧ ∀ (j : Fin m) (ξ : Fin n → ℝ),
      toMat n n (Rnd.vals a) *ᵥ ξ = (toMat n m (Rnd.vals b)).col j →
      len ((toMat n m (Rnd.vals x)).col j - ξ) ≤
        3 * gam R.u (3 * n + 2) * ((toMat n n (Rnd.vals a)).trace / c) * len ξ := by
  have h0 := R.u_nonneg
  have hn1 : (1 : ℝ) ≤ n := by exact_mod_cast hn
  have hu2 : ((n + 2 : Nat) : ℝ) * R.u < 1 := lt_of_le_of_lt (mul_le_mul_of_nonneg_right (by
    exact_mod_cast (by omega : n + 2 ≤ 3 * n + 2)) h0) hu
  set γ := gam R.u (3 * n + 2) with hγ
  have hγ0 : 0 ≤ γ := gam_nonneg h0 hu
  have hγ2 : gam R.u (n + 2) ≤ γ := gam_mono h0 (by omega) hu
  have hγ20 : 0 ≤ gam R.u (n + 2) := gam_nonneg h0 hu2
  have hdiag : ∀ i : Fin n, c ≤ (a.get i i).v := fun i => by
    have := hA (Pi.single i 1)
    have e : ∑ j, (Pi.single i (1 : ℝ) : Fin n → ℝ) j ^ 2 = 1 := by
      rw [Finset.sum_eq_single i]
      · simp
      · intro j _ hj; simp [Pi.single_eq_of_ne hj]
      · intro h; exact absurd (Finset.mem_univ _) h
    rw [e, mul_one, Matrix.mulVec_single_one, single_dotProduct, one_mul] at this
    exact this
  have hdle : ∀ i : Fin n, (a.get i i).v ≤ (toMat n n (Rnd.vals a)).trace := fun i =>
    Finset.single_le_sum (f := fun i : Fin n => (a.get i i).v) (fun j _ => hc.le.trans (hdiag j)) (Finset.mem_univ i)
  set t := (toMat n n (Rnd.vals a)).trace with ht
  have hct : c ≤ t := (hdiag ⟨0, hn⟩).trans (hdle _)
  have htp : 0 < t := lt_of_lt_of_le hc hct
  have hnγ : 4 * (n * γ) ≤ c / t := by
    rw [le_div_iff₀ htp]; linarith
  have hct1 : c / t ≤ 1 := (div_le_one htp).2 hct
  have hγn : γ ≤ n * γ := le_mul_of_one_le_left hγ0 hn1
  have hγ4 : γ ≤ 1 / 4 := by linarith
  have hctp : 0 < c / t := div_pos hc htp
  obtain ⟨-, x, hx, sx⟩ := C69_succeeds a b ha hb hs hu2 (c / t) hctp (fun i hi => lt_of_lt_of_le hc (hdiag ⟨i, hi⟩))
    (fun x => by
      refine le_trans ?_ (hA x)
      have : ∑ i : Fin n, (a.get i i).v * x i ^ 2 ≤ t * ∑ i, x i ^ 2 := by
        rw [Finset.mul_sum]
        exact Finset.sum_le_sum fun i _ => mul_le_mul_of_nonneg_right (hdle i) (sq_nonneg _)
      refine (mul_le_mul_of_nonneg_left this hctp.le).trans (le_of_eq ?_)
      field_simp) (by
      have h2 : 2 * (n : ℝ) * gam R.u (n + 2) ≤ 2 * n * γ := mul_le_mul_of_nonneg_left hγ2 (by positivity)
      have h3 : c / t * (3 / 4) ≤ c / t * (1 - gam R.u (n + 2)) := mul_le_mul_of_nonneg_left (by linarith) hctp.le
      linarith)
  refine ⟨x, hx, sx, fun j ξ hξ => ?_⟩
  obtain ⟨l, hl, E, hE, e⟩ := C67_backward_error a b x ha hb hs hu hx j
  obtain ⟨-, -, hLL, -⟩ := C66_backward_error a l ha hs hu2 hl
  have hEn := (frob_le_of_entries hγ0 hE).trans (mul_le_mul_of_nonneg_left
    (frob_absLL (by linarith : gam R.u (n + 2) < 1) fun i => hLL i i) hγ0)
  have hEn2 : frob E ≤ 4 / 3 * (γ * t) := by
    refine hEn.trans ?_
    rw [← ht, mul_div_assoc', div_le_iff₀ (by linarith)]
    have : γ * t * (3 / 4) ≤ γ * t * (1 - gam R.u (n + 2)) := mul_le_mul_of_nonneg_left (by linarith) (by positivity)
    linarith
  have hγt : 4 * (γ * t) ≤ c := by
    have := mul_le_mul_of_nonneg_right hγn htp.le
    linarith
  have := fwd_square (f := 0) (x' := (toMat n m (Rnd.vals x)).col j) hc (svMin_of_quad hA) hEn2 (by linarith) hξ
    (by rw [add_zero]; exact e)
  have hz : len (0 : Fin n → ℝ) = 0 := by simp [len]
  rw [hz, add_zero] at this
  refine this.trans ?_
  have hp : 0 ≤ γ * (t / c) * len ξ := by have := len_nonneg ξ; positivity
  have e2 : 2 / c * (4 / 3 * (γ * t) * len ξ) = 8 / 3 * (γ * (t / c) * len ξ) := by ring
  rw [e2]
  linarith

/-- **C122, `invc`**: so is the relative error of the inverse. -/
theorem C122_invc {n : Nat} (a : Arr2 (Rnd R)) (ha : HasShape a n n) (hn : 1 ≤ n)
    (hs : (toMat n n (Rnd.vals a)).IsSymm) (hu : ((3 * n + 2 : Nat) : ℝ) * R.u < 1) (c : ℝ) (hc : 0 < c)
    (hA : ∀ x : Fin n → ℝ, c * ∑ i, x i ^ 2 ≤ x ⬝ᵥ toMat n n (Rnd.vals a) *ᵥ x)
    (hsmall : 4 * n * gam R.u (3 * n + 2) * (toMat n n (Rnd.vals a)).trace ≤ c) :
    ∃ x, invc a = .ok x ∧ HasShape x n n ∧ frob (toMat n n (Rnd.vals x) - (toMat n n (Rnd.vals a))⁻¹) ≤
      3 * gam R.u (3 * n + 2) * ((toMat n n (Rnd.vals a)).trace / c) * frob (toMat n n (Rnd.vals a))⁻¹ := by
  obtain ⟨x, hx, sx, h⟩ := C122_solvec a (Arr2.eye n n) ha (m := n) ⟨rfl, rfl⟩ hn hs hu c hc hA hsmall
  have hdet : IsUnit (toMat n n (Rnd.vals a)).det := by
    rw [isUnit_iff_ne_zero]
    intro h0
    obtain ⟨y, hy, h1⟩ := Matrix.exists_mulVec_eq_zero_iff.2 h0
    exact hy ((svMin_of_quad hA).inj hc h1)
  have htr : 0 ≤ (toMat n n (Rnd.vals a)).trace := Finset.sum_nonneg fun i _ => by
    have := hA (Pi.single i 1)
    rw [Matrix.mulVec_single_one, single_dotProduct, one_mul] at this
    exact (mul_nonneg hc.le (Finset.sum_nonneg fun i _ => sq_nonneg _)).trans this
  refine ⟨x, ?_, sx, frob_le_of_colNorm (mul_nonneg (mul_nonneg (by norm_num) (gam_nonneg R.u_nonneg hu))
    (div_nonneg htr hc.le)) fun j => h j ((toMat n n (Rnd.vals a))⁻¹.col j) (mulVec_inv_col hdet j)⟩
  unfold invc
  rw [ha.1]
  exact hx

/-- **C122, `least_squares` on wide matrices**: near the solution of least length. -/
theorem C122_least_squares_wide {m n k : Nat} (a b : Arr2 (Rnd R)) (ha : HasShape a m n) (hb : HasShape b m k) (hmn : m < n)
    (hu : ((5 * n + 31 : Nat) : ℝ) * R.u < 1) (c : ℝ) (hc : 0 < c) (hA : SvMin (toMat m n (Rnd.vals a))ᵀ c)
    (hsmall : 2 * (solveErr R n m * frob (toMat m n (Rnd.vals a))) ≤ c) :
    ∃ x, leastSquares a b = .ok x ∧ HasShape x n k ∧
      ∀ (j : Fin k) (ξ : Fin n → ℝ), IsMinNorm (toMat m n (Rnd.vals a))ᵀ ((toMat m k (Rnd.vals b)).col j) ξ →
      len ((toMat n k (Rnd.vals x)).col j - ξ) ≤
        (3 * applyErr R n m + 4 * solveErr R n m * (frob (toMat m n (Rnd.vals a)) / c)) * len ξ := by
  have e : toMat n m (Rnd.vals a.t) = (toMat m n (Rnd.vals a))ᵀ := rfl
  obtain ⟨q, x, hq, hx, sx, h⟩ := C122_solve_tr a.t b ⟨ha.2, ha.1⟩ hb hmn.le hu c hc hA (by
    rw [e, frob_transpose]; exact hsmall)
  rw [e, frob_transpose] at h
  refine ⟨x, ?_, sx, h⟩
  unfold leastSquares
  rw [if_neg (by rw [ha.1, ha.2]; omega), hq]
  exact hx

/-! ## Cases which meet the conditions -/

/-- In double precision, for the triangular matrix `[[2, 0], [1, 3]]`. -/
example (b : Arr2 (Rnd .double)) (hb : HasShape b 2 3) : ∃ x, solveTriangular (exRnd .double) b .lower = .ok x ∧
    ∀ (j : Fin 3) (ξ : Fin 2 → ℝ), !![(2 : ℝ), 0; 1, 3] *ᵥ ξ = (toMat 2 3 (Rnd.vals b)).col j →
      len ((toMat 2 3 (Rnd.vals x)).col j - ξ) ≤ 2 * gam StdModel.double.u 2 * (frob !![(2 : ℝ), 0; 1, 3] / 1) * len ξ := by
  have e : triPart .lower (toMat 2 2 (Rnd.vals (exRnd StdModel.double))) = !![2, 0; 1, 3] := by
    rw [exRnd_vals]
    ext i j
    fin_cases i <;> fin_cases j <;> simp [triPart]
  have hf : frob !![(2 : ℝ), 0; 1, 3] ≤ 4 := by
    refine Real.sqrt_le_iff.2 ⟨by norm_num, ?_⟩
    simp [Fin.sum_univ_two]; norm_num
  obtain ⟨x, h1, -, h2⟩ := C122_triangular (n := 2) (m := 3) (exRnd .double) b .lower ⟨rfl, rfl⟩ hb
    (by norm_num [StdModel.double]) 1 (by norm_num) (by
      rw [e, svMin_iff_sq (by norm_num)]
      intro x
      simp [Fin.sum_univ_two, Matrix.mulVec, dotProduct]
      nlinarith [sq_nonneg (x 0 + x 1), sq_nonneg (x 0), sq_nonneg (x 1)]) (by
      rw [e]
      have : gam StdModel.double.u 2 ≤ 1 / 8 := by norm_num [gam, StdModel.double]
      have h0 := frob_nonneg !![(2 : ℝ), 0; 1, 3]
      nlinarith)
  rw [e] at h2
  exact ⟨x, h1, h2⟩

/-- In double precision, for the symmetric matrix `[[4, 2], [2, 5]]`. -/
example : ∃ x, invc (exRndSpd .double) = .ok x ∧
    frob (toMat 2 2 (Rnd.vals x) - !![(4 : ℝ), 2; 2, 5]⁻¹) ≤
      3 * gam StdModel.double.u 8 * (9 / 1) * frob (!![(4 : ℝ), 2; 2, 5] : Matrix (Fin 2) (Fin 2) ℝ)⁻¹ := by
  have e : toMat 2 2 (Rnd.vals (exRndSpd StdModel.double)) = !![4, 2; 2, 5] := by
    ext i j
    fin_cases i <;> fin_cases j <;> simp [exRndSpd, Rnd.vals, ofRows]
  have et : (!![(4 : ℝ), 2; 2, 5] : Matrix (Fin 2) (Fin 2) ℝ).trace = 9 := by
    simp [Matrix.trace_fin_two]; norm_num
  obtain ⟨x, h1, -, h2⟩ := C122_invc (n := 2) (exRndSpd .double) ⟨rfl, rfl⟩ (by norm_num) exRndSpd_succeeds.1
    (by norm_num [StdModel.double]) 1 (by norm_num) (fun x => by
      rw [e]
      simp [Fin.sum_univ_two, Matrix.mulVec, dotProduct]
      nlinarith [sq_nonneg (x 0 + x 1), sq_nonneg (x 0), sq_nonneg (x 1)]) (by
      rw [e, et]
      norm_num [gam, StdModel.double])
  rw [e, et] at h2
  exact ⟨x, h1, h2⟩

/-- In double precision, for the matrix `[[2, 0], [1, 3]]`: the inverse is accurate to 12 digits. -/
example : ∃ q x, qrInto (exRnd .double) = .ok q ∧ q.inverse = .ok x ∧
    frob (toMat 2 2 (Rnd.vals x) - !![(2 : ℝ), 0; 1, 3]⁻¹) ≤
      1 / 10 ^ 12 * frob (!![(2 : ℝ), 0; 1, 3] : Matrix (Fin 2) (Fin 2) ℝ)⁻¹ := by
  have hf : frob !![(2 : ℝ), 0; 1, 3] ≤ 4 := by
    refine Real.sqrt_le_iff.2 ⟨by norm_num, ?_⟩
    simp [Fin.sum_univ_two]; norm_num
  have h0 := frob_nonneg !![(2 : ℝ), 0; 1, 3]
  have hs : solveErr StdModel.double 2 2 + reflErrs StdModel.double 2 2 ≤ 1 / 10 ^ 13 := by
    norm_num [solveErr, reflErrs, reflErr, gam, StdModel.double]
  have hr := reflErrs_nonneg (R := .double) (m := 2) (n := 2) (by norm_num [StdModel.double])
  have hrs := reflErrs_le_solveErr (R := .double) (m := 2) (n := 2) (by norm_num [StdModel.double])
    (by norm_num [StdModel.double])
  obtain ⟨q, x, h1, h2, -, h3⟩ := C122_inverse (n := 2) (exRnd .double) ⟨rfl, rfl⟩ (by norm_num [StdModel.double]) 1
    (by norm_num) (by
      rw [exRnd_vals, svMin_iff_sq (by norm_num)]
      intro x
      simp [Fin.sum_univ_two, Matrix.mulVec, dotProduct]
      nlinarith [sq_nonneg (x 0 + x 1), sq_nonneg (x 0), sq_nonneg (x 1)]) (by
      rw [exRnd_vals]
      nlinarith)
  rw [exRnd_vals] at h3
  refine ⟨q, x, h1, h2, h3.trans (mul_le_mul_of_nonneg_right ?_ (frob_nonneg _))⟩
  rw [div_one]
  nlinarith

end LinfaLinalg
