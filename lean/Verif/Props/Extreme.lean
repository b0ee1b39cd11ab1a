import Verif.Props.Cross
import Verif.Props.Vectors

/-! # C135: what the largest and the smallest value say about the matrix

Users read the norm, the condition and the definiteness of a matrix off the values. The statements below mention none of the
exact spectra: only lengths of `A x` and values of `x · A x`. -/

namespace LinfaLinalg

open Matrix

/-! ## Products of orthogonal and diagonal matrices -/

theorem len_orth {m n : Nat} {U : Matrix (Fin m) (Fin n) ℝ} (hU : Uᵀ * U = 1) (y : Fin n → ℝ) : len (U *ᵥ y) = len y := by
  have h : len (U *ᵥ y) ^ 2 = len y ^ 2 := by rw [len_sq, len_sq, mulVec_orth_dot hU]
  exact (pow_left_inj₀ (len_nonneg _) (len_nonneg _) two_ne_zero).1 h

theorem len_diag_le {n : Nat} {d : Fin n → ℝ} {t : ℝ} (h : ∀ j, |d j| ≤ t) (ht : 0 ≤ t) (y : Fin n → ℝ) :
    len (diagonal d *ᵥ y) ≤ t * len y := by
  refine abs_le_of_sq_le_sq' ?_ (mul_nonneg ht (len_nonneg _)) |>.2
  rw [mul_pow, len_sq, len_sq, dotProduct, dotProduct, Finset.mul_sum]
  refine Finset.sum_le_sum fun j _ => ?_
  rw [mulVec_diagonal]
  have : d j ^ 2 ≤ t ^ 2 := sq_le_sq' (by linarith [neg_abs_le (d j), h j]) ((le_abs_self _).trans (h j))
  nlinarith [mul_self_nonneg (y j)]

theorem le_len_diag {n : Nat} {d : Fin n → ℝ} {t : ℝ} (h : ∀ j, t ≤ |d j|) (ht : 0 ≤ t) (y : Fin n → ℝ) :
    t * len y ≤ len (diagonal d *ᵥ y) := by
  refine abs_le_of_sq_le_sq' ?_ (len_nonneg _) |>.2
  rw [mul_pow, len_sq, len_sq, dotProduct, dotProduct, Finset.mul_sum]
  refine Finset.sum_le_sum fun j _ => ?_
  rw [mulVec_diagonal]
  have : t ^ 2 ≤ d j ^ 2 := by rw [← sq_abs (d j)]; exact pow_le_pow_left₀ ht (h j) 2
  nlinarith [mul_self_nonneg (y j)]

/-- The unit vector that the factors take to `d j` times a unit vector. -/
theorem factor_col {m n r : Nat} {U : Matrix (Fin m) (Fin r) ℝ} {V : Matrix (Fin r) (Fin n) ℝ} (hU : Uᵀ * U = 1)
    (hV : V * Vᵀ = 1) (d : Fin r → ℝ) (j : Fin r) :
    len (Vᵀ *ᵥ Pi.single j 1) = 1 ∧ len ((U * diagonal d * V) *ᵥ (Vᵀ *ᵥ Pi.single j 1)) = |d j| := by
  have e1 : len (Pi.single j (1 : ℝ)) = 1 := by
    rw [len, Finset.sum_eq_single j (fun l _ hl => by rw [Pi.single_eq_of_ne hl]; norm_num) (by simp)]
    simp
  constructor
  · rw [len_orth (by rw [transpose_transpose]; exact hV), e1]
  · rw [mulVec_mulVec, Matrix.mul_assoc, hV, Matrix.mul_one, ← mulVec_mulVec, len_orth hU]
    have : diagonal d *ᵥ Pi.single j 1 = Pi.single j (d j) := by
      ext i
      rw [mulVec_diagonal]
      by_cases h : i = j
      · subst h; simp
      · simp [h]
    rw [this, len, Finset.sum_eq_single j (fun l _ hl => by rw [Pi.single_eq_of_ne hl]; norm_num) (by simp)]
    rw [Pi.single_eq_same, Real.sqrt_sq_eq_abs]

/-- Every run of `svd` returns values that belong to some factors. -/
theorem svd_factors {m n : Nat} (fuel : Nat) (a : Arr2 ℝ) (cu cv : Bool) (ha : HasShape a m n) (u vt : Option (Arr2 ℝ))
    (s : Arr1 ℝ) (h : svd fuel a cu cv = .ok (u, s, vt)) :
    0 < min m n ∧ s.len = min m n ∧ (∀ j < min m n, 0 ≤ s.get j) ∧
    ∃ (U : Matrix (Fin m) (Fin (min m n)) ℝ) (V : Matrix (Fin (min m n)) (Fin n) ℝ), Uᵀ * U = 1 ∧ V * Vᵀ = 1 ∧
      frob (toMat m n a - U * diagonal (toVec (min m n) s) * V) ≤ svdTol (toMat m n a) := by
  have hne : m ≠ 0 ∧ n ≠ 0 := by
    by_contra hz
    have : svd fuel a cu cv = throwErr .emptyMatrix := by
      unfold svd svdGo
      rw [if_pos (by rw [ha.1, ha.2]; omega)]
    rw [this] at h
    exact absurd h (by simp [throwErr])
  have hf := C36_svd_flags fuel a cu cv
  rcases h0 : svd fuel a true true with f | ⟨u0, s0, vt0⟩
  · rw [hf.2 f h0] at h
    exact absurd h (by simp)
  · obtain ⟨-, -, h1⟩ := hf.1 _ _ _ h0
    rw [h1] at h
    injection h with h
    have hs : s0 = s := by
      simp only [Prod.mk.injEq] at h
      exact h.2.1
    subst hs
    obtain ⟨U0, V0, e1, e2, sU, sV, sl, o1, o2, hs0⟩ := (C34_svd_orthonormal fuel a ha hne.1 hne.2).2 _ _ _ h0
    subst e1; subst e2
    exact ⟨by omega, sl, hs0, _, _, o1, o2, C35_svd_residual fuel a U0 V0 s0 ha h0⟩

theorem exists_argmax {d : Nat} (hd : 0 < d) (f : Nat → ℝ) : ∃ j < d, ∀ i < d, f i ≤ f j := by
  obtain ⟨j, hj, h⟩ := Finset.exists_max_image (Finset.range d) f ⟨0, Finset.mem_range.2 hd⟩
  exact ⟨j, Finset.mem_range.1 hj, fun i hi => h i (Finset.mem_range.2 hi)⟩

theorem exists_argmin {d : Nat} (hd : 0 < d) (f : Nat → ℝ) : ∃ j < d, ∀ i < d, f j ≤ f i := by
  obtain ⟨j, hj, h⟩ := Finset.exists_min_image (Finset.range d) f ⟨0, Finset.mem_range.2 hd⟩
  exact ⟨j, Finset.mem_range.1 hj, fun i hi => h i (Finset.mem_range.2 hi)⟩

/-- `top` and `bot` are a largest and a smallest of the first `d` values. -/
def Extremes (d : Nat) (s : Nat → ℝ) (bot top : ℝ) : Prop :=
  (∃ j < d, s j = bot) ∧ (∃ j < d, s j = top) ∧ ∀ j < d, bot ≤ s j ∧ s j ≤ top

theorem exists_extremes {d : Nat} (hd : 0 < d) (s : Nat → ℝ) : ∃ bot top, Extremes d s bot top := by
  obtain ⟨j, hj, h1⟩ := exists_argmin hd s
  obtain ⟨k, hk, h2⟩ := exists_argmax hd s
  exact ⟨s j, s k, ⟨j, hj, rfl⟩, ⟨k, hk, rfl⟩, fun i hi => ⟨h1 i hi, h2 i hi⟩⟩

/-- The largest stretch of a matrix near a product of factors. -/
theorem factors_norm {m n r : Nat} {A : Matrix (Fin m) (Fin n) ℝ} {U : Matrix (Fin m) (Fin r) ℝ} {V : Matrix (Fin r) (Fin n) ℝ}
    (hU : Uᵀ * U = 1) (hV : V * Vᵀ = 1) {s : Nat → ℝ} (hs0 : ∀ j < r, 0 ≤ s j) {ε : ℝ}
    (hE : frob (A - U * diagonal (fun j : Fin r => s j) * V) ≤ ε) {bot top : ℝ} (hx : Extremes r s bot top) :
    (∀ x : Fin n → ℝ, len (A *ᵥ x) ≤ (top + ε) * len x) ∧ ∃ x : Fin n → ℝ, len x = 1 ∧ top - ε ≤ len (A *ᵥ x) := by
  obtain ⟨-, ⟨j, hj, rfl⟩, hb⟩ := hx
  have hEx : ∀ x : Fin n → ℝ, len ((A - U * diagonal (fun j : Fin r => s j) * V) *ᵥ x) ≤ ε * len x := fun x =>
    (len_mulVec_le _ x).trans (mul_le_mul_of_nonneg_right hE (len_nonneg x))
  refine ⟨fun x => ?_, ?_⟩
  · have h1 : len ((U * diagonal (fun j : Fin r => s j) * V) *ᵥ x) ≤ s j * len x := by
      rw [← mulVec_mulVec, ← mulVec_mulVec, len_orth hU]
      refine (len_diag_le (fun i => ?_) (hs0 j hj) _).trans (mul_le_mul_of_nonneg_left ?_ (hs0 j hj))
      · rw [abs_of_nonneg (hs0 i i.2)]
        exact (hb i i.2).2
      · refine abs_le_of_sq_le_sq' ?_ (len_nonneg _) |>.2
        rw [len_sq, len_sq]
        have := bessel (W := Vᵀ) (by rw [transpose_transpose]; exact hV) x
        rwa [transpose_transpose] at this
    have h2 := len_add_le ((U * diagonal (fun j : Fin r => s j) * V) *ᵥ x)
      ((A - U * diagonal (fun j : Fin r => s j) * V) *ᵥ x)
    rw [← add_mulVec, add_sub_cancel] at h2
    have h3 := hEx x
    linarith
  · obtain ⟨e1, e2⟩ := factor_col hU hV (fun j : Fin r => s j) ⟨j, hj⟩
    refine ⟨_, e1, ?_⟩
    have h2 := len_sub_le (A *ᵥ (Vᵀ *ᵥ Pi.single ⟨j, hj⟩ 1))
      ((A - U * diagonal (fun j : Fin r => s j) * V) *ᵥ (Vᵀ *ᵥ Pi.single ⟨j, hj⟩ 1))
    rw [← sub_mulVec, sub_sub_cancel, e2] at h2
    have h3 := hEx (Vᵀ *ᵥ Pi.single ⟨j, hj⟩ 1)
    rw [e1, mul_one] at h3
    rw [abs_of_nonneg (hs0 j hj)] at h2
    linarith

/-- The smallest stretch of a matrix near a product of factors with as many values as columns. -/
theorem factors_smallest {m n r : Nat} {A : Matrix (Fin m) (Fin n) ℝ} {U : Matrix (Fin m) (Fin r) ℝ}
    {V : Matrix (Fin r) (Fin n) ℝ} (hU : Uᵀ * U = 1) (hV : V * Vᵀ = 1) (hr : r = n) {s : Nat → ℝ} (hs0 : ∀ j < r, 0 ≤ s j)
    {ε : ℝ} (hE : frob (A - U * diagonal (fun j : Fin r => s j) * V) ≤ ε) {bot top : ℝ} (hx : Extremes r s bot top) :
    SvMin A (bot - ε) ∧ ∃ x : Fin n → ℝ, len x = 1 ∧ len (A *ᵥ x) ≤ bot + ε := by
  obtain ⟨⟨j, hj, rfl⟩, -, hb⟩ := hx
  subst hr
  constructor
  · have hB : SvMin (U * diagonal (fun j : Fin r => s j) * V) (s j) := fun x => by
      rw [← mulVec_mulVec, ← mulVec_mulVec, len_orth hU, ← len_orth (mul_eq_one_comm.1 hV) x]
      refine le_len_diag (fun i => ?_) (hs0 j hj) _
      rw [abs_of_nonneg (hs0 i i.2)]
      exact (hb i i.2).1
    have := hB.perturb hE
    rwa [add_sub_cancel] at this
  · obtain ⟨e1, e2⟩ := factor_col hU hV (fun j : Fin r => s j) ⟨j, hj⟩
    refine ⟨_, e1, ?_⟩
    have h2 := len_add_le ((U * diagonal (fun j : Fin r => s j) * V) *ᵥ (Vᵀ *ᵥ Pi.single ⟨j, hj⟩ 1))
      ((A - U * diagonal (fun j : Fin r => s j) * V) *ᵥ (Vᵀ *ᵥ Pi.single ⟨j, hj⟩ 1))
    rw [← add_mulVec, add_sub_cancel, e2] at h2
    have h3 := (len_mulVec_le (A - U * diagonal (fun j : Fin r => s j) * V)
      (Vᵀ *ᵥ Pi.single ⟨j, hj⟩ 1)).trans (mul_le_mul_of_nonneg_right hE (len_nonneg _))
    rw [e1, mul_one] at h3
    rw [abs_of_nonneg (hs0 j hj)] at h2
    linarith

/-! ## Singular values -/

/-- **C135, norm**: the largest value returned by `svd` is the largest factor by which the matrix stretches a vector, up to
the error of the run. Exact arithmetic; every matrix and all flags. -/
theorem C135_norm {m n : Nat} (fuel : Nat) (a : Arr2 ℝ) (cu cv : Bool) (ha : HasShape a m n) (u vt : Option (Arr2 ℝ))
    (s : Arr1 ℝ) (h : svd fuel a cu cv = .ok (u, s, vt)) :
    ∃ bot top, Extremes s.len s.get bot top ∧
      (∀ x : Fin n → ℝ, len (toMat m n a *ᵥ x) ≤ (top + svdTol (toMat m n a)) * len x) ∧
      ∃ x : Fin n → ℝ, len x = 1 ∧ top - svdTol (toMat m n a) ≤ len (toMat m n a *ᵥ x) := by
  obtain ⟨hd, sl, hs0, U, V, hU, hV, hE⟩ := svd_factors fuel a cu cv ha u vt s h
  obtain ⟨bot, top, hx⟩ := exists_extremes hd s.get
  rw [sl]
  exact ⟨bot, top, hx, factors_norm hU hV hs0 hE hx⟩

/-- **C135, smallest stretch**: for a matrix with at least as many rows as columns, the smallest value returned by `svd` is
the smallest factor by which it stretches a vector, up to the error of the run. This is the number `c` with which C122 bounds
the errors of the solvers. -/
theorem C135_smallest {m n : Nat} (fuel : Nat) (a : Arr2 ℝ) (cu cv : Bool) (ha : HasShape a m n) (hnm : n ≤ m)
    (u vt : Option (Arr2 ℝ)) (s : Arr1 ℝ) (h : svd fuel a cu cv = .ok (u, s, vt)) :
    ∃ bot top, Extremes s.len s.get bot top ∧ SvMin (toMat m n a) (bot - svdTol (toMat m n a)) ∧
      ∃ x : Fin n → ℝ, len x = 1 ∧ len (toMat m n a *ᵥ x) ≤ bot + svdTol (toMat m n a) := by
  obtain ⟨hd, sl, hs0, U, V, hU, hV, hE⟩ := svd_factors fuel a cu cv ha u vt s h
  obtain ⟨bot, top, hx⟩ := exists_extremes hd s.get
  rw [sl]
  exact ⟨bot, top, hx, factors_smallest hU hV (min_eq_right hnm) hs0 hE hx⟩

/-- **C135, invertibility**: a matrix all of whose values from `svd` exceed the error of the run is accepted by the test of the
QR decomposition, so that `least_squares`, `solve` and `inverse` do not refuse it. -/
theorem C135_invertible {m n : Nat} (fuel : Nat) (a : Arr2 ℝ) (cu cv : Bool) (ha : HasShape a m n) (hnm : n ≤ m)
    (u vt : Option (Arr2 ℝ)) (s : Arr1 ℝ) (h : svd fuel a cu cv = .ok (u, s, vt))
    (hs : ∀ i < s.len, svdTol (toMat m n a) < s.get i) : ∃ q, qrInto a = .ok q ∧ q.isInvertible = true := by
  obtain ⟨_, _, ⟨⟨j, hj, rfl⟩, -⟩, hmin, -⟩ := C135_smallest fuel a cu cv ha hnm u vt s h
  obtain ⟨q, hq, -⟩ := qrInto_real a ha hnm
  refine ⟨q, hq, (C18_is_invertible a ha hnm q hq).2 ?_⟩
  rw [← mulVec_injective_iff]
  refine (injective_iff_map_eq_zero (toMat m n a).mulVecLin).2 fun x hx => ?_
  have h1 := hmin x
  rw [mulVecLin_apply] at hx
  have h0 : len (0 : Fin m → ℝ) = 0 := by simp [len]
  rw [hx, h0] at h1
  have h2 := hs j hj
  have h3 : len x = 0 := le_antisymm (by
    by_contra hc
    push Not at hc
    nlinarith) (len_nonneg x)
  exact len_eq_zero h3

/-! ## Eigenvalues -/

theorem quad_le (E : Matrix (Fin n) (Fin n) ℝ) (x : Fin n → ℝ) : |x ⬝ᵥ E *ᵥ x| ≤ frob E * len x ^ 2 := by
  refine (abs_dot_le_len _ _).trans ?_
  have := mul_le_mul_of_nonneg_left (len_mulVec_le E x) (len_nonneg x)
  nlinarith

/-- Every run of `eigvalsh` returns values that belong to some vectors. -/
theorem eigvalsh_factors {n : Nat} (fuel : Nat) (a : Arr2 ℝ) (ha : HasShape a n n) (hs : (toMat n n a).IsSymm) (vals : Arr1 ℝ)
    (h : eigvalsh fuel a = .ok vals) : vals.len = n ∧ ∃ (Q : Matrix (Fin n) (Fin n) ℝ) (σ : Equiv.Perm (Fin n)), Qᵀ * Q = 1 ∧
      frob (toMat n n a - Q * diagonal (fun i => vals.get (σ i)) * Qᵀ) ≤ eigTol (toMat n n a) := by
  obtain ⟨q, hq⟩ := (C27_eigvalsh_eq_eigh fuel a).1 vals |>.1 h
  have hw := eigh_real fuel a ha hs
  rw [hq] at hw
  obtain ⟨σ, h1, h2, h3, h4⟩ := hw
  rw [real_epsilon] at h4
  exact ⟨h1, _, σ, h3, h4⟩

theorem quad_values {n : Nat} (Q : Matrix (Fin n) (Fin n) ℝ) (d : Fin n → ℝ) (x : Fin n → ℝ) :
    x ⬝ᵥ (Q * diagonal d * Qᵀ) *ᵥ x = ∑ i, d i * (Qᵀ *ᵥ x) i ^ 2 := by
  rw [← mulVec_mulVec, ← mulVec_mulVec, dotProduct_comm, mulVec_dot, dotProduct_comm]
  refine Finset.sum_congr rfl fun i _ => ?_
  rw [mulVec_diagonal]
  ring

/-- The quadratic form of a matrix near a product of factors. -/
theorem factors_quadratic {n : Nat} {A Q : Matrix (Fin n) (Fin n) ℝ} (hQ : Qᵀ * Q = 1) {d : Nat → ℝ} {σ : Equiv.Perm (Fin n)}
    {ε : ℝ} (hE : frob (A - Q * diagonal (fun i => d (σ i)) * Qᵀ) ≤ ε) {bot top : ℝ} (hx : Extremes n d bot top) :
    (∀ x : Fin n → ℝ, (bot - ε) * len x ^ 2 ≤ x ⬝ᵥ A *ᵥ x ∧ x ⬝ᵥ A *ᵥ x ≤ (top + ε) * len x ^ 2) ∧
    ∀ i < n, ∃ x : Fin n → ℝ, len x = 1 ∧ |x ⬝ᵥ A *ᵥ x - d i| ≤ ε := by
  obtain ⟨-, -, hb⟩ := hx
  have hQ' : Q * Qᵀ = 1 := mul_eq_one_comm.1 hQ
  have hA : ∀ x : Fin n → ℝ, |x ⬝ᵥ A *ᵥ x - ∑ i, d (σ i) * (Qᵀ *ᵥ x) i ^ 2| ≤ ε * len x ^ 2 := fun x => by
    rw [← quad_values Q (fun i => d (σ i)) x, ← dotProduct_sub, ← sub_mulVec]
    exact (quad_le _ x).trans (mul_le_mul_of_nonneg_right hE (sq_nonneg _))
  have hx : ∀ x : Fin n → ℝ, ∑ i, (Qᵀ *ᵥ x) i ^ 2 = len x ^ 2 := fun x => by
    rw [← len_orth (U := Qᵀ) (by rw [transpose_transpose]; exact hQ') x, len_sq]
    exact Finset.sum_congr rfl fun i _ => sq _
  refine ⟨fun x => ?_, fun i h => ?_⟩
  · have h1 := abs_le.1 (hA x)
    have h2 : bot * len x ^ 2 ≤ ∑ i, d (σ i) * (Qᵀ *ᵥ x) i ^ 2 := by
      rw [← hx, Finset.mul_sum]
      exact Finset.sum_le_sum fun i _ => mul_le_mul_of_nonneg_right (hb _ (σ i).2).1 (sq_nonneg _)
    have h3 : ∑ i, d (σ i) * (Qᵀ *ᵥ x) i ^ 2 ≤ top * len x ^ 2 := by
      rw [← hx, Finset.mul_sum]
      exact Finset.sum_le_sum fun i _ => mul_le_mul_of_nonneg_right (hb _ (σ i).2).2 (sq_nonneg _)
    constructor <;> linarith [h1.1, h1.2]
  · have e1 : len (Pi.single (σ.symm ⟨i, h⟩) (1 : ℝ)) = 1 := by
      rw [len, Finset.sum_eq_single (σ.symm ⟨i, h⟩) (fun l _ hl => by rw [Pi.single_eq_of_ne hl]; norm_num) (by simp)]
      simp
    refine ⟨Q *ᵥ Pi.single (σ.symm ⟨i, h⟩) 1, by rw [len_orth hQ, e1], ?_⟩
    have h1 := hA (Q *ᵥ Pi.single (σ.symm ⟨i, h⟩) 1)
    rw [len_orth hQ, e1, one_pow, mul_one, mulVec_mulVec _ Qᵀ Q, hQ, Matrix.one_mulVec,
      Finset.sum_eq_single (σ.symm ⟨i, h⟩) (fun l _ hl => by rw [Pi.single_eq_of_ne hl]; norm_num) (by simp)] at h1
    simpa using h1

/-- **C135, quadratic form**: the largest and the smallest value returned by `eigvalsh` bound `x · A x / x · x` from both sides,
and every value is attained up to the error of the run. Exact arithmetic; every symmetric matrix. -/
theorem C135_quadratic_form {n : Nat} (fuel : Nat) (a : Arr2 ℝ) (ha : HasShape a n n) (hn : 0 < n) (hs : (toMat n n a).IsSymm)
    (vals : Arr1 ℝ) (h : eigvalsh fuel a = .ok vals) :
    ∃ bot top, Extremes n vals.get bot top ∧
      (∀ x : Fin n → ℝ, (bot - eigTol (toMat n n a)) * len x ^ 2 ≤ x ⬝ᵥ toMat n n a *ᵥ x ∧
        x ⬝ᵥ toMat n n a *ᵥ x ≤ (top + eigTol (toMat n n a)) * len x ^ 2) ∧
      ∀ i < n, ∃ x : Fin n → ℝ, len x = 1 ∧ |x ⬝ᵥ toMat n n a *ᵥ x - vals.get i| ≤ eigTol (toMat n n a) := by
  obtain ⟨sl, Q, σ, hQ, hE⟩ := eigvalsh_factors fuel a ha hs vals h
  obtain ⟨bot, top, hx⟩ := exists_extremes hn vals.get
  exact ⟨bot, top, hx, factors_quadratic hQ hE hx⟩

/-- **C135, definiteness**: values of `eigvalsh` beyond the error of the run decide what `cholesky` does. If all exceed it, then
`cholesky` succeeds; if one is below its negative, then `cholesky` reports that the matrix is not positive definite. -/
theorem C135_definite {n : Nat} (fuel : Nat) (a : Arr2 ℝ) (ha : HasShape a n n) (hs : (toMat n n a).IsSymm) (vals : Arr1 ℝ)
    (h : eigvalsh fuel a = .ok vals) :
    ((∀ i < n, eigTol (toMat n n a) < vals.get i) → ∃ l, cholesky a = .ok l) ∧
    ((∃ i < n, vals.get i ≤ -eigTol (toMat n n a)) → cholesky a = .error (.err .notPositiveDefinite)) := by
  obtain ⟨c1, c2⟩ := C09_cholesky_iff_posDef a ha hs
  constructor
  · intro hv
    refine c1.2 ⟨hs, fun x hx => ?_⟩
    have hn : 0 < n := by
      rcases Nat.eq_zero_or_pos n with rfl | hn
      · exact absurd (Subsingleton.elim x 0) hx
      · exact hn
    obtain ⟨_, _, ⟨⟨lo, hlo, rfl⟩, -⟩, hq, -⟩ := C135_quadratic_form fuel a ha hn hs vals h
    have h1 := (hq x).1
    have h2 := hv lo hlo
    have h3 : 0 < len x ^ 2 := by
      rcases (len_nonneg x).lt_or_eq with h | h
      · positivity
      · exact absurd (len_eq_zero h.symm) hx
    exact lt_of_lt_of_le (mul_pos (by linarith) h3) h1
  · rintro ⟨i, hi, hv⟩
    refine c2 fun hpd => ?_
    obtain ⟨-, -, -, -, hq⟩ := C135_quadratic_form fuel a ha (by omega) hs vals h
    obtain ⟨x, hx, he⟩ := hq i hi
    have h1 := hpd.2 x (by
      rintro rfl
      simp [len] at hx)
    have h2 := (abs_le.1 he).2
    linarith

/-! ## The hypotheses are met -/

theorem frob_lt_four {A : Matrix (Fin 2) (Fin 2) ℝ} (h : ∀ i j, |A i j| ≤ 2) : frob A ≤ 4 := by
  refine Real.sqrt_le_iff.2 ⟨by norm_num, ?_⟩
  have hs : ∀ i j, A i j ^ 2 ≤ 4 := fun i j => by
    rw [← sq_abs]
    nlinarith [h i j, abs_nonneg (A i j)]
  simp only [Fin.sum_univ_two]
  linarith [hs 0 0, hs 0 1, hs 1 0, hs 1 1]

/-- `eigvalsh` returns on `[[2, 1], [1, 2]]`, and its values are large enough for `C135_definite`. -/
example : ∃ vals, eigvalsh 1 (ofRows 2 2 [[2, 1], [1, 2]]) = .ok vals ∧
    (∀ i < 2, eigTol (toMat 2 2 (ofRows 2 2 [[2, 1], [1, 2]])) < vals.get i) ∧
    ∃ l, cholesky (ofRows 2 2 [[2, 1], [1, 2]] : Arr2 ℝ) = .ok l := by
  have hs : (toMat 2 2 (ofRows 2 2 [[2, 1], [1, 2]])).IsSymm := by
    ext i j
    fin_cases i <;> fin_cases j <;> simp [ofRows]
  obtain ⟨⟨vals, vecs⟩, h⟩ := eigh_two (ofRows 2 2 [[2, 1], [1, 2]]) ⟨rfl, rfl⟩
  have hv := ((C27_eigvalsh_eq_eigh 1 (ofRows 2 2 [[2, 1], [1, 2]] : Arr2 ℝ)).1 vals).2 ⟨vecs, h⟩
  obtain ⟨-, -, -, -, hq⟩ := C135_quadratic_form (n := 2) 1 _ ⟨rfl, rfl⟩ two_pos hs vals hv
  have hf : frob (toMat 2 2 (ofRows 2 2 [[2, 1], [1, 2]])) ≤ 4 := frob_lt_four fun i j => by
    fin_cases i <;> fin_cases j <;> simp [ofRows]
  have ht : eigTol (toMat 2 2 (ofRows 2 2 [[2, 1], [1, 2]])) ≤ 1 / 4 := by
    unfold eigTol
    norm_num at hf ⊢
    linarith
  have hall : ∀ i < 2, eigTol (toMat 2 2 (ofRows 2 2 [[2, 1], [1, 2]])) < vals.get i := fun i hi => by
    obtain ⟨x, hx, he⟩ := hq i hi
    have h1 : x ⬝ᵥ toMat 2 2 (ofRows 2 2 [[2, 1], [1, 2]]) *ᵥ x = len x ^ 2 + (x 0 + x 1) ^ 2 := by
      rw [len_sq]
      simp [dotProduct, mulVec, Fin.sum_univ_two, ofRows]
      ring
    rw [h1, hx] at he
    have h2 := (abs_le.1 he).2
    nlinarith [sq_nonneg (x 0 + x 1)]
  exact ⟨vals, hv, hall, (C135_definite (n := 2) 1 _ ⟨rfl, rfl⟩ hs vals hv).1 hall⟩

/-- The values of `[[1, 2], [2, 1]]` show that `cholesky` refuses it. -/
example : ∃ vals, eigvalsh 1 (ofRows 2 2 [[1, 2], [2, 1]]) = .ok vals ∧
    (∃ i < 2, vals.get i ≤ -eigTol (toMat 2 2 (ofRows 2 2 [[1, 2], [2, 1]]))) ∧
    cholesky (ofRows 2 2 [[1, 2], [2, 1]] : Arr2 ℝ) = .error (.err .notPositiveDefinite) := by
  have hs : (toMat 2 2 (ofRows 2 2 [[1, 2], [2, 1]])).IsSymm := by
    ext i j
    fin_cases i <;> fin_cases j <;> simp [ofRows]
  obtain ⟨⟨vals, vecs⟩, h⟩ := eigh_two (ofRows 2 2 [[1, 2], [2, 1]]) ⟨rfl, rfl⟩
  have hv := ((C27_eigvalsh_eq_eigh 1 (ofRows 2 2 [[1, 2], [2, 1]] : Arr2 ℝ)).1 vals).2 ⟨vecs, h⟩
  obtain ⟨_, _, ⟨⟨lo, hlo, rfl⟩, -⟩, hq, -⟩ := C135_quadratic_form (n := 2) 1 _ ⟨rfl, rfl⟩ two_pos hs vals hv
  have hf : frob (toMat 2 2 (ofRows 2 2 [[1, 2], [2, 1]])) ≤ 4 := frob_lt_four fun i j => by
    fin_cases i <;> fin_cases j <;> simp [ofRows]
  have ht : eigTol (toMat 2 2 (ofRows 2 2 [[1, 2], [2, 1]])) ≤ 1 / 4 := by
    unfold eigTol
    norm_num at hf ⊢
    linarith
  have hex : ∃ i < 2, vals.get i ≤ -eigTol (toMat 2 2 (ofRows 2 2 [[1, 2], [2, 1]])) := ⟨lo, hlo, by
    have h1 := (hq ![1, -1]).1
    rw [len_sq] at h1
    generalize eigTol (toMat 2 2 (ofRows 2 2 [[1, 2], [2, 1]])) = t at h1 ht ⊢
    simp [dotProduct, mulVec, Fin.sum_univ_two, ofRows] at h1
    norm_num at h1
    linarith⟩
  exact ⟨vals, hv, hex, (C135_definite (n := 2) 1 _ ⟨rfl, rfl⟩ hs vals hv).2 hex⟩

/-- The values of `[[1, 1], [0, 1]]` are large enough for `C135_invertible`. -/
example : ∃ u s vt, svd 1 svdShear false false = .ok (u, s, vt) ∧
    (∀ i < s.len, svdTol (toMat 2 2 svdShear) < s.get i) ∧ ∃ q, qrInto svdShear = .ok q ∧ q.isInvertible = true := by
  obtain ⟨⟨u, s, vt⟩, h⟩ := svdGo_small svdShear false false (NdFloat.epsilon * NdFloat.ofRat 5) 0
    (by simp [svdShear, ofRows]) (by simp [svdShear, ofRows]) (by simp [svdShear, ofRows])
  obtain ⟨_, _, ⟨-, -, hmin⟩, -, x, hx, he⟩ := C135_smallest (m := 2) (n := 2) 1 svdShear false false ⟨rfl, rfl⟩ le_rfl u vt s h
  have hf : frob (toMat 2 2 svdShear) ≤ 4 := frob_lt_four fun i j => by
    fin_cases i <;> fin_cases j <;> simp [svdShear, ofRows]
  have ht : svdTol (toMat 2 2 svdShear) < 1 / 4 := by
    unfold svdTol
    norm_num at hf ⊢
    linarith
  have hl : 1 / 2 ≤ len (toMat 2 2 svdShear *ᵥ x) := by
    refine abs_le_of_sq_le_sq' ?_ (len_nonneg _) |>.2
    have h1 := len_sq x
    rw [hx, dotProduct, Fin.sum_univ_two] at h1
    rw [len_sq]
    simp [dotProduct, mulVec, Fin.sum_univ_two, ofRows, svdShear]
    nlinarith [sq_nonneg (2 * x 0 + 3 * x 1), sq_nonneg (x 0 + x 1)]
  have hall : ∀ i < s.len, svdTol (toMat 2 2 svdShear) < s.get i := fun i hi => by
    have := (hmin i hi).1
    linarith
  exact ⟨u, s, vt, h, hall, C135_invertible (m := 2) (n := 2) 1 svdShear false false ⟨rfl, rfl⟩ le_rfl u vt s h hall⟩

end LinfaLinalg
