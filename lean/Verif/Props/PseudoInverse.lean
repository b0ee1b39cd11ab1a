import Verif.Props.Extreme
import Verif.Props.LowRank
import Verif.Props.Forward

/-! # C137: solving linear systems with the factors of `svd`

The other common use of `svd`: divide by the singular values that are not negligible. The result is compared with the
Moore–Penrose inverse and with the answer of `least_squares`. -/

namespace LinfaLinalg

open Matrix

/-- `Vᵀ diag(1/s_j) Uᵀ`, with `0` instead of `1/s_j` where `s_j ≤ cut`. -/
noncomputable def svdSolve {m n r : Nat} (cut : ℝ) (U : Matrix (Fin m) (Fin r) ℝ) (s : Fin r → ℝ)
    (V : Matrix (Fin r) (Fin n) ℝ) : Matrix (Fin n) (Fin m) ℝ :=
  fun i l => ∑ j : Fin r, if cut < s j then V j i * U l j / s j else 0

/-- `P` is the Moore–Penrose inverse of `B`: the four equations of Penrose. -/
structure IsPinv {m n : Nat} (B : Matrix (Fin m) (Fin n) ℝ) (P : Matrix (Fin n) (Fin m) ℝ) : Prop where
  bpb : B * P * B = B
  pbp : P * B * P = P
  left : (B * P)ᵀ = B * P
  right : (P * B)ᵀ = P * B

section algebra
variable {m n r : Nat} {cut : ℝ} {U : Matrix (Fin m) (Fin r) ℝ} {s : Fin r → ℝ} {V : Matrix (Fin r) (Fin n) ℝ}

theorem svdSolve_eq : svdSolve cut U s V = Vᵀ * diagonal (fun j => if cut < s j then (s j)⁻¹ else 0) * Uᵀ := by
  ext i l
  rw [svdSolve, mul_apply]
  refine Finset.sum_congr rfl fun j _ => ?_
  rw [mul_diagonal, transpose_apply, transpose_apply]
  split_ifs
  · rw [div_eq_mul_inv]; ring
  · ring

theorem diag_cut (h0 : 0 ≤ cut) : (diagonal fun j => if cut < s j then s j else 0) *
    (diagonal fun j => if cut < s j then (s j)⁻¹ else 0) = diagonal fun j => if cut < s j then (1 : ℝ) else 0 := by
  rw [diagonal_mul_diagonal]
  congr 1
  funext j
  split_ifs with h
  · exact mul_inv_cancel₀ (by linarith)
  · exact mul_zero _

theorem diag_cut' (h0 : 0 ≤ cut) : (diagonal fun j => if cut < s j then (s j)⁻¹ else 0) *
    (diagonal fun j => if cut < s j then s j else 0) = diagonal fun j => if cut < s j then (1 : ℝ) else 0 := by
  rw [diagonal_mul_diagonal]
  congr 1
  funext j
  split_ifs with h
  · exact inv_mul_cancel₀ (by linarith)
  · exact mul_zero _

theorem svdSolve_left (hV : V * Vᵀ = 1) (h0 : 0 ≤ cut) :
    U * diagonal (fun j => if cut < s j then s j else 0) * V * svdSolve cut U s V =
      U * diagonal (fun j => if cut < s j then (1 : ℝ) else 0) * Uᵀ := by
  rw [svdSolve_eq]
  calc _ = U * (diagonal (fun j => if cut < s j then s j else 0) * (V * Vᵀ) *
        diagonal (fun j => if cut < s j then (s j)⁻¹ else 0)) * Uᵀ := by simp only [Matrix.mul_assoc]
    _ = _ := by rw [hV, Matrix.mul_one, diag_cut h0]

theorem svdSolve_right (hU : Uᵀ * U = 1) (h0 : 0 ≤ cut) :
    svdSolve cut U s V * (U * diagonal (fun j => if cut < s j then s j else 0) * V) =
      Vᵀ * diagonal (fun j => if cut < s j then (1 : ℝ) else 0) * V := by
  rw [svdSolve_eq]
  calc _ = Vᵀ * (diagonal (fun j => if cut < s j then (s j)⁻¹ else 0) * (Uᵀ * U) *
        diagonal (fun j => if cut < s j then s j else 0)) * V := by simp only [Matrix.mul_assoc]
    _ = _ := by rw [hU, Matrix.mul_one, diag_cut' h0]

/-- Dividing by the large values inverts the matrix made of the large triples. -/
theorem svdSolve_pinv (hU : Uᵀ * U = 1) (hV : V * Vᵀ = 1) (h0 : 0 ≤ cut) :
    IsPinv (U * diagonal (fun j => if cut < s j then s j else 0) * V) (svdSolve cut U s V) := by
  constructor
  · rw [svdSolve_left hV h0]
    calc _ = U * (diagonal (fun j => if cut < s j then (1 : ℝ) else 0) * (Uᵀ * U) *
          diagonal (fun j => if cut < s j then s j else 0)) * V := by simp only [Matrix.mul_assoc]
      _ = _ := by
        rw [hU, Matrix.mul_one, diagonal_mul_diagonal]
        congr 3
        funext j
        split_ifs <;> simp
  · rw [svdSolve_right hU h0, svdSolve_eq]
    calc _ = Vᵀ * (diagonal (fun j => if cut < s j then (1 : ℝ) else 0) * (V * Vᵀ) *
          diagonal (fun j => if cut < s j then (s j)⁻¹ else 0)) * Uᵀ := by simp only [Matrix.mul_assoc]
      _ = _ := by
        rw [hV, Matrix.mul_one, diagonal_mul_diagonal]
        congr 3
        funext j
        split_ifs <;> simp
  · rw [svdSolve_left hV h0]
    simp only [transpose_mul, transpose_transpose, diagonal_transpose, Matrix.mul_assoc]
  · rw [svdSolve_right hU h0]
    simp only [transpose_mul, transpose_transpose, diagonal_transpose, Matrix.mul_assoc]

end algebra

/-- The Moore–Penrose inverse gives a least squares solution. -/
theorem IsPinv.lsq {m n : Nat} {B : Matrix (Fin m) (Fin n) ℝ} {P : Matrix (Fin n) (Fin m) ℝ} (h : IsPinv B P)
    (b : Fin m → ℝ) : IsLsq B b (P *ᵥ b) := by
  intro y
  have h1 : Bᵀ *ᵥ (B *ᵥ (P *ᵥ b) - b) = 0 := by
    have : Bᵀ * (B * P) = Bᵀ := by
      rw [← h.left, ← transpose_mul, h.bpb]
    rw [mulVec_sub, mulVec_mulVec, mulVec_mulVec, Matrix.mul_assoc, this, sub_self]
  set r := B *ᵥ (P *ᵥ b) - b with hr
  have e : B *ᵥ y - b = r + B *ᵥ (y - P *ᵥ b) := by rw [mulVec_sub, hr]; abel
  have h2 : r ⬝ᵥ (B *ᵥ (y - P *ᵥ b)) = 0 := by rw [dotProduct_comm, mulVec_dot, h1, dotProduct_zero]
  refine abs_le_of_sq_le_sq' ?_ (len_nonneg _) |>.2
  rw [e, len_sq, len_sq, add_dotProduct, dotProduct_add, dotProduct_add, dotProduct_comm (B *ᵥ (y - P *ᵥ b)) r, h2]
  have := len_sq (B *ᵥ (y - P *ᵥ b))
  nlinarith [sq_nonneg (len (B *ᵥ (y - P *ᵥ b)))]

/-- Of all least squares solutions it gives the shortest. -/
theorem IsPinv.shortest {m n : Nat} {B : Matrix (Fin m) (Fin n) ℝ} {P : Matrix (Fin n) (Fin m) ℝ} (h : IsPinv B P)
    (b : Fin m → ℝ) (y : Fin n → ℝ) (hy : IsLsq B b y) : len (P *ᵥ b) ≤ len y := by
  have hn := hy.normal
  have e : P *ᵥ (B *ᵥ y) = P *ᵥ b := by
    have h1 : P * (P.transpose * Bᵀ) = P := by
      rw [← transpose_mul, h.left, ← Matrix.mul_assoc, h.pbp]
    have h2 : P *ᵥ (b - B *ᵥ y) = 0 := by
      calc P *ᵥ (b - B *ᵥ y) = (P * (Pᵀ * Bᵀ)) *ᵥ (b - B *ᵥ y) := by rw [h1]
        _ = P *ᵥ (Pᵀ *ᵥ (Bᵀ *ᵥ (b - B *ᵥ y))) := by rw [mulVec_mulVec, mulVec_mulVec, Matrix.mul_assoc]
        _ = 0 := by rw [hn, mulVec_zero, mulVec_zero]
    rw [mulVec_sub, sub_eq_zero] at h2
    exact h2.symm
  set p := P *ᵥ b with hp
  have h3 : (P * B) *ᵥ p = p := by
    rw [hp, mulVec_mulVec, h.pbp]
  have h4 : p ⬝ᵥ (y - p) = 0 := by
    have : (P * B) *ᵥ (y - p) = 0 := by
      rw [mulVec_sub, h3, ← mulVec_mulVec, e, sub_self]
    calc p ⬝ᵥ (y - p) = (P * B) *ᵥ p ⬝ᵥ (y - p) := by rw [h3]
      _ = p ⬝ᵥ (P * B)ᵀ *ᵥ (y - p) := mulVec_dot _ _ _
      _ = 0 := by rw [h.right, this, dotProduct_zero]
  refine abs_le_of_sq_le_sq' ?_ (len_nonneg _) |>.2
  have e2 : y = p + (y - p) := by abel
  rw [e2, len_sq, len_sq, add_dotProduct, dotProduct_add, dotProduct_add, dotProduct_comm (y - p) p, h4]
  have := len_sq (y - p)
  nlinarith [sq_nonneg (len (y - p))]

/-- **C137, pseudo-inverse**: divide by the values of `svd` above a cutoff. The result is the Moore–Penrose inverse of a matrix
that differs from the given one by the error of `svd` and the values that were left out; so it gives the shortest least
squares solution for that matrix. Every matrix, whatever its rank. -/
theorem C137_pinv {m n : Nat} (fuel : Nat) (a U V : Arr2 ℝ) (s : Arr1 ℝ) (ha : HasShape a m n)
    (h : svd fuel a true true = .ok (some U, s, some V)) (cut : ℝ) (h0 : 0 ≤ cut) :
    ∃ B : Matrix (Fin m) (Fin n) ℝ,
      frob (toMat m n a - B) ≤ svdTol (toMat m n a) + Real.sqrt (∑ j : Fin (min m n), if cut < s.get j then 0 else s.get j ^ 2) ∧
      IsPinv B (svdSolve cut (toMat m (min m n) U) (toVec (min m n) s) (toMat (min m n) n V)) ∧
      ∀ b : Fin m → ℝ, IsLsq B b (svdSolve cut (toMat m (min m n) U) (toVec (min m n) s) (toMat (min m n) n V) *ᵥ b) ∧
        ∀ y, IsLsq B b y → len (svdSolve cut (toMat m (min m n) U) (toVec (min m n) s) (toMat (min m n) n V) *ᵥ b) ≤ len y := by
  have hne : m ≠ 0 ∧ n ≠ 0 := by
    obtain ⟨hd, -⟩ := svd_factors fuel a true true ha _ _ _ h
    omega
  have h1 := C35_svd_residual fuel a U V s ha h
  obtain ⟨U0, V0, e1, e2, sU, sV, sl, o1, o2, hs0⟩ := (C34_svd_orthonormal fuel a ha hne.1 hne.2).2 _ _ _ h
  cases e1; cases e2
  have hp := svdSolve_pinv (s := toVec (min m n) s) o1 o2 h0
  refine ⟨_, ?_, hp, fun b => ⟨hp.lsq b, fun y hy => hp.shortest b y hy⟩⟩
  refine (frob_sub_le _ (toMat m (min m n) U * diagonal (toVec (min m n) s) * toMat (min m n) n V) _).trans
    (add_le_add h1 (Real.le_sqrt_of_sq_le (le_of_eq ?_)))
  rw [← Matrix.sub_mul, ← Matrix.mul_sub, diagonal_sub, frob_diag_orth o1 o2]
  refine Finset.sum_congr rfl fun j _ => ?_
  change (s.get j - if cut < s.get j then s.get j else 0) ^ 2 = _
  split_ifs <;> ring

/-- What is used about the factors when no value is left out. -/
theorem svdSolve_all {m n : Nat} (fuel : Nat) (a U V : Arr2 ℝ) (s : Arr1 ℝ) (ha : HasShape a m n)
    (h : svd fuel a true true = .ok (some U, s, some V)) (cut c : ℝ) (h0 : 0 ≤ cut) (hcut : cut < c)
    (hc : ∀ j < s.len, c ≤ s.get j) :
    ∃ E : Matrix (Fin m) (Fin n) ℝ, frob E ≤ svdTol (toMat m n a) ∧
      IsPinv (toMat m n a + E) (svdSolve cut (toMat m (min m n) U) (toVec (min m n) s) (toMat (min m n) n V)) := by
  obtain ⟨-, sl, -⟩ := svd_factors fuel a true true ha _ _ _ h
  obtain ⟨B, h1, h2, -⟩ := C137_pinv fuel a U V s ha h cut h0
  refine ⟨B - toMat m n a, ?_, by rw [add_sub_cancel]; exact h2⟩
  rw [← frob_neg, neg_sub]
  refine h1.trans (le_of_eq ?_)
  have hz : (∑ j : Fin (min m n), if cut < s.get j then 0 else s.get j ^ 2) = 0 :=
    Finset.sum_eq_zero fun j _ => if_pos (hcut.trans_le (hc j (by rw [sl]; exact j.2)))
  rw [hz, Real.sqrt_zero, add_zero]

theorem SvMin.independent {m n : Nat} {A : Matrix (Fin m) (Fin n) ℝ} {c : ℝ} (hA : SvMin A c) (hc : 0 < c) :
    LinearIndependent ℝ A.col := by
  rw [← mulVec_injective_iff]
  exact (injective_iff_map_eq_zero A.mulVecLin).2 fun x hx => hA.inj hc hx

theorem len_le_of_sqNorm {n : Nat} {x y : Fin n → ℝ} (h : sqNorm x ≤ sqNorm y) : len x ≤ len y := by
  refine abs_le_of_sq_le_sq' ?_ (len_nonneg _) |>.2
  rw [len_sq, len_sq]
  exact h

/-- **C137, tall matrices**: if the values of `svd` are at least `c` and exceed the error of the run three times, `least_squares`
accepts the matrix, and dividing by the values gives its answer up to a term proportional to the condition number and a term
proportional to its square times the length of the residual. -/
theorem C137_least_squares {m n k : Nat} (fuel : Nat) (a b U V : Arr2 ℝ) (s : Arr1 ℝ) (ha : HasShape a m n)
    (hb : HasShape b m k) (hnm : n ≤ m) (h : svd fuel a true true = .ok (some U, s, some V)) (cut c : ℝ) (h0 : 0 ≤ cut)
    (hcut : cut < c) (hc : ∀ j < s.len, c ≤ s.get j) (hε : 3 * svdTol (toMat m n a) ≤ c) :
    ∃ x, leastSquares a b = .ok x ∧ HasShape x n k ∧ ∀ j : Fin k,
      len (svdSolve cut (toMat m (min m n) U) (toVec (min m n) s) (toMat (min m n) n V) *ᵥ (toMat m k b).col j -
          (toMat n k x).col j) ≤
        2 * svdTol (toMat m n a) / (c - svdTol (toMat m n a)) * len ((toMat n k x).col j) +
        4 * svdTol (toMat m n a) / (c - svdTol (toMat m n a)) ^ 2 *
          len ((toMat m k b).col j - toMat m n a *ᵥ (toMat n k x).col j) := by
  have hε0 : 0 ≤ svdTol (toMat m n a) := by unfold svdTol; have := frob_nonneg (toMat m n a); positivity
  have hpos : 0 < c - svdTol (toMat m n a) := by linarith
  obtain ⟨_, _, ⟨⟨i, hi, rfl⟩, -⟩, hmin, -⟩ := C135_smallest fuel a true true ha hnm _ _ _ h
  have hA : SvMin (toMat m n a) (c - svdTol (toMat m n a)) := fun x =>
    (mul_le_mul_of_nonneg_right (by linarith [hc i hi]) (len_nonneg x)).trans (hmin x)
  obtain ⟨-, x, -, -, hx, sx, hl, -⟩ := C19_least_squares a b ha hb hnm (hA.independent hpos)
  obtain ⟨E, hE, hP⟩ := svdSolve_all fuel a U V s ha h cut c h0 hcut hc
  refine ⟨x, hx, sx, fun j => ?_⟩
  have h1 : IsLsq (toMat m n a) ((toMat m k b).col j) ((toMat n k x).col j) := fun y => len_le_of_sqNorm (hl j y).1
  have h2 := fwd_lsq (f := 0) hpos hA hE (by linarith) h1 (by rw [add_zero]; exact hP.lsq _)
  refine h2.trans (le_of_eq ?_)
  have : len (0 : Fin m → ℝ) = 0 := by simp [len]
  rw [this]
  ring

/-- **C137, square matrices**: the same, without the second term. -/
theorem C137_solve {n k : Nat} (fuel : Nat) (a b U V : Arr2 ℝ) (s : Arr1 ℝ) (ha : HasShape a n n)
    (hb : HasShape b n k) (h : svd fuel a true true = .ok (some U, s, some V)) (cut c : ℝ) (h0 : 0 ≤ cut)
    (hcut : cut < c) (hc : ∀ j < s.len, c ≤ s.get j) (hε : 3 * svdTol (toMat n n a) ≤ c) :
    ∃ x, leastSquares a b = .ok x ∧ toMat n n a * toMat n k x = toMat n k b ∧ ∀ j : Fin k,
      len (svdSolve cut (toMat n (min n n) U) (toVec (min n n) s) (toMat (min n n) n V) *ᵥ (toMat n k b).col j -
          (toMat n k x).col j) ≤ 2 * svdTol (toMat n n a) / (c - svdTol (toMat n n a)) * len ((toMat n k x).col j) := by
  obtain ⟨x, hx, sx, hl⟩ := C137_least_squares fuel a b U V s ha hb le_rfl h cut c h0 hcut hc hε
  have hε0 : 0 ≤ svdTol (toMat n n a) := by unfold svdTol; have := frob_nonneg (toMat n n a); positivity
  have hpos : 0 < c - svdTol (toMat n n a) := by linarith
  obtain ⟨_, _, ⟨⟨i, hi, rfl⟩, -⟩, hmin, -⟩ := C135_smallest fuel a true true ha le_rfl _ _ _ h
  have hA : SvMin (toMat n n a) (c - svdTol (toMat n n a)) := fun x =>
    (mul_le_mul_of_nonneg_right (by linarith [hc i hi]) (len_nonneg x)).trans (hmin x)
  have hu : IsUnit (toMat n n a) := by
    rw [← mulVec_injective_iff_isUnit]
    exact (injective_iff_map_eq_zero (toMat n n a).mulVecLin).2 fun x hx => hA.inj hpos hx
  obtain ⟨-, x', -, -, hx', -, he⟩ := C19_square a b ha hb hu
  rw [hx] at hx'
  cases hx'
  refine ⟨x, hx, he, fun j => (hl j).trans (le_of_eq ?_)⟩
  have : toMat n n a *ᵥ (toMat n k x).col j = (toMat n k b).col j := by
    rw [← he]
    rfl
  rw [this, sub_self]
  have : len (0 : Fin n → ℝ) = 0 := by simp [len]
  rw [this, mul_zero, add_zero]

/-- **C137, wide matrices**: here dividing by the values gives the solution of least length, as `least_squares` does. -/
theorem C137_minimum_norm {m n k : Nat} (fuel : Nat) (a b U V : Arr2 ℝ) (s : Arr1 ℝ) (ha : HasShape a m n)
    (hb : HasShape b m k) (hmn : m < n) (h : svd fuel a true true = .ok (some U, s, some V)) (cut c : ℝ) (h0 : 0 ≤ cut)
    (hcut : cut < c) (hc : ∀ j < s.len, c ≤ s.get j) (hε : 3 * svdTol (toMat m n a) ≤ c) :
    ∃ x, leastSquares a b = .ok x ∧ HasShape x n k ∧ ∀ j : Fin k,
      len (svdSolve cut (toMat m (min m n) U) (toVec (min m n) s) (toMat (min m n) n V) *ᵥ (toMat m k b).col j -
          (toMat n k x).col j) ≤
        4 * svdTol (toMat m n a) / (c - svdTol (toMat m n a)) * len ((toMat n k x).col j) := by
  have hε0 : 0 ≤ svdTol (toMat m n a) := by unfold svdTol; have := frob_nonneg (toMat m n a); positivity
  have hpos : 0 < c - svdTol (toMat m n a) := by linarith
  obtain ⟨hd, sl, hs0, U1, V1, hU, hV, hE1⟩ := svd_factors fuel a true true ha _ _ _ h
  obtain ⟨bot, top, hx⟩ := exists_extremes hd s.get
  have hA : SvMin (toMat m n a)ᵀ (c - svdTol (toMat m n a)) := by
    have h1 := (factors_smallest (A := (toMat m n a)ᵀ) (U := V1ᵀ) (V := U1ᵀ) (by rw [transpose_transpose]; exact hV)
      (by rw [transpose_transpose]; exact hU) (min_eq_left hmn.le) hs0 (ε := svdTol (toMat m n a)) (by
        rw [← frob_transpose, transpose_sub]
        simp only [transpose_mul, transpose_transpose, diagonal_transpose, ← Matrix.mul_assoc]
        exact hE1) hx).1
    obtain ⟨i, hi, e⟩ := hx.1
    exact fun x => (mul_le_mul_of_nonneg_right (by rw [← e]; linarith [hc i (by rw [sl]; exact hi)]) (len_nonneg x)).trans (h1 x)
  obtain ⟨x, hx, sx, ex, hl⟩ := C20_least_squares_wide a b ha hb hmn (hA.independent hpos)
  obtain ⟨E, hE, hP⟩ := svdSolve_all fuel a U V s ha h cut c h0 hcut hc
  refine ⟨x, hx, sx, fun j => ?_⟩
  have h1 : IsMinNorm (toMat m n a)ᵀ ((toMat m k b).col j) ((toMat n k x).col j) := by
    rw [IsMinNorm, transpose_transpose]
    exact ⟨by rw [← ex]; rfl, fun y hy => len_le_of_sqNorm (hl j y hy).1⟩
  have hE' : frob Eᵀ ≤ svdTol (toMat m n a) := by rw [frob_transpose]; exact hE
  have hM := hA.perturb hE'
  have h2 : IsMinNorm ((toMat m n a)ᵀ + Eᵀ) ((toMat m k b).col j)
      (svdSolve cut (toMat m (min m n) U) (toVec (min m n) s) (toMat (min m n) n V) *ᵥ (toMat m k b).col j) := by
    rw [← transpose_add] at hM ⊢
    rw [IsMinNorm, transpose_transpose]
    have hsol : (toMat m n a + E) *ᵥ (svdSolve cut (toMat m (min m n) U) (toVec (min m n) s) (toMat (min m n) n V) *ᵥ
        (toMat m k b).col j) = (toMat m k b).col j := by
      have hn := (hP.lsq ((toMat m k b).col j)).normal
      have := hM.inj (by linarith) hn
      exact (sub_eq_zero.1 this).symm
    refine ⟨hsol, fun y hy => hP.shortest _ y fun z => ?_⟩
    have : len (0 : Fin m → ℝ) = 0 := by simp [len]
    rw [hy, sub_self, this]
    exact len_nonneg _
  refine (fwd_minNorm hpos hA hE' (by linarith) h1 h2).trans (le_of_eq (by ring))

/-- The matrix `[[1, 1], [0, 1]]` and the right-hand side `(3, 1)` meet the hypotheses. -/
example : ∃ U s V, svd 1 svdShear true true = .ok (some U, s, some V) ∧ (∀ j < s.len, 1 / 4 ≤ s.get j) ∧
    3 * svdTol (toMat 2 2 svdShear) ≤ 1 / 4 ∧ ∃ x, leastSquares svdShear (ofRows 2 1 [[3], [1]]) = .ok x ∧
      len (svdSolve 0 (toMat 2 2 U) (toVec 2 s) (toMat 2 2 V) *ᵥ ![3, 1] - ![2, 1]) ≤
        2 * svdTol (toMat 2 2 svdShear) / (1 / 4 - svdTol (toMat 2 2 svdShear)) * len ![2, 1] := by
  obtain ⟨⟨u, s, vt⟩, h⟩ := svdGo_small svdShear true true (NdFloat.epsilon * NdFloat.ofRat 5) 0
    (by simp [svdShear, ofRows]) (by simp [svdShear, ofRows]) (by simp [svdShear, ofRows])
  obtain ⟨_, _, ⟨-, -, hmin⟩, -, x, hx, he⟩ := C135_smallest (m := 2) (n := 2) 1 svdShear true true ⟨rfl, rfl⟩ le_rfl u vt s h
  have hf : frob (toMat 2 2 svdShear) ≤ 4 := frob_lt_four fun i j => by
    fin_cases i <;> fin_cases j <;> simp [svdShear, ofRows]
  have ht : 3 * svdTol (toMat 2 2 svdShear) ≤ 1 / 4 := by
    unfold svdTol
    norm_num at hf ⊢
    linarith
  have ht0 : 0 ≤ svdTol (toMat 2 2 svdShear) := by unfold svdTol; have := frob_nonneg (toMat 2 2 svdShear); positivity
  have hl : 1 / 2 ≤ len (toMat 2 2 svdShear *ᵥ x) := by
    refine abs_le_of_sq_le_sq' ?_ (len_nonneg _) |>.2
    have h1 := len_sq x
    rw [hx, dotProduct, Fin.sum_univ_two] at h1
    rw [len_sq]
    simp [dotProduct, mulVec, Fin.sum_univ_two, ofRows, svdShear]
    nlinarith [sq_nonneg (x 0 + 3 / 2 * x 1)]
  have hs : ∀ j < s.len, 1 / 4 ≤ s.get j := fun j hj => by
    have := (hmin j hj).1
    linarith
  obtain ⟨U, V, e1, e2, -⟩ := (C34_svd_orthonormal (m := 2) (n := 2) 1 svdShear ⟨rfl, rfl⟩ (by norm_num) (by norm_num)).2 _ _ _ h
  subst e1; subst e2
  obtain ⟨y, hy, ey, hb⟩ := C137_solve (n := 2) (k := 1) 1 svdShear (ofRows 2 1 [[3], [1]]) U V s ⟨rfl, rfl⟩ ⟨rfl, rfl⟩ h 0 (1 / 4)
    le_rfl (by norm_num) hs ht
  refine ⟨U, s, V, h, hs, ht, y, hy, ?_⟩
  have y1 : y.get 1 0 = 1 := by
    have := congrFun (congrFun ey 1) 0
    simpa [mul_apply, Fin.sum_univ_two, svdShear, ofRows] using this
  have y0 : y.get 0 0 = 2 := by
    have := congrFun (congrFun ey 0) 0
    simp [mul_apply, Fin.sum_univ_two, svdShear, ofRows] at this
    linarith
  have e3 : (toMat 2 1 y).col 0 = ![2, 1] := by
    funext i
    fin_cases i
    · simpa using y0
    · simpa using y1
  have e4 : (toMat 2 1 (ofRows 2 1 [[3], [1]] : Arr2 ℝ)).col 0 = ![3, 1] := by
    funext i
    fin_cases i <;> simp [ofRows]
  have := hb 0
  rw [e3, e4] at this
  exact this

end LinfaLinalg
