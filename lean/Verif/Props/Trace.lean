import Verif.Props.EighTerm
import Verif.Props.RoundingEigh

/-! # C104: the sums of the returned values and of their squares

The trace of a symmetric matrix is the sum of its eigenvalues and its squared Frobenius norm is the sum of
their squares; the squared Frobenius norm of any matrix is the sum of the squares of its singular values.
Both decompositions drop small off-diagonal entries, so what they return are not quite the eigenvalues and
singular values. The sum of the returned eigenvalues is the trace all the same, without error, and the
sums of squares are never too large. Exact real arithmetic, but for `C104_eigvalsh_trace_rounded`. -/

namespace LinfaLinalg

open Matrix

theorem frob_diagonal_sq {n : Nat} (v : Fin n → ℝ) : frob (Matrix.diagonal v) ^ 2 = ∑ i, v i ^ 2 := by
  rw [frob_sq]
  refine Finset.sum_congr rfl fun i _ => ?_
  rw [Finset.sum_eq_single i]
  · rw [Matrix.diagonal_apply_eq]
  · intro j _ hj
    rw [Matrix.diagonal_apply_ne _ (Ne.symm hj)]; ring
  · simp

theorem eigvalsh_sums {n : Nat} (fuel : Nat) (a : Arr2 ℝ) (ha : HasShape a n n)
    (hs : (toMat n n a).IsSymm) (vals : Arr1 ℝ) (h : eigvalsh fuel a = .ok vals) :
    ∑ i : Fin n, vals.get i = (toMat n n a).trace ∧
      ∑ i : Fin n, vals.get i ^ 2 ≤ frob (toMat n n a) ^ 2 := by
  by_cases hn : n = 0
  · subst hn
    simp [Matrix.trace, sq_nonneg]
  · obtain ⟨q, hq⟩ := (C27_eigvalsh_eq_eigh fuel a).1 vals |>.1 h
    have hr := symmetricEig_sums fuel a (eps := NdFloat.epsilon) (by rw [real_epsilon]; positivity)
      ha (by omega) hs
    unfold eigh eighInto at hq
    cases h1 : symmetricEig fuel a true (NdFloat.epsilon : ℝ) with
    | error e => rw [h1] at hq; exact absurd hq (by simp [error_bind])
    | ok r =>
      rw [h1] at hr hq
      obtain ⟨v, q'⟩ := r
      obtain ⟨Q, σ, g1, -, -, -, -, g⟩ := hr
      simp only at g1
      subst g1
      simp only [ok_bind, Except.ok.injEq, Prod.mk.injEq] at hq
      rw [← hq.1]
      exact g

/-- C104: whenever `eigvalsh` returns on a symmetric matrix, the returned values add up to the trace of the
matrix exactly: what is dropped when an off-diagonal entry is small costs nothing. -/
theorem C104_eigvalsh_trace {n : Nat} (fuel : Nat) (a : Arr2 ℝ) (ha : HasShape a n n)
    (hs : (toMat n n a).IsSymm) (vals : Arr1 ℝ) (h : eigvalsh fuel a = .ok vals) :
    ∑ i : Fin n, vals.get i = ∑ i : Fin n, a.get i i := by
  rw [(eigvalsh_sums fuel a ha hs vals h).1]
  rfl

/-- C104: whenever `eigvalsh` returns on a symmetric matrix, the sum of the squares of the returned values
is at most the sum of the squares of the entries, without any allowance; and its square root falls short
of `‖A‖` by at most `2 (n - 1) eps ‖A‖`. -/
theorem C104_eigvalsh_squares {n : Nat} (fuel : Nat) (a : Arr2 ℝ) (ha : HasShape a n n)
    (hs : (toMat n n a).IsSymm) (vals : Arr1 ℝ) (h : eigvalsh fuel a = .ok vals) :
    ∑ i : Fin n, vals.get i ^ 2 ≤ ∑ i : Fin n, ∑ j : Fin n, a.get i j ^ 2 ∧
    (1 - 2 * (n - 1 : Nat) * (2 : ℝ)⁻¹ ^ 52) * Real.sqrt (∑ i : Fin n, ∑ j : Fin n, a.get i j ^ 2) ≤
      Real.sqrt (∑ i : Fin n, vals.get i ^ 2) := by
  have h1 := (eigvalsh_sums fuel a ha hs vals h).2
  rw [frob_sq] at h1
  refine ⟨h1, ?_⟩
  obtain ⟨q, hq⟩ := (C27_eigvalsh_eq_eigh fuel a).1 vals |>.1 h
  obtain ⟨σ, h2, -⟩ := C30_eigh_pairs_partial fuel a ha hs vals q hq
  obtain ⟨-, o1, o2⟩ := C28_eigh_orthonormal fuel a ha hs vals q hq
  have h3 := frob_sub_le (toMat n n a) (toMat n n q * (Matrix.diagonal fun i => vals.get (σ i)) *
    (toMat n n q)ᵀ) 0
  rw [sub_zero, sub_zero, frob_mul_orth (by rw [transpose_transpose]; exact o1), frob_orth_mul o1] at h3
  have h4 : frob (Matrix.diagonal fun i => vals.get (σ i)) = Real.sqrt (∑ i : Fin n, vals.get i ^ 2) := by
    rw [← Real.sqrt_sq (frob_nonneg _), frob_diagonal_sq]
    congr 1
    exact Equiv.sum_comp σ fun i : Fin n => vals.get i ^ 2
  have h5 : frob (toMat n n a) = Real.sqrt (∑ i : Fin n, ∑ j : Fin n, a.get i j ^ 2) := rfl
  rw [h4] at h3
  rw [← h5]
  linarith

/-- C104: the values returned with the vectors have the same sums. -/
theorem C104_eigh_sums {n : Nat} (fuel : Nat) (a : Arr2 ℝ) (ha : HasShape a n n)
    (hs : (toMat n n a).IsSymm) (vals : Arr1 ℝ) (vecs : Arr2 ℝ) (h : eigh fuel a = .ok (vals, vecs)) :
    ∑ i : Fin n, vals.get i = ∑ i : Fin n, a.get i i ∧
    ∑ i : Fin n, vals.get i ^ 2 ≤ ∑ i : Fin n, ∑ j : Fin n, a.get i j ^ 2 := by
  have h' := (C27_eigvalsh_eq_eigh fuel a).1 vals |>.2 ⟨vecs, h⟩
  exact ⟨C104_eigvalsh_trace fuel a ha hs vals h', (C104_eigvalsh_squares fuel a ha hs vals h').1⟩

/-- C104: whenever `svd` returns on a real matrix, whatever factors are requested, the sum of the squares of
the returned singular values is at most the sum of the squares of the entries, without any allowance; and
its square root falls short of `‖A‖` by at most `2 (d - 1) eps ‖A‖` with `eps = 5 · 2⁻⁵²` and `d` the
number of singular values. -/
theorem C104_svd_squares {m n : Nat} (fuel : Nat) (a : Arr2 ℝ) (cu cv : Bool) (ha : HasShape a m n)
    (u : Option (Arr2 ℝ)) (s : Arr1 ℝ) (vt : Option (Arr2 ℝ)) (h : svd fuel a cu cv = .ok (u, s, vt)) :
    ∑ k : Fin (min m n), s.get k ^ 2 ≤ ∑ i : Fin m, ∑ j : Fin n, a.get i j ^ 2 ∧
    (1 - 2 * (min m n - 1 : Nat) * (5 * (2 : ℝ)⁻¹ ^ 52)) *
        Real.sqrt (∑ i : Fin m, ∑ j : Fin n, a.get i j ^ 2) ≤
      Real.sqrt (∑ k : Fin (min m n), s.get k ^ 2) := by
  have hne : m ≠ 0 ∧ n ≠ 0 := by
    by_contra hz
    have : svd fuel a cu cv = throwErr .emptyMatrix := by
      unfold svd svdGo
      rw [if_pos (by rw [ha.1, ha.2]; omega)]
    rw [this] at h
    exact absurd h (by simp [throwErr])
  obtain ⟨f1, f2⟩ := C36_svd_flags fuel a cu cv
  cases h0 : svd fuel a true true with
  | error f => rw [f2 f h0] at h; exact absurd h (by simp)
  | ok r =>
    obtain ⟨u', s', vt'⟩ := r
    have h1 := (f1 u' s' vt' h0).2.2
    rw [h, Except.ok.injEq, Prod.mk.injEq, Prod.mk.injEq] at h1
    obtain ⟨-, rfl, -⟩ := h1
    have hw := svdGo_real fuel a _ ha hne.1 hne.2 svd_eps_nonneg
    obtain ⟨U, V, e1, e2, -, -, -, -, o1, o2, -, hn⟩ := wp_elim_ok hw h0
    simp only at e1 e2 hn
    subst e1 e2
    have hres := C35_svd_residual fuel a U V s ha h0
    have h2 : frob (Matrix.diagonal (toVec (min m n) s)) =
        Real.sqrt (∑ k : Fin (min m n), s.get k ^ 2) := by
      rw [← Real.sqrt_sq (frob_nonneg _), frob_diagonal_sq]
      rfl
    have h5 : frob (toMat m n a) = Real.sqrt (∑ i : Fin m, ∑ j : Fin n, a.get i j ^ 2) := rfl
    constructor
    · have := pow_le_pow_left₀ (frob_nonneg _) hn 2
      rw [frob_diagonal_sq, frob_sq] at this
      exact this
    · have h3 := frob_sub_le (toMat m n a) (toMat m (min m n) U *
        (Matrix.diagonal (toVec (min m n) s)) * toMat (min m n) n V) 0
      rw [sub_zero, sub_zero, frob_mul_orth o2, frob_orth_mul o1, h2] at h3
      rw [← h5]
      linarith

/-- C104: no returned singular value exceeds the Frobenius norm of the matrix. -/
theorem C104_svd_le_norm {m n : Nat} (fuel : Nat) (a : Arr2 ℝ) (cu cv : Bool) (ha : HasShape a m n)
    (u : Option (Arr2 ℝ)) (s : Arr1 ℝ) (vt : Option (Arr2 ℝ)) (h : svd fuel a cu cv = .ok (u, s, vt))
    (k : Nat) (hk : k < min m n) : |s.get k| ≤ Real.sqrt (∑ i : Fin m, ∑ j : Fin n, a.get i j ^ 2) := by
  refine Real.abs_le_sqrt (le_trans ?_ (C104_svd_squares fuel a cu cv ha u s vt h).1)
  exact Finset.single_le_sum (f := fun k : Fin (min m n) => s.get k ^ 2)
    (fun _ _ => sq_nonneg _) (Finset.mem_univ ⟨k, hk⟩)

theorem abs_trace_le {n : Nat} (A : Matrix (Fin n) (Fin n) ℝ) : |A.trace| ≤ Real.sqrt n * frob A := by
  have h1 : A.trace ^ 2 ≤ (n : ℝ) * ∑ i, A i i ^ 2 := by
    have := sq_sum_le_card_mul_sum_sq (s := (Finset.univ : Finset (Fin n))) (f := fun i => A i i)
    rw [Finset.card_univ, Fintype.card_fin] at this
    exact this
  have h2 : ∑ i, A i i ^ 2 ≤ frob A ^ 2 := by
    rw [frob_sq]
    exact Finset.sum_le_sum fun i _ => Finset.single_le_sum (f := fun j => A i j ^ 2)
      (fun _ _ => sq_nonneg _) (Finset.mem_univ i)
  rw [← Real.sqrt_sq (frob_nonneg A), ← Real.sqrt_mul (Nat.cast_nonneg n)]
  exact Real.abs_le_sqrt (h1.trans (mul_le_mul_of_nonneg_left h2 (Nat.cast_nonneg n)))

/-- C104, floating point: the sum of the values that `eigvalsh` returns differs from the trace by at most
`√n · eigErr · ‖A‖_F` (the sum itself taken exactly). -/
theorem C104_eigvalsh_trace_rounded {R : StdModel} {n : Nat} (fuel : Nat) (a : Arr2 (Rnd R))
    (ha : HasShape a n n) (hs : (toMat n n (Rnd.vals a)).IsSymm) (hR : EigArith R n) (vals : Arr1 (Rnd R))
    (h : eigvalsh fuel a = .ok vals) :
    |∑ i : Fin n, (vals.get i).v - ∑ i : Fin n, (a.get i i).v| ≤
      Real.sqrt n * (eigErr R n fuel * frob (toMat n n (Rnd.vals a))) := by
  obtain ⟨q, hq⟩ := (C27_eigvalsh_eq_eigh fuel a).1 vals |>.1 h
  obtain ⟨-, P, Δ, hP, hd, hΔ⟩ := C84_backward fuel a ha hs hR vals q hq
  have h1 := congrArg Matrix.trace hd
  rw [Matrix.trace_add, Matrix.trace_mul_comm, ← Matrix.mul_assoc, hP, Matrix.one_mul,
    Matrix.trace_diagonal] at h1
  have h2 : (toMat n n (Rnd.vals a)).trace = ∑ i : Fin n, (a.get i i).v := rfl
  rw [← h1, h2, add_sub_cancel_left]
  exact (abs_trace_le Δ).trans (mul_le_mul_of_nonneg_left hΔ (Real.sqrt_nonneg _))

/-- Within 670 iterations `eigvalsh` returns three values for `[[1, 1, 0], [1, 0, 1], [0, 1, 1]]` (the
eigenvalues are 2, 1 and -1); they add up to exactly 2. -/
example : ∃ vals, eigvalsh 670 (ofRows 3 3 [[1, 1, 0], [1, 0, 1], [0, 1, 1]] : Arr2 ℝ) = .ok vals ∧
    vals.get 0 + vals.get 1 + vals.get 2 = 2 ∧
    vals.get 0 ^ 2 + vals.get 1 ^ 2 + vals.get 2 ^ 2 ≤ 6 := by
  obtain ⟨r, hr⟩ := exIndef_terminates
  have hs : (toMat 3 3 (ofRows 3 3 [[1, 1, 0], [1, 0, 1], [0, 1, 1]] : Arr2 ℝ)).IsSymm := by
    ext i j
    fin_cases i <;> fin_cases j <;> simp [ofRows]
  refine ⟨r.1, (hr 670 le_rfl).2, ?_, ?_⟩
  · have := C104_eigvalsh_trace (n := 3) 670 _ ⟨rfl, rfl⟩ hs r.1 (hr 670 le_rfl).2
    simp [Fin.sum_univ_three, ofRows] at this
    linarith
  · have := (C104_eigvalsh_squares (n := 3) 670 _ ⟨rfl, rfl⟩ hs r.1 (hr 670 le_rfl).2).1
    simp [Fin.sum_univ_three, ofRows] at this
    linarith

/-- `svd` returns two singular values for the shear `[[1, 1], [0, 1]]`, and their squares add up to at most
3, the sum of the squares of the entries. -/
example : ∃ u s vt, svd 1 svdShear false false = .ok (u, s, vt) ∧ s.get 0 ^ 2 + s.get 1 ^ 2 ≤ 3 := by
  obtain ⟨⟨u, s, vt⟩, h⟩ := svdGo_small svdShear false false (NdFloat.epsilon * NdFloat.ofRat 5) 0
    (by simp [svdShear, ofRows]) (by simp [svdShear, ofRows]) (by simp [svdShear, ofRows])
  refine ⟨u, s, vt, h, ?_⟩
  have := (C104_svd_squares (m := 2) (n := 2) 1 svdShear false false ⟨rfl, rfl⟩ u s vt h).1
  rw [show ∑ k : Fin (min 2 2), s.get k ^ 2 = s.get 0 ^ 2 + s.get 1 ^ 2 from
    Fin.sum_univ_two fun k : Fin 2 => s.get k ^ 2] at this
  simp [svdShear, Fin.sum_univ_two, ofRows] at this
  linarith

end LinfaLinalg
