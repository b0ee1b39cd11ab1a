import Verif.Proofs.RoundedTridiag
import Verif.Props.RoundingBidiag
import Verif.Props.Tridiagonal
import Verif.Props.Accuracy

/-! # C83: rounding errors of the tridiagonal reduction

The scalar type is `Rnd R`, the standard model of floating-point arithmetic. The two rank-one updates of a step are
rounded one after the other, so the matrix does not stay symmetric; the constant
`triErr R n = 10 γ_(10 n + 56) (5 n² + 6 n)` accounts for the drift. -/

namespace LinfaLinalg

open Matrix

variable {R : StdModel}

/-- **C83**: `sym_tridiagonal` is backward stable. In floating point the `T` returned is symmetric, tridiagonal, with a
nonnegative off-diagonal, and it is exactly orthogonally similar to a matrix within `triErr · ‖A‖_F` of `A`; every
column of the `Q` returned is within `reflErrs` of that of the exact orthogonal matrix. -/
theorem C83_tridiagonal {n : Nat} (a : Arr2 (Rnd R)) (ha : HasShape a n n) (hn : 1 ≤ n)
    (hs : (toMat n n (Rnd.vals a)).IsSymm) (hu : ((10 * n + 56 : Nat) : ℝ) * R.u < 1) (hc : triErr R n ≤ 1) :
    ∃ t Q T, symTridiagonal a = .ok t ∧ t.generateQ = .ok Q ∧ t.intoTridiagMatrix = .ok T ∧
      HasShape Q n n ∧ HasShape T n n ∧ (toMat n n (Rnd.vals T)).IsSymm ∧ IsTridiagonal (toMat n n (Rnd.vals T)) ∧
      (∀ i, i + 1 < n → 0 ≤ (T.get i (i + 1)).v) ∧
      ∃ P Δ : Matrix (Fin n) (Fin n) ℝ, Pᵀ * P = 1 ∧
        toMat n n (Rnd.vals a) + Δ = P * toMat n n (Rnd.vals T) * Pᵀ ∧
        frob Δ ≤ triErr R n * frob (toMat n n (Rnd.vals a)) ∧
        ∀ j, colNorm (toMat n n (Rnd.vals Q) - P) j ≤ reflErrs R n (n - 1) := by
  obtain ⟨t, Q, e1, e2, hsh, s2, P, Δ, hP, he, hΔ, hQ⟩ := symTridiagonal_rnd a ha hn hs hu hc
  obtain ⟨T, hT, t1, t2, t3⟩ := hsh.intoTridiagMatrix_eq
  have hTm : toMat n n (Rnd.vals T) = t.tMatV n := by
    ext i j
    rw [toMat_apply]
    show (T.get i j).v = _
    rw [t3 i j i.2 j.2]
    simp only [TridiagonalDecomp.tMatV, Matrix.of_apply]
    split_ifs <;> rfl
  refine ⟨t, Q, T, e1, e2, hT, s2, ⟨t1, t2⟩, ?_, ?_, ?_, P, Δ, hP, by rw [hTm]; exact he, hΔ.trans ?_, hQ⟩
  · rw [hTm]
    ext i j
    simp only [Matrix.transpose_apply, TridiagonalDecomp.tMatV, Matrix.of_apply]
    split_ifs <;> first | rfl | omega | (rename_i h; rw [h])
  · intro i j hij
    rw [hTm]
    simp only [TridiagonalDecomp.tMatV, Matrix.of_apply]
    rw [if_neg (by omega), if_neg (by omega), if_neg (by omega)]
  · intro i hi
    rw [t3 i (i + 1) (by omega) hi, if_neg (by omega), if_neg (by omega), if_pos rfl]
    exact abs_nonneg _
  · refine mul_le_mul_of_nonneg_right (mul_le_mul_of_nonneg_left ?_ ?_) (frob_nonneg _)
    · have : ((n - 1 : Nat) : ℝ) ≤ n := by exact_mod_cast Nat.sub_le n 1
      have h0 : (0 : ℝ) ≤ (n - 1 : Nat) := Nat.cast_nonneg _
      nlinarith
    · exact mul_nonneg (by norm_num) (gam_nonneg R.u_nonneg hu)

/-- **C83**: the computed factors reproduce `A`, `‖A - Q T Qᵀ‖_F ≤ ((1 + triErr) (1 + √n δ)² - 1) ‖A‖_F`. -/
theorem C83_residual {n : Nat} (a : Arr2 (Rnd R)) (ha : HasShape a n n) (hn : 1 ≤ n)
    (hs : (toMat n n (Rnd.vals a)).IsSymm) (hu : ((10 * n + 56 : Nat) : ℝ) * R.u < 1) (hc : triErr R n ≤ 1)
    (t : TridiagonalDecomp (Rnd R)) (Q T : Arr2 (Rnd R)) (ht : symTridiagonal a = .ok t) (hQ : t.generateQ = .ok Q)
    (hT : t.intoTridiagMatrix = .ok T) :
    frob (toMat n n (Rnd.vals a) - toMat n n (Rnd.vals Q) * toMat n n (Rnd.vals T) * (toMat n n (Rnd.vals Q))ᵀ) ≤
      ((1 + triErr R n) * (1 + Real.sqrt n * reflErrs R n (n - 1)) ^ 2 - 1) * frob (toMat n n (Rnd.vals a)) := by
  obtain ⟨t', Q', T', e1, e2, e3, -, -, -, -, -, P, Δ, hP, hA, hΔ, dQ⟩ := C83_tridiagonal a ha hn hs hu hc
  cases ht.symm.trans e1
  cases hQ.symm.trans e2
  cases hT.symm.trans e3
  have hu5 : ((5 * n + 31 : Nat) : ℝ) * R.u < 1 := lt_of_le_of_lt
    (mul_le_mul_of_nonneg_right (by exact_mod_cast (by omega : 5 * n + 31 ≤ 10 * n + 56)) R.u_nonneg) hu
  have hδ : 0 ≤ reflErrs R n (n - 1) := reflErrs_nonneg hu5
  have hd := frob_le_of_columns hδ dQ
  refine near_product (mul_nonneg (Real.sqrt_nonneg _) hδ) hP
    (by rw [Matrix.transpose_transpose]; exact hP) hA hΔ hd ?_
  rw [← Matrix.transpose_sub, frob_transpose]
  exact hd

/-- **C83**: the columns of the computed `Q` are orthonormal up to `δ (2 + δ)`, whatever `A` is. -/
theorem C83_orthonormal {n : Nat} (a : Arr2 (Rnd R)) (ha : HasShape a n n) (hn : 1 ≤ n)
    (hs : (toMat n n (Rnd.vals a)).IsSymm) (hu : ((10 * n + 56 : Nat) : ℝ) * R.u < 1) (hc : triErr R n ≤ 1)
    (t : TridiagonalDecomp (Rnd R)) (Q : Arr2 (Rnd R)) (ht : symTridiagonal a = .ok t) (hQ : t.generateQ = .ok Q)
    (i j : Fin n) :
    |((toMat n n (Rnd.vals Q))ᵀ * toMat n n (Rnd.vals Q) - (1 : Matrix (Fin n) (Fin n) ℝ)) i j| ≤
      reflErrs R n (n - 1) * (2 + reflErrs R n (n - 1)) := by
  obtain ⟨t', Q', T', e1, e2, e3, -, -, -, -, -, P, Δ, hP, hA, hΔ, dQ⟩ := C83_tridiagonal a ha hn hs hu hc
  cases ht.symm.trans e1
  cases hQ.symm.trans e2
  have hu5 : ((5 * n + 31 : Nat) : ℝ) * R.u < 1 := lt_of_le_of_lt
    (mul_le_mul_of_nonneg_right (by exact_mod_cast (by omega : 5 * n + 31 ≤ 10 * n + 56)) R.u_nonneg) hu
  exact near_orthonormal (reflErrs_nonneg hu5) hP dQ i j

/-- **C83**: every eigenvalue of the computed `T` is within `triErr · ‖A‖_F` of the corresponding eigenvalue of
`A`, with multiplicity. -/
theorem C83_eigenvalues {n : Nat} (a : Arr2 (Rnd R)) (ha : HasShape a n n) (hn : 1 ≤ n)
    (hs : (toMat n n (Rnd.vals a)).IsSymm) (hu : ((10 * n + 56 : Nat) : ℝ) * R.u < 1) (hc : triErr R n ≤ 1)
    (t : TridiagonalDecomp (Rnd R)) (T : Arr2 (Rnd R)) (ht : symTridiagonal a = .ok t)
    (hT : t.intoTridiagMatrix = .ok T) :
    ∃ hsT : (toMat n n (Rnd.vals T)).IsSymm, ∀ (order : Order) (j : Fin n),
      |nthEigenvalue order hsT j - nthEigenvalue order hs j| ≤ triErr R n * frob (toMat n n (Rnd.vals a)) := by
  obtain ⟨t', Q', T', e1, e2, e3, -, -, hsT, -, -, P, Δ, hP, hA, hΔ, -⟩ := C83_tridiagonal a ha hn hs hu hc
  cases ht.symm.trans e1
  cases hT.symm.trans e3
  refine ⟨hsT, ?_⟩
  obtain ⟨hL, V, hV, hAV⟩ := eigenvalueDesc_spec hs
  obtain ⟨hL', W, hW, hTW⟩ := eigenvalueDesc_spec hsT
  have hPW : (P * W)ᵀ * (P * W) = 1 := by
    rw [Matrix.transpose_mul, Matrix.mul_assoc, ← Matrix.mul_assoc Pᵀ, hP, Matrix.one_mul, hW]
  have e : P * W * diagonal (eigenvalueDesc hsT) * (P * W)ᵀ = toMat n n (Rnd.vals a) + Δ := by
    rw [hA, Matrix.transpose_mul]
    conv_rhs => rw [hTW]
    simp only [Matrix.mul_assoc]
  have key : ∀ j, |eigenvalueDesc hsT j - eigenvalueDesc hs j| ≤ triErr R n * frob (toMat n n (Rnd.vals a)) := by
    intro j
    refine (weyl_eig_abs hV hPW hL hL' j).trans ?_
    rw [e, ← hAV, show toMat n n (Rnd.vals a) - (toMat n n (Rnd.vals a) + Δ) = -Δ by abel, frob_neg]
    exact hΔ
  intro order j
  cases order with
  | largest => exact key j
  | smallest => exact key (Fin.rev j)

/-- The hypotheses of C83 are met in double precision for every dimension up to 10 000, and by a concrete symmetric
matrix, on which every call succeeds. -/
example : (∀ n : Nat, n ≤ 10000 → ((10 * n + 56 : Nat) : ℝ) * StdModel.double.u < 1 ∧ triErr .double n ≤ 1) ∧
    ∃ t Q T, symTridiagonal (exRndSpd .double) = .ok t ∧ t.generateQ = .ok Q ∧ t.intoTridiagMatrix = .ok T := by
  have h1 : ∀ n : Nat, n ≤ 10000 → ((10 * n + 56 : Nat) : ℝ) * StdModel.double.u < 1 := by
    intro n hn
    have : ((10 * n + 56 : Nat) : ℝ) ≤ (100056 : ℝ) := by exact_mod_cast (by omega : 10 * n + 56 ≤ 100056)
    refine lt_of_le_of_lt (mul_le_mul_of_nonneg_right this StdModel.double.u_nonneg) ?_
    norm_num [StdModel.double]
  have h2 : ∀ n : Nat, n ≤ 10000 → triErr .double n ≤ 1 := by
    intro n hn
    have hg : gam StdModel.double.u (10 * n + 56) ≤ gam StdModel.double.u 100056 :=
      gam_mono StdModel.double.u_nonneg (by omega) (by norm_num [StdModel.double])
    have hn' : (n : ℝ) ≤ 10000 := by exact_mod_cast hn
    have hb : (5 * (n : ℝ) ^ 2 + 6 * n) ≤ 500060000 := by nlinarith [Nat.cast_nonneg (α := ℝ) n]
    have hb0 : 0 ≤ (5 * (n : ℝ) ^ 2 + 6 * n) := by positivity
    have hg' : gam StdModel.double.u 100056 ≤ 1 / 5000600000 := by norm_num [gam, StdModel.double]
    unfold triErr
    calc 10 * gam StdModel.double.u (10 * n + 56) * (5 * (n : ℝ) ^ 2 + 6 * n)
        ≤ 10 * (1 / 5000600000) * (5 * (n : ℝ) ^ 2 + 6 * n) :=
          mul_le_mul_of_nonneg_right (by linarith) hb0
      _ ≤ 10 * (1 / 5000600000) * 500060000 := mul_le_mul_of_nonneg_left hb (by norm_num)
      _ ≤ 1 := by norm_num
  obtain ⟨t, Q, T, e1, e2, e3, -⟩ := C83_tridiagonal (n := 2) (exRndSpd .double) ⟨rfl, rfl⟩ (by norm_num)
    exRndSpd_succeeds.1 (h1 2 (by norm_num)) (h2 2 (by norm_num))
  exact ⟨fun n hn => ⟨h1 n hn, h2 n hn⟩, t, Q, T, e1, e2, e3⟩

end LinfaLinalg
