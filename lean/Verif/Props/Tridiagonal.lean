import Verif.Proofs.Tridiagonal
import Verif.Props.Qr

/-! # C23, C24: properties of `/repo/src/tridiagonal.rs` -/

set_option linter.unusedSectionVars false

namespace LinfaLinalg

open Matrix

variable {α : Type} [Zero α] [One α] [Add α] [Sub α] [Mul α] [Div α] [Neg α] [NdFloat α]

/-- Only the diagonal and its two neighbours may be non-zero. -/
def IsTridiagonal {n : Nat} (T : Matrix (Fin n) (Fin n) ℝ) : Prop :=
  ∀ i j : Fin n, (i : Nat) + 1 < j ∨ (j : Nat) + 1 < i → T i j = 0

/-- C23: for a non-empty symmetric matrix, `sym_tridiagonal` succeeds, `generate_q` is orthogonal,
`into_tridiag_matrix` is symmetric tridiagonal with non-negative off-diagonal, `Q T Qᵀ = A`, and
`into_diagonals` returns the diagonals of `T`. Exact real arithmetic. -/
theorem C23_tridiagonal {n : Nat} (a : Arr2 ℝ) (ha : HasShape a n n) (hn : 1 ≤ n)
    (hs : (toMat n n a).IsSymm) :
    ∃ t Q T, symTridiagonal a = .ok t ∧ t.generateQ = .ok Q ∧ t.intoTridiagMatrix = .ok T ∧
      HasShape Q n n ∧ HasShape T n n ∧
      (toMat n n Q)ᵀ * toMat n n Q = 1 ∧ toMat n n Q * (toMat n n Q)ᵀ = 1 ∧
      (toMat n n T).IsSymm ∧ IsTridiagonal (toMat n n T) ∧
      (∀ i, i + 1 < n → 0 ≤ T.get i (i + 1)) ∧
      toMat n n Q * toMat n n T * (toMat n n Q)ᵀ = toMat n n a ∧
      t.intoDiagonals.1.len = n ∧ t.intoDiagonals.2.len = n - 1 ∧
      (∀ i, i < n → t.intoDiagonals.1.get i = T.get i i) ∧
      (∀ i, i + 1 < n → t.intoDiagonals.2.get i = T.get i (i + 1)) := by
  obtain ⟨t, ht, h⟩ := symTridiagonal_real a ha hn hs
  obtain ⟨Q, hQ, sQ, oQ, eQ⟩ := h.final hn
  obtain ⟨T, hT, t1, t2, t3⟩ := h.toTriShape.intoTridiagMatrix_eq
  have hTm : toMat n n T =
      tridiag n (fun i => t.diagMatrix.get i i) (fun i => |t.offDiagonal.get i|) := by
    ext i j
    rw [toMat_apply, t3 i j i.2 j.2]
    rfl
  have hoff : ∀ i, i + 1 < n → T.get i (i + 1) = |t.offDiagonal.get i| := by
    intro i hi
    rw [t3 i (i + 1) (by omega) hi, if_neg (by omega), if_neg (by omega), if_pos rfl]
    rfl
  refine ⟨t, Q, T, ht, hQ, hT, sQ, ⟨t1, t2⟩, oQ, mul_eq_one_comm.1 oQ, ?_, ?_, ?_, ?_, ?_, h.len,
    ?_, ?_⟩
  · rw [hTm]
    ext i j
    simp only [Matrix.transpose_apply, tridiag, Matrix.of_apply]
    split_ifs <;> first | rfl | omega | (rename_i h; rw [h])
  · intro i j hij
    rw [hTm]
    simp only [tridiag, Matrix.of_apply]
    rw [if_neg (by omega), if_neg (by omega), if_neg (by omega)]
  · intro i hi
    rw [hoff i hi]; exact abs_nonneg _
  · rw [hTm]; exact eQ
  · simp [TridiagonalDecomp.intoDiagonals, Arr2.diag, h.nr, h.nc]
  · intro i hi
    rw [t3 i i hi hi, if_pos rfl]; rfl
  · intro i hi
    rw [hoff i hi]; rfl

/-- The hypotheses of C23 are met by a concrete symmetric (not tridiagonal, indefinite) matrix. -/
example : HasShape (ofRows 3 3 [[1, 2, 3], [2, -5, 4], [3, 4, 0]]) 3 3 ∧
    (toMat 3 3 (ofRows 3 3 [[1, 2, 3], [2, -5, 4], [3, 4, 0]])).IsSymm := by
  refine ⟨⟨rfl, rfl⟩, ?_⟩
  ext i j
  fin_cases i <;> fin_cases j <;> simp [ofRows]

/-- C24: `sym_tridiagonal` returns `NotSquare` exactly for non-square input, `EmptyMatrix` exactly
for the empty matrix, and otherwise succeeds; then no method panics or accesses memory out of
bounds. For every scalar type, also for non-symmetric input. -/
theorem C24_tridiagonal_errors (a : Arr2 α) :
    (a.nr ≠ a.nc → symTridiagonal a = .error (.err (.notSquare a.nr a.nc))) ∧
    (a.nr = a.nc → a.nr = 0 → symTridiagonal a = .error (.err .emptyMatrix)) ∧
    (a.nr = a.nc → a.nr ≠ 0 → ∃ t Q T, symTridiagonal a = .ok t ∧ t.generateQ = .ok Q ∧
      t.intoTridiagMatrix = .ok T ∧ Q.nr = a.nr ∧ Q.nc = a.nr ∧ T.nr = a.nr ∧ T.nc = a.nr ∧
      t.intoDiagonals.1.len = a.nr ∧ t.intoDiagonals.2.len = a.nr - 1) := by
  refine ⟨symTridiagonal_notSquare a, symTridiagonal_empty a, fun hs hn => ?_⟩
  obtain ⟨t, ht, h⟩ := symTridiagonal_ok a hs (by omega)
  obtain ⟨Q, hQ, q1, q2⟩ := h.generateQ_ok (by omega)
  obtain ⟨T, hT, t1, t2, -⟩ := h.intoTridiagMatrix_eq
  refine ⟨t, Q, T, ht, hQ, hT, q1, q2, t1, t2, ?_, h.len⟩
  simp [TridiagonalDecomp.intoDiagonals, Arr2.diag, h.nr, h.nc]

/-- All three cases of C24 occur. -/
example : (ofRows 2 3 []).nr ≠ (ofRows 2 3 []).nc ∧ (ofRows 0 0 []).nr = 0 ∧
    (ofRows 2 2 [[1, 2], [3, 4]]).nr ≠ 0 := by simp [ofRows]

end LinfaLinalg
