import Verif.Proofs.Bidiagonal
import Verif.Props.Tridiagonal

/-! # C25, C26: properties of `/repo/src/bidiagonal.rs` -/

set_option linter.unusedSectionVars false

namespace LinfaLinalg

open Matrix

variable {α : Type} [Zero α] [One α] [Add α] [Sub α] [Mul α] [Div α] [Neg α] [NdFloat α]

/-- Only the diagonal and its upper neighbour may be non-zero. -/
def IsUpperBidiagonal {n : Nat} (B : Matrix (Fin n) (Fin n) ℝ) : Prop :=
  ∀ i j : Fin n, (i : Nat) ≠ j → (j : Nat) ≠ i + 1 → B i j = 0

/-- C25: for a non-empty `m × n` matrix, `bidiagonal` succeeds; `U` has orthonormal columns, `Vt` has
orthonormal rows, `B` is upper bidiagonal when `m ≥ n` and lower bidiagonal otherwise (as reported
by `is_upper_diag`), has non-negative entries, `into_diagonals` returns its diagonals, and
`U B Vt = A`. Exact real arithmetic. -/
theorem C25_bidiagonal {m n : Nat} (a : Arr2 ℝ) (ha : HasShape a m n) (h0 : m ≠ 0 ∧ n ≠ 0) :
    ∃ b U B Vt, bidiagonal a = .ok b ∧ b.generateU = .ok U ∧ b.intoB = .ok B ∧
      b.generateVt = .ok Vt ∧
      HasShape U m (min m n) ∧ HasShape B (min m n) (min m n) ∧ HasShape Vt (min m n) n ∧
      (toMat m (min m n) U)ᵀ * toMat m (min m n) U = 1 ∧
      toMat (min m n) n Vt * (toMat (min m n) n Vt)ᵀ = 1 ∧
      (b.upperDiag = true ↔ n ≤ m) ∧
      (n ≤ m → IsUpperBidiagonal (toMat (min m n) (min m n) B)) ∧
      (m < n → IsUpperBidiagonal (toMat (min m n) (min m n) B)ᵀ) ∧
      (∀ i j, i < min m n → j < min m n → 0 ≤ B.get i j) ∧
      b.intoDiagonals.1.len = min m n ∧ b.intoDiagonals.2.len = min m n - 1 ∧
      (∀ i, i < min m n → b.intoDiagonals.1.get i = B.get i i) ∧
      (∀ i, i + 1 < min m n → b.intoDiagonals.2.get i =
        if n ≤ m then B.get i (i + 1) else B.get (i + 1) i) ∧
      toMat m (min m n) U * toMat (min m n) (min m n) B * toMat (min m n) n Vt = toMat m n a := by
  obtain ⟨b, U, Vt, e1, e2, e3, hu, hd, ho, s1, s2, o1, o2, he⟩ :=
    bidiagonal_real a ha (by omega)
  obtain ⟨B, e4, b1, b2, b3⟩ := intoB_eq b (by rw [hd]; omega) (by rw [ho, hd])
  rw [hd] at b1 b2 b3
  have hB : toMat (min m n) (min m n) B = b.bMat (min m n) := by
    ext i j
    rw [toMat_apply, b3 i j i.2 j.2, BidiagonalDecomp.bMat]
    cases b.upperDiag
    · simp only [Bool.false_eq_true, false_and, if_false, true_and, Matrix.transpose_apply, bidiag,
        Matrix.of_apply]
      split_ifs <;> first | rfl | omega | (rename_i h; rw [h]; rfl)
    · simp only [Bool.true_eq_false, false_and, if_false, true_and, if_true, bidiag,
        Matrix.of_apply]
      rfl
  refine ⟨b, U, B, Vt, e1, e2, e4, e3, s1, ⟨b1, b2⟩, s2, o1, o2, by simp [hu], ?_, ?_, ?_, hd, ho,
    ?_, ?_, ?_⟩
  · intro h i j h1 h2
    rw [hB, BidiagonalDecomp.bMat, hu]
    simp only [h, decide_true, if_true, bidiag, Matrix.of_apply]
    rw [if_neg h1, if_neg h2]
  · intro h i j h1 h2
    rw [hB, BidiagonalDecomp.bMat, hu]
    simp only [not_le.2 h, decide_false, Bool.false_eq_true, if_false, bidiag, Matrix.of_apply,
      Matrix.transpose_apply]
    rw [if_neg h1, if_neg h2]
  · intro i j hi hj
    rw [b3 i j hi hj]
    simp only [real_abs]
    split_ifs <;> first | exact abs_nonneg _ | exact le_rfl
  · intro i hi
    rw [b3 i i hi hi, if_pos rfl]; rfl
  · intro i hi
    by_cases h : n ≤ m
    · rw [if_pos h, b3 i (i + 1) (by omega) hi, if_neg (by omega), if_pos ⟨by simp [hu, h], rfl⟩]
      rfl
    · rw [if_neg h, b3 (i + 1) i hi (by omega), if_neg (by omega), if_neg (by omega),
        if_pos ⟨by simp [hu]; omega, rfl⟩]
      rfl
  · rw [hB]; exact he

/-- The hypotheses of C25 are met by concrete tall and wide matrices. -/
example : HasShape (ofRows 3 2 [[1, 2], [3, 4], [5, 6]]) 3 2 ∧
    HasShape (ofRows 2 3 [[1, 2, 3], [4, 5, 6]]) 2 3 := ⟨⟨rfl, rfl⟩, rfl, rfl⟩

/-- C26: `bidiagonal` returns `EmptyMatrix` exactly when a dimension is zero and succeeds otherwise;
then no method panics or accesses memory out of bounds. For every scalar type. -/
theorem C26_bidiagonal_errors (a : Arr2 α) :
    (a.nr = 0 ∨ a.nc = 0 → bidiagonal a = .error (.err .emptyMatrix)) ∧
    (a.nr ≠ 0 → a.nc ≠ 0 → ∃ b U B Vt, bidiagonal a = .ok b ∧ b.generateU = .ok U ∧
      b.intoB = .ok B ∧ b.generateVt = .ok Vt ∧ b.upperDiag = decide (a.nc ≤ a.nr) ∧
      U.nr = a.nr ∧ U.nc = min a.nr a.nc ∧ B.nr = min a.nr a.nc ∧ B.nc = min a.nr a.nc ∧
      Vt.nr = min a.nr a.nc ∧ Vt.nc = a.nc ∧ b.intoDiagonals.1.len = min a.nr a.nc ∧
      b.intoDiagonals.2.len = min a.nr a.nc - 1) := by
  refine ⟨fun h => bidiagonal_empty a (by omega), fun h1 h2 => ?_⟩
  by_cases h : a.nc ≤ a.nr
  · obtain ⟨s, e, hs⟩ := bidiagTall_ok a (by omega) h
    obtain ⟨b, e, rfl⟩ := relM_ok_left (bidiagonal_tall a (by omega) h) e
    obtain ⟨⟨U, e1, u1, u2⟩, ⟨V, e2, v1, v2⟩⟩ := hs.assemble_ok (by omega) h
    obtain ⟨B, e4, b1, b2, -⟩ := intoB_eq ⟨s.1, s.2.2, s.2.1, true⟩ (by rw [hs.dlen]; omega)
      (by rw [hs.dlen, hs.olen])
    have hd := hs.dlen
    have ho := hs.olen
    simp only [hs.dlen] at b1 b2
    rw [min_eq_right h]
    refine ⟨_, U, B, V.t, e, e1, e4, ?_, by simp [h], u1, u2, b1, b2, v2, v1, hd, ho⟩
    unfold BidiagonalDecomp.generateVt
    simp only [if_true, e2]; rfl
  · have h' : a.nr < a.nc := by omega
    obtain ⟨s, e, hs⟩ := bidiagTall_ok a.t (show 1 ≤ a.nr by omega) h'.le
    obtain ⟨b, e, rfl⟩ := relM_ok_left (bidiagonal_wide a (by omega) h') e
    obtain ⟨⟨U, e1, u1, u2⟩, ⟨V, e2, v1, v2⟩⟩ :=
      hs.assemble_ok (show 1 ≤ a.nr by omega) (show a.nr ≤ a.nc from h'.le)
    obtain ⟨B, e4, b1, b2, -⟩ := intoB_eq ⟨s.1.t, s.2.2, s.2.1, false⟩
      (by rw [hs.dlen]; show 1 ≤ a.nr; omega) (by rw [hs.dlen, hs.olen])
    have hd := hs.dlen
    have ho := hs.olen
    simp only [hs.dlen] at b1 b2
    rw [min_eq_left h'.le]
    refine ⟨_, V, B, U.t, e, ?_, e4, ?_, by simp [h'], v1, v2, b1, b2, u2, u1, hd, ho⟩
    · unfold BidiagonalDecomp.generateU
      simp only [Bool.false_eq_true, if_false]
      exact e2
    · unfold BidiagonalDecomp.generateVt
      simp only [Bool.false_eq_true, if_false]
      rw [show s.1.t.t = s.1 from rfl, e1]; rfl

/-- Both cases of C26 occur. -/
example : (ofRows 0 3 []).nr = 0 ∧ (ofRows 2 3 [[1, 2, 3], [4, 5, 6]]).nr ≠ 0 ∧
    (ofRows 2 3 [[1, 2, 3], [4, 5, 6]]).nc ≠ 0 := by simp [ofRows]

end LinfaLinalg
