import Verif.Spec.Frob
import Verif.Props.Vectors
import Mathlib.LinearAlgebra.Matrix.Rank

/-! # Approximation by matrices of low rank

The theorem of Eckart and Young for the Frobenius norm: no matrix of rank `k` is closer to a matrix than the tail of its
singular values. -/

namespace LinfaLinalg

open Matrix

/-- The orthogonal projection onto the span of the rows. -/
theorem exists_proj {m n : Nat} (X : Matrix (Fin m) (Fin n) ℝ) :
    ∃ P : Matrix (Fin n) (Fin n) ℝ, Pᵀ = P ∧ P * P = P ∧ X * P = X ∧ P.trace = X.rank := by
  classical
  have hsym : (Xᵀ * X).IsSymm := by rw [Matrix.IsSymm, transpose_mul, transpose_transpose]
  obtain ⟨Q, L, h1, h2⟩ := exists_eigenbasis hsym
  have h1' : Q * Qᵀ = 1 := mul_eq_one_comm.1 h1
  let e : Fin n → ℝ := fun i => if L i = 0 then 0 else 1
  have hee : diagonal e * diagonal e = diagonal e := by
    rw [diagonal_mul_diagonal]; congr 1; funext i; simp only [e]; split_ifs <;> simp
  refine ⟨Q * diagonal e * Qᵀ, ?_, ?_, ?_, ?_⟩
  · simp only [transpose_mul, transpose_transpose, diagonal_transpose, Matrix.mul_assoc]
  · calc Q * diagonal e * Qᵀ * (Q * diagonal e * Qᵀ) = Q * diagonal e * (Qᵀ * Q) * diagonal e * Qᵀ := by
          simp only [Matrix.mul_assoc]
      _ = Q * (diagonal e * diagonal e) * Qᵀ := by rw [h1, Matrix.mul_one, Matrix.mul_assoc Q]
      _ = _ := by rw [hee]
  · have hXQ : X * Q * diagonal e = X * Q := by
      have hg : (X * Q)ᵀ * (X * Q) = diagonal L := by
        rw [transpose_mul, Matrix.mul_assoc, ← Matrix.mul_assoc Xᵀ, h2, ← Matrix.mul_assoc, h1, Matrix.one_mul]
      ext i j
      rw [mul_diagonal]
      simp only [e]
      split_ifs with hL
      · have h3 := congrFun (congrFun hg j) j
        rw [diagonal_apply_eq, hL, mul_apply] at h3
        simp only [transpose_apply] at h3
        have := (Finset.sum_eq_zero_iff_of_nonneg fun i _ => mul_self_nonneg _).1 h3 i (Finset.mem_univ i)
        rw [mul_self_eq_zero.1 this, zero_mul]
      · rw [mul_one]
    rw [← Matrix.mul_assoc, ← Matrix.mul_assoc, hXQ, Matrix.mul_assoc, h1', Matrix.mul_one]
  · have hQu : IsUnit Q.det := by
      have := congrArg Matrix.det h1
      rw [det_mul, det_one] at this
      exact IsUnit.of_mul_eq_one_right _ this
    have hQu' : IsUnit Qᵀ.det := by rwa [det_transpose]
    have hr : X.rank = (diagonal L).rank := by
      rw [← rank_transpose_mul_self X]
      have : Xᵀ * X = Q * diagonal L * Qᵀ := by rw [← h2, Matrix.mul_assoc, h1', Matrix.mul_one]
      rw [this, rank_mul_eq_left_of_isUnit_det _ _ hQu', rank_mul_eq_right_of_isUnit_det _ _ hQu]
    rw [hr, rank_diagonal, Matrix.mul_assoc, trace_mul_comm, Matrix.mul_assoc, h1, Matrix.mul_one, trace_diagonal,
      Fintype.card_subtype, Finset.card_filter, Nat.cast_sum]
    refine Finset.sum_congr rfl fun i _ => ?_
    simp only [e]
    by_cases h : L i = 0 <;> simp [h]

/-- Splitting the norm along a projection. -/
theorem frob_sq_proj {m n : Nat} (Y : Matrix (Fin m) (Fin n) ℝ) {P : Matrix (Fin n) (Fin n) ℝ} (h1 : Pᵀ = P)
    (h2 : P * P = P) : frob (Y * P) ^ 2 = (Yᵀ * Y * P).trace := by
  rw [frob_sq_trace, transpose_mul, h1, Matrix.mul_assoc, trace_mul_comm]
  simp only [Matrix.mul_assoc, h2]

theorem proj_compl {n : Nat} {P : Matrix (Fin n) (Fin n) ℝ} (h1 : Pᵀ = P) (h2 : P * P = P) :
    (1 - P)ᵀ = 1 - P ∧ (1 - P) * (1 - P) = 1 - P := by
  refine ⟨by rw [transpose_sub, transpose_one, h1], ?_⟩
  rw [Matrix.sub_mul, Matrix.mul_sub, Matrix.mul_sub, h2]
  simp

theorem frob_sq_split {m n : Nat} (Y : Matrix (Fin m) (Fin n) ℝ) {P : Matrix (Fin n) (Fin n) ℝ} (h1 : Pᵀ = P)
    (h2 : P * P = P) : frob (Y * (1 - P)) ^ 2 = frob Y ^ 2 - frob (Y * P) ^ 2 := by
  rw [frob_sq_proj Y h1 h2, frob_sq_proj Y (proj_compl h1 h2).1 (proj_compl h1 h2).2, frob_sq_trace, Matrix.mul_sub,
    trace_sub, Matrix.mul_one]

/-- Diagonal entries of a compressed projection. -/
theorem proj_diag_nonneg {n r : Nat} (V : Matrix (Fin r) (Fin n) ℝ) {P : Matrix (Fin n) (Fin n) ℝ} (h1 : Pᵀ = P)
    (h2 : P * P = P) (i : Fin r) : 0 ≤ (V * P * Vᵀ) i i := by
  have : V * P * Vᵀ = (V * P) * (V * P)ᵀ := by
    rw [transpose_mul, h1, ← Matrix.mul_assoc, Matrix.mul_assoc V P P, h2]
  rw [this, mul_apply]
  exact Finset.sum_nonneg fun j _ => mul_self_nonneg _

/-- **Eckart and Young**: `T` names largest ones among the numbers `d`, the squares of the singular values. -/
theorem eckart_young {m n r : Nat} {B X : Matrix (Fin m) (Fin n) ℝ} {V : Matrix (Fin r) (Fin n) ℝ} {d : Fin r → ℝ}
    (hV : V * Vᵀ = 1) (hB : Bᵀ * B = Vᵀ * diagonal d * V) {T : Finset (Fin r)} {τ : ℝ} (hτ : 0 ≤ τ)
    (h1 : ∀ i ∈ T, τ ≤ d i) (h2 : ∀ i, i ∉ T → d i ≤ τ) (hX : X.rank ≤ T.card) :
    frob B ^ 2 - ∑ i ∈ T, d i ≤ frob (B - X) ^ 2 := by
  obtain ⟨P, p1, p2, p3, p4⟩ := exists_proj X
  have hBX : (B - X) * (1 - P) = B * (1 - P) := by
    rw [Matrix.sub_mul, Matrix.mul_sub X, p3, Matrix.mul_one, sub_self, sub_zero]
  have hle : frob (B * (1 - P)) ^ 2 ≤ frob (B - X) ^ 2 := by
    rw [← hBX, frob_sq_split _ p1 p2]
    linarith [sq_nonneg (frob ((B - X) * P))]
  rw [frob_sq_split _ p1 p2] at hle
  suffices h : frob (B * P) ^ 2 ≤ ∑ i ∈ T, d i by linarith
  set c : Fin r → ℝ := fun i => (V * P * Vᵀ) i i with hc
  have hBP : frob (B * P) ^ 2 = ∑ i, d i * c i := by
    rw [frob_sq_proj B p1 p2, hB, Matrix.mul_assoc, Matrix.mul_assoc, trace_mul_comm, Matrix.mul_assoc, trace]
    refine Finset.sum_congr rfl fun i _ => ?_
    rw [diag_apply, diagonal_mul]
  have c0 : ∀ i, 0 ≤ c i := proj_diag_nonneg V p1 p2
  have c1 : ∀ i, c i ≤ 1 := fun i => by
    have h3 := proj_diag_nonneg V (proj_compl p1 p2).1 (proj_compl p1 p2).2 i
    rw [Matrix.mul_sub, Matrix.sub_mul, Matrix.mul_one, Matrix.sub_apply, hV, one_apply_eq] at h3
    linarith
  have hW : (Vᵀ * V)ᵀ = Vᵀ * V ∧ Vᵀ * V * (Vᵀ * V) = Vᵀ * V := by
    refine ⟨by rw [transpose_mul, transpose_transpose], ?_⟩
    rw [Matrix.mul_assoc, ← Matrix.mul_assoc V, hV, Matrix.one_mul]
  have csum : ∑ i, c i ≤ T.card := by
    have e1 : ∑ i, c i = (P * (Vᵀ * V)).trace := by
      change (V * P * Vᵀ).trace = _
      rw [trace_mul_comm, ← Matrix.mul_assoc, trace_mul_comm]
    have e2 := frob_sq_split P hW.1 hW.2
    have e3 := frob_sq_proj P hW.1 hW.2
    have e4 : frob P ^ 2 = P.trace := by rw [frob_sq_trace, p1, p2]
    rw [p1, p2] at e3
    have : (X.rank : ℝ) ≤ T.card := by exact_mod_cast hX
    rw [e1, ← e3]
    linarith [sq_nonneg (frob (P * (1 - Vᵀ * V)))]
  rw [hBP, ← Finset.sum_add_sum_compl T]
  have s1 : ∑ i ∈ T, d i * c i ≤ ∑ i ∈ T, (d i - τ * (1 - c i)) :=
    Finset.sum_le_sum fun i hi => by nlinarith [h1 i hi, c1 i]
  have s2 : ∑ i ∈ Tᶜ, d i * c i ≤ ∑ i ∈ Tᶜ, τ * c i :=
    Finset.sum_le_sum fun i hi => mul_le_mul_of_nonneg_right (h2 i (Finset.mem_compl.1 hi)) (c0 i)
  have s3 : ∑ i ∈ T, (d i - τ * (1 - c i)) = ∑ i ∈ T, d i - τ * T.card + τ * ∑ i ∈ T, c i := by
    rw [Finset.sum_sub_distrib, ← Finset.mul_sum, Finset.sum_sub_distrib, Finset.sum_const, nsmul_eq_mul, mul_one]
    ring
  have s4 : ∑ i ∈ Tᶜ, τ * c i = τ * ∑ i ∈ Tᶜ, c i := (Finset.mul_sum _ _ _).symm
  have s5 := Finset.sum_add_sum_compl T c
  have s6 : τ * (∑ i ∈ T, c i + ∑ i ∈ Tᶜ, c i) ≤ τ * T.card := mul_le_mul_of_nonneg_left (by rw [s5]; exact csum) hτ
  rw [mul_add] at s6
  linarith

end LinfaLinalg
