import Verif.Proofs.Givens
import Verif.Spec.Real
import Mathlib.Tactic.LinearCombination

/-! # Givens rotations as matrices over the reals -/

namespace LinfaLinalg

open Matrix

/-- The rotation `[[c, -s], [s, c]]` in the coordinates `i`, `j`. -/
def rotM (n i j : Nat) (c s : ℝ) : Matrix (Fin n) (Fin n) ℝ :=
  Matrix.of fun r k =>
    if (k : Nat) = i then (if (r : Nat) = i then c else if (r : Nat) = j then s else 0)
    else if (k : Nat) = j then (if (r : Nat) = i then -s else if (r : Nat) = j then c else 0)
    else if r = k then 1 else 0

theorem mul_rotM_apply {m n i j : Nat} (hi : i < n) (hj : j < n) (hij : i ≠ j) (c s : ℝ)
    (A : Matrix (Fin m) (Fin n) ℝ) (r : Fin m) (k : Fin n) :
    (A * rotM n i j c s) r k =
      if (k : Nat) = i then A r ⟨i, hi⟩ * c + A r ⟨j, hj⟩ * s
      else if (k : Nat) = j then A r ⟨i, hi⟩ * -s + A r ⟨j, hj⟩ * c else A r k := by
  rw [Matrix.mul_apply]
  simp only [rotM, Matrix.of_apply]
  have hne : (⟨i, hi⟩ : Fin n) ≠ ⟨j, hj⟩ := fun h => hij (Fin.mk.inj_iff.1 h)
  by_cases h1 : (k : Nat) = i
  · simp only [h1, if_true]
    rw [Fintype.sum_eq_add ⟨i, hi⟩ ⟨j, hj⟩ hne]
    · simp [Ne.symm hij]
    · rintro x ⟨hx1, hx2⟩
      rw [if_neg (fun h => hx1 (Fin.ext h)), if_neg (fun h => hx2 (Fin.ext h)), mul_zero]
  · simp only [h1, if_false]
    by_cases h2 : (k : Nat) = j
    · simp only [h2, if_true]
      rw [Fintype.sum_eq_add ⟨i, hi⟩ ⟨j, hj⟩ hne]
      · simp [Ne.symm hij]
      · rintro x ⟨hx1, hx2⟩
        rw [if_neg (fun h => hx1 (Fin.ext h)), if_neg (fun h => hx2 (Fin.ext h)), mul_zero]
    · simp [h2]

theorem rotM_transpose (n i j : Nat) (hij : i ≠ j) (c s : ℝ) :
    (rotM n i j c s)ᵀ = rotM n i j c (-s) := by
  ext r k
  simp only [rotM, Matrix.transpose_apply, Matrix.of_apply, neg_neg]
  by_cases h1 : (r : Nat) = i <;> by_cases h2 : (k : Nat) = i <;> by_cases h3 : (r : Nat) = j <;>
    by_cases h4 : (k : Nat) = j <;> simp only [h1, h2, h3, h4, if_true, if_false, Ne.symm hij, hij]
      <;> first
      | rfl
      | omega
      | (split_ifs <;> first | rfl | omega)

theorem rotM_mul_apply {m n i j : Nat} (hi : i < n) (hj : j < n) (hij : i ≠ j) (c s : ℝ)
    (A : Matrix (Fin n) (Fin m) ℝ) (r : Fin n) (k : Fin m) :
    (rotM n i j c s * A) r k =
      if (r : Nat) = i then c * A ⟨i, hi⟩ k - s * A ⟨j, hj⟩ k
      else if (r : Nat) = j then s * A ⟨i, hi⟩ k + c * A ⟨j, hj⟩ k else A r k := by
  have h : (rotM n i j c s * A) r k = (Aᵀ * rotM n i j c (-s)) k r := by
    rw [← rotM_transpose n i j hij, ← Matrix.transpose_mul]; rfl
  rw [h, mul_rotM_apply hi hj hij]
  simp only [Matrix.transpose_apply]
  split_ifs <;> ring

theorem rotM_orth {n i j : Nat} (hi : i < n) (hj : j < n) (hij : i ≠ j) {c s : ℝ}
    (h : c * c + s * s = 1) : (rotM n i j c s)ᵀ * rotM n i j c s = 1 := by
  ext r k
  rw [mul_rotM_apply hi hj hij]
  simp only [Matrix.transpose_apply, rotM, Matrix.of_apply, Matrix.one_apply, Fin.ext_iff]
  split_ifs <;> first | omega | linear_combination h | ring

/-- Rotating two columns in place is multiplication by the rotation. -/
theorem toMat_rotCols {m n i j : Nat} (g : GivensRotation ℝ) (q : Arr2 ℝ) (hq : HasShape q m n)
    (hi : i < n) (hj : j < n) (hij : i ≠ j) :
    toMat m n (rotCols g i j q) = toMat m n q * rotM n i j g.c g.s := by
  ext r k
  rw [mul_rotM_apply hi hj hij]
  simp only [toMat_apply, rotCols]
  rw [if_pos (by rw [hq.1]; exact r.2)]
  split_ifs <;> ring

theorem rotCols_shape {m n i j : Nat} (g : GivensRotation ℝ) {q : Arr2 ℝ} (hq : HasShape q m n) :
    HasShape (rotCols g i j q) m n := hq

/-- The rotation of `cancel_y` over the reals. -/
theorem cancelY_real {x y : ℝ} {g : GivensRotation ℝ} {r : ℝ}
    (h : GivensRotation.cancelY x y = some (g, r)) :
    y ≠ 0 ∧ g.c * g.c + g.s * g.s = 1 ∧ g.c * x - g.s * y = r ∧ g.s * x + g.c * y = 0 ∧ 0 < r ∧
      r * r = x * x + y * y := by
  unfold GivensRotation.cancelY at h
  simp only [real_isZero, Bool.not_eq_true', decide_eq_false_iff_not] at h
  split at h
  · rename_i hy
    simp only [Option.some.injEq, Prod.mk.injEq] at h
    obtain ⟨rfl, hr⟩ := h
    have hpos : 0 < x * x + y * y := by
      have := mul_self_pos.2 hy
      have := mul_self_nonneg x
      linarith
    rw [real_hypot] at hr ⊢
    have hr0 : 0 < r := by rw [← hr]; exact Real.sqrt_pos.2 hpos
    have hsq : r * r = x * x + y * y := by rw [← hr]; exact Real.mul_self_sqrt hpos.le
    rw [hr]
    have hne := hr0.ne'
    refine ⟨hy, ?_, ?_, ?_, hr0, hsq⟩
    · field_simp
      linear_combination -hsq
    · field_simp
      linear_combination -hsq
    · field_simp
      ring
  · exact absurd h (by simp)

theorem cancelY_real_none {x y : ℝ} (h : GivensRotation.cancelY x y = none) : y = 0 := by
  unfold GivensRotation.cancelY at h
  simp only [real_isZero, Bool.not_eq_true', decide_eq_false_iff_not] at h
  split at h
  · exact absurd h (by simp)
  · rename_i hy; exact not_not.1 hy

theorem tryNew_real {c s eps : ℝ} {g : GivensRotation ℝ} {r : ℝ} (heps : 0 ≤ eps)
    (h : GivensRotation.tryNew c s eps = some (g, r)) :
    eps < r ∧ r = Real.sqrt (c * c + s * s) ∧ g.c = c / r ∧ g.s = s / r ∧
      g.c * g.c + g.s * g.s = 1 := by
  unfold GivensRotation.tryNew at h
  simp only [real_lt, decide_eq_true_eq, real_hypot] at h
  split at h
  · rename_i hlt
    simp only [Option.some.injEq, Prod.mk.injEq] at h
    obtain ⟨rfl, hr⟩ := h
    have hr0 : 0 < r := by rw [← hr]; linarith
    have hsq : r * r = c * c + s * s := by
      rw [← hr]; exact Real.mul_self_sqrt (by nlinarith [mul_self_nonneg c, mul_self_nonneg s])
    rw [hr] at hlt ⊢
    refine ⟨hlt, rfl, rfl, rfl, ?_⟩
    have := hr0.ne'
    field_simp
    linear_combination -hsq
  · exact absurd h (by simp)

theorem tryNew_real_none {c s eps : ℝ} (h : GivensRotation.tryNew c s eps = none) :
    Real.sqrt (c * c + s * s) ≤ eps := by
  unfold GivensRotation.tryNew at h
  simp only [real_lt, decide_eq_true_eq, real_hypot] at h
  split at h
  · exact absurd h (by simp)
  · rename_i hlt; exact not_lt.1 hlt

end LinfaLinalg
