import Mathlib.Analysis.SpecialFunctions.Sqrt
import Mathlib.Algebra.Order.Ring.Pow
import Mathlib.Tactic.Linarith
import Mathlib.Tactic.FieldSimp

/-! # Accumulated rounding errors -/

set_option linter.unusedSectionVars false

namespace LinfaLinalg

/-! ## Products of `n` factors `(1 + δ)^±1` -/

/-- `t` is what a product of `n` factors `(1 + δ)` or `1 / (1 + δ)`, `|δ| ≤ u`, can be. -/
def Near (u : ℝ) (n : Nat) (t : ℝ) : Prop := (1 - u) ^ n ≤ t ∧ t * (1 - u) ^ n ≤ 1

section near
variable {u : ℝ} (hu0 : 0 ≤ u) (hu1 : u < 1)
include hu0 hu1

theorem Near.pos {n : Nat} {t : ℝ} (h : Near u n t) : 0 < t :=
  lt_of_lt_of_le (pow_pos (by linarith) n) h.1

theorem near_one (n : Nat) : Near u n 1 := by
  have : (1 - u) ^ n ≤ 1 := pow_le_one₀ (by linarith) (by linarith)
  exact ⟨this, by linarith⟩

theorem Near.mul {m n : Nat} {s t : ℝ} (hs : Near u m s) (ht : Near u n t) :
    Near u (m + n) (s * t) := by
  have p : 0 < 1 - u := by linarith
  have hs0 := hs.pos hu0 hu1
  have ht0 := ht.pos hu0 hu1
  constructor
  · rw [pow_add]
    exact mul_le_mul hs.1 ht.1 (pow_pos p n).le hs0.le
  · calc s * t * (1 - u) ^ (m + n) = (s * (1 - u) ^ m) * (t * (1 - u) ^ n) := by rw [pow_add]; ring
      _ ≤ 1 * 1 := mul_le_mul hs.2 ht.2 (mul_nonneg ht0.le (pow_pos p n).le) zero_le_one
      _ = 1 := one_mul 1

theorem Near.inv {n : Nat} {t : ℝ} (h : Near u n t) : Near u n t⁻¹ := by
  have p : 0 < 1 - u := by linarith
  have ht0 := h.pos hu0 hu1
  constructor
  · rw [le_inv_comm₀ (pow_pos p n) ht0]
    rw [le_inv_comm₀ ht0 (pow_pos p n)]
    rw [← one_div, le_div_iff₀ ht0, mul_comm]
    exact h.2
  · rw [inv_mul_le_iff₀ ht0, mul_one]
    exact h.1

theorem Near.mono {m n : Nat} {t : ℝ} (h : Near u m t) (hmn : m ≤ n) : Near u n t := by
  obtain ⟨k, rfl⟩ := Nat.exists_eq_add_of_le hmn
  have := h.mul hu0 hu1 (near_one hu0 hu1 k)
  rwa [mul_one] at this

theorem near_one_add {d : ℝ} (h : |d| ≤ u) : Near u 1 (1 + d) := by
  rw [abs_le] at h
  refine ⟨by rw [pow_one]; linarith, ?_⟩
  rw [pow_one]
  nlinarith

theorem near_of_err {x y : ℝ} (h : |y - x| ≤ u * |x|) : ∃ t, Near u 1 t ∧ y = x * t := by
  by_cases hx : x = 0
  · subst hx
    rw [abs_zero, mul_zero] at h
    have := abs_nonpos_iff.1 h
    exact ⟨1, near_one hu0 hu1 1, by linarith⟩
  · refine ⟨1 + (y - x) / x, near_one_add hu0 hu1 ?_, by field_simp; ring⟩
    rw [abs_div, div_le_iff₀ (abs_pos.2 hx)]
    exact h

end near

end LinfaLinalg
