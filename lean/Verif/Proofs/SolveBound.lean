import Mathlib.LinearAlgebra.Matrix.Block
import Mathlib.LinearAlgebra.Matrix.NonsingularInverse
import Verif.Proofs.CholRange

/-! # Bounds for the two solves with a Cholesky factor -/

namespace LinfaLinalg

open Matrix

variable {n : Nat} {L A : Matrix (Fin n) (Fin n) ℝ} {δ G g β Υ : ℝ}

/-- A lower triangular matrix and the matrix it nearly is the Cholesky factor of. -/
structure NearChol (L A : Matrix (Fin n) (Fin n) ℝ) (δ G g : ℝ) : Prop where
  low : ∀ i j, i < j → L i j = 0
  diag : ∀ i, L i i ≠ 0
  pos : ∀ i, 0 < A i i
  near : ∀ i j, |(L * Lᵀ - A) i j| ≤ G * (√(A i i) * √(A j j))
  cond : ∀ x : Fin n → ℝ, δ * ∑ i, A i i * x i ^ 2 ≤ x ⬝ᵥ A *ᵥ x
  G0 : 0 ≤ G
  G1 : G ≤ 1
  g0 : 0 < g
  ng : 4 * n * g ≤ 1
  δg : 4 * (n + 1) * g ≤ δ - n * G

/-- The leading part of a system with the transposed factor can be solved. -/
theorem NearChol.solve_head (h : NearChol L A δ G g) (k : Nat) (c : Fin n → ℝ) :
    ∃ w : Fin n → ℝ, (∀ i : Fin n, k ≤ i → w i = c i) ∧ ∀ r : Fin n, (r : Nat) < k → ∑ j, L j r * w j = c r := by
  set T : Matrix (Fin n) (Fin n) ℝ := of fun i j => if (i : Nat) < k then L j i else if i = j then 1 else 0 with hT
  have hup : T.IsUpperTriangular := by
    intro i j hij
    have hij' : j < i := hij
    simp only [hT, of_apply]
    split_ifs with h1 h2
    · exact h.low j i hij'
    · exact absurd h2 hij'.ne'
    · rfl
  have hdet : IsUnit T.det := by
    rw [Matrix.det_of_isUpperTriangular hup, isUnit_iff_ne_zero, Finset.prod_ne_zero_iff]
    intro i _
    simp only [hT, of_apply]
    split_ifs
    · exact h.diag i
    · exact one_ne_zero
  refine ⟨T⁻¹ *ᵥ c, ?_, ?_⟩ <;>
  · intro i hi
    have e : (T *ᵥ (T⁻¹ *ᵥ c)) i = c i := by rw [mulVec_mulVec, mul_nonsing_inv _ hdet, one_mulVec]
    set w := T⁻¹ *ᵥ c
    simp only [mulVec, dotProduct, hT, of_apply] at e
    first
      | rw [← e]
        simp [not_lt.2 hi]
      | rw [← e]
        simp [hi]

/-- `Lᵀ` does not make a vector much shorter than the scaled length allows. -/
theorem NearChol.quad (h : NearChol L A δ G g) (w : Fin n → ℝ) :
    (δ - n * G) * ∑ i, A i i * w i ^ 2 ≤ ∑ r, (∑ c, L c r * w c) ^ 2 := by
  have e1 : ∑ r, (∑ c, L c r * w c) ^ 2 = w ⬝ᵥ (L * Lᵀ) *ᵥ w := by
    rw [← mulVec_mulVec, dotProduct_mulVec, ← mulVec_transpose]
    simp only [dotProduct, mulVec, transpose_apply]
    exact Finset.sum_congr rfl fun r _ => by rw [sq]
  have e2 : w ⬝ᵥ (L * Lᵀ) *ᵥ w = w ⬝ᵥ A *ᵥ w + w ⬝ᵥ (L * Lᵀ - A) *ᵥ w := by
    rw [sub_mulVec, dotProduct_sub]; ring
  have e3 : |w ⬝ᵥ (L * Lᵀ - A) *ᵥ w| ≤ G * (∑ i, √(A i i) * |w i|) ^ 2 := by
    rw [sq, Finset.sum_mul_sum, Finset.mul_sum]
    simp only [dotProduct, mulVec]
    refine (Finset.abs_sum_le_sum_abs _ _).trans (Finset.sum_le_sum fun i _ => ?_)
    rw [abs_mul]
    refine (mul_le_mul_of_nonneg_left (Finset.abs_sum_le_sum_abs _ _) (abs_nonneg _)).trans ?_
    rw [Finset.mul_sum, Finset.mul_sum]
    refine Finset.sum_le_sum fun j _ => ?_
    rw [abs_mul]
    have := mul_le_mul_of_nonneg_right (h.near i j) (mul_nonneg (abs_nonneg (w i)) (abs_nonneg (w j)))
    nlinarith
  have e4 : (∑ i, √(A i i) * |w i|) ^ 2 ≤ n * ∑ i, A i i * w i ^ 2 := by
    refine (sq_sum_le_card_mul_sum_sq).trans (le_of_eq ?_)
    rw [Finset.card_univ, Fintype.card_fin]
    congr 1
    exact Finset.sum_congr rfl fun i _ => by rw [mul_pow, Real.sq_sqrt (h.pos i).le, sq_abs]
  have e5 := (abs_le.1 e3).1
  have e6 := mul_le_mul_of_nonneg_left e4 h.G0
  have e7 := h.cond w
  rw [e1, e2]
  nlinarith

theorem NearChol.row (h : NearChol L A δ G g) (j : Fin n) : ∑ r, L j r ^ 2 ≤ 4 * A j j := by
  have h1 := (abs_le.1 (h.near j j)).2
  rw [Real.mul_self_sqrt (h.pos j).le, Matrix.sub_apply, Matrix.mul_apply] at h1
  have e : ∑ r, L j r ^ 2 = ∑ r, L j r * Lᵀ r j := Finset.sum_congr rfl fun r _ => by rw [transpose_apply, sq]
  rw [e]
  have := h.G1
  have := h.pos j
  nlinarith

theorem NearChol.entry (h : NearChol L A δ G g) (j r : Fin n) : |L j r| ≤ 2 * √(A j j) := by
  have h1 : L j r ^ 2 ≤ 4 * A j j :=
    (Finset.single_le_sum (f := fun r => L j r ^ 2) (fun i _ => sq_nonneg _) (Finset.mem_univ r)).trans (h.row j)
  have h2 := Real.sq_sqrt (h.pos j).le
  exact abs_le_of_sq_le_sq (by rw [mul_pow, h2]; linarith) (by positivity)

/-- The first solve: a bound for the first `m` numbers. -/
theorem NearChol.forward (h : NearChol L A δ G g) (hβ : 0 ≤ β) (m : Nat) (y : Fin n → ℝ) (hy : ∀ i : Fin n, m ≤ i → y i = 0)
    (hres : ∀ j : Fin n, (j : Nat) < m → |∑ r, L j r * y r| ≤ 2 * β * √(A j j) + g * ∑ r, |L j r| * |y r|) :
    g * ∑ r, y r ^ 2 ≤ 4 * β ^ 2 := by
  obtain ⟨w, hw, hw'⟩ := h.solve_head m y
  have hwz : ∀ i : Fin n, m ≤ i → w i = 0 := fun i hi => (hw i hi).trans (hy i hi)
  have hLw : ∀ r, ∑ c, L c r * w c = y r := by
    intro r
    by_cases hr : (r : Nat) < m
    · exact hw' r hr
    · rw [hy r (by omega)]
      refine Finset.sum_eq_zero fun c _ => ?_
      by_cases hc : c < r
      · rw [h.low c r hc, zero_mul]
      · have : (r : Nat) ≤ c := not_lt.1 hc
        rw [hwz c (by omega), mul_zero]
  have hq := h.quad w
  simp only [hLw] at hq
  set Y := ∑ r, y r ^ 2 with hY
  have hY0 : 0 ≤ Y := Finset.sum_nonneg fun _ _ => sq_nonneg _
  have hsq : √Y ^ 2 = Y := Real.sq_sqrt hY0
  -- `Y = Σ w (L y)`
  have e1 : Y = ∑ j, w j * ∑ r, L j r * y r := by
    have : ∀ r, y r ^ 2 = ∑ c, w c * (L c r * y r) := by
      intro r
      rw [sq]
      nth_rewrite 1 [← hLw r]
      rw [Finset.sum_mul]
      exact Finset.sum_congr rfl fun c _ => by ring
    rw [hY, Finset.sum_congr rfl fun r _ => this r, Finset.sum_comm]
    exact Finset.sum_congr rfl fun j _ => by rw [Finset.mul_sum]
  have e2 : ∀ j, |w j * ∑ r, L j r * y r| ≤ (√(A j j) * |w j|) * (2 * β + 2 * g * √Y) := by
    intro j
    by_cases hj : (j : Nat) < m
    · have hcs : ∑ r, |L j r| * |y r| ≤ 2 * √(A j j) * √Y := by
        have := Real.sum_mul_le_sqrt_mul_sqrt Finset.univ (fun r => |L j r|) (fun r => |y r|)
        simp only [sq_abs] at this
        refine this.trans (mul_le_mul_of_nonneg_right ?_ (Real.sqrt_nonneg _))
        refine (Real.sqrt_le_sqrt (h.row j)).trans (le_of_eq ?_)
        rw [Real.sqrt_mul (by norm_num), show √(4 : ℝ) = 2 by
          rw [show (4 : ℝ) = 2 ^ 2 by norm_num]; exact Real.sqrt_sq (by norm_num)]
      have h1 := (hres j hj).trans (add_le_add_right (mul_le_mul_of_nonneg_left hcs h.g0.le) _)
      rw [abs_mul]
      refine (mul_le_mul_of_nonneg_left h1 (abs_nonneg _)).trans (le_of_eq ?_)
      ring
    · rw [hwz j (by omega)]
      simp
  have e3 : Y ≤ (∑ j, √(A j j) * |w j|) * (2 * β + 2 * g * √Y) := by
    rw [Finset.sum_mul]
    exact e1.le.trans ((le_abs_self _).trans ((Finset.abs_sum_le_sum_abs _ _).trans (Finset.sum_le_sum fun j _ => e2 j)))
  have e4 : (∑ i, √(A i i) * |w i|) ^ 2 ≤ n * ∑ i, A i i * w i ^ 2 := by
    refine (sq_sum_le_card_mul_sum_sq).trans (le_of_eq ?_)
    rw [Finset.card_univ, Fintype.card_fin]
    congr 1
    exact Finset.sum_congr rfl fun i _ => by rw [mul_pow, Real.sq_sqrt (h.pos i).le, sq_abs]
  set W := ∑ i, A i i * w i ^ 2 with hW
  set V := ∑ i, √(A i i) * |w i| with hV
  have hV0 : 0 ≤ V := Finset.sum_nonneg fun _ _ => by positivity
  have hg0 := h.g0
  have hng := h.ng
  have hn0 : (0 : ℝ) ≤ n := Nat.cast_nonneg n
  have hW0 : 0 ≤ W := Finset.sum_nonneg fun i _ => mul_nonneg (h.pos i).le (sq_nonneg _)
  by_contra hc
  push Not at hc
  have hYp : 0 < Y := by
    rcases hY0.lt_or_eq with h | h
    · exact h
    · rw [← h, mul_zero] at hc; nlinarith [sq_nonneg β]
  -- `(2 β + 2 g √Y)² ≤ 2 (g + 4 g²) Y`
  set U := 2 * β + 2 * g * √Y with hU
  have hU0 : 0 ≤ U := by positivity
  have e5 : U ^ 2 ≤ (2 * g + 8 * g ^ 2) * Y := by
    have : U ^ 2 ≤ 2 * (4 * β ^ 2) + 2 * (4 * g ^ 2 * √Y ^ 2) := by
      rw [hU]; nlinarith [sq_nonneg (2 * β - 2 * g * √Y)]
    rw [hsq] at this
    nlinarith
  -- `Y² ≤ V² U² ≤ n W U²` and `4 (n + 1) g W ≤ Y`
  have e6 : Y ^ 2 ≤ V ^ 2 * U ^ 2 := by
    rw [← mul_pow]; exact pow_le_pow_left₀ hY0 e3 2
  have e7 : 4 * (n + 1) * g * W ≤ Y := (mul_le_mul_of_nonneg_right h.δg hW0).trans hq
  have e8 : Y ^ 2 ≤ n * W * ((2 * g + 8 * g ^ 2) * Y) :=
    e6.trans (mul_le_mul e4 e5 (sq_nonneg _) (by positivity))
  have e9 : Y ≤ n * W * (2 * g + 8 * g ^ 2) := by
    have : Y * Y ≤ n * W * (2 * g + 8 * g ^ 2) * Y := by nlinarith
    exact le_of_mul_le_mul_right this hYp
  have e10 : n * W * (2 * g + 8 * g ^ 2) ≤ (2 * n + 2) * g * W := by
    have : n * (2 * g + 8 * g ^ 2) ≤ (2 * n + 2) * g := by nlinarith
    calc n * W * (2 * g + 8 * g ^ 2) = n * (2 * g + 8 * g ^ 2) * W := by ring
      _ ≤ _ := mul_le_mul_of_nonneg_right this hW0
  have hWp : 0 < W := by
    rcases hW0.lt_or_eq with h | h
    · exact h
    · rw [← h] at e9; simp at e9; linarith
  have : 0 < (2 * (n : ℝ) + 2) * g * W := by positivity
  nlinarith

/-- The second solve: a bound for the last numbers, from `k` on. -/
theorem NearChol.backward (h : NearChol L A δ G g) (k : Nat) (z : Fin n → ℝ) (hz : ∀ i : Fin n, (i : Nat) < k → z i = 0)
    (hres : ∀ r : Fin n, k ≤ (r : Nat) → |∑ c, L c r * z c| ≤ Υ + g * ∑ c, |L c r| * |z c|) :
    g * ∑ i, A i i * z i ^ 2 ≤ Υ ^ 2 := by
  obtain ⟨w, hw, hw'⟩ := h.solve_head k fun i => if (i : Nat) < k then 0 else z i
  have hwz : ∀ i : Fin n, k ≤ i → w i = z i := fun i hi => by rw [hw i hi, if_neg (by omega)]
  have hq := h.quad w
  set W := ∑ i, A i i * z i ^ 2 with hW
  have hW0 : 0 ≤ W := Finset.sum_nonneg fun i _ => mul_nonneg (h.pos i).le (sq_nonneg _)
  have hWw : W ≤ ∑ i, A i i * w i ^ 2 := by
    refine Finset.sum_le_sum fun i _ => mul_le_mul_of_nonneg_left ?_ (h.pos i).le
    by_cases hi : (i : Nat) < k
    · rw [hz i hi, zero_pow two_ne_zero]; exact sq_nonneg _
    · rw [hwz i (by omega)]
  have hsq : √W ^ 2 = W := Real.sq_sqrt hW0
  have hg0 := h.g0
  have hng := h.ng
  have hn0 : (0 : ℝ) ≤ n := Nat.cast_nonneg n
  have e4 : (∑ i, √(A i i) * |z i|) ^ 2 ≤ n * W := by
    refine (sq_sum_le_card_mul_sum_sq).trans (le_of_eq ?_)
    rw [Finset.card_univ, Fintype.card_fin]
    congr 1
    exact Finset.sum_congr rfl fun i _ => by rw [mul_pow, Real.sq_sqrt (h.pos i).le, sq_abs]
  set V := ∑ i, √(A i i) * |z i| with hV
  have hV0 : 0 ≤ V := Finset.sum_nonneg fun _ _ => by positivity
  have e1 : ∀ r, (∑ c, L c r * w c) ^ 2 ≤ (Υ + 2 * g * V) ^ 2 := by
    intro r
    by_cases hr : (r : Nat) < k
    · rw [hw' r hr, if_pos hr, zero_pow two_ne_zero]; positivity
    · have : ∑ c, L c r * w c = ∑ c, L c r * z c := by
        refine Finset.sum_congr rfl fun c _ => ?_
        by_cases hc : c < r
        · rw [h.low c r hc, zero_mul, zero_mul]
        · have : (r : Nat) ≤ c := not_lt.1 hc
          rw [hwz c (by omega)]
      rw [this]
      refine sq_le_sq' ?_ ?_
      all_goals
        have h1 := hres r (by omega)
        have h2 : ∑ c, |L c r| * |z c| ≤ 2 * V := by
          rw [hV, Finset.mul_sum]
          refine Finset.sum_le_sum fun c _ => ?_
          have := mul_le_mul_of_nonneg_right (h.entry c r) (abs_nonneg (z c))
          linarith
        have h3 := mul_le_mul_of_nonneg_left h2 hg0.le
        have h4 := abs_le.1 h1
        linarith [h4.1, h4.2]
  have e2 : ∑ r, (∑ c, L c r * w c) ^ 2 ≤ n * (Υ + 2 * g * V) ^ 2 := by
    refine (Finset.sum_le_sum fun r _ => e1 r).trans (le_of_eq ?_)
    rw [Finset.sum_const, Finset.card_univ, Fintype.card_fin, nsmul_eq_mul]
  have e3 : 4 * (n + 1) * g * W ≤ n * (Υ + 2 * g * V) ^ 2 := by
    have hww : 0 ≤ ∑ i, A i i * w i ^ 2 := hW0.trans hWw
    refine (mul_le_mul_of_nonneg_left hWw (by positivity)).trans ?_
    exact (mul_le_mul_of_nonneg_right h.δg hww).trans (hq.trans e2)
  by_contra hc
  push Not at hc
  have hWp : 0 < W := by
    rcases hW0.lt_or_eq with h | h
    · exact h
    · rw [← h, mul_zero] at hc; nlinarith [sq_nonneg Υ]
  have e5 : (Υ + 2 * g * V) ^ 2 ≤ 4 * g * W := by
    have h1 : (Υ + 2 * g * V) ^ 2 ≤ 2 * Υ ^ 2 + 2 * (4 * g ^ 2 * V ^ 2) := by nlinarith [sq_nonneg (Υ - 2 * g * V)]
    have h2 : 4 * g ^ 2 * V ^ 2 ≤ 4 * g ^ 2 * (n * W) := mul_le_mul_of_nonneg_left e4 (by positivity)
    have h3 : 4 * g ^ 2 * (n * W) ≤ g * W := by
      have := mul_le_mul_of_nonneg_right hng (mul_nonneg hg0.le hW0)
      calc 4 * g ^ 2 * (n * W) = 4 * n * g * (g * W) := by ring
        _ ≤ 1 * (g * W) := this
        _ = g * W := one_mul _
    linarith
  have e6 := mul_le_mul_of_nonneg_left e5 hn0
  have : 0 < g * W := by positivity
  nlinarith

end LinfaLinalg
