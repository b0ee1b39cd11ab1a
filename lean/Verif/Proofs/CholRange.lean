import Verif.Props.IeeeChol
import Verif.Props.IeeeSolve

/-! # Cholesky factorization of well conditioned matrices in floats with overflow and underflow

Auxiliary for C140: the exact Schur complement of a computed partial factor is positive, and no step overflows. -/

namespace LinfaLinalg

open Matrix

/-- `√a |y|`, summed and squared. -/
theorem sq_sum_sqrt_le {k : Nat} (s : Fin k → ℝ) (y : Fin k → ℝ) (t : ℝ) :
    (∑ i, s i * |y i| + t) ^ 2 ≤ (k + 1) * (∑ i, s i ^ 2 * y i ^ 2 + t ^ 2) := by
  have h := sq_sum_le_card_mul_sum_sq (s := (Finset.univ : Finset (Option (Fin k))))
    (f := fun o => o.elim t fun i => s i * |y i|)
  simp only [Fintype.sum_option, Option.elim_none, Option.elim_some, Finset.card_univ, Fintype.card_option, Fintype.card_fin,
    mul_pow, sq_abs] at h
  push_cast at h
  linarith [h]

/-- A partial factor, the diagonal entries of which are not zero, which reproduces the matrix up to `G √a_rr √a_cc`: the squares
in the next row stay below the diagonal entry. -/
theorem schur_pos {k j : Nat} (β a : Nat → Nat → ℝ) (δ G : ℝ) (hG : 0 ≤ G) (ha0 : ∀ i, i < k → 0 ≤ a i i) (hj0 : 0 ≤ a j j)
    (hd : ∀ i, i < k → β i i ≠ 0) (hsym : ∀ r c, r < k → c < k → a r c = a c r)
    (hdot : ∀ r c, r < k → c ≤ r →
      |∑ i ∈ Finset.range (c + 1), β c i * β r i - a r c| ≤ G * (√(a r r) * √(a c c)))
    (hrow : ∀ c, c < k → |∑ i ∈ Finset.range (c + 1), β c i * β j i - a j c| ≤ G * (√(a j j) * √(a c c)))
    (hform : ∀ y : Fin k → ℝ, δ * (∑ i : Fin k, a i i * y i ^ 2 + a j j) ≤
      ∑ r : Fin k, ∑ c : Fin k, a r c * y r * y c - 2 * ∑ c : Fin k, a j c * y c + a j j) (hδ : (k + 1) * G ≤ δ) :
    ∑ i ∈ Finset.range k, β j i ^ 2 ≤ a j j - (δ - (k + 1) * G) * a j j := by
  set L : Matrix (Fin k) (Fin k) ℝ := of fun r c => if (c : Nat) ≤ r then β r c else 0 with hL
  set l : Fin k → ℝ := fun i => β j i with hl
  have hLu : IsUnit Lᵀ := by
    rw [isUnit_iff_isUnit_det, det_transpose, det_of_isLowerTriangular]
    · refine isUnit_iff_ne_zero.2 (Finset.prod_ne_zero_iff.2 fun i _ => ?_)
      simp only [hL, of_apply, le_refl, if_true]
      exact hd i i.2
    · intro r c hrc
      have : ¬ (c : Nat) ≤ r := not_le.2 hrc
      simp only [hL, of_apply]
      exact if_neg this
  obtain ⟨y, hy⟩ : ∃ y, Lᵀ *ᵥ y = l := by
    have dT := (isUnit_iff_isUnit_det _).1 hLu
    exact ⟨Lᵀ⁻¹ *ᵥ l, by rw [mulVec_mulVec, mul_nonsing_inv _ dT, one_mulVec]⟩
  -- the sums that end with the diagonal
  have hsum : ∀ (c : Fin k) (f : Nat → ℝ), ∑ i : Fin k, L c i * f i = ∑ i ∈ Finset.range (c + 1), β c i * f i := by
    intro c f
    have e1 : ∑ i : Fin k, L c i * f i = ∑ i ∈ Finset.range k, (if i ≤ c then β c i else 0) * f i := by
      rw [Finset.sum_range]; rfl
    have hc := c.2
    rw [e1, ← Finset.sum_subset (s₁ := Finset.range (c + 1))]
    · refine Finset.sum_congr rfl fun i hi => ?_
      rw [Finset.mem_range] at hi
      rw [if_pos (by omega)]
    · intro i hi; rw [Finset.mem_range] at *; omega
    · intro i _ hi
      rw [Finset.mem_range] at hi
      rw [if_neg (by omega), zero_mul]
  have hLL : ∀ r c : Fin k, |(L * Lᵀ) r c - a r c| ≤ G * (√(a r r) * √(a c c)) := by
    have key : ∀ r c : Fin k, c ≤ r → |(L * Lᵀ) r c - a r c| ≤ G * (√(a r r) * √(a c c)) := by
      intro r c hcr
      have e : (L * Lᵀ) r c = ∑ i ∈ Finset.range (c + 1), β c i * β r i := by
        have e1 : (L * Lᵀ) r c = ∑ i : Fin k, L c i * (if (i : Nat) ≤ r then β r i else 0) := by
          rw [mul_apply]
          refine Finset.sum_congr rfl fun i _ => ?_
          rw [transpose_apply, mul_comm]; rfl
        rw [e1, hsum c fun i => if i ≤ r then β r i else 0]
        refine Finset.sum_congr rfl fun i hi => ?_
        rw [Finset.mem_range] at hi
        have : (c : Nat) ≤ r := hcr
        rw [if_pos (by omega)]
      rw [e]
      exact hdot r c r.2 hcr
    intro r c
    rcases le_total c r with h | h
    · exact key r c h
    · have := key c r h
      rw [hsym r c r.2 c.2, mul_comm (√(a r r))]
      have e : (L * Lᵀ) r c = (L * Lᵀ) c r := by
        rw [← transpose_apply (L * Lᵀ), transpose_mul, transpose_transpose]
      rw [e]; exact this
  have hLl : ∀ c : Fin k, |(L *ᵥ l) c - a j c| ≤ G * (√(a j j) * √(a c c)) := by
    intro c
    have e : (L *ᵥ l) c = ∑ i ∈ Finset.range (c + 1), β c i * β j i := hsum c (β j)
    rw [e]; exact hrow c c.2
  have q1 : ∑ r, ∑ c, (L * Lᵀ) r c * y r * y c = l ⬝ᵥ l := by
    have : y ⬝ᵥ (L * Lᵀ) *ᵥ y = l ⬝ᵥ l := by
      rw [← mulVec_mulVec, dotProduct_mulVec, ← mulVec_transpose, hy]
    rw [← this]
    simp only [dotProduct, mulVec, Finset.mul_sum]
    refine Finset.sum_congr rfl fun r _ => Finset.sum_congr rfl fun c _ => by ring
  have q2 : ∑ c, (L *ᵥ l) c * y c = l ⬝ᵥ l := by
    have : (L *ᵥ l) ⬝ᵥ y = l ⬝ᵥ l := by
      rw [dotProduct_comm, dotProduct_mulVec, ← mulVec_transpose, hy]
    exact this
  have q3 : ∑ i ∈ Finset.range k, β j i ^ 2 = l ⬝ᵥ l := by
    rw [Finset.sum_range, dotProduct]
    exact Finset.sum_congr rfl fun i _ => by simp only [hl]; ring
  -- the error terms
  have b1 : ∑ r : Fin k, ∑ c : Fin k, a r c * y r * y c ≤ l ⬝ᵥ l + G * (∑ r : Fin k, √(a r r) * |y r|) ^ 2 := by
    rw [← q1, sq, Finset.sum_mul_sum, Finset.mul_sum, ← Finset.sum_add_distrib]
    refine Finset.sum_le_sum fun r _ => ?_
    rw [Finset.mul_sum, ← Finset.sum_add_distrib]
    refine Finset.sum_le_sum fun c _ => ?_
    have h1 := hLL r c
    have h2 : |((L * Lᵀ) r c - a r c) * (y r * y c)| ≤ G * (√(a r r) * √(a c c)) * (|y r| * |y c|) := by
      rw [abs_mul, abs_mul (y r)]
      exact mul_le_mul_of_nonneg_right h1 (by positivity)
    have := (abs_le.1 h2).1
    nlinarith
  have b2 : -(2 * ∑ c : Fin k, a j c * y c) ≤ -(2 * l ⬝ᵥ l) + G * (2 * (√(a j j) * ∑ r : Fin k, √(a r r) * |y r|)) := by
    have h1 : |∑ c, ((L *ᵥ l) c - a j c) * y c| ≤ G * (√(a j j) * ∑ r : Fin k, √(a r r) * |y r|) := by
      refine (Finset.abs_sum_le_sum_abs _ _).trans ?_
      rw [Finset.mul_sum, Finset.mul_sum]
      refine Finset.sum_le_sum fun c _ => ?_
      rw [abs_mul]
      have := mul_le_mul_of_nonneg_right (hLl c) (abs_nonneg (y c))
      linarith
    have h2 : ∑ c, ((L *ᵥ l) c - a j c) * y c = l ⬝ᵥ l - ∑ c : Fin k, a j c * y c := by
      rw [← q2, ← Finset.sum_sub_distrib]
      exact Finset.sum_congr rfl fun c _ => by ring
    rw [h2] at h1
    have := (abs_le.1 h1).2
    nlinarith
  have b3 := sq_sum_sqrt_le (fun r : Fin k => √(a r r)) y (√(a j j))
  simp only [Real.sq_sqrt hj0] at b3
  have e4 : ∑ i : Fin k, √(a i i) ^ 2 * y i ^ 2 = ∑ i : Fin k, a i i * y i ^ 2 :=
    Finset.sum_congr rfl fun i _ => by rw [Real.sq_sqrt (ha0 i i.2)]
  rw [e4] at b3
  have b4 := hform y
  rw [q3]
  set S := ∑ i : Fin k, a i i * y i ^ 2 with hS
  have hS0 : 0 ≤ S := Finset.sum_nonneg fun i _ => mul_nonneg (ha0 i i.2) (sq_nonneg _)
  set W := ∑ r : Fin k, √(a r r) * |y r|
  have hsq : √(a j j) ^ 2 = a j j := Real.sq_sqrt hj0
  have b5 : G * (W + √(a j j)) ^ 2 ≤ G * ((k + 1) * (S + a j j)) := mul_le_mul_of_nonneg_left b3 hG
  have b6 : δ * (S + a j j) ≤ a j j - l ⬝ᵥ l + (G * (W + √(a j j)) ^ 2 - G * a j j) := by
    have : G * (W + √(a j j)) ^ 2 - G * a j j = G * W ^ 2 + G * (2 * (√(a j j) * W)) := by
      rw [add_sq, hsq]; ring
    rw [this]; linarith
  have b7 : 0 ≤ (δ - (k + 1) * G) * S := mul_nonneg (by linarith) hS0
  have b8 : 0 ≤ G * a j j := mul_nonneg hG hj0
  linarith

end LinfaLinalg
