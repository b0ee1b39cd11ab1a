import Verif.Proofs.RoundedOrth
import Mathlib.LinearAlgebra.Matrix.Block

/-! # Cholesky factors near the identity, and the error analysis of `apply_constraints` -/

namespace LinfaLinalg

open Matrix

theorem frob_sub_le_add {n m : Nat} (A B : Matrix (Fin n) (Fin m) ℝ) : frob (A - B) ≤ frob A + frob B := by
  rw [sub_eq_add_neg, ← frob_neg B]; exact frob_add_le _ _

/-- A diagonal entry of a Cholesky factor is at least the square root of the smallest eigenvalue. -/
theorem chol_diag_ge {s : Nat} {L : Matrix (Fin s) (Fin s) ℝ} (hL : LowerPos L) {e : ℝ} (he0 : 0 ≤ e) (he1 : e ≤ 1)
    (h : frob (L * Lᵀ - 1) ≤ e) (i : Fin s) : 1 - e ≤ L i i := by
  have hdet : IsUnit L.det := (Matrix.isUnit_iff_isUnit_det _).1 hL.isUnit
  have := Matrix.invertibleOfIsUnitDet L hdet
  have hbt : L.BlockTriangular OrderDual.toDual := fun a b hab => hL.1 a b hab
  have hinv := Matrix.blockTriangular_inv_of_blockTriangular hbt
  have hone : L⁻¹ * L = 1 := Matrix.nonsing_inv_mul L hdet
  have hii : L⁻¹ i i * L i i = 1 := by
    have := congrFun (congrFun hone i) i
    rw [Matrix.mul_apply, Matrix.one_apply_eq, Finset.sum_eq_single i] at this
    · exact this
    · intro j _ hj
      rcases lt_or_gt_of_ne hj with h | h
      · rw [hL.1 j i h, mul_zero]
      · have : L⁻¹ i j = 0 := hinv h
        rw [this, zero_mul]
    · intro h; exact absurd (Finset.mem_univ _) h
  -- the row of the inverse
  set w : Matrix (Fin s) (Fin 1) ℝ := Matrix.of fun j _ => L⁻¹ i j with hw
  have hwL : (wᵀ * L) = Matrix.of fun _ j => if j = i then (1 : ℝ) else 0 := by
    ext a j
    have := congrFun (congrFun hone i) j
    rw [Matrix.mul_apply] at this ⊢
    simp only [hw, Matrix.transpose_apply, Matrix.of_apply]
    rw [this, Matrix.one_apply]
    simp [eq_comm]
  have hq : (wᵀ * ((L * Lᵀ - 1) * w)).trace = 1 - frob w ^ 2 := by
    have e1 : wᵀ * ((L * Lᵀ - 1) * w) = (wᵀ * L) * (wᵀ * L)ᵀ - wᵀ * w := by
      rw [Matrix.transpose_mul, Matrix.transpose_transpose, Matrix.sub_mul, Matrix.mul_sub, Matrix.one_mul]
      simp only [Matrix.mul_assoc]
    rw [e1, Matrix.trace_sub, ← frob_sq_trace, hwL]
    congr 1
    simp [Matrix.trace, Matrix.mul_apply]
  have h1 := (abs_le.1 ((abs_trace_le_frob w ((L * Lᵀ - 1) * w)).trans
    (mul_le_mul_of_nonneg_left (frob_mul_le _ _) (frob_nonneg _)))).1
  have h2 := mul_le_mul_of_nonneg_right h (sq_nonneg (frob w))
  have h3 : (1 - e) * frob w ^ 2 ≤ 1 := by
    rw [hq] at h1
    have : frob w * (frob (L * Lᵀ - 1) * frob w) = frob (L * Lᵀ - 1) * frob w ^ 2 := by ring
    linarith
  have h4 : L⁻¹ i i ^ 2 ≤ frob w ^ 2 := by
    rw [frob_sq]
    refine le_trans ?_ (Finset.single_le_sum (f := fun j => ∑ k, w j k ^ 2) (fun j _ => Finset.sum_nonneg fun k _ => sq_nonneg _)
      (Finset.mem_univ i))
    simp [hw]
  have h5 : (1 - e) * L⁻¹ i i ^ 2 ≤ 1 := (mul_le_mul_of_nonneg_left h4 (by linarith)).trans h3
  have hp := hL.2 i
  have h6 : 1 - e ≤ L i i ^ 2 := by
    have := mul_le_mul_of_nonneg_right h5 (sq_nonneg (L i i))
    rw [mul_assoc, ← mul_pow, hii, one_pow, mul_one, one_mul] at this
    exact this
  by_contra hc
  push Not at hc
  nlinarith

/-- If `L Lᵀ` is near the identity, so is `L`. -/
theorem chol_near_one {s : Nat} {L : Matrix (Fin s) (Fin s) ℝ} (hL : LowerPos L) {e : ℝ} (he0 : 0 ≤ e)
    (he : 16 * s * e ≤ 1) (h : frob (L * Lᵀ - 1) ≤ e) : frob (L - 1) ≤ 2 * e := by
  rcases Nat.eq_zero_or_pos s with rfl | hs
  · have : L - 1 = 0 := by ext i; exact i.elim0
    rw [this, frob_zero]; linarith
  have hs1 : (1 : ℝ) ≤ s := by exact_mod_cast hs
  have he1 : e ≤ 1 / 16 := by nlinarith
  have hd := chol_diag_ge hL he0 (by linarith) h
  -- a first estimate
  have htr : (L * Lᵀ).trace ≤ s + s * e := by
    have h1 := (abs_le.1 (abs_trace_le_frob (1 : Matrix (Fin s) (Fin s) ℝ) (L * Lᵀ - 1))).2
    rw [Matrix.transpose_one, Matrix.one_mul, Matrix.trace_sub, Matrix.trace_one, Fintype.card_fin] at h1
    have h2 : frob (1 : Matrix (Fin s) (Fin s) ℝ) * frob (L * Lᵀ - 1) ≤ s * e :=
      mul_le_mul frob_one_le h (frob_nonneg _) (by positivity)
    linarith
  have htrL : s - s * e ≤ L.trace := by
    have : ∑ i : Fin s, (1 - e) ≤ L.trace := Finset.sum_le_sum fun i _ => hd i
    simp at this
    linarith
  have hN2 : frob (L - 1) ^ 2 ≤ 3 * s * e := by
    have : frob (L - 1) ^ 2 = (L * Lᵀ).trace - 2 * L.trace + s := by
      rw [← frob_transpose, frob_sq_trace, Matrix.transpose_transpose, Matrix.transpose_sub, Matrix.transpose_one,
        Matrix.sub_mul, Matrix.mul_sub, Matrix.mul_one, Matrix.one_mul, Matrix.trace_sub, Matrix.trace_sub, Matrix.trace_sub,
        Matrix.trace_transpose, Matrix.trace_one, Fintype.card_fin]
      ring
    rw [this]; linarith
  have hN1 : frob (L - 1) ≤ 1 / 2 := by nlinarith [frob_nonneg (L - 1)]
  -- the triangular part of the equation
  set N := L - 1 with hN
  have hS : N + Nᵀ = (L * Lᵀ - 1) - N * Nᵀ := by
    have : L = N + 1 := by rw [hN]; abel
    rw [this, Matrix.transpose_add, Matrix.transpose_one, Matrix.add_mul, Matrix.mul_add, Matrix.mul_one, Matrix.one_mul]
    abel
  have hmono : frob N ≤ frob (N + Nᵀ) := by
    refine frob_mono fun i j => ?_
    rcases lt_trichotomy i j with hij | rfl | hij
    · have : N i j = 0 := by rw [hN, Matrix.sub_apply, hL.1 i j hij, Matrix.one_apply_ne hij.ne]; ring
      rw [this, abs_zero]; exact abs_nonneg _
    · rw [Matrix.add_apply, Matrix.transpose_apply, ← two_mul, abs_mul]
      norm_num
      linarith [abs_nonneg (N i i)]
    · have : N j i = 0 := by rw [hN, Matrix.sub_apply, hL.1 j i hij, Matrix.one_apply_ne hij.ne]; ring
      rw [Matrix.add_apply, Matrix.transpose_apply, this, add_zero]
  have h1 := frob_sub_le_add (L * Lᵀ - 1) (N * Nᵀ)
  have h2 := frob_mul_le N Nᵀ
  rw [frob_transpose] at h2
  rw [hS] at hmono
  nlinarith [frob_nonneg N]

theorem constr_arith {γ s N v l U g ε δ : ℝ} (hs : 1 ≤ s) (hγ0 : 0 ≤ γ) (hγ : γ ≤ 1 / 16) (hN0 : 0 ≤ N) (hv0 : 0 ≤ v)
    (hl0 : 0 ≤ l) (hl : l ≤ 2 * s) (hN : N ^ 2 ≤ 2 * s) (hg0 : 0 ≤ g) (hg : g ≤ N * v) (hε0 : 0 ≤ ε) (hδ0 : 0 ≤ δ)
    (hεδ : ε + δ ≤ 1 / 2) (hU : U ≤ 2 * (g + γ * (N * v))) :
    γ * (N * v) + (γ * l + ε + δ) * U + N * (γ * (v + N * U)) ≤ 2 * (ε + δ) * g + 12 * s * γ * (N * v) := by
  have hx : 0 ≤ N * v := mul_nonneg hN0 hv0
  have h1 : (ε + δ) * U ≤ (ε + δ) * (2 * (g + γ * (N * v))) := mul_le_mul_of_nonneg_left hU (by linarith)
  have h2 : (ε + δ) * (γ * (N * v)) ≤ 1 / 2 * (γ * (N * v)) := mul_le_mul_of_nonneg_right hεδ (by positivity)
  have h3 : U ≤ 17 / 8 * (N * v) := by
    have : γ * (N * v) ≤ 1 / 16 * (N * v) := mul_le_mul_of_nonneg_right hγ hx
    linarith
  have h4 : (l + N ^ 2) * U ≤ 17 / 2 * s * (N * v) := by
    calc (l + N ^ 2) * U ≤ (l + N ^ 2) * (17 / 8 * (N * v)) := mul_le_mul_of_nonneg_left h3 (by positivity)
      _ ≤ 4 * s * (17 / 8 * (N * v)) := mul_le_mul_of_nonneg_right (by linarith) (by positivity)
      _ = _ := by ring
  have h5 : γ * ((l + N ^ 2) * U) ≤ γ * (17 / 2 * s * (N * v)) := mul_le_mul_of_nonneg_left h4 hγ0
  have h6 : γ * (N * v) ≤ s * (γ * (N * v)) := le_mul_of_one_le_left (by positivity) hs
  nlinarith

theorem constr_arith2 {γ s N v l U g ε : ℝ} (hs : 1 ≤ s) (hγ0 : 0 ≤ γ) (hγ : γ ≤ 1 / 16) (hN0 : 0 ≤ N) (hv0 : 0 ≤ v)
    (hl0 : 0 ≤ l) (hl : l ≤ 2 * s) (hN : 3 / 4 ≤ N ^ 2) (hg : g ≤ N * v) (hε0 : 0 ≤ ε) (hε : ε ≤ 1 / 4)
    (hU : U ≤ 2 * (g + γ * (N * v))) :
    γ * (v + N * U) + N * ((γ * l + ε) * U + γ * (N * v)) ≤ 2 * ε * N * g + 11 * s * γ * (N ^ 2 * v) := by
  have hx : 0 ≤ N * v := mul_nonneg hN0 hv0
  have hγx : γ * (N * v) ≤ 1 / 16 * (N * v) := mul_le_mul_of_nonneg_right hγ hx
  have h3 : U ≤ 17 / 8 * (N * v) := by linarith
  have hz : 0 ≤ γ * (N ^ 2 * v) := by positivity
  have a1 : γ * v ≤ 4 / 3 * (γ * (N ^ 2 * v)) := by
    have : 3 / 4 * (γ * v) ≤ N ^ 2 * (γ * v) := mul_le_mul_of_nonneg_right hN (by positivity)
    nlinarith
  have a2 : γ * N * U ≤ γ * N * (17 / 8 * (N * v)) := mul_le_mul_of_nonneg_left h3 (by positivity)
  have a3 : γ * N * l * U ≤ γ * N * l * (17 / 8 * (N * v)) := mul_le_mul_of_nonneg_left h3 (by positivity)
  have a4 : l * (γ * (N ^ 2 * v)) ≤ 2 * s * (γ * (N ^ 2 * v)) := mul_le_mul_of_nonneg_right hl hz
  have a5 : ε * N * U ≤ ε * N * (2 * (g + γ * (N * v))) := mul_le_mul_of_nonneg_left hU (by positivity)
  have a6 : ε * (γ * (N ^ 2 * v)) ≤ 1 / 4 * (γ * (N ^ 2 * v)) := mul_le_mul_of_nonneg_right hε hz
  have a7 : γ * (N ^ 2 * v) ≤ s * (γ * (N ^ 2 * v)) := le_mul_of_one_le_left hz hs
  calc γ * (v + N * U) + N * ((γ * l + ε) * U + γ * (N * v))
      = γ * v + γ * N * U + γ * N * l * U + ε * N * U + γ * (N ^ 2 * v) := by ring
    _ ≤ 4 / 3 * (γ * (N ^ 2 * v)) + γ * N * (17 / 8 * (N * v)) + γ * N * l * (17 / 8 * (N * v))
        + ε * N * (2 * (g + γ * (N * v))) + γ * (N ^ 2 * v) := by linarith
    _ = 2 * ε * N * g + (4 / 3 + 17 / 8 + 1) * (γ * (N ^ 2 * v)) + 17 / 8 * (l * (γ * (N ^ 2 * v)))
        + 2 * (ε * (γ * (N ^ 2 * v))) := by ring
    _ ≤ 2 * ε * N * g + 11 * (s * (γ * (N ^ 2 * v))) := by linarith
    _ = _ := by ring

/-- The error analysis of `apply_constraints`. -/
theorem constr_core {n s m : Nat} (Y : Matrix (Fin n) (Fin s) ℝ) (V W : Matrix (Fin n) (Fin m) ℝ)
    (L : Matrix (Fin s) (Fin s) ℝ) (G U : Matrix (Fin s) (Fin m) ℝ) (γ ε δ : ℝ) (hγ0 : 0 ≤ γ) (hγ : γ ≤ 1 / 16) (hs : 1 ≤ s)
    (hY : frob (Yᵀ * Y - 1) ≤ δ) (hL : frob (L - 1) ≤ ε) (hεδ : ε + δ ≤ 1 / 4) (hγs : 16 * s * γ ≤ 1)
    (hG : frob (G - Yᵀ * V) ≤ γ * (frob Y * frob V)) (hU : frob (G - L * U) ≤ γ * (frob L * frob U))
    (hW : frob (W - (V - Y * U)) ≤ γ * (frob V + frob Y * frob U)) :
    frob (Yᵀ * W) ≤ 2 * (ε + δ) * frob (Yᵀ * V) + 12 * s * γ * (frob Y * frob V) ∧
    frob (W - (V - Y * (Yᵀ * V))) ≤ 2 * ε * frob Y * frob (Yᵀ * V) + 11 * s * γ * (frob Y ^ 2 * frob V) := by
  have hs1 : (1 : ℝ) ≤ s := by exact_mod_cast hs
  have hδ0 : 0 ≤ δ := (frob_nonneg _).trans hY
  have hε0 : 0 ≤ ε := (frob_nonneg _).trans hL
  have hN0 := frob_nonneg Y
  have hv0 := frob_nonneg V
  have hU0 := frob_nonneg U
  have hl : frob L ≤ 2 * s := by
    have := frob_add_le (L - 1) 1
    rw [sub_add_cancel] at this
    have := frob_one_le (s := s)
    linarith
  have hNsq : frob Y ^ 2 = s + (Yᵀ * Y - 1).trace := by
    rw [Matrix.trace_sub, Matrix.trace_one, Fintype.card_fin, frob_sq_trace]; ring
  have htr := abs_le.1 (abs_trace_le_frob (1 : Matrix (Fin s) (Fin s) ℝ) (Yᵀ * Y - 1))
  rw [Matrix.transpose_one, Matrix.one_mul] at htr
  have hb : frob (1 : Matrix (Fin s) (Fin s) ℝ) * frob (Yᵀ * Y - 1) ≤ s * δ :=
    mul_le_mul frob_one_le hY (frob_nonneg _) (by positivity)
  have hsδ : s * δ ≤ s * (1 / 4) := mul_le_mul_of_nonneg_left (by linarith) (by linarith)
  have hN : frob Y ^ 2 ≤ 2 * s := by linarith [htr.2]
  have hN' : 3 / 4 ≤ frob Y ^ 2 := by linarith [htr.1]
  have hg : frob (Yᵀ * V) ≤ frob Y * frob V := by
    have := frob_mul_le Yᵀ V; rwa [frob_transpose] at this
  have hγl : γ * frob L ≤ 1 / 8 := by nlinarith
  -- the size of `U`
  have hGn : frob G ≤ frob (Yᵀ * V) + γ * (frob Y * frob V) := by
    have := frob_add_le (G - Yᵀ * V) (Yᵀ * V)
    rw [sub_add_cancel] at this
    linarith
  have hLU : frob ((L - 1) * U) ≤ ε * frob U :=
    (frob_mul_le _ _).trans (mul_le_mul_of_nonneg_right hL hU0)
  have hUG : frob (U - G) ≤ (γ * frob L + ε) * frob U := by
    have e : U - G = -((L - 1) * U) - (G - L * U) := by rw [Matrix.sub_mul, Matrix.one_mul]; abel
    rw [e]
    refine (frob_sub_le_add _ _).trans ?_
    rw [frob_neg]
    linarith
  have hUn : frob U ≤ 2 * (frob (Yᵀ * V) + γ * (frob Y * frob V)) := by
    have h1 := frob_add_le (U - G) G
    rw [sub_add_cancel] at h1
    have h2 : (γ * frob L + ε) * frob U ≤ 1 / 2 * frob U := mul_le_mul_of_nonneg_right (by linarith) hU0
    linarith
  have hUV : frob (U - Yᵀ * V) ≤ (γ * frob L + ε) * frob U + γ * (frob Y * frob V) := by
    have e : U - Yᵀ * V = (U - G) + (G - Yᵀ * V) := by abel
    rw [e]
    exact (frob_add_le _ _).trans (by linarith)
  constructor
  · have e : Yᵀ * W = -(U - Yᵀ * V) - (Yᵀ * Y - 1) * U + Yᵀ * (W - (V - Y * U)) := by
      rw [Matrix.mul_sub, Matrix.mul_sub, Matrix.sub_mul, Matrix.one_mul, Matrix.mul_assoc]; abel
    have h1 := frob_add_le (-(U - Yᵀ * V) - (Yᵀ * Y - 1) * U) (Yᵀ * (W - (V - Y * U)))
    have h2 := frob_sub_le_add (-(U - Yᵀ * V)) ((Yᵀ * Y - 1) * U)
    rw [frob_neg] at h2
    have h3 : frob ((Yᵀ * Y - 1) * U) ≤ δ * frob U := (frob_mul_le _ _).trans (mul_le_mul_of_nonneg_right hY hU0)
    have h4 : frob (Yᵀ * (W - (V - Y * U))) ≤ frob Y * (γ * (frob V + frob Y * frob U)) := by
      have := frob_mul_le Yᵀ (W - (V - Y * U))
      rw [frob_transpose] at this
      exact this.trans (mul_le_mul_of_nonneg_left hW hN0)
    rw [← e] at h1
    have := constr_arith (s := s) (l := frob L) hs1 hγ0 hγ hN0 hv0 (frob_nonneg L) hl hN (frob_nonneg (Yᵀ * V)) hg hε0 hδ0 (by linarith) hUn
    linarith
  · have e : W - (V - Y * (Yᵀ * V)) = (W - (V - Y * U)) - Y * (U - Yᵀ * V) := by
      rw [Matrix.mul_sub]; abel
    have h1 := frob_sub_le_add (W - (V - Y * U)) (Y * (U - Yᵀ * V))
    rw [← e] at h1
    have h2 : frob (Y * (U - Yᵀ * V)) ≤ frob Y * ((γ * frob L + ε) * frob U + γ * (frob Y * frob V)) :=
      (frob_mul_le _ _).trans (mul_le_mul_of_nonneg_left hUV hN0)
    have := constr_arith2 (s := s) (l := frob L) hs1 hγ0 hγ hN0 hv0 (frob_nonneg L) hl hN' hg hε0 (by linarith) hUn
    linarith

end LinfaLinalg
