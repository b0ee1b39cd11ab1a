import Verif.Proofs.RoundedTridiag
import Verif.Proofs.EighTerm
import Verif.Proofs.Ritz
import Verif.Proofs.LobpcgReal
import Verif.Props.Rounding

/-! # Rounding errors of `orthonormalize` -/

namespace LinfaLinalg

open Matrix

/-- Cauchy-Schwarz for the trace. -/
theorem abs_trace_le_frob {n m : Nat} (A B : Matrix (Fin n) (Fin m) ℝ) : |(Aᵀ * B).trace| ≤ frob A * frob B := by
  have e : (Aᵀ * B).trace = ∑ p : Fin n × Fin m, A p.1 p.2 * B p.1 p.2 := by
    rw [Fintype.sum_prod_type, Finset.sum_comm]
    simp [Matrix.trace, Matrix.mul_apply]
  have ha : ∀ C : Matrix (Fin n) (Fin m) ℝ, frob C ^ 2 = ∑ p : Fin n × Fin m, C p.1 p.2 ^ 2 := fun C => by
    rw [frob_sq, Fintype.sum_prod_type]
  rw [← Real.sqrt_sq_eq_abs, ← Real.sqrt_sq (mul_nonneg (frob_nonneg A) (frob_nonneg B))]
  refine Real.sqrt_le_sqrt ?_
  rw [mul_pow, ha, ha, e]
  exact Finset.sum_mul_sq_le_sq_mul_sq _ _ _

/-- `c` bounds the squares of the singular values of `V` from below; for matrices instead of vectors. -/
theorem cond_mat {n m k : Nat} {V : Matrix (Fin n) (Fin m) ℝ} {c : ℝ}
    (hcond : ∀ x : Fin m → ℝ, c * ∑ i, x i ^ 2 ≤ ∑ r, V.mulVec x r ^ 2) (Y : Matrix (Fin m) (Fin k) ℝ) :
    c * frob Y ^ 2 ≤ frob (V * Y) ^ 2 := by
  rw [frob_sq, frob_sq, Finset.sum_comm, Finset.sum_comm (γ := Fin n), Finset.mul_sum]
  exact Finset.sum_le_sum fun j _ => hcond fun i => Y i j

theorem cholQr_identity {n m : Nat} (V Q F : Matrix (Fin n) (Fin m) ℝ) (L Y E : Matrix (Fin m) (Fin m) ℝ)
    (hY : Lᵀ * Y = 1) (hYL : Yᵀ * L = 1) (hE : E = L * Lᵀ - Vᵀ * V) (hF : F = V - Q * Lᵀ) :
    Qᵀ * Q - 1 = Yᵀ * (Fᵀ * F - E - Vᵀ * F - Fᵀ * V) * Y := by
  have e0 : Fᵀ * F - E - Vᵀ * F - Fᵀ * V = (V - F)ᵀ * (V - F) - L * Lᵀ := by
    rw [hE, Matrix.transpose_sub, Matrix.sub_mul, Matrix.mul_sub, Matrix.mul_sub]; abel
  have e1 : Fᵀ * F - E - Vᵀ * F - Fᵀ * V = L * (Qᵀ * Q - 1) * Lᵀ := by
    rw [e0, hF, sub_sub_cancel, Matrix.transpose_mul, Matrix.transpose_transpose, Matrix.mul_sub, Matrix.sub_mul,
      Matrix.mul_one]
    simp only [Matrix.mul_assoc]
  rw [e1, ← Matrix.mul_assoc, ← Matrix.mul_assoc, hYL, Matrix.one_mul, Matrix.mul_assoc, hY, Matrix.mul_one]

theorem cholQr_arith {γ N l q f e : ℝ} (hγ0 : 0 ≤ γ) (hγ : γ ≤ 1 / 16) (hN0 : 0 ≤ N) (hl0 : 0 ≤ l) (hq0 : 0 ≤ q)
    (hf0 : 0 ≤ f) (hf : f ≤ γ * (q * l)) (he : e ≤ γ * (N ^ 2 + l ^ 2)) :
    f * f + e + N * f + f * N ≤ γ * (N ^ 2 + l ^ 2) * (3 / 2 + q ^ 2) := by
  have h1 : f * f ≤ γ * (q * l) * (1 / 16 * (q * l)) :=
    mul_le_mul hf (hf.trans (mul_le_mul_of_nonneg_right hγ (by positivity))) hf0 (by positivity)
  have h2 : N * f ≤ N * (γ * (q * l)) := mul_le_mul_of_nonneg_left hf hN0
  have h3 : 0 ≤ γ * (N ^ 2 * q ^ 2) := by positivity
  have h4 : 0 ≤ γ * (l ^ 2 * q ^ 2) := by positivity
  have h5 : 0 ≤ γ * (q * (N - l) ^ 2) := by positivity
  have h6 : 0 ≤ γ * ((N ^ 2 + l ^ 2) * (1 - q) ^ 2) := by positivity
  calc f * f + e + N * f + f * N ≤ γ * (q * l) * (1 / 16 * (q * l)) + γ * (N ^ 2 + l ^ 2) + 2 * (N * (γ * (q * l))) := by
        linarith
    _ ≤ γ * (N ^ 2 + l ^ 2) * (3 / 2 + q ^ 2) := by ring_nf at h3 h4 h5 h6 ⊢; linarith

theorem cholQr_arith2 {m x q δ : ℝ} (hm1 : 1 ≤ m) (hx0 : 0 ≤ x) (hδ0 : 0 ≤ δ) (hmδ : m * δ ≤ 3 / 8)
    (hqx : q ^ 2 ≤ m + m * x) (hx1 : x ≤ δ * (3 / 2 + q ^ 2)) : x ≤ 4 * m * δ ∧ q ^ 2 ≤ 5 / 2 * m := by
  have h0 : x ≤ δ * (3 / 2 + (m + m * x)) := hx1.trans (mul_le_mul_of_nonneg_left (by linarith) hδ0)
  have h1 : m * δ * x ≤ 3 / 8 * x := mul_le_mul_of_nonneg_right hmδ hx0
  have h2 : δ ≤ m * δ := le_mul_of_one_le_left hδ0 hm1
  have hx2 : x ≤ 4 * m * δ := by
    have : δ * (3 / 2 + (m + m * x)) = 3 / 2 * δ + m * δ + m * δ * x := by ring
    linarith
  refine ⟨hx2, ?_⟩
  have : m * x ≤ m * (3 / 2) := mul_le_mul_of_nonneg_left (by linarith) (by linarith)
  linarith

/-- The error analysis of Cholesky QR: `Lᵀ` is nearly the factor of `Vᵀ V`, and `Q` nearly solves `Q Lᵀ = V`. -/
theorem cholQr_orth {n m : Nat} (V Q : Matrix (Fin n) (Fin m) ℝ) (L : Matrix (Fin m) (Fin m) ℝ) (γ c : ℝ) (hγ0 : 0 ≤ γ)
    (hm : 1 ≤ m) (hL : IsUnit L) (hc : 0 < c) (hcond : ∀ x : Fin m → ℝ, c * ∑ i, x i ^ 2 ≤ ∑ r, V.mulVec x r ^ 2)
    (hsmall : 16 * m ^ 2 * γ * frob V ^ 2 ≤ c)
    (hF : frob (V - Q * Lᵀ) ≤ γ * (frob Q * frob L))
    (hE : frob (L * Lᵀ - Vᵀ * V) ≤ γ * (frob V ^ 2 + frob L ^ 2))
    (ht : frob L ^ 2 - frob V ^ 2 ≤ γ * (frob V ^ 2 + frob L ^ 2)) :
    frob (Qᵀ * Q - 1) ≤ 24 * m ^ 2 * γ * frob V ^ 2 / c ∧ frob (V - Q * Lᵀ) ≤ 2 * γ * √m * frob V := by
  have hm1 : (1 : ℝ) ≤ m := by exact_mod_cast hm
  have hN0 := frob_nonneg V
  have hl0 := frob_nonneg L
  have hq0 := frob_nonneg Q
  set N := frob V with hN
  set l := frob L with hl
  set q := frob Q with hq
  -- `c ≤ N²`
  have hcN : c ≤ N ^ 2 := by
    have h1 := cond_mat hcond (Matrix.of fun (i : Fin m) (_ : Fin 1) => if i = ⟨0, hm⟩ then (1 : ℝ) else 0)
    have h2 := frob_mul_le V (Matrix.of fun (i : Fin m) (_ : Fin 1) => if i = ⟨0, hm⟩ then (1 : ℝ) else 0)
    have h3 : frob (Matrix.of fun (i : Fin m) (_ : Fin 1) => if i = ⟨0, hm⟩ then (1 : ℝ) else 0) ^ 2 = 1 := by
      rw [frob_sq]; simp
    have h4 := pow_le_pow_left₀ (frob_nonneg _) h2 2
    rw [mul_pow, h3] at h4
    rw [h3] at h1
    linarith
  have hNp : 0 < N ^ 2 := lt_of_lt_of_le hc hcN
  have hm2 : (1 : ℝ) ≤ m ^ 2 := by nlinarith
  have hγ : γ ≤ 1 / 16 := by
    have h1 : 16 * (m ^ 2 * γ) * N ^ 2 ≤ 1 * N ^ 2 := by nlinarith
    have h2 := le_of_mul_le_mul_right h1 hNp
    nlinarith
  have hl2 : l ^ 2 ≤ 17 / 15 * N ^ 2 := by nlinarith [sq_nonneg l]
  have hs : N ^ 2 + l ^ 2 ≤ 3 * N ^ 2 := by nlinarith
  -- the inverse of `L`
  obtain ⟨Y, hY⟩ : ∃ Y : Matrix (Fin m) (Fin m) ℝ, Lᵀ * Y = 1 := by
    refine ⟨(L⁻¹)ᵀ, ?_⟩
    rw [← Matrix.transpose_mul, Matrix.nonsing_inv_mul _ ((Matrix.isUnit_iff_isUnit_det _).1 hL), Matrix.transpose_one]
  have hY' : Y * Lᵀ = 1 := mul_eq_one_comm.1 hY
  have hYL : Yᵀ * L = 1 := by rw [← Matrix.transpose_transpose L, ← Matrix.transpose_mul, hY, Matrix.transpose_one]
  set E := L * Lᵀ - Vᵀ * V with hEdef
  have hEc : frob E ≤ 3 / 16 * c := by
    have h1 : γ * (N ^ 2 + l ^ 2) ≤ γ * (3 * N ^ 2) := mul_le_mul_of_nonneg_left hs hγ0
    have h2 : γ * N ^ 2 ≤ m ^ 2 * (γ * N ^ 2) := le_mul_of_one_le_left (mul_nonneg hγ0 hNp.le) hm2
    nlinarith
  have hρ : frob Y ^ 2 ≤ 2 * m / c := by
    have h1 : (m : ℝ) = frob (V * Y) ^ 2 + (Yᵀ * (E * Y)).trace := by
      have e1 : (Yᵀ * (E * Y)) = 1 - (V * Y)ᵀ * (V * Y) := by
        rw [hEdef, Matrix.sub_mul, Matrix.mul_sub, Matrix.mul_assoc L, hY, Matrix.mul_one, hYL, Matrix.transpose_mul,
          Matrix.mul_assoc, Matrix.mul_assoc]
      rw [e1, Matrix.trace_sub, frob_sq_trace, Matrix.trace_one, Fintype.card_fin]
      ring
    have h2 := cond_mat hcond Y
    have h3 : |(Yᵀ * (E * Y)).trace| ≤ frob Y * (frob E * frob Y) :=
      (abs_trace_le_frob Y (E * Y)).trans (mul_le_mul_of_nonneg_left (frob_mul_le _ _) (frob_nonneg _))
    have h4 := (abs_le.1 h3).1
    have h5 : frob E * frob Y ^ 2 ≤ 3 / 16 * c * frob Y ^ 2 := mul_le_mul_of_nonneg_right hEc (sq_nonneg _)
    rw [le_div_iff₀ hc]
    nlinarith [sq_nonneg (frob Y)]
  -- the loss of orthogonality
  set F := V - Q * Lᵀ with hFdef
  set x := frob (Qᵀ * Q - 1) with hx
  have hx0 : 0 ≤ x := frob_nonneg _
  have hD := cholQr_identity V Q F L Y E hY hYL hEdef hFdef
  have hfN : frob F ≤ γ * (q * l) := hF
  have hDn : frob (Fᵀ * F - E - Vᵀ * F - Fᵀ * V) ≤ γ * (N ^ 2 + l ^ 2) * (3 / 2 + q ^ 2) := by
    have sub_le : ∀ A B : Matrix (Fin m) (Fin m) ℝ, frob (A - B) ≤ frob A + frob B := fun A B => by
      rw [sub_eq_add_neg, ← frob_neg B]; exact frob_add_le _ _
    have b1 := sub_le (Fᵀ * F - E - Vᵀ * F) (Fᵀ * V)
    have b2 := sub_le (Fᵀ * F - E) (Vᵀ * F)
    have b3 := sub_le (Fᵀ * F) E
    have c1 := frob_mul_le Fᵀ F
    have c2 := frob_mul_le Vᵀ F
    have c3 := frob_mul_le Fᵀ V
    rw [frob_transpose] at c1 c2 c3
    have := cholQr_arith hγ0 hγ hN0 hl0 hq0 (frob_nonneg F) hfN hE
    linarith
  have hxD : x ≤ 2 * m / c * (γ * (3 * N ^ 2) * (3 / 2 + q ^ 2)) := by
    have h1 := frob_mul_le (Yᵀ * (Fᵀ * F - E - Vᵀ * F - Fᵀ * V)) Y
    have h2 := frob_mul_le Yᵀ (Fᵀ * F - E - Vᵀ * F - Fᵀ * V)
    rw [frob_transpose] at h2
    rw [hx, hD]
    have h3 : frob Y * frob (Fᵀ * F - E - Vᵀ * F - Fᵀ * V) * frob Y ≤ frob Y ^ 2 *
        (γ * (3 * N ^ 2) * (3 / 2 + q ^ 2)) := by
      rw [show frob Y * frob (Fᵀ * F - E - Vᵀ * F - Fᵀ * V) * frob Y =
        frob Y ^ 2 * frob (Fᵀ * F - E - Vᵀ * F - Fᵀ * V) by ring]
      refine mul_le_mul_of_nonneg_left (hDn.trans ?_) (sq_nonneg _)
      exact mul_le_mul_of_nonneg_right (mul_le_mul_of_nonneg_left hs hγ0) (by positivity)
    refine (h1.trans (mul_le_mul_of_nonneg_right h2 (frob_nonneg _))).trans (h3.trans ?_)
    exact mul_le_mul_of_nonneg_right hρ (by positivity)
  have hqx : q ^ 2 ≤ m + m * x := by
    have h1 : q ^ 2 = m + ((1 : Matrix (Fin m) (Fin m) ℝ)ᵀ * (Qᵀ * Q - 1)).trace := by
      rw [Matrix.transpose_one, Matrix.one_mul, Matrix.trace_sub, Matrix.trace_one, Fintype.card_fin, hq, frob_sq_trace]
      ring
    have h2 := (abs_le.1 (abs_trace_le_frob (1 : Matrix (Fin m) (Fin m) ℝ) (Qᵀ * Q - 1))).2
    have h3 : frob (1 : Matrix (Fin m) (Fin m) ℝ) * x ≤ m * x := mul_le_mul_of_nonneg_right frob_one_le hx0
    rw [h1]; linarith
  set δ := 6 * m * γ * N ^ 2 / c with hδ
  have hδ0 : 0 ≤ δ := by positivity
  have hmδ : m * δ ≤ 3 / 8 := by
    rw [hδ, ← mul_div_assoc, div_le_iff₀ hc]; nlinarith
  obtain ⟨hx2, h1⟩ := cholQr_arith2 hm1 hx0 hδ0 hmδ hqx (hxD.trans (le_of_eq (by rw [hδ]; ring)))
  refine ⟨hx2.trans (le_of_eq (by rw [hδ]; ring)), ?_⟩
  have h2 : q * l ≤ 2 * √m * N := by
    refine abs_le_of_sq_le_sq' ?_ (by positivity) |>.2
    have e : (2 * √m * N) ^ 2 = 4 * m * N ^ 2 := by rw [mul_pow, mul_pow, Real.sq_sqrt (by linarith)]; ring
    have h3 := mul_le_mul h1 hl2 (sq_nonneg _) (by positivity)
    have h4 : 0 ≤ m * N ^ 2 := by positivity
    rw [mul_pow, e]
    linarith
  calc frob F ≤ γ * (q * l) := hfN
    _ ≤ γ * (2 * √m * N) := mul_le_mul_of_nonneg_left h2 hγ0
    _ = 2 * γ * √m * N := by ring

end LinfaLinalg
