import Verif.Proofs.SvdTerm
import Verif.Props.Svd
import Mathlib.Data.Nat.Log

/-! # C73: `svd` terminates on every real matrix -/

namespace LinfaLinalg

open Matrix

/-- The scaled matrix has entries of absolute value at most one. -/
theorem scaleDown_frob_le (a : Arr2 ℝ) (h1 : a.nr ≠ 0) (h2 : a.nc ≠ 0) :
    frob (toMat a.nr a.nc (a.scaleDown a.amax)) ^ 2 ≤ (a.nr : ℝ) * a.nc := by
  obtain ⟨-, -, -, hsc⟩ := scaleDown_real a (⟨rfl, rfl⟩ : HasShape a a.nr a.nc) (by omega) (by omega)
  obtain ⟨hle, -⟩ := amax_real a (by omega) (by omega)
  have h0 := amax_nonneg a (by omega) (by omega)
  rw [frob_sq]
  have key : ∀ i j, toMat a.nr a.nc (a.scaleDown a.amax) i j ^ 2 ≤ 1 := by
    intro i j
    rw [hsc, Matrix.smul_apply, smul_eq_mul, sq_le_one_iff_abs_le_one, abs_mul]
    have := hle i j i.2 j.2
    have hij : |toMat a.nr a.nc a i j| ≤ a.amax := this
    by_cases hz : a.amax = 0
    · rw [hz] at hij
      rw [le_antisymm hij (abs_nonneg _), mul_zero]; norm_num
    · rw [if_neg hz, abs_of_nonneg (by positivity), one_div, inv_mul_le_iff₀ (lt_of_le_of_ne h0 (Ne.symm hz)),
        mul_one]
      exact hij
  calc ∑ i, ∑ j, toMat a.nr a.nc (a.scaleDown a.amax) i j ^ 2 ≤ ∑ _i : Fin a.nr, ∑ _j : Fin a.nc, (1 : ℝ) :=
        Finset.sum_le_sum fun i _ => Finset.sum_le_sum fun j _ => key i j
    _ = _ := by simp

/-- A number of iterations of the main loop of `svd` that is enough for every real `m × n` matrix. -/
def svdFuel (m n : Nat) : Nat := min m n * min m n * (901 + 6 * Nat.log 2 (m * n))

theorem svdEps_pos : (0 : ℝ) < NdFloat.epsilon * NdFloat.ofRat 5 := by
  simp only [real_epsilon, real_ofRat]
  positivity

theorem svdX0_frob {p d : Nat} {up : Bool} {eps : ℝ} {a : Arr2 ℝ} (hi : SvdInit p d up eps a) :
    frob (svdX0 p d up a) = frob (toMat a.nr a.nc (a.scaleDown a.amax)) := by
  have hr := hi.rows
  have hc := hi.cols
  cases up
  · simp only [rowsOf, colsOf, Bool.false_eq_true, if_false] at hr hc
    subst hr hc
    simp only [svdX0, Bool.false_eq_true, if_false]
    rw [frob_transpose]
  · simp only [rowsOf, colsOf, if_true] at hr hc
    subst hr hc
    simp only [svdX0, if_true]

theorem svdGo_terminates (a : Arr2 ℝ) (eps : ℝ) (heps : 0 < eps) (h1 : a.nr ≠ 0) (h2 : a.nc ≠ 0) (K : Nat)
    (hK : ((a.nr : ℝ) * a.nc) ^ 6 < (2 * eps ^ 3) ^ 6 * 2 ^ K) (fuel : Nat)
    (hf : min a.nr a.nc * min a.nr a.nc * (K + 1) ≤ fuel) : ∃ r, svdGo fuel a true true eps = .ok r := by
  obtain ⟨p, d, up, hi⟩ := svdInit a eps heps.le h1 h2
  obtain ⟨b, U, Vt, e1, e2, e3, -, hs, he⟩ := svdGo_eq a h1 h2
  obtain ⟨ok, nn⟩ := hi.ok b U Vt e1 e2 e3
  have hs' := hs true true
  simp only [if_true] at hs'
  rw [← hi.hmin, ← hi.rows, ← hi.cols] at hs'
  have hK' : (frob (svdX0 p d up a) ^ 2) ^ 6 < (2 * eps ^ 3) ^ 6 * 2 ^ K := by
    rw [svdX0_frob hi]
    exact lt_of_le_of_lt (pow_le_pow_left₀ (sq_nonneg _) (scaleDown_frob_le a h1 h2) 6) hK
  rw [← hi.hmin] at hf
  have hit := svdIter_terminates heps hi.x0 hi.dpos hs' ok nn K hK' fuel hf
  have : Succeeds (svdGo fuel a true true eps) fun _ => True := by
    rw [he]
    simp only [if_true]
    rw [hi.hup, ← hi.hmin]
    unfold Succeeds at hit ⊢
    rw [wp_bind] at hit ⊢
    refine wp_conseq hit ?_
    rintro ⟨s, start, e⟩ hl
    simp only at hl ⊢
    rw [wp_bind]
    refine wp_conseq hl ?_
    intro st sh
    rw [wp_bind]
    refine wp_conseq (fixSigns_shape _ _ (by exact sh.dlen) sh.u sh.hu) ?_
    intro _ _
    trivial
  obtain ⟨r, e, -⟩ := succeeds_iff.1 this
  exact ⟨r, e⟩

/-- C73: on every nonempty real matrix and for all flags, `svd` returns a result after at most
`svdFuel m n` iterations of its main loop. -/
theorem C73_svd_terminates {m n : Nat} (a : Arr2 ℝ) (ha : HasShape a m n) (hm : m ≠ 0) (hn : n ≠ 0)
    (cu cv : Bool) (fuel : Nat) (hf : svdFuel m n ≤ fuel) : ∃ r, svd fuel a cu cv = .ok r := by
  obtain ⟨rfl, rfl⟩ := ha
  have hg : ∃ r, svdGo fuel a true true (NdFloat.epsilon * NdFloat.ofRat 5) = .ok r := by
    refine svdGo_terminates a _ svdEps_pos hm hn (900 + 6 * Nat.log 2 (a.nr * a.nc)) ?_ fuel ?_
    · have h1 : ((a.nr * a.nc : Nat) : ℝ) < 2 ^ (Nat.log 2 (a.nr * a.nc) + 1) := by
        exact_mod_cast Nat.lt_pow_succ_log_self (by norm_num) _
      rw [Nat.cast_mul] at h1
      have h2 : ((a.nr : ℝ) * a.nc) ^ 6 < (2 ^ (Nat.log 2 (a.nr * a.nc) + 1)) ^ 6 :=
        pow_lt_pow_left₀ h1 (by positivity) (by norm_num)
      refine lt_of_lt_of_le h2 ?_
      simp only [real_epsilon, real_ofRat]
      set l := Nat.log 2 (a.nr * a.nc)
      have h3 : ((2 : ℝ)⁻¹ ^ 149) ≤ 2 * ((2 : ℝ)⁻¹ ^ 52 * ((5 : ℚ) : ℝ)) ^ 3 := by norm_num
      calc (2 ^ (l + 1)) ^ 6 = ((2 : ℝ)⁻¹ ^ 149 * 2 ^ 149) ^ 6 * (2 ^ (l + 1)) ^ 6 := by
            rw [← mul_pow (2 : ℝ)⁻¹ 2, inv_mul_cancel₀ (by norm_num), one_pow, one_pow, one_mul]
        _ = ((2 : ℝ)⁻¹ ^ 149) ^ 6 * 2 ^ (900 + 6 * l) := by
            rw [mul_pow, mul_assoc]
            congr 1
            rw [← pow_mul, ← pow_mul, ← pow_add]
            congr 1
            ring
        _ ≤ _ := by
            refine mul_le_mul_of_nonneg_right (pow_le_pow_left₀ (by positivity) h3 6) (by positivity)
    · unfold svdFuel at hf
      rw [show 900 + 6 * Nat.log 2 (a.nr * a.nc) + 1 = 901 + 6 * Nat.log 2 (a.nr * a.nc) by ring]
      exact hf
  obtain ⟨r, hr⟩ := hg
  refine ⟨keepRes cu cv r, ?_⟩
  unfold svd
  rw [svdGo_keep_real a _ svdEps_pos.le, hr]
  rfl

/-- C73, total correctness: on every nonempty real matrix `svd(true, true)` returns `(U, S, Vt)` with
orthonormal columns of `U` and rows of `Vt`, nonnegative `S`, and
`‖A - U diag(S) Vt‖_F ≤ 2 (d - 1) eps ‖A‖_F`. -/
theorem C73_svd_total {m n : Nat} (a : Arr2 ℝ) (ha : HasShape a m n) (hm : m ≠ 0) (hn : n ≠ 0) :
    ∃ U s V, svd (svdFuel m n) a true true = .ok (some U, s, some V) ∧
      HasShape U m (min m n) ∧ HasShape V (min m n) n ∧ s.len = min m n ∧
      (∀ k, k < min m n → 0 ≤ s.get k) ∧
      (toMat m (min m n) U)ᵀ * toMat m (min m n) U = 1 ∧
      toMat (min m n) n V * (toMat (min m n) n V)ᵀ = 1 ∧
      frob (toMat m n a - toMat m (min m n) U * Matrix.diagonal (toVec (min m n) s) *
        toMat (min m n) n V) ≤ 2 * (min m n - 1 : Nat) * (5 * (2 : ℝ)⁻¹ ^ 52) * frob (toMat m n a) := by
  obtain ⟨⟨u, s, v⟩, hr⟩ := C73_svd_terminates a ha hm hn true true _ le_rfl
  have h := svdGo_real (svdFuel m n) a (NdFloat.epsilon * NdFloat.ofRat 5) ha hm hn svdEps_pos.le
  have hr' : svdGo (svdFuel m n) a true true (NdFloat.epsilon * NdFloat.ofRat 5) = .ok (u, s, v) := hr
  rw [hr', wp_ok] at h
  obtain ⟨U, V, h1, h2, h3, h4, h5, h6, h7, h8, h9, -⟩ := h
  simp only at h1 h2 h5 h6 h9
  subst h1 h2
  refine ⟨U, s, V, hr, h3, h4, h5, h6, h7, h8, ?_⟩
  simp only [real_epsilon, real_ofRat] at h9
  rw [show 5 * (2 : ℝ)⁻¹ ^ 52 = (2 : ℝ)⁻¹ ^ 52 * ((5 : ℚ) : ℝ) by push_cast; ring]
  exact h9

/-- The hypotheses are met by a `3 × 3` matrix that is singular and needs sweeps. -/
example : ∃ r, svd (svdFuel 3 3) (ofRows 3 3 [[1, 1, 0], [0, 1, 1], [1, 0, -1]] : Arr2 ℝ) true false = .ok r :=
  C73_svd_terminates (m := 3) (n := 3) _ ⟨rfl, rfl⟩ (by norm_num) (by norm_num) true false _ le_rfl

end LinfaLinalg
