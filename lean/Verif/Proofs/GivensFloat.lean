import Verif.Proofs.FormatClosed
import Verif.Model.Givens

/-! # Rounding to a format is monotone, and Givens rotations of floats -/

namespace LinfaLinalg
open Flt

variable {F : Format}

theorem Format.exp_mono {x y : ℝ} (hx : 0 < x) (h : x ≤ y) : F.exp x ≤ F.exp y :=
  max_le_max (by have := Int.log_mono_right (b := 2) hx h; omega) le_rfl

theorem IsMag.exp_le {m : ℝ} {k : ℕ} {e : ℤ} (hk : k < 2 ^ (F.mant + 1)) (h1 : F.emin ≤ e) (hx : m = k * (2 : ℝ) ^ e)
    (h0 : 0 < m) : F.exp m ≤ e := by
  have hlog : Int.log 2 m < (F.mant + 1 : ℕ) + e := by
    rw [← Int.lt_zpow_iff_log_lt (by norm_num) h0, hx]
    rw [show (((2 : ℕ) : ℝ)) = 2 by norm_num, zpow_add₀ (by norm_num), zpow_natCast]
    refine mul_lt_mul_of_pos_right ?_ (by positivity)
    exact_mod_cast hk
  exact max_le (by push_cast at hlog; omega) h1

theorem grid_div {k : ℕ} {e E : ℤ} (h : E ≤ e) : ∃ K : ℤ, (k : ℝ) * (2 : ℝ) ^ e = K * (2 : ℝ) ^ E := by
  obtain ⟨n, hn⟩ := Int.le.dest h
  refine ⟨k * 2 ^ n, ?_⟩
  rw [← hn, zpow_add₀ (by norm_num), zpow_natCast]
  push_cast
  ring

theorem IsMag.lt {m : ℝ} (h : IsMag F m) : m < 2 ^ F.emax := by
  have := h.round
  unfold Format.round at this
  dsimp only at this
  split_ifs at this with hlt
  injection this with e
  exact e.symm.le.trans_lt hlt

/-- What is below a number of the format is rounded to something below it. -/
theorem Format.round_le {x m : ℝ} (h0 : 0 ≤ x) (hm : IsMag F m) (h : x ≤ m) : ∃ y, F.round x = some y ∧ y ≤ m := by
  rcases h0.eq_or_lt with rfl | hx
  · exact ⟨0, Format.round_zero, h⟩
  have hlt := hm.lt
  obtain ⟨k, e, hk, h1, h2, rfl⟩ := hm
  have hE := (F.exp_mono hx h).trans (IsMag.exp_le hk h1 rfl (hx.trans_le h))
  obtain ⟨K, hK⟩ := grid_div (k := k) hE
  have hp := two_zpow_pos (F.exp x)
  have hr := roundEven_le_nat (x := x / 2 ^ F.exp x) (k := K) (by rw [div_le_iff₀ hp, ← hK]; exact h)
  have hr0 : 0 ≤ roundEven (x / 2 ^ F.exp x) := roundEven_ge_nat (k := 0) (by push_cast; positivity)
  have hy : |(roundEven (x / (2 : ℝ) ^ F.exp x) : ℝ) * (2 : ℝ) ^ F.exp x| ≤ k * 2 ^ e := by
    rw [abs_of_nonneg (mul_nonneg (by exact_mod_cast hr0) hp.le), hK]
    exact mul_le_mul_of_nonneg_right (by exact_mod_cast hr) hp.le
  refine ⟨_, ?_, hy⟩
  unfold Format.round
  dsimp only
  rw [if_pos (hy.trans_lt hlt)]

/-- What is above a number of the format is rounded to something above it. -/
theorem Format.le_round {x m y : ℝ} (hm : IsMag F m) (h : m ≤ x) (hy : F.round x = some y) : m ≤ y := by
  rcases hm.nonneg.eq_or_lt with h0 | h0
  · rw [← h0]; exact F.round_nonneg hy
  have hx : 0 < x := h0.trans_le h
  unfold Format.round at hy
  dsimp only at hy
  split_ifs at hy
  cases hy
  obtain ⟨k, e, hk, h1, h2, rfl⟩ := hm
  have hp := two_zpow_pos (F.exp x)
  refine le_trans ?_ (le_abs_self _)
  rcases le_or_gt (F.exp x) e with hE | hE
  · obtain ⟨K, hK⟩ := grid_div (k := k) hE
    have hr := roundEven_ge_nat (x := x / 2 ^ F.exp x) (k := K) (by rw [le_div_iff₀ hp, ← hK]; exact h)
    rw [hK]
    exact mul_le_mul_of_nonneg_right (by exact_mod_cast hr) hp.le
  · have hEl : F.exp x = Int.log 2 x - F.mant := by
      rcases max_choice (Int.log 2 x - F.mant) F.emin with h | h
      · exact h
      · have : F.exp x = F.emin := h
        omega
    have hlog' : (2 : ℝ) ^ (Int.log 2 x) ≤ x := by
      have := Int.zpow_log_le_self (b := 2) (by norm_num) hx
      exact_mod_cast this
    have hpow : ((2 ^ F.mant : ℤ) : ℝ) * 2 ^ F.exp x = (2 : ℝ) ^ (Int.log 2 x) := by
      rw [hEl, zpow_sub₀ (by norm_num), zpow_natCast]
      push_cast
      field_simp
    have hr := roundEven_ge_nat (x := x / 2 ^ F.exp x) (k := 2 ^ F.mant) (by rw [le_div_iff₀ hp, hpow]; exact hlog')
    calc (k : ℝ) * 2 ^ e ≤ (2 : ℝ) ^ (F.mant + 1) * 2 ^ e := mul_le_mul_of_nonneg_right (by exact_mod_cast hk.le) (by positivity)
      _ = 2 ^ ((F.mant : ℤ) + 1 + e) := by rw [zpow_add₀ (by norm_num), zpow_add₀ (by norm_num), zpow_natCast]; norm_num [pow_succ]
      _ ≤ 2 ^ (Int.log 2 x) := zpow_le_zpow_right₀ (by norm_num) (by omega)
      _ = ((2 ^ F.mant : ℤ) : ℝ) * 2 ^ F.exp x := hpow.symm
      _ ≤ _ := mul_le_mul_of_nonneg_right (by exact_mod_cast hr) hp.le

/-- A result in the normal range has a relative error only. -/
theorem Format.round_normal {x y : ℝ} (h : (2 : ℝ) ^ (F.emin + F.mant) ≤ x) (hy : F.round x = some y) :
    |y - x| ≤ 2 * 2 ^ (-(F.mant : ℤ) - 1) * x := by
  have h0 : 0 ≤ x := le_trans (by positivity) h
  have := (ieee_accurate F .unrolled).err x y h0 hy
  have e : (2 : ℝ) ^ (F.emin - 1) = 2 ^ (-(F.mant : ℤ) - 1) * 2 ^ (F.emin + F.mant) := by
    rw [← zpow_add₀ (by norm_num)]
    congr 1
    ring
  rw [e] at this
  have := mul_le_mul_of_nonneg_left h (by positivity : (0 : ℝ) ≤ 2 ^ (-(F.mant : ℤ) - 1))
  linarith

end LinfaLinalg
