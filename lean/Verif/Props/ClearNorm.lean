import Verif.Props.ClearRange
import Verif.Props.RotNorm
import Mathlib.Algebra.Order.Chebyshev

/-! # C151: a Householder step keeps lengths in floats -/

namespace LinfaLinalg

open Flt

theorem abs_norm_shift (n : Nat) (f g : Nat → ℝ) :
    |√(∑ k ∈ Finset.range n, f k ^ 2) - √(∑ k ∈ Finset.range n, g k ^ 2)| ≤ ∑ k ∈ Finset.range n, |f k - g k| := by
  induction n with
  | zero => simp
  | succ n ih =>
    have h := abs_sqrt_shift (√(∑ k ∈ Finset.range n, g k ^ 2)) (g n) (√(∑ k ∈ Finset.range n, f k ^ 2)) (f n)
    rw [Real.sq_sqrt (Finset.sum_nonneg fun _ _ => sq_nonneg _), Real.sq_sqrt (Finset.sum_nonneg fun _ _ => sq_nonneg _)] at h
    rw [Finset.sum_range_succ, Finset.sum_range_succ, Finset.sum_range_succ]
    linarith

/-- A reflection along a unit vector keeps the length. -/
theorem refl_length (n : Nat) (w c : Nat → ℝ) (hw : ∑ k ∈ Finset.range n, w k * w k = 1) :
    ∑ k ∈ Finset.range n, (c k - 2 * w k * ∑ l ∈ Finset.range n, w l * c l) ^ 2 = ∑ k ∈ Finset.range n, c k ^ 2 := by
  obtain ⟨t, ht⟩ : ∃ t, t = ∑ l ∈ Finset.range n, w l * c l := ⟨_, rfl⟩
  rw [← ht]
  have e : ∀ k, (c k - 2 * w k * t) ^ 2 = c k ^ 2 - 4 * t * (w k * c k) + 4 * t ^ 2 * (w k * w k) := fun k => by ring
  simp only [e]
  rw [Finset.sum_add_distrib, Finset.sum_sub_distrib, ← Finset.mul_sum, ← Finset.mul_sum, hw, ← ht]
  ring

theorem sum_abs_le_sqrt (n : Nat) (c : Nat → ℝ) :
    ∑ k ∈ Finset.range n, |c k| ≤ √n * √(∑ k ∈ Finset.range n, c k ^ 2) := by
  rw [← Real.sqrt_mul (Nat.cast_nonneg n)]
  refine Real.le_sqrt_of_sq_le ?_
  have := sq_sum_le_card_mul_sum_sq (s := Finset.range n) (f := fun k => |c k|)
  simpa only [sq_abs, Finset.card_range] using this

/-- C151: under the conditions of C149 the absolute value of the norm that `clear_column` returns is the length of the cleared
part of the column up to `3 γ_(n+2)` of itself, and the length of the reflected part of every other column changes by at most
`65 n √n γ_(n+2)` times itself plus an underflow error. -/
theorem C151_lengths {F : Format} (hF : F.Wide) (P : DotPlans) (a : Arr2 (Flt { Rounding.ieee F with plans := P }))
    (icol shift n : Nat) (hc : icol < a.nc) (hr : icol + shift < a.nr) (hn : n = a.nr - (icol + shift))
    (hn2 : n + 2 ≤ 2 ^ (F.mant - 6))
    (hf : ∀ k j, k < n → icol ≤ j → j < a.nc → IsFin (a.get (icol + shift + k) j) ∧ Proper (a.get (icol + shift + k) j))
    (hlo : 2 ^ (F.emin + 2 * F.mant + 2) ≤
      ∑ k ∈ Finset.range n, (a.get (icol + shift + k) icol).rv * (a.get (icol + shift + k) icol).rv)
    (hhi : ∑ k ∈ Finset.range n, (a.get (icol + shift + k) icol).rv * (a.get (icol + shift + k) icol).rv ≤ 2 ^ (F.emax - 5))
    (hS : ∀ j, icol < j → j < a.nc → ∑ k ∈ Finset.range n, |(a.get (icol + shift + k) j).rv| ≤ 2 ^ (F.emax - 8)) :
    ∃ b d, clearColumn a icol shift = .ok (b, d) ∧
      |(|d.rv|) - √(∑ k ∈ Finset.range n, (a.get (icol + shift + k) icol).rv ^ 2)| ≤
        3 * gam (2 ^ (-(F.mant : ℤ) - 1)) (n + 2) * √(∑ k ∈ Finset.range n, (a.get (icol + shift + k) icol).rv ^ 2) ∧
      ∀ j, icol < j → j < a.nc →
        |√(∑ k ∈ Finset.range n, (b.get (icol + shift + k) j).rv ^ 2) -
          √(∑ k ∈ Finset.range n, (a.get (icol + shift + k) j).rv ^ 2)| ≤
        65 * n * √n * gam (2 ^ (-(F.mant : ℤ) - 1)) (n + 2) * √(∑ k ∈ Finset.range n, (a.get (icol + shift + k) j).rv ^ 2) +
          12 * n * ((n : ℝ) + 1) ^ 2 * 2 ^ (F.emin - 1) := by
  have hg0 := (ieee_cholRange hF P hn2).g0
  obtain ⟨b, d, h1, -, -, -, -, w, d', hs, hd, -, h9⟩ := C149_clear hF P a icol shift n hc hr hn hn2 hf hlo hhi hS
  have hnorm : √(∑ k ∈ Finset.range n, (a.get (icol + shift + k) icol).rv ^ 2) = |d'| := by
    simp only [sq]
    rw [← hs.norm, Real.sqrt_mul_self_eq_abs]
  have hd0 : d' ≠ 0 := by
    intro h
    have h2 := hs.norm
    rw [h, zero_mul] at h2
    have h3 : (0 : ℝ) < 2 ^ (F.emin + 2 * F.mant + 2) := by positivity
    rw [← h2] at hlo
    linarith
  refine ⟨b, d, h1, ?_, fun j hj hj2 => ?_⟩
  · rw [hnorm]
    exact (abs_abs_sub_abs_le _ _).trans hd
  obtain ⟨σ, hσ⟩ : ∃ σ : ℝ, σ = if d' < 0 then -1 else 1 := ⟨_, rfl⟩
  have hσ2 : σ ^ 2 = 1 := by rw [hσ]; split_ifs <;> norm_num
  have e : ∑ k ∈ Finset.range n, (a.get (icol + shift + k) j).rv ^ 2 = ∑ k ∈ Finset.range n,
      (σ * ((a.get (icol + shift + k) j).rv - 2 * w k * ∑ l ∈ Finset.range n, w l * (a.get (icol + shift + l) j).rv)) ^ 2 := by
    simp only [mul_pow σ, hσ2, one_mul]
    exact (refl_length n w (fun k => (a.get (icol + shift + k) j).rv) (hs.nonzero hd0)).symm
  have h2 := abs_norm_shift n (fun k => (b.get (icol + shift + k) j).rv) (fun k =>
    σ * ((a.get (icol + shift + k) j).rv - 2 * w k * ∑ l ∈ Finset.range n, w l * (a.get (icol + shift + l) j).rv))
  simp only at h2
  rw [← e] at h2
  refine h2.trans ((Finset.sum_le_sum fun k hk => ?_).trans_eq (?_ : ∑ k ∈ Finset.range n,
    (65 * gam (2 ^ (-(F.mant : ℤ) - 1)) (n + 2) * (√n * √(∑ k ∈ Finset.range n, (a.get (icol + shift + k) j).rv ^ 2)) +
      12 * ((n : ℝ) + 1) ^ 2 * 2 ^ (F.emin - 1)) = _))
  · have h3 := (h9 k j (Finset.mem_range.1 hk) hj hj2).2
    rw [← hσ] at h3
    have h4 := mul_le_mul_of_nonneg_left (sum_abs_le_sqrt n fun k => (a.get (icol + shift + k) j).rv)
      (by linarith : 0 ≤ 65 * gam (2 ^ (-(F.mant : ℤ) - 1)) (n + 2))
    linarith
  · rw [Finset.sum_const, Finset.card_range, nsmul_eq_mul]
    ring

/-- `exClear` meets the conditions. -/
example (P : DotPlans) : ∃ b d, clearColumn (exClear : Arr2 (Flt { Rounding.ieee .single with plans := P })) 1 0 = .ok (b, d) := by
  obtain ⟨b, d, h, -⟩ := C151_lengths Format.single_wide P exClear 1 0 3 (by norm_num [exClear])
    (by norm_num [exClear]) rfl (by norm_num [Format.single])
    (fun k j _ _ _ => ⟨⟨_, _, rfl⟩, by intro s m h; cases h; positivity⟩)
    (by simp [exClear, Finset.sum_range_succ, rv, val, sgn, Format.single]; norm_num)
    (by simp [exClear, Finset.sum_range_succ, rv, val, sgn, Format.single]; norm_num)
    (fun j h1 h2 => by
      obtain rfl : j = 2 := by simp only [exClear] at h2; omega
      simp [exClear, Finset.sum_range_succ, rv, val, sgn, Format.single]
      norm_num)
  exact ⟨b, d, h⟩

end LinfaLinalg
