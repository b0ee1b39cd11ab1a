import Verif.Proofs.HouseRange

/-! # C146: the axis of a Householder reflection within the range of the float format

C90 and C94 show what `reflection_axis_mut` returns when the squares of the column overflow or underflow. Here is the
range in between. -/

namespace LinfaLinalg

open Flt

/-- C146: in every IEEE 754 format with at least the precision and range of single precision, if the entries of a column
are finite and their squares add up to between `2^(emin + 2 mant + 2)` and `2^(emax - 5)`, then `reflection_axis_mut`
returns a finite norm with a relative error of at most `3 γ_(n+2)` and a finite axis, each entry of which has a relative error
of at most `12 γ_(n+2)` and an absolute error of half the smallest positive number. The exact axis has length 1 and
reflects the column to a multiple of the first unit vector. -/
theorem C146_axis {F : Format} (hF : F.Wide) (P : DotPlans) (col : Arr1 (Flt { Rounding.ieee F with plans := P }))
    (h0 : 0 < col.len) (hn : col.len + 2 ≤ 2 ^ (F.mant - 6))
    (hf : ∀ k, k < col.len → IsFin (col.get k) ∧ Proper (col.get k))
    (hlo : 2 ^ (F.emin + 2 * F.mant + 2) ≤ ∑ k ∈ Finset.range col.len, (col.get k).rv * (col.get k).rv)
    (hhi : ∑ k ∈ Finset.range col.len, (col.get k).rv * (col.get k).rv ≤ 2 ^ (F.emax - 5)) :
    ∃ w d, reflectionAxisMut col = .ok (w, some d) ∧ w.len = col.len ∧ IsFin d ∧ (∀ k, k < col.len → IsFin (w.get k)) ∧
      ∃ (w' : Nat → ℝ) (d' : ℝ), ReflSpec col.len (fun k => (col.get k).rv) w' d' ∧
        |d.rv - d'| ≤ 3 * gam (2 ^ (-(F.mant : ℤ) - 1)) (col.len + 2) * |d'| ∧
        ∀ k, k < col.len → |(w.get k).rv - w' k| ≤
          12 * gam (2 ^ (-(F.mant : ℤ) - 1)) (col.len + 2) * |w' k| + 2 ^ (F.emin - 1) := by
  have C := ieee_cholRange hF P hn
  have hg1 := C.g1
  have hg0 := C.g0
  have hu1 := C.acc.u_lt_one
  have hu0 : (0 : ℝ) < 2 ^ (-(F.mant : ℤ) - 1) := by positivity
  have hnu := C.nu
  have e4 : (2 : ℝ) ^ (F.emax - 1) = 16 * 2 ^ (F.emax - 5) := by
    rw [show F.emax - 1 = 4 + (F.emax - 5) by ring, zpow_add₀ (by norm_num)]; norm_num
  have e5 : (2 : ℝ) ^ (F.emax - 3) = 4 * 2 ^ (F.emax - 5) := by
    rw [show F.emax - 3 = 2 + (F.emax - 5) by ring, zpow_add₀ (by norm_num)]; norm_num
  have hB : (1 : ℝ) ≤ 2 ^ (F.emax - 5) := one_le_zpow₀ (by norm_num) (by obtain ⟨w1, w2, w3⟩ := hF; have := F.one; omega)
  have hηu : (2 : ℝ) ^ (F.emin - 1) = (2 ^ (-(F.mant : ℤ) - 1)) ^ 2 * 2 ^ (F.emin + 2 * F.mant + 2) / 2 := by
    rw [sq, ← zpow_add₀ (by norm_num), ← zpow_add₀ (by norm_num), eq_div_iff (by norm_num), ← zpow_add_one₀ (by norm_num)]
    congr 1; ring
  have hη1 : (2 : ℝ) ^ (F.emin - 1) ≤ 2 ^ (-(F.mant : ℤ) - 1) / 2 := by
    rw [le_div_iff₀ (by norm_num), ← zpow_add_one₀ (by norm_num)]
    exact zpow_le_zpow_right₀ (by norm_num) (by have := F.half; omega)
  have hΩ := C.below
  rw [e4] at hΩ
  obtain ⟨dfin, derr⟩ := C145_sum hF P col.len hn col.get col.get hf hf (by
    rw [e5]
    refine (Finset.sum_congr rfl fun k _ => abs_of_nonneg (mul_self_nonneg _)).trans_le ?_
    linarith)
  rw [Finset.sum_congr rfl fun k _ => abs_of_nonneg (mul_self_nonneg (col.get k).rv)] at derr
  have hgm : gam (2 ^ (-(F.mant : ℤ) - 1)) (col.len + 1) ≤ gam (2 ^ (-(F.mant : ℤ) - 1)) (col.len + 2) :=
    gam_mono hu0.le (by omega) hnu
  have hgu : ((col.len + 2 : Nat) : ℝ) * 2 ^ (-(F.mant : ℤ) - 1) ≤ gam (2 ^ (-(F.mant : ℤ) - 1)) (col.len + 2) :=
    le_gam hu0.le hnu
  have hn1 : (1 : ℝ) ≤ col.len := by exact_mod_cast h0
  have hL0 : (0 : ℝ) < 2 ^ (F.emin + 2 * F.mant + 2) := by positivity
  have hS0 := lt_of_lt_of_le hL0 hlo
  refine axis_range C.acc hΩ hB hg0 hg1 ?_ col h0 hf (fun k => (col.get k).rv) (fun k => rfl) rfl hS0 hhi ?_ ?_ ?_ dfin
    (proper_dotTo _ _ _) (derr.trans ?_)
  all_goals
    clear hΩ e4 e5 dfin derr C hhi
    push_cast at hgu
    generalize (2 : ℝ) ^ (F.emin + 2 * F.mant + 2) = L at *
    generalize (2 : ℝ) ^ (F.emin - 1) = η at *
    generalize (2 : ℝ) ^ (-(F.mant : ℤ) - 1) = u at *
    generalize gam u (col.len + 2) = g at *
    generalize ∑ k ∈ Finset.range col.len, (col.get k).rv * (col.get k).rv = S at *
    have hug : 3 * u ≤ g := by
      have : 3 * u ≤ (col.len + 2) * u := mul_le_mul_of_nonneg_right (by linarith) hu0.le
      linarith
    have hηS : η ≤ u ^ 2 * S / 2 := by
      rw [hηu]
      have := mul_le_mul_of_nonneg_left hlo (sq_nonneg u)
      linarith
  · have h1 : (1 - u)⁻¹ ≤ 1 + 2 / 5 * g := by
      rw [inv_le_iff_one_le_mul₀ (by linarith)]
      nlinarith
    linarith
  · linarith
  · -- `η² ≤ (u / 2) (u² S / 2)`
    refine abs_le_of_sq_le_sq' ?_ (by positivity) |>.2
    rw [mul_pow, Real.sq_sqrt hS0.le]
    have hη0 : 0 ≤ η := by rw [hηu]; positivity
    have h1 : η ^ 2 ≤ u / 2 * (u ^ 2 * S / 2) := by rw [sq]; exact mul_le_mul hη1 hηS hη0 (by positivity)
    have h2 : u ^ 2 ≤ (g / 3) ^ 2 := pow_le_pow_left₀ hu0.le (by linarith) 2
    have h3 : u / 2 * (u ^ 2 * S / 2) ≤ 1 / 100 * ((g / 3) ^ 2 * S) := by
      have a1 : u / 4 ≤ 1 / 100 := by linarith
      have a2 : u ^ 2 * S ≤ (g / 3) ^ 2 * S := mul_le_mul_of_nonneg_right h2 hS0.le
      calc u / 2 * (u ^ 2 * S / 2) = u / 4 * (u ^ 2 * S) := by ring
        _ ≤ _ := mul_le_mul a1 a2 (by positivity) (by norm_num)
    have h4 : 0 ≤ g ^ 2 * S := by positivity
    nlinarith
  · refine hηS.trans ?_
    have : u ^ 2 ≤ g / 3 * (1 / 300) := by rw [sq]; exact mul_le_mul (by linarith) (by linarith) hu0.le (by positivity)
    nlinarith
  · have h1 : 2 * (col.len : ℝ) * (col.len + 1) * η ≤ (col.len * u) * ((col.len + 1) * u) * S := by
      have := mul_le_mul_of_nonneg_left hηS (by positivity : 0 ≤ 2 * (col.len : ℝ) * (col.len + 1))
      linarith
    have h2 : (col.len * u) * ((col.len + 1) * u) ≤ g * (1 / 100) :=
      mul_le_mul (by linarith) (by linarith) (by positivity) hg0.le
    have h3 := mul_le_mul_of_nonneg_right h2 hS0.le
    have h4 := mul_le_mul_of_nonneg_right hgm hS0.le
    have : 0 < g * S := mul_pos hg0 hS0
    linarith

/-- C146 in double precision: squares adding up to between `2^(-968)` and `2^1019`. -/
theorem C146_double (P : DotPlans) (col : Arr1 (Flt { Rounding.ieee .double with plans := P }))
    (h0 : 0 < col.len) (hn : col.len + 2 ≤ 2 ^ 46) (hf : ∀ k, k < col.len → IsFin (col.get k) ∧ Proper (col.get k))
    (hlo : 2 ^ (-968 : ℤ) ≤ ∑ k ∈ Finset.range col.len, (col.get k).rv * (col.get k).rv)
    (hhi : ∑ k ∈ Finset.range col.len, (col.get k).rv * (col.get k).rv ≤ 2 ^ (1019 : ℤ)) :
    ∃ w d, reflectionAxisMut col = .ok (w, some d) ∧ w.len = col.len ∧ IsFin d ∧ (∀ k, k < col.len → IsFin (w.get k)) ∧
      ∃ (w' : Nat → ℝ) (d' : ℝ), ReflSpec col.len (fun k => (col.get k).rv) w' d' ∧
        |d.rv - d'| ≤ 3 * gam (2 ^ (-53 : ℤ)) (col.len + 2) * |d'| ∧
        ∀ k, k < col.len → |(w.get k).rv - w' k| ≤ 12 * gam (2 ^ (-53 : ℤ)) (col.len + 2) * |w' k| + 2 ^ (-1075 : ℤ) :=
  C146_axis Format.double_wide P col h0 hn hf hlo hhi

/-- C146 in single precision: squares adding up to between `2^(-101)` and `2^123`. -/
theorem C146_single (P : DotPlans) (col : Arr1 (Flt { Rounding.ieee .single with plans := P }))
    (h0 : 0 < col.len) (hn : col.len + 2 ≤ 2 ^ 17) (hf : ∀ k, k < col.len → IsFin (col.get k) ∧ Proper (col.get k))
    (hlo : 2 ^ (-101 : ℤ) ≤ ∑ k ∈ Finset.range col.len, (col.get k).rv * (col.get k).rv)
    (hhi : ∑ k ∈ Finset.range col.len, (col.get k).rv * (col.get k).rv ≤ 2 ^ (123 : ℤ)) :
    ∃ w d, reflectionAxisMut col = .ok (w, some d) ∧ w.len = col.len ∧ IsFin d ∧ (∀ k, k < col.len → IsFin (w.get k)) ∧
      ∃ (w' : Nat → ℝ) (d' : ℝ), ReflSpec col.len (fun k => (col.get k).rv) w' d' ∧
        |d.rv - d'| ≤ 3 * gam (2 ^ (-24 : ℤ)) (col.len + 2) * |d'| ∧
        ∀ k, k < col.len → |(w.get k).rv - w' k| ≤ 12 * gam (2 ^ (-24 : ℤ)) (col.len + 2) * |w' k| + 2 ^ (-150 : ℤ) :=
  C146_axis Format.single_wide P col h0 hn hf hlo hhi

/-- The column `3, -4, 2^40` meets the conditions. -/
theorem exAxis_ok (P : DotPlans) : ∃ w d, reflectionAxisMut (exDot : Arr1 (Flt { Rounding.ieee .single with plans := P })) =
    .ok (w, some d) ∧ IsFin d := by
  obtain ⟨w, d, h1, -, h2, -⟩ := C146_single P exDot (by norm_num [exDot]) (by norm_num [exDot]) (fun k _ => exDot_ok k)
    (by simp [exDot, Finset.sum_range_succ, rv, val, sgn]; norm_num)
    (by simp [exDot, Finset.sum_range_succ, rv, val, sgn]; norm_num)
  exact ⟨w, d, h1, h2⟩

end LinfaLinalg
