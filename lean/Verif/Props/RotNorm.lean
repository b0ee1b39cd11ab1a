import Verif.Props.RotRange
import Verif.Props.Givens

/-! # C150: a computed rotation keeps lengths in floats -/

namespace LinfaLinalg

open Flt

theorem sqrt_le_shift (p q e f : ℝ) : √((p + e) ^ 2 + (q + f) ^ 2) ≤ √(p ^ 2 + q ^ 2) + (|e| + |f|) := by
  have hS := Real.sqrt_nonneg (p ^ 2 + q ^ 2)
  have hSS := Real.sq_sqrt (by positivity : 0 ≤ p ^ 2 + q ^ 2)
  have hp : |p| ≤ √(p ^ 2 + q ^ 2) := Real.abs_le_sqrt (by nlinarith [sq_nonneg q])
  have hq : |q| ≤ √(p ^ 2 + q ^ 2) := Real.abs_le_sqrt (by nlinarith [sq_nonneg p])
  generalize √(p ^ 2 + q ^ 2) = S at *
  have he := abs_nonneg e
  have hf := abs_nonneg f
  rw [Real.sqrt_le_left (by positivity)]
  have h1 : p * e ≤ S * |e| := (le_abs_self _).trans (by rw [abs_mul]; exact mul_le_mul_of_nonneg_right hp he)
  have h2 : q * f ≤ S * |f| := (le_abs_self _).trans (by rw [abs_mul]; exact mul_le_mul_of_nonneg_right hq hf)
  have h3 := sq_abs e
  have h4 := sq_abs f
  have h5 := mul_nonneg he hf
  nlinarith

theorem abs_sqrt_shift (p q p' q' : ℝ) : |√(p' ^ 2 + q' ^ 2) - √(p ^ 2 + q ^ 2)| ≤ |p' - p| + |q' - q| := by
  have h1 := sqrt_le_shift p q (p' - p) (q' - q)
  have h2 := sqrt_le_shift p' q' (p - p') (q - q')
  rw [add_sub_cancel, add_sub_cancel] at h1 h2
  rw [abs_sub_comm p p', abs_sub_comm q q'] at h2
  exact abs_le.2 ⟨by linarith, by linarith⟩

/-- A vector multiplied with an approximate rotation, with an error. -/
theorem rot_length {u η a b c s x y : ℝ} (hu0 : 0 ≤ u) (hη : η ≤ u / 2) (hc : |c| ≤ 1) (hs : |s| ≤ 1)
    (hcs : |c ^ 2 + s ^ 2 - 1| ≤ 11 * u + 4 * η)
    (hx : |x - (a * c + b * s)| ≤ 3 * u * (|a * c| + |b * s|) + 4 * η)
    (hy : |y - (b * c - a * s)| ≤ 3 * u * (|a * s| + |b * c|) + 4 * η) :
    |√(x ^ 2 + y ^ 2) - √(a ^ 2 + b ^ 2)| ≤ 25 * u * √(a ^ 2 + b ^ 2) + 8 * η := by
  have hN := Real.sqrt_nonneg (a ^ 2 + b ^ 2)
  have ha : |a| ≤ √(a ^ 2 + b ^ 2) := Real.abs_le_sqrt (by nlinarith [sq_nonneg b])
  have hb : |b| ≤ √(a ^ 2 + b ^ 2) := Real.abs_le_sqrt (by nlinarith [sq_nonneg a])
  have h1 := abs_sqrt_shift (a * c + b * s) (b * c - a * s) x y
  have h2 : √((a * c + b * s) ^ 2 + (b * c - a * s) ^ 2) = √(c ^ 2 + s ^ 2) * √(a ^ 2 + b ^ 2) := by
    rw [← Real.sqrt_mul (by positivity)]
    congr 1; ring
  have h3 : |√(c ^ 2 + s ^ 2) - 1| ≤ 11 * u + 4 * η := by
    have := sqrt_rel (a := c ^ 2 + s ^ 2) (b := 1) (e := 11 * u + 4 * η) one_pos (by positivity) (by rw [mul_one]; exact hcs)
    rwa [Real.sqrt_one, mul_one] at this
  rw [h2] at h1
  generalize √(a ^ 2 + b ^ 2) = N at *
  generalize √(c ^ 2 + s ^ 2) = k at *
  have h4 : |k * N - N| ≤ (11 * u + 4 * η) * N := by
    rw [show k * N - N = (k - 1) * N by ring, abs_mul, abs_of_nonneg hN]
    exact mul_le_mul_of_nonneg_right h3 hN
  have hle : ∀ {p q : ℝ}, |p| ≤ N → |q| ≤ 1 → |p * q| ≤ N := fun hp hq => by
    rw [abs_mul]
    calc _ ≤ N * 1 := mul_le_mul hp hq (abs_nonneg _) hN
      _ = N := mul_one N
  have h5 : 3 * u * (|a * c| + |b * s|) ≤ 3 * u * (N + N) :=
    mul_le_mul_of_nonneg_left (add_le_add (hle ha hc) (hle hb hs)) (by positivity)
  have h6 : 3 * u * (|a * s| + |b * c|) ≤ 3 * u * (N + N) :=
    mul_le_mul_of_nonneg_left (add_le_add (hle ha hs) (hle hb hc)) (by positivity)
  have h7 := abs_sub_le (√(x ^ 2 + y ^ 2)) (k * N) N
  have h8 : η * N ≤ u / 2 * N := mul_le_mul_of_nonneg_right hη hN
  linarith

/-- C150: in every IEEE 754 format with at least the precision and range of single precision, `cancel_y` of two finite numbers
whose length neither overflows nor is subnormal returns a rotation with which `rotate_rows` keeps the length of every finite
row within `25 u` of itself and 8 times half the smallest positive number, provided its entries are at most `2^(emax - 3)`. -/
theorem C150_lengths {F : Format} (hF : F.Wide) (x y : Flt (Rounding.ieee F)) (hx : IsFloat F x) (hy : IsFloat F y)
    (fx : IsFin x) (fy : IsFin y) (h0 : y.rv ≠ 0) (hr : IsFin (NdFloat.hypot x y))
    (hlo : (2 : ℝ) ^ (F.emin + F.mant) ≤ √(x.rv ^ 2 + y.rv ^ 2)) :
    ∃ g r, GivensRotation.cancelY x y = some (g, r) ∧ ∀ a : Arr2 (Flt (Rounding.ieee F)), a.nc = 2 →
      (∀ i j, i < a.nr → j < 2 → IsFin (a.get i j) ∧ Proper (a.get i j) ∧ |(a.get i j).rv| ≤ 2 ^ (F.emax - 3)) →
      ∃ b, g.rotateRows a = .ok b ∧ b.nr = a.nr ∧ b.nc = 2 ∧ ∀ i, i < a.nr → IsFin (b.get i 0) ∧ IsFin (b.get i 1) ∧
        |√((b.get i 0).rv ^ 2 + (b.get i 1).rv ^ 2) - √((a.get i 0).rv ^ 2 + (a.get i 1).rv ^ 2)| ≤
          25 * 2 ^ (-(F.mant : ℤ) - 1) * √((a.get i 0).rv ^ 2 + (a.get i 1).rv ^ 2) + 8 * 2 ^ (F.emin - 1) := by
  obtain ⟨g, r, h1, -, fc, fs, hc, hs, h2⟩ := C120_float x y hx hy fx fy h0 hr
  obtain ⟨-, h3, -, -⟩ := h2 hlo _ _ rfl rfl
  have hp : Proper g.c ∧ Proper g.s := by
    unfold GivensRotation.cancelY at h1
    split_ifs at h1
    injection h1 with h1
    injection h1 with h1 _
    rw [← h1]
    exact ⟨proper_div _ _, proper_div _ _⟩
  refine ⟨g, r, h1, fun a ha hf => ?_⟩
  obtain ⟨b, k1, k2, k3, k4⟩ := C148_rows hF (Rounding.ieee F).plans g a ha ⟨fc, hp.1, hc⟩ ⟨fs, hp.2, hs⟩ hf
  refine ⟨b, k1, k2, k3, fun i hi => ?_⟩
  obtain ⟨⟨f1, e1⟩, f2, e2⟩ := k4 i hi
  refine ⟨f1, f2, ?_⟩
  have hη : (2 : ℝ) ^ (F.emin - 1) ≤ 2 ^ (-(F.mant : ℤ) - 1) / 2 := by
    rw [le_div_iff₀ (by norm_num), ← zpow_add_one₀ (by norm_num)]
    exact zpow_le_zpow_right₀ (by norm_num) (by have := F.half; omega)
  exact rot_length (by positivity) hη hc hs h3 e1 e2

/-- The rotation from `(3, -4)` applied to the row `(2^1000, -1)` in `f64`. -/
example : ∃ g r b, GivensRotation.cancelY (fin false 3 : Flt (Rounding.ieee .double)) (fin true 4) = some (g, r) ∧
    g.rotateRows ⟨1, 2, fun _ j => .fin (j == 1) (if j = 0 then 2 ^ 1000 else 1)⟩ = .ok b ∧ IsFin (b.get 0 0) ∧ IsFin (b.get 0 1) := by
  have h5 : Real.sqrt (3 * 3 + -4 * -4) = 5 := by
    rw [show (3 * 3 + -4 * -4 : ℝ) = 5 ^ 2 by norm_num, Real.sqrt_sq (by norm_num)]
  have hM : ∀ k : ℕ, k < 2 ^ 53 → IsMag .double k := fun k hk =>
    ⟨k, 0, hk, by norm_num [Format.double], by norm_num [Format.double], by simp⟩
  have hy : IsFin (NdFloat.hypot (fin false 3 : Flt (Rounding.ieee .double)) (fin true 4)) := by
    change IsFin (Flt.hypot _ _)
    simp only [Flt.hypot]
    change IsFin (match Format.double.round (Real.sqrt (val false 3 * val false 3 + val true 4 * val true 4)) with
      | none => _ | some y => _)
    rw [show (val false 3 : ℝ) = 3 by simp [val, sgn], show (val true 4 : ℝ) = -4 by simp [val, sgn], h5,
      show (5 : ℝ) = ((5 : ℕ) : ℝ) by norm_num, (hM 5 (by norm_num)).round]
    exact ⟨_, _, rfl⟩
  have e : √((fin false 3 : Flt (Rounding.ieee .double)).rv ^ 2 + (fin true 4 : Flt (Rounding.ieee .double)).rv ^ 2) = 5 := by
    rw [← h5]; simp [rv, val, sgn]; norm_num
  obtain ⟨g, r, h, k⟩ := C150_lengths Format.double_wide (fin false 3) (fin true 4)
    (by have := hM 3 (by norm_num); exact_mod_cast this) (by have := hM 4 (by norm_num); exact_mod_cast this)
    ⟨_, _, rfl⟩ ⟨_, _, rfl⟩ (by simp [rv, val, sgn]) hy
    (by rw [e]; exact (zpow_le_one_of_nonpos₀ (by norm_num) (by norm_num [Format.double])).trans (by norm_num))
  obtain ⟨b, h1, -, -, h2⟩ := k ⟨1, 2, fun _ j => .fin (j == 1) (if j = 0 then 2 ^ 1000 else 1)⟩ rfl (fun i j _ _ =>
    ⟨⟨_, _, rfl⟩, by intro s m h; cases h; split_ifs <;> positivity, by
      show |val _ _| ≤ _
      rw [abs_val (by split_ifs <;> positivity)]
      split_ifs
      · rw [← zpow_natCast]; exact zpow_le_zpow_right₀ (by norm_num) (by norm_num [Format.double])
      · exact one_le_zpow₀ (by norm_num) (by norm_num [Format.double])⟩)
  exact ⟨g, r, b, h, h1, (h2 0 (by norm_num)).1, (h2 0 (by norm_num)).2.1⟩

end LinfaLinalg
