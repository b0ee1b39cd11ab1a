import Verif.Spec.Ieee

/-! # The binary floating-point formats of IEEE 754

The library is generic over `f32` and `f64` (`ndarray::NdFloat`). A format has a precision and a range of exponents.
`Rounding.binary64` of `Spec/Ieee` is the instance `Format.double`. -/

namespace LinfaLinalg

/-- A binary format: `mant + 1` is the number of bits of the significand, `2 ^ emin` the smallest positive number, and
all finite numbers are below `2 ^ emax`. -/
structure Format where
  mant : ℕ
  emin : ℤ
  emax : ℤ
  mant_pos : 0 < mant
  half : emin ≤ -(mant : ℤ) - 1
  one : (mant : ℤ) + 1 ≤ emax

/-- IEEE 754 binary32, `f32`. -/
def Format.single : Format := ⟨23, -149, 128, by norm_num, by norm_num, by norm_num⟩

/-- IEEE 754 binary64, `f64`. -/
def Format.double : Format := ⟨52, -1074, 1024, by norm_num, by norm_num, by norm_num⟩

variable (F : Format)

/-- The spacing exponent around the magnitude `x`. -/
noncomputable def Format.exp (x : ℝ) : ℤ := Max.max (Int.log 2 x - F.mant) F.emin

/-- Rounding of a magnitude to the format, to nearest, ties to even, with gradual underflow; `none` on overflow. -/
noncomputable def Format.round (x : ℝ) : Option ℝ :=
  let y := |(roundEven (x / (2 : ℝ) ^ F.exp x) : ℝ) * (2 : ℝ) ^ F.exp x|
  if y < (2 : ℝ) ^ F.emax then some y else none

theorem Format.round_nonneg {x y : ℝ} (h : F.round x = some y) : 0 ≤ y := by
  unfold Format.round at h
  simp only at h
  split_ifs at h
  cases h
  exact abs_nonneg _

theorem Format.round_half : F.round (1 / 2) = some (1 / 2) := by
  have hl : Int.log 2 (1 / 2 : ℝ) = -1 := by
    rw [show (1 / 2 : ℝ) = ((2 : ℕ) : ℝ) ^ (-1 : ℤ) by norm_num]
    exact Int.log_zpow (by norm_num) _
  have h1 := F.half
  have h2 := F.one
  have he : F.exp (1 / 2) = -1 - (F.mant : ℤ) := by
    unfold Format.exp
    rw [hl]
    exact max_eq_left (by omega)
  have hq : (1 / 2 : ℝ) / (2 : ℝ) ^ (-1 - (F.mant : ℤ)) = ((2 ^ F.mant : ℤ) : ℝ) := by
    rw [zpow_sub₀ (by norm_num), zpow_natCast]
    push_cast
    norm_num
  unfold Format.round
  simp only [he, hq]
  have hr : roundEven ((2 ^ F.mant : ℤ) : ℝ) = 2 ^ F.mant := by
    unfold roundEven
    rw [Int.fract_intCast, Int.floor_intCast, if_pos (by norm_num)]
  rw [hr, ← hq, div_mul_cancel₀ _ (by positivity), abs_of_pos (by norm_num), if_pos]
  calc (1 / 2 : ℝ) < 2 ^ (0 : ℤ) := by norm_num
    _ ≤ (2 : ℝ) ^ F.emax := zpow_le_zpow_right₀ (by norm_num) (by omega)

/-- Arithmetic in the format with correctly rounded operations, `sqrt` and `hypot`, and inner products as in ndarray's
`unrolled_dot`. -/
noncomputable def Rounding.ieee : Rounding where
  rnd := F.round
  rnd_nonneg _ _ h := F.round_nonneg h
  rnd_half := F.round_half
  hyp x y := F.round (Real.sqrt (x * x + y * y))
  hyp_nonneg _ _ _ h := F.round_nonneg h
  eps := (2 : ℝ)⁻¹ ^ F.mant
  eps_pos := by positivity
  nanNeg := false
  plans := .unrolled

theorem ieee_double : Rounding.ieee .double = Rounding.binary64 := rfl

/-- Arithmetic of `f32`. -/
noncomputable abbrev Rounding.binary32 : Rounding := Rounding.ieee .single

/-- A number of the format: not a number, an infinity, or `± k · 2 ^ e` with an integer `k` of at most `mant + 1` bits
and an exponent `e` between `emin` and `emax - mant - 1`. -/
def IsFloat : Flt (Rounding.ieee F) → Prop
  | .nan => True
  | .inf _ => True
  | .fin _ m => ∃ (k : ℕ) (e : ℤ), k < 2 ^ (F.mant + 1) ∧ F.emin ≤ e ∧ e ≤ F.emax - F.mant - 1 ∧ m = k * (2 : ℝ) ^ e

/-- A number of `f64`. -/
abbrev IsDouble : Flt Rounding.binary64 → Prop := IsFloat .double

variable {α : Type}

/-- All entries inside the array have the property. -/
def All1 (S : α → Prop) (a : Arr1 α) : Prop := ∀ i, i < a.len → S (a.get i)

/-- All entries inside the array have the property. -/
def All2 (S : α → Prop) (a : Arr2 α) : Prop := ∀ i, i < a.nr → ∀ j, j < a.nc → S (a.get i j)

end LinfaLinalg
