import Mathlib.Analysis.SpecialFunctions.Sqrt
import Mathlib.Data.Int.Log
import Mathlib.Algebra.Order.Round
import Verif.Model.Basic
import Verif.Spec.DotPlan

/-!
# IEEE-like scalars

A scalar type with NaN, infinities and signed zeros, parametrised by the rounding of magnitudes.
It is used for statements about what the code does on NaN, on infinities and under overflow.
-/

namespace LinfaLinalg

/-- How magnitudes are rounded. `none` stands for overflow to infinity.
`rnd` rounds the magnitude of an exact result, `hyp` is the magnitude returned by `hypot` on finite
arguments (which libm does not round correctly), `eps` is the machine epsilon, `nanNeg` is the
sign bit of NaN and `plans` are the orders in which inner products are summed. -/
structure Rounding where
  rnd : ℝ → Option ℝ
  rnd_nonneg : ∀ x y, rnd x = some y → 0 ≤ y
  /-- `0.5` is a floating-point number. -/
  rnd_half : rnd (1 / 2) = some (1 / 2)
  hyp : ℝ → ℝ → Option ℝ
  hyp_nonneg : ∀ x y z, hyp x y = some z → 0 ≤ z
  eps : ℝ
  eps_pos : 0 < eps
  nanNeg : Bool
  plans : DotPlans

/-- A floating-point number: NaN, an infinity with its sign bit, or a finite number with its sign bit
and its magnitude. -/
inductive Flt (R : Rounding) where
  | nan
  | inf (neg : Bool)
  | fin (neg : Bool) (mag : ℝ)

namespace Flt
variable {R : Rounding}

/-- `-1` or `1`. -/
def sgn (neg : Bool) : ℝ := if neg then -1 else 1

/-- The real number denoted by a finite float. -/
def val (neg : Bool) (mag : ℝ) : ℝ := sgn neg * mag

/-- A finite result with the given sign bit and exact magnitude. -/
def round (neg : Bool) (mag : ℝ) : Flt R :=
  match R.rnd mag with
  | none => .inf neg
  | some y => .fin neg y

open Classical in
/-- The float for an exact real result; an exact zero gets the sign bit `z`. -/
noncomputable def ofReal (z : Bool) (x : ℝ) : Flt R :=
  if x = 0 then .fin z 0 else round (decide (x < 0)) |x|

def neg : Flt R → Flt R
  | nan => nan
  | inf s => inf !s
  | fin s m => fin (!s) m

noncomputable def add : Flt R → Flt R → Flt R
  | nan, _ => nan
  | _, nan => nan
  | inf s, inf t => if s = t then inf s else nan
  | inf s, fin _ _ => inf s
  | fin _ _, inf t => inf t
  | fin s m, fin t n => ofReal (s && t) (val s m + val t n)

noncomputable def sub (a b : Flt R) : Flt R := add a (neg b)

open Classical in
noncomputable def mul : Flt R → Flt R → Flt R
  | nan, _ => nan
  | _, nan => nan
  | inf s, inf t => inf (s != t)
  | inf s, fin t n => if n = 0 then nan else inf (s != t)
  | fin s m, inf t => if m = 0 then nan else inf (s != t)
  | fin s m, fin t n => round (s != t) (m * n)

/-- `a.mul_add(b, c)`: `a * b + c`, rounded once. A product with an infinity or NaN is not rounded. -/
noncomputable def fma : Flt R → Flt R → Flt R → Flt R
  | fin s m, fin t n, fin r k => ofReal ((s != t) && r) (val s m * val t n + val r k)
  | fin _ _, fin _ _, inf r => inf r
  | fin _ _, fin _ _, nan => nan
  | a, b, c => add (mul a b) c

open Classical in
noncomputable def div : Flt R → Flt R → Flt R
  | nan, _ => nan
  | _, nan => nan
  | inf _, inf _ => nan
  | inf s, fin t _ => inf (s != t)
  | fin s _, inf t => fin (s != t) 0
  | fin s m, fin t n => if n = 0 then (if m = 0 then nan else inf (s != t))
      else round (s != t) (m / n)

open Classical in
noncomputable def sqrt : Flt R → Flt R
  | nan => nan
  | inf s => if s then nan else inf false
  | fin s m => if m = 0 then fin s m else if s then nan else round false (Real.sqrt m)

def abs : Flt R → Flt R
  | nan => nan
  | inf _ => inf false
  | fin _ m => fin false m

def signum : Flt R → Flt R
  | nan => nan
  | inf s => fin s 1
  | fin s _ => fin s 1

/-- `hypot` of an infinity and anything is infinite, even for NaN. -/
def hypot : Flt R → Flt R → Flt R
  | inf _, _ => inf false
  | _, inf _ => inf false
  | nan, _ => nan
  | _, nan => nan
  | fin s m, fin t n =>
    match R.hyp (val s m) (val t n) with
    | none => inf false
    | some y => fin false y

open Classical in
noncomputable def lt : Flt R → Flt R → Bool
  | nan, _ => false
  | _, nan => false
  | inf s, inf t => s && !t
  | inf s, fin _ _ => s
  | fin _ _, inf t => !t
  | fin s m, fin t n => decide (val s m < val t n)

open Classical in
noncomputable def le : Flt R → Flt R → Bool
  | nan, _ => false
  | _, nan => false
  | inf s, inf t => s || !t
  | inf s, fin _ _ => s
  | fin _ _, inf t => !t
  | fin s m, fin t n => decide (val s m ≤ val t n)

/-- `f64::max`: a NaN argument is ignored. -/
noncomputable def max : Flt R → Flt R → Flt R
  | nan, b => b
  | a, nan => a
  | a, b => if lt a b then b else a

open Classical in
noncomputable def isZero : Flt R → Bool
  | fin _ m => decide (m = 0)
  | _ => false

def isSignNeg : Flt R → Bool
  | nan => R.nanNeg
  | inf s => s
  | fin s _ => s

noncomputable instance : Zero (Flt R) := ⟨fin false 0⟩
noncomputable instance : One (Flt R) := ⟨fin false 1⟩
noncomputable instance : Add (Flt R) := ⟨add⟩
noncomputable instance : Sub (Flt R) := ⟨sub⟩
noncomputable instance : Mul (Flt R) := ⟨mul⟩
noncomputable instance : Div (Flt R) := ⟨div⟩
noncomputable instance : Neg (Flt R) := ⟨neg⟩

noncomputable instance : NdFloat (Flt R) where
  sqrt := sqrt
  abs := abs
  signum := signum
  hypot := hypot
  max := max
  lt := lt
  le := le
  isZero := isZero
  isSignNeg := isSignNeg
  ofRat q := ofReal false (q : ℝ)
  negInf := inf true
  epsilon := fin false R.eps
  dot l := (R.plans.plan l.length).eval (fin false 0) add mul fma l

theorem add_def (a b : Flt R) : a + b = add a b := rfl
theorem sub_def (a b : Flt R) : a - b = add a (neg b) := rfl
theorem mul_def (a b : Flt R) : a * b = mul a b := rfl
theorem div_def (a b : Flt R) : a / b = div a b := rfl
theorem neg_def (a : Flt R) : -a = neg a := rfl
theorem zero_def : (0 : Flt R) = fin false 0 := rfl
theorem one_def : (1 : Flt R) = fin false 1 := rfl

end Flt

/-! ## Concrete roundings -/

/-- No rounding at all: exact arithmetic with infinities, NaN and signed zeros. -/
noncomputable def Rounding.exact : Rounding where
  rnd x := some |x|
  rnd_nonneg x y h := by cases h; exact abs_nonneg x
  rnd_half := by rw [abs_of_pos (by norm_num)]
  hyp x y := some (Real.sqrt (x * x + y * y))
  hyp_nonneg x y z h := by cases h; exact Real.sqrt_nonneg _
  eps := (2 : ℝ)⁻¹ ^ 52
  eps_pos := by positivity
  nanNeg := false
  plans := .sequential

/-- Round half to even. -/
noncomputable def roundEven (x : ℝ) : ℤ :=
  if Int.fract x < 1 / 2 then ⌊x⌋
  else if 1 / 2 < Int.fract x then ⌊x⌋ + 1
  else if Even ⌊x⌋ then ⌊x⌋ else ⌊x⌋ + 1

/-- The spacing exponent of binary64 around the magnitude `x`. -/
noncomputable def b64Exp (x : ℝ) : ℤ := Max.max (Int.log 2 x - 52) (-1074)

/-- Rounding of a magnitude to binary64, to nearest, ties to even, with gradual underflow; `none` on
overflow. -/
noncomputable def b64Round (x : ℝ) : Option ℝ :=
  let y := |(roundEven (x / (2 : ℝ) ^ b64Exp x) : ℝ) * (2 : ℝ) ^ b64Exp x|
  if y < (2 : ℝ) ^ (1024 : ℤ) then some y else none

theorem b64Round_half : b64Round (1 / 2) = some (1 / 2) := by
  have hl : Int.log 2 (1 / 2 : ℝ) = -1 := by
    rw [show (1 / 2 : ℝ) = ((2 : ℕ) : ℝ) ^ (-1 : ℤ) by norm_num]
    exact Int.log_zpow (by norm_num) _
  have he : b64Exp (1 / 2) = -53 := by unfold b64Exp; rw [hl]; norm_num
  have hq : (1 / 2 : ℝ) / (2 : ℝ) ^ (-53 : ℤ) = ((2 ^ 52 : ℤ) : ℝ) := by
    norm_num
  unfold b64Round
  simp only [he, hq]
  have hr : roundEven ((2 ^ 52 : ℤ) : ℝ) = 2 ^ 52 := by
    unfold roundEven
    rw [Int.fract_intCast, Int.floor_intCast, if_pos (by norm_num)]
  rw [hr]
  have hv : |((2 ^ 52 : ℤ) : ℝ) * (2 : ℝ) ^ (-53 : ℤ)| = 1 / 2 := by
    rw [abs_of_pos (by positivity)]
    norm_num
  rw [hv, if_pos]
  calc (1 / 2 : ℝ) < 2 ^ (0 : ℤ) := by norm_num
    _ ≤ (2 : ℝ) ^ (1024 : ℤ) := zpow_le_zpow_right₀ (by norm_num) (by norm_num)

/-- IEEE 754 binary64 with round to nearest even, correctly rounded `sqrt` and `hypot`, and inner products as in
ndarray's `unrolled_dot`. -/
noncomputable def Rounding.binary64 : Rounding where
  rnd := b64Round
  rnd_nonneg x y h := by
    unfold b64Round at h
    simp only at h
    split_ifs at h
    cases h
    exact abs_nonneg _
  rnd_half := b64Round_half
  hyp x y := b64Round (Real.sqrt (x * x + y * y))
  hyp_nonneg x y z h := by
    unfold b64Round at h
    simp only at h
    split_ifs at h
    cases h
    exact abs_nonneg _
  eps := (2 : ℝ)⁻¹ ^ 52
  eps_pos := by positivity
  nanNeg := false
  plans := .unrolled

end LinfaLinalg
