import Verif.Model.Basic
import Mathlib.Algebra.Group.Defs

/-!
# Factors which commute with the arithmetic

The powers of two, as long as nothing overflows or underflows: multiplying the operands of an operation by such factors
multiplies the result by the factor which it has in exact arithmetic, and nothing is rounded differently.
-/

namespace LinfaLinalg

/-- A group of factors, written additively (`g` stands for the factor `2 ^ g`), and how multiplication by them
interacts with the operations. -/
structure Scalings (G α : Type) [AddCommGroup G] [Zero α] [Add α] [Sub α] [Mul α] [Div α] [Neg α] [NdFloat α] where
  /-- The product of a number with the factor. -/
  act : G → α → α
  act_none : ∀ x, act 0 x = x
  act_zero : ∀ g, act g 0 = 0
  add : ∀ g x y, act g x + act g y = act g (x + y)
  sub : ∀ g x y, act g x - act g y = act g (x - y)
  neg : ∀ g x, -act g x = act g (-x)
  mul : ∀ g h x y, act g x * act h y = act (g + h) (x * y)
  div : ∀ g h x y, act g x / act h y = act (g - h) (x / y)
  sqrt : ∀ g x, NdFloat.sqrt (act (g + g) x) = act g (NdFloat.sqrt x)
  abs : ∀ g x, NdFloat.abs (act g x) = act g (NdFloat.abs x)
  max : ∀ g x y, NdFloat.max (act g x) (act g y) = act g (NdFloat.max x y)
  signum : ∀ g x, NdFloat.signum (act g x) = NdFloat.signum x
  isZero : ∀ g x, NdFloat.isZero (act g x) = NdFloat.isZero x
  le_zero : ∀ g x, NdFloat.le (act g x) 0 = NdFloat.le x 0
  zero_isZero : NdFloat.isZero (0 : α) = true
  dot : ∀ g h l, NdFloat.dot (l.map fun p => (act g p.1, act h p.2)) = act (g + h) (NdFloat.dot l)

/-- `b` is `a` with entry `(i, j)` multiplied by the factor `g i j`. -/
structure ScaledBy {G α : Type} (act : G → α → α) (g : Nat → Nat → G) (a b : Arr2 α) : Prop where
  nr : b.nr = a.nr
  nc : b.nc = a.nc
  get : ∀ i j, i < a.nr → j < a.nc → b.get i j = act (g i j) (a.get i j)

end LinfaLinalg
