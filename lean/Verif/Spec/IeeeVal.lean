import Verif.Spec.Ieee
import Verif.Spec.Real

/-! # Values and error bounds of IEEE-like scalars -/

namespace LinfaLinalg

namespace Flt
variable {R : Rounding}

/-- Neither NaN nor an infinity. -/
def IsFin (x : Flt R) : Prop := ∃ s m, x = fin s m

/-- The magnitude of a finite float is not negative. All results of operations are like this; only the inputs of the
model could be otherwise. -/
def Proper (x : Flt R) : Prop := ∀ s m, x = fin s m → 0 ≤ m

/-- The real number denoted by a finite float; zero for NaN and the infinities. -/
noncomputable def rv : Flt R → ℝ
  | fin s m => val s m
  | _ => 0

/-- The matrix of values. -/
noncomputable def vals (a : Arr2 (Flt R)) : Arr2 ℝ := ⟨a.nr, a.nc, fun i j => (a.get i j).rv⟩

end Flt

/-- Rounding has a relative error of at most `u` and, because of gradual underflow, an absolute error of at most `η` in
addition. -/
structure Rounding.Accurate (R : Rounding) (u η : ℝ) : Prop where
  u_nonneg : 0 ≤ u
  u_lt_one : u < 1
  η_nonneg : 0 ≤ η
  η_le_one : η ≤ 1
  err : ∀ y z, 0 ≤ y → R.rnd y = some z → |z - y| ≤ u * y + η

end LinfaLinalg
