import Mathlib.Analysis.Real.Sqrt

/-! # Constructible numbers -/

namespace LinfaLinalg

/-- The numbers that arise from the rational numbers by additions, multiplications, inversions and square roots. -/
inductive Constructible : ℝ → Prop
  | rat (q : ℚ) : Constructible q
  | add {x y : ℝ} : Constructible x → Constructible y → Constructible (x + y)
  | mul {x y : ℝ} : Constructible x → Constructible y → Constructible (x * y)
  | inv {x : ℝ} : Constructible x → Constructible x⁻¹
  | sqrt {x : ℝ} : Constructible x → Constructible (Real.sqrt x)

end LinfaLinalg
