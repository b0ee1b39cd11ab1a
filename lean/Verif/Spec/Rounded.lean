import Verif.Spec.Real
import Verif.Spec.Ieee
import Mathlib.Algebra.Order.Ring.Pow

/-!
# The standard model of floating-point arithmetic

A scalar type in which every operation is exact up to a relative error of at most `u`: what IEEE
arithmetic does as long as nothing overflows or underflows. It is used for statements about rounding
errors.
-/

namespace LinfaLinalg

/-- A rounding of the reals with relative error at most `u`. `hyp` is `hypot`, which libm does not round
correctly; its relative error is at most `w`. `eps` is the machine epsilon. `dot` is the inner product of two vectors;
of its order of operations nothing is assumed but that each product goes through at most one more rounding than there
are products, which `DotPlan.err` proves for sums in any order, fused or not. -/
structure StdModel where
  u : ℝ
  u_nonneg : 0 ≤ u
  u_lt_one : u < 1
  rnd : ℝ → ℝ
  rnd_err : ∀ x, |rnd x - x| ≤ u * |x|
  w : ℝ
  w_nonneg : 0 ≤ w
  w_lt_one : w < 1
  hyp : ℝ → ℝ → ℝ
  hyp_err : ∀ x y, |hyp x y - Real.sqrt (x * x + y * y)| ≤ w * Real.sqrt (x * x + y * y)
  eps : ℝ
  dot : List (ℝ × ℝ) → ℝ
  dot_err : ∀ l, ∃ q : Nat → ℝ, (∀ k, Near u (l.length + 1) (q k)) ∧
    dot l = ∑ k ∈ Finset.range l.length, (l.getD k (0, 0)).1 * (l.getD k (0, 0)).2 * q k

/-- A floating-point number of the standard model. -/
@[ext]
structure Rnd (R : StdModel) where
  v : ℝ

namespace Rnd
variable {R : StdModel}

noncomputable instance : Zero (Rnd R) := ⟨⟨0⟩⟩
noncomputable instance : One (Rnd R) := ⟨⟨1⟩⟩
noncomputable instance : Add (Rnd R) := ⟨fun a b => ⟨R.rnd (a.v + b.v)⟩⟩
noncomputable instance : Sub (Rnd R) := ⟨fun a b => ⟨R.rnd (a.v - b.v)⟩⟩
noncomputable instance : Mul (Rnd R) := ⟨fun a b => ⟨R.rnd (a.v * b.v)⟩⟩
noncomputable instance : Div (Rnd R) := ⟨fun a b => ⟨R.rnd (a.v / b.v)⟩⟩
noncomputable instance : Neg (Rnd R) := ⟨fun a => ⟨-a.v⟩⟩

/-- Comparisons, `neg`, `abs`, `signum` and `max` are exact; the rest is rounded. Of the IEEE features,
NaN, infinities and signed zeros are missing (see `Flt`). -/
noncomputable instance : NdFloat (Rnd R) where
  sqrt a := ⟨R.rnd (Real.sqrt a.v)⟩
  abs a := ⟨|a.v|⟩
  signum a := ⟨if a.v < 0 then -1 else 1⟩
  hypot a b := ⟨R.hyp a.v b.v⟩
  max a b := ⟨max a.v b.v⟩
  lt a b := decide (a.v < b.v)
  le a b := decide (a.v ≤ b.v)
  isZero a := decide (a.v = 0)
  isSignNeg a := decide (a.v < 0)
  ofRat q := ⟨R.rnd (q : ℝ)⟩
  negInf := ⟨-1⟩
  epsilon := ⟨R.eps⟩
  dot l := ⟨R.dot (l.map fun p => (p.1.v, p.2.v))⟩

@[simp] theorem zero_v : (0 : Rnd R).v = 0 := rfl
@[simp] theorem one_v : (1 : Rnd R).v = 1 := rfl
@[simp] theorem add_v (a b : Rnd R) : (a + b).v = R.rnd (a.v + b.v) := rfl
@[simp] theorem sub_v (a b : Rnd R) : (a - b).v = R.rnd (a.v - b.v) := rfl
@[simp] theorem mul_v (a b : Rnd R) : (a * b).v = R.rnd (a.v * b.v) := rfl
@[simp] theorem div_v (a b : Rnd R) : (a / b).v = R.rnd (a.v / b.v) := rfl
@[simp] theorem neg_v (a : Rnd R) : (-a).v = -a.v := rfl
@[simp] theorem sqrt_v (a : Rnd R) : (NdFloat.sqrt a).v = R.rnd (Real.sqrt a.v) := rfl
@[simp] theorem abs_v (a : Rnd R) : (NdFloat.abs a).v = |a.v| := rfl
@[simp] theorem signum_v (a : Rnd R) : (NdFloat.signum a).v = if a.v < 0 then -1 else 1 := rfl
@[simp] theorem hypot_v (a b : Rnd R) : (NdFloat.hypot a b).v = R.hyp a.v b.v := rfl
@[simp] theorem max_v (a b : Rnd R) : (NdFloat.max a b).v = max a.v b.v := rfl
@[simp] theorem lt_v (a b : Rnd R) : NdFloat.lt a b = decide (a.v < b.v) := rfl
@[simp] theorem le_v (a b : Rnd R) : NdFloat.le a b = decide (a.v ≤ b.v) := rfl
@[simp] theorem isZero_v (a : Rnd R) : NdFloat.isZero a = decide (a.v = 0) := rfl

/-- The real numbers in an array of floats. -/
def vals (a : Arr2 (Rnd R)) : Arr2 ℝ := ⟨a.nr, a.nc, fun i j => (a.get i j).v⟩

end Rnd

/-- Higham's `γ_n = n u / (1 - n u)`. -/
noncomputable def gam (u : ℝ) (n : Nat) : ℝ := n * u / (1 - n * u)

/-- The matrix of absolute values. -/
def absMat {m n : Type} (A : Matrix m n ℝ) : Matrix m n ℝ := A.map fun x => |x|

/-! ## Instances -/

/-- Exact arithmetic. -/
noncomputable def StdModel.exact : StdModel where
  u := 0
  u_nonneg := le_rfl
  u_lt_one := one_pos
  rnd x := x
  rnd_err x := by simp
  w := 0
  w_nonneg := le_rfl
  w_lt_one := one_pos
  hyp x y := Real.sqrt (x * x + y * y)
  hyp_err x y := by simp
  eps := (2 : ℝ)⁻¹ ^ 52
  dot l := (DotPlans.sequential.plan l.length).rval (fun x => x) l
  dot_err l := DotPlan.err le_rfl one_pos (fun x => by simp) _ l

theorem roundEven_err (x : ℝ) : |(roundEven x : ℝ) - x| ≤ 1 / 2 := by
  have hf := Int.floor_add_fract x
  have h0 := Int.fract_nonneg x
  have h1 := Int.fract_lt_one x
  unfold roundEven
  rw [abs_le]
  split_ifs <;> push_cast <;> constructor <;> linarith

/-- Rounding to `p` binary digits, nearest, ties to even, with an unbounded exponent. -/
noncomputable def binRound (p : Nat) (x : ℝ) : ℝ :=
  (roundEven (x / (2 : ℝ) ^ (Int.log 2 |x| + 1 - p)) : ℝ) * (2 : ℝ) ^ (Int.log 2 |x| + 1 - p)

theorem binRound_err (p : Nat) (x : ℝ) : |binRound p x - x| ≤ (2 : ℝ)⁻¹ ^ p * |x| := by
  set e : ℤ := Int.log 2 |x| + 1 - p with he
  have hp : (0 : ℝ) < 2 ^ e := by positivity
  have h1 : |binRound p x - x| ≤ 1 / 2 * (2 : ℝ) ^ e := by
    have : binRound p x - x = ((roundEven (x / (2 : ℝ) ^ e) : ℝ) - x / (2 : ℝ) ^ e) * (2 : ℝ) ^ e := by
      unfold binRound
      rw [← he]
      field_simp
    rw [this, abs_mul, abs_of_pos hp]
    exact mul_le_mul_of_nonneg_right (roundEven_err _) hp.le
  by_cases hx : x = 0
  · subst hx
    have : binRound p 0 = 0 := by
      unfold binRound roundEven
      simp
    simp [this]
  · have hx' : 0 < |x| := abs_pos.2 hx
    have h2 : ((2 : ℕ) : ℝ) ^ Int.log 2 |x| ≤ |x| := Int.zpow_log_le_self (by norm_num) hx'
    have h3 : 1 / 2 * (2 : ℝ) ^ e = (2 : ℝ)⁻¹ ^ p * (2 : ℝ) ^ Int.log 2 |x| := by
      rw [he, zpow_sub₀ (by norm_num), zpow_add₀ (by norm_num), zpow_one, zpow_natCast, inv_pow]
      field_simp
    rw [h3] at h1
    refine h1.trans (mul_le_mul_of_nonneg_left ?_ (by positivity))
    exact_mod_cast h2

/-- The arithmetic of `f64` in the absence of overflow and underflow: 53 binary digits, nearest, ties to
even, `hypot` correctly rounded, inner products as in ndarray's `unrolled_dot`. -/
noncomputable def StdModel.double : StdModel where
  u := (2 : ℝ)⁻¹ ^ 53
  u_nonneg := by positivity
  u_lt_one := by norm_num
  rnd := binRound 53
  rnd_err := binRound_err 53
  w := (2 : ℝ)⁻¹ ^ 53
  w_nonneg := by positivity
  w_lt_one := by norm_num
  hyp x y := binRound 53 (Real.sqrt (x * x + y * y))
  hyp_err x y := by
    have := binRound_err 53 (Real.sqrt (x * x + y * y))
    rwa [abs_of_nonneg (Real.sqrt_nonneg (x * x + y * y))] at this
  eps := (2 : ℝ)⁻¹ ^ 52
  dot l := (DotPlans.unrolled.plan l.length).rval (binRound 53) l
  dot_err l := DotPlan.err (by positivity) (by norm_num) (binRound_err 53) _ l

/-- `f64` and `StdModel.double` round alike above the underflow threshold and below the overflow
threshold. -/
theorem b64Round_eq_binRound (x : ℝ) (hx : (2 : ℝ) ^ (-1022 : ℤ) ≤ x)
    (hy : |binRound 53 x| < (2 : ℝ) ^ (1024 : ℤ)) : b64Round x = some |binRound 53 x| := by
  have hx0 : 0 < x := lt_of_lt_of_le (by positivity) hx
  have hl : -1022 ≤ Int.log 2 x := by
    rw [← Int.zpow_le_iff_le_log (by norm_num) hx0]
    exact_mod_cast hx
  have he : b64Exp x = Int.log 2 |x| + 1 - (53 : ℕ) := by
    unfold b64Exp
    rw [abs_of_pos hx0]
    push_cast
    omega
  unfold binRound at hy ⊢
  unfold b64Round
  simp only [he]
  rw [if_pos hy]

/-- The Euclidean length of column `j`. -/
noncomputable def colNorm {m n : Nat} (A : Matrix (Fin m) (Fin n) ℝ) (j : Fin n) : ℝ :=
  Real.sqrt (∑ i, A i j ^ 2)

/-- The error constant of one reflection of vectors of length `m`. -/
noncomputable def reflErr (R : StdModel) (m : Nat) : ℝ := 3 * gam R.u (5 * m + 31)

/-- The relative error of `n` such reflections, applied one after the other. -/
noncomputable def reflErrs (R : StdModel) (m n : Nat) : ℝ := (1 + reflErr R m) ^ n - 1

/-- The relative error of the tridiagonal reduction of an `n × n` matrix. -/
noncomputable def triErr (R : StdModel) (n : Nat) : ℝ := 10 * gam R.u (10 * n + 56) * (5 * n ^ 2 + 6 * n)

/-- The largest relative error of an operation, `hypot` included. -/
noncomputable def StdModel.uw (R : StdModel) : ℝ := max R.u R.w

/-- The relative error of one Givens rotation, applied to a vector or from both sides to a matrix. -/
noncomputable def rotErr (R : StdModel) : ℝ := 8 * gam R.uw 10

/-- The relative error of setting to zero an off-diagonal entry that the deflation test of `symmetric_eig` accepts. -/
noncomputable def deflErr (R : StdModel) : ℝ := 2 * (1 + R.u) ^ 2 * R.eps

/-- The relative error of the solution of a `2 × 2` block `[[a, o], [o, b]]` with `b - a ≤ K |o|`. -/
noncomputable def blockErr (R : StdModel) (K : ℝ) : ℝ := (2 * K + 4) * rotErr R + 3 * (K + 1) * R.eps

/-- The relative backward error of the eigenvalues of an `n × n` matrix after `k` iterations of `symmetric_eig`. -/
noncomputable def eigErr (R : StdModel) (n k : Nat) : ℝ :=
  (1 + R.u) ^ 2 * (1 + triErr R n) * ((1 + rotErr R) * (1 + deflErr R)) ^ (n * (k + 1)) - 1

/-- The relative error of the decomposition computed by `eigh` in `k` iterations on runs whose `2 × 2` blocks
`[[a, o], [o, b]]` satisfy `b - a ≤ K |o|`. -/
noncomputable def eigVecErr (R : StdModel) (K : ℝ) (n k : Nat) : ℝ :=
  (1 + R.u) ^ 2 * (1 + triErr R n) * ((1 + blockErr R K) * (1 + deflErr R)) ^ (n * (k + 1)) - 1

/-- The distance of the columns of the eigenvector matrix from orthonormal ones, in quadratic mean, after `k`
iterations of `symmetric_eig`. -/
noncomputable def eigOrthErr (R : StdModel) (n k : Nat) : ℝ :=
  (1 + reflErrs R n (n - 1)) * (1 + rotErr R) ^ (n * k) - 1

/-- The relative error of one Givens rotation in `svd`, applied from one side to a bidiagonal matrix or to a factor. -/
noncomputable def svdRotErr (R : StdModel) : ℝ := 12 * gam R.uw 10

/-- The relative error of setting to zero an entry that one of the tests of `delimit_subproblem` accepts. -/
noncomputable def svdDeflErr (R : StdModel) : ℝ := 10 * (1 + R.u) ^ 4 * R.eps

/-- The relative error of `N` rotations and deflations in `svd`. -/
noncomputable def svdFac (R : StdModel) (N : Nat) : ℝ := ((1 + svdRotErr R) * (1 + svdDeflErr R)) ^ N

/-- The number of rotations and deflations that `k` iterations of the main loop of `svd` and the first
`delimit_subproblem` can perform on a `d × d` bidiagonal matrix. -/
def svdOps (d k : Nat) : Nat := (2 * d ^ 2 + 3 * d) * (k + 1)

/-- The same when every iteration may decompose a `2 × 2` block with factors, on blocks that are `UptrigGood K`; the error
of such a decomposition is that of `210 K²` operations. -/
def svdOpsGood (d K k : Nat) : Nat := (2 * d ^ 2 + 3 * d + 210 * K ^ 2) * (k + 1)

/-- The bound on the relative backward error of the singular values of an `m × n` matrix after `k` iterations. -/
noncomputable def svdErr (R : StdModel) (m n k : Nat) : ℝ :=
  (1 + R.u) ^ 2 * (1 + reflErrs R (max m n) (2 * min m n - 1)) * svdFac R (svdOps (min m n) k) - 1

/-- The bound on the distance of the computed factors to matrices with orthonormal columns. -/
noncomputable def svdVecErr (R : StdModel) (m n k : Nat) : ℝ :=
  ((1 + reflErrs R (max m n) (min m n)) * svdFac R (svdOps (min m n) k) - 1) * Real.sqrt (min m n : Nat)

/-- `svdErr` with `svdOpsGood` operations. -/
noncomputable def svdErrGood (R : StdModel) (m n K k : Nat) : ℝ :=
  (1 + R.u) ^ 2 * (1 + reflErrs R (max m n) (2 * min m n - 1)) * svdFac R (svdOpsGood (min m n) K k) - 1

/-- `svdVecErr` with `svdOpsGood` operations. -/
noncomputable def svdVecErrGood (R : StdModel) (m n K k : Nat) : ℝ :=
  ((1 + reflErrs R (max m n) (min m n)) * svdFac R (svdOpsGood (min m n) K k) - 1) * Real.sqrt (min m n : Nat)

end LinfaLinalg
