import Verif.Proofs.GivensFloat
import Verif.Proofs.RoundedSvd
import Verif.Proofs.GivensReal

/-! # C120: Givens rotations -/

namespace LinfaLinalg
open Flt Matrix

set_option linter.unusedSectionVars false

/-- Specification: the plane rotation with cosine `c` and sine `s`. -/
def rot2 (c s : ℝ) : Matrix (Fin 2) (Fin 2) ℝ := !![c, -s; s, c]

/-! ## Exact arithmetic -/

theorem rot2_orth {c s : ℝ} (h : c * c + s * s = 1) : (rot2 c s)ᵀ * rot2 c s = 1 ∧ (rot2 c s).det = 1 := by
  constructor
  · ext i j
    fin_cases i <;> fin_cases j <;> simp [rot2, Matrix.mul_apply, Fin.sum_univ_two] <;> linarith
  · simp [rot2, Matrix.det_fin_two]; linarith

theorem rot2_mulVec (c s x y : ℝ) : Matrix.mulVec (rot2 c s) ![x, y] = ![c * x - s * y, s * x + c * y] := by
  ext i
  fin_cases i <;> simp [rot2, Matrix.mulVec, dotProduct, Fin.sum_univ_two]
  ring

/-- **C120**: `cancel_y` declines exactly if there is nothing to do; otherwise it returns a rotation which takes `(x, y)` to
`(r, 0)` with `r` the length of the vector. -/
theorem C120_cancel_y (x y : ℝ) : (GivensRotation.cancelY x y = none ↔ y = 0) ∧
    ∀ g r, GivensRotation.cancelY x y = some (g, r) → (rot2 g.c g.s)ᵀ * rot2 g.c g.s = 1 ∧ (rot2 g.c g.s).det = 1 ∧
      Matrix.mulVec (rot2 g.c g.s) ![x, y] = ![r, 0] ∧ r = Real.sqrt (x ^ 2 + y ^ 2) := by
  refine ⟨⟨cancelY_real_none, fun h => by simp [GivensRotation.cancelY, h]⟩, fun g r h => ?_⟩
  obtain ⟨-, h1, h2, h3, h4, h5⟩ := cancelY_real h
  obtain ⟨o1, o2⟩ := rot2_orth h1
  refine ⟨o1, o2, by rw [rot2_mulVec, h2, h3], ?_⟩
  rw [show x ^ 2 + y ^ 2 = r ^ 2 by nlinarith, Real.sqrt_sq h4.le]

/-- **C120**: `cancel_x` likewise, with `(0, r)`. -/
theorem C120_cancel_x (x y : ℝ) : (GivensRotation.cancelX x y = none ↔ x = 0) ∧
    ∀ g r, GivensRotation.cancelX x y = some (g, r) → (rot2 g.c g.s)ᵀ * rot2 g.c g.s = 1 ∧ (rot2 g.c g.s).det = 1 ∧
      Matrix.mulVec (rot2 g.c g.s) ![x, y] = ![0, r] ∧ r = Real.sqrt (x ^ 2 + y ^ 2) := by
  constructor
  · unfold GivensRotation.cancelX
    rw [Option.map_eq_none_iff]
    exact (C120_cancel_y y x).1
  · intro g r h
    unfold GivensRotation.cancelX at h
    rw [Option.map_eq_some_iff] at h
    obtain ⟨⟨g', r'⟩, h, e⟩ := h
    simp only [Prod.mk.injEq] at e
    obtain ⟨rfl, rfl⟩ := e
    obtain ⟨-, h1, h2, h3, h4, h5⟩ := cancelY_real h
    obtain ⟨o1, o2⟩ := rot2_orth (c := g'.c) (s := g'.s * -1) (by linarith)
    refine ⟨o1, o2, ?_, ?_⟩
    · rw [rot2_mulVec, show g'.c * x - g'.s * -1 * y = 0 by linarith, show g'.s * -1 * x + g'.c * y = r' by linarith]
    · rw [show x ^ 2 + y ^ 2 = r' ^ 2 by nlinarith, Real.sqrt_sq h4.le]

/-- **C120**: `new` turns `(c, s) ≠ 0` into a rotation and returns the length; of `(0, 0)` it makes the identity. `try_new`
declines exactly if the length is at most `eps`. -/
theorem C120_new (c s : ℝ) : (c = 0 ∧ s = 0 ∧ GivensRotation.new c s = (⟨1, 0⟩, 0)) ∨
    (0 < Real.sqrt (c ^ 2 + s ^ 2) ∧ (GivensRotation.new c s).2 = Real.sqrt (c ^ 2 + s ^ 2) ∧
      (rot2 (GivensRotation.new c s).1.c (GivensRotation.new c s).1.s)ᵀ *
        rot2 (GivensRotation.new c s).1.c (GivensRotation.new c s).1.s = 1 ∧
      (GivensRotation.new c s).1.c * (GivensRotation.new c s).2 = c ∧
      (GivensRotation.new c s).1.s * (GivensRotation.new c s).2 = s) := by
  unfold GivensRotation.new
  cases h : GivensRotation.tryNew c s 0 with
  | none =>
    left
    have := tryNew_real_none h
    have h0 := Real.sqrt_eq_zero'.1 (le_antisymm this (Real.sqrt_nonneg _))
    have hc : c * c = 0 := by nlinarith [mul_self_nonneg c, mul_self_nonneg s]
    have hs : s * s = 0 := by nlinarith [mul_self_nonneg c, mul_self_nonneg s]
    exact ⟨mul_self_eq_zero.1 hc, mul_self_eq_zero.1 hs, rfl⟩
  | some p =>
    right
    obtain ⟨g, r⟩ := p
    obtain ⟨h1, h2, h3, h4, h5⟩ := tryNew_real le_rfl h
    have e : Real.sqrt (c ^ 2 + s ^ 2) = r := by rw [h2]; congr 1; ring
    simp only [Option.getD_some]
    refine ⟨by rw [e]; exact h1, e.symm, (rot2_orth h5).1, ?_, ?_⟩
    · rw [h3]; field_simp
    · rw [h4]; field_simp

theorem C120_try_new (c s eps : ℝ) : GivensRotation.tryNew c s eps = none ↔ Real.sqrt (c ^ 2 + s ^ 2) ≤ eps := by
  rw [show c ^ 2 + s ^ 2 = c * c + s * s by ring]
  unfold GivensRotation.tryNew
  simp only [real_lt, decide_eq_true_eq, real_hypot]
  split
  · rename_i h; simpa using h
  · rename_i h; simpa using h

section
variable {α : Type} [Zero α] [One α] [Add α] [Sub α] [Mul α] [Div α] [Neg α] [NdFloat α]

/-- **C120**: `rotate_rows` rejects exactly the matrices that do not have two columns, `rotate_cols` those that do not have
two rows. -/
theorem C120_shape (g : GivensRotation α) (a : Arr2 α) :
    (a.nc ≠ 2 → g.rotateRows a = .error (.err (.wrongColumns 2 a.nc))) ∧
    (a.nc = 2 → ∃ b, g.rotateRows a = .ok b ∧ b.nr = a.nr ∧ b.nc = 2) ∧
    (a.nr ≠ 2 → g.rotateCols a = .error (.err (.wrongRows 2 a.nr))) ∧
    (a.nr = 2 → ∃ b, g.rotateCols a = .ok b ∧ b.nr = 2 ∧ b.nc = a.nc) :=
  ⟨rotateRows_wrong g a, fun h => ⟨_, rotateRows_ok g a h, rfl, h⟩, rotateCols_wrong g a,
    fun h => ⟨_, rotateCols_ok g a h, h, rfl⟩⟩

end

/-- **C120**: `rotate_rows` multiplies by the rotation from the right. -/
theorem C120_rotate_rows {n : Nat} (g : GivensRotation ℝ) (a b : Arr2 ℝ) (ha : HasShape a n 2)
    (h : g.rotateRows a = .ok b) : HasShape b n 2 ∧ toMat n 2 b = toMat n 2 a * rot2 g.c g.s := by
  rw [rotateRows_ok g a ha.2] at h
  injection h with h
  subst h
  refine ⟨ha, ?_⟩
  ext i j
  have hi : (i : Nat) < a.nr := by rw [ha.1]; exact i.2
  fin_cases j <;> simp [rot2, Matrix.mul_apply, Fin.sum_univ_two, hi] <;> ring

/-- **C120**: `rotate_cols` multiplies by the rotation from the left. -/
theorem C120_rotate_cols {n : Nat} (g : GivensRotation ℝ) (a b : Arr2 ℝ) (ha : HasShape a 2 n)
    (h : g.rotateCols a = .ok b) : HasShape b 2 n ∧ toMat 2 n b = rot2 g.c g.s * toMat 2 n a := by
  rw [rotateCols_ok g a ha.1] at h
  injection h with h
  subst h
  refine ⟨ha, ?_⟩
  ext i j
  have hj : (j : Nat) < a.nc := by rw [ha.2]; exact j.2
  fin_cases i <;> simp [rot2, Matrix.mul_apply, Fin.sum_univ_two, hj] <;> ring

/-- **C120**: a rotation followed by its `inverse` changes nothing. -/
theorem C120_inverse {n : Nat} (g : GivensRotation ℝ) (h1 : g.c * g.c + g.s * g.s = 1) (a b c : Arr2 ℝ)
    (ha : HasShape a n 2) (h : g.rotateRows a = .ok b) (h' : g.inverse.rotateRows b = .ok c) :
    toMat n 2 c = toMat n 2 a := by
  obtain ⟨hb, e1⟩ := C120_rotate_rows g a b ha h
  obtain ⟨-, e2⟩ := C120_rotate_rows g.inverse b c hb h'
  have : rot2 g.inverse.c g.inverse.s = (rot2 g.c g.s)ᵀ := by
    ext i j; fin_cases i <;> fin_cases j <;> simp [rot2, GivensRotation.inverse]
  rw [e2, e1, this, Matrix.mul_assoc, mul_eq_one_comm.1 (rot2_orth h1).1, Matrix.mul_one]

/-- The rotation for `(3, 4)`. -/
example : GivensRotation.cancelY (3 : ℝ) 4 = some (⟨3 / 5, -4 / 5⟩, 5) := by
  have : Real.sqrt (3 * 3 + 4 * 4) = 5 := by
    rw [show (3 * 3 + 4 * 4 : ℝ) = 5 ^ 2 by norm_num, Real.sqrt_sq (by norm_num)]
  simp [GivensRotation.cancelY, real_hypot, this]

/-! ## Rounding errors, without overflow and underflow -/

variable {R : StdModel}

/-- **C120** with rounding errors: `cancel_y` returns a rotation up to two roundings in each number. -/
theorem C120_rounded (x y : Rnd R) (g : GivensRotation (Rnd R)) (r : Rnd R)
    (hu : 2 * R.uw < 1) (h : GivensRotation.cancelY x y = some (g, r)) :
    ∃ c s : ℝ, (rot2 c s)ᵀ * rot2 c s = 1 ∧ Matrix.mulVec (rot2 c s) ![x.v, y.v] = ![Real.sqrt (x.v ^ 2 + y.v ^ 2), 0] ∧
      |g.c.v - c| ≤ gam R.uw 2 * |c| ∧ |g.s.v - s| ≤ gam R.uw 2 * |s| ∧
      |r.v - Real.sqrt (x.v ^ 2 + y.v ^ 2)| ≤ gam R.uw 1 * Real.sqrt (x.v ^ 2 + y.v ^ 2) := by
  obtain ⟨c, s, ρ, hn⟩ := cancelY_rnd h
  have e : Real.sqrt (x.v ^ 2 + y.v ^ 2) = ρ := by
    rw [show x.v ^ 2 + y.v ^ 2 = ρ ^ 2 by nlinarith [hn.sq], Real.sqrt_sq hn.pos.le]
  have fin : ∀ {k : Nat} {a b : ℝ}, k ≤ 2 → Rel R k b a → |b - a| ≤ gam R.uw k * |a| := by
    rintro k a b hk ⟨t, ht, rfl⟩
    rw [show a * t - a = (t - 1) * a by ring, abs_mul]
    refine mul_le_mul_of_nonneg_right (ht.abs_sub_one R.uw_nonneg R.uw_lt_one ?_) (abs_nonneg _)
    have : (k : ℝ) ≤ 2 := by exact_mod_cast hk
    nlinarith [R.uw_nonneg]
  refine ⟨c, s, (rot2_orth hn.one).1, by rw [rot2_mulVec, hn.rx, hn.ry, e], fin le_rfl hn.hc, fin le_rfl hn.hs, ?_⟩
  rw [e]
  have := fin (by norm_num) hn.hr
  rwa [abs_of_pos hn.pos] at this

/-! ## Floats -/

theorem givens_arith {a b c s q u η : ℝ} (hu : 0 ≤ u) (hη : 0 ≤ η) (ha : |a| ≤ 1) (hb : |b| ≤ 1) (hc : |c| ≤ 1)
    (hs : |s| ≤ 1) (hq : 0 ≤ q) (hab : a ^ 2 + b ^ 2 = q ^ 2) (h1 : |1 - q| ≤ 2 * u * q)
    (h2 : |c - a| ≤ u * |a| + η) (h3 : |s - -b| ≤ u * |b| + η) :
    |c ^ 2 + s ^ 2 - 1| ≤ 11 * u + 4 * η ∧ |c * a - s * b - 1| ≤ 9 * u + 2 * η ∧ |s * a + c * b| ≤ 2 * (u + η) := by
  have a2 : a ^ 2 ≤ 1 := by rw [← sq_abs]; nlinarith [abs_nonneg a]
  have b2 : b ^ 2 ≤ 1 := by rw [← sq_abs]; nlinarith [abs_nonneg b]
  have hq2 : q ^ 2 ≤ 2 := by linarith
  have hq3 : q ≤ 3 / 2 := by nlinarith
  have hqq : |q ^ 2 - 1| ≤ 7 * u := by
    rw [show q ^ 2 - 1 = -((1 - q) * (q + 1)) by ring, abs_neg, abs_mul, abs_of_nonneg (by linarith : 0 ≤ q + 1)]
    have := mul_le_mul_of_nonneg_right h1 (by linarith : 0 ≤ q + 1)
    nlinarith
  have h2' : |c - a| ≤ u + η := h2.trans (by nlinarith)
  have h3' : |s - -b| ≤ u + η := h3.trans (by nlinarith)
  have huη : 0 ≤ u + η := by linarith
  have c2 : |c ^ 2 - a ^ 2| ≤ 2 * (u + η) := by
    rw [show c ^ 2 - a ^ 2 = (c - a) * (c + a) by ring, abs_mul]
    have := abs_add_le c a
    nlinarith [abs_nonneg (c - a), abs_nonneg (c + a)]
  have s2 : |s ^ 2 - b ^ 2| ≤ 2 * (u + η) := by
    rw [show s ^ 2 - b ^ 2 = (s - -b) * (s - b) by ring, abs_mul]
    have := abs_sub s b
    nlinarith [abs_nonneg (s - -b), abs_nonneg (s - b)]
  refine ⟨?_, ?_, ?_⟩
  · rw [abs_le] at *
    constructor <;> linarith [c2.1, c2.2, s2.1, s2.2, hqq.1, hqq.2]
  · have e1 : |(c - a) * a| ≤ u + η := by
      rw [abs_mul]; nlinarith [abs_nonneg (c - a), abs_nonneg a]
    have e2 : |(s - -b) * b| ≤ u + η := by
      rw [abs_mul]; nlinarith [abs_nonneg (s - -b), abs_nonneg b]
    rw [show c * a - s * b - 1 = (c - a) * a - (s - -b) * b + (a ^ 2 + b ^ 2 - 1) by ring, hab]
    rw [abs_le] at *
    constructor <;> linarith [e1.1, e1.2, e2.1, e2.2, hqq.1, hqq.2]
  · have e1 : |(c - a) * b| ≤ u + η := by
      rw [abs_mul]; nlinarith [abs_nonneg (c - a), abs_nonneg b]
    have e2 : |(s - -b) * a| ≤ u + η := by
      rw [abs_mul]; nlinarith [abs_nonneg (s - -b), abs_nonneg a]
    rw [show s * a + c * b = (s - -b) * a + (c - a) * b by ring]
    refine (abs_add_le _ _).trans (by linarith)

variable {F : Format}

local notation "𝔽" => Flt (Rounding.ieee F)

/-- **C120** in `f32`, `f64` and the like: if the length is not too large for the format, `cancel_y` returns numbers in
`[-1, 1]`; if it is not subnormal either, they make up a rotation up to rounding errors. -/
theorem C120_float (x y : 𝔽) (hx : IsFloat F x) (hy : IsFloat F y) (fx : IsFin x) (fy : IsFin y) (h0 : y.rv ≠ 0)
    (hr : IsFin (NdFloat.hypot x y)) :
    ∃ g r, GivensRotation.cancelY x y = some (g, r) ∧ IsFin r ∧ IsFin g.c ∧ IsFin g.s ∧ |g.c.rv| ≤ 1 ∧ |g.s.rv| ≤ 1 ∧
      ((2 : ℝ) ^ (F.emin + F.mant) ≤ Real.sqrt (x.rv ^ 2 + y.rv ^ 2) → ∀ u η : ℝ, u = 2 ^ (-(F.mant : ℤ) - 1) →
        η = 2 ^ (F.emin - 1) →
        |r.rv - Real.sqrt (x.rv ^ 2 + y.rv ^ 2)| ≤ 2 * u * Real.sqrt (x.rv ^ 2 + y.rv ^ 2) ∧
        |g.c.rv ^ 2 + g.s.rv ^ 2 - 1| ≤ 11 * u + 4 * η ∧
        |g.c.rv * x.rv - g.s.rv * y.rv - r.rv| ≤ (9 * u + 2 * η) * r.rv ∧
        |g.s.rv * x.rv + g.c.rv * y.rv| ≤ 2 * (u + η) * r.rv) := by
  obtain ⟨s, m, rfl⟩ := fx
  obtain ⟨t, n, rfl⟩ := fy
  have hm : IsMag F m := hx
  have hn : IsMag F n := hy
  have m0 := hm.nonneg
  have n0 := hn.nonneg
  have hn0 : n ≠ 0 := fun h => h0 (by simp [rv, val, h])
  have np : 0 < n := lt_of_le_of_ne n0 (Ne.symm hn0)
  have hsq : ∀ (s : Bool) (m : ℝ), val s m * val s m = m * m := by intro s m; cases s <;> simp [val, sgn]
  have hsq2 : ∀ (s : Bool) (m : ℝ), val s m ^ 2 = m * m := by intro s m; rw [sq]; exact hsq s m
  obtain ⟨ρ, hρ⟩ : ∃ ρ, ρ = Real.sqrt (m * m + n * n) := ⟨_, rfl⟩
  have hρ0 : 0 < ρ := by rw [hρ]; exact Real.sqrt_pos.2 (by nlinarith [mul_pos np np])
  have hρ2 : ρ * ρ = m * m + n * n := by rw [hρ]; exact Real.mul_self_sqrt (by positivity)
  have hhyp : (NdFloat.hypot (fin s m : 𝔽) (fin t n)) = match F.round ρ with | none => inf false | some y => fin false y := by
    change Flt.hypot _ _ = _
    simp only [Flt.hypot]
    change (match F.round (Real.sqrt (val s m * val s m + val t n * val t n)) with | none => _ | some y => _) = _
    rw [hsq, hsq, ← hρ]
  rw [hhyp] at hr
  cases hrr : F.round ρ with
  | none => rw [hrr] at hr; obtain ⟨_, _, hr⟩ := hr; cases hr
  | some r =>
    have mρ : m ≤ ρ := by rw [hρ]; exact Real.le_sqrt_of_sq_le (by nlinarith [mul_pos np np])
    have nρ : n ≤ ρ := by rw [hρ]; exact Real.le_sqrt_of_sq_le (by nlinarith [mul_self_nonneg m])
    have mr := Format.le_round hm mρ hrr
    have nr := Format.le_round hn nρ hrr
    have r0 : 0 < r := np.trans_le nr
    obtain ⟨c, hc, c1⟩ := Format.round_le (F := F) (div_nonneg m0 r0.le) isMag_one ((div_le_one r0).2 mr)
    obtain ⟨σ, hσ, σ1⟩ := Format.round_le (F := F) (div_nonneg n0 r0.le) isMag_one ((div_le_one r0).2 nr)
    have cnn := F.round_nonneg hc
    have σnn := F.round_nonneg hσ
    have ec : (fin s m : 𝔽) / fin false r = fin s c := by
      rw [div_def]; simp only [div, r0.ne', if_false, Flt.round]
      change (match F.round (m / r) with | none => _ | some y => _) = _
      rw [hc]; cases s <;> rfl
    have es : -(fin t n : 𝔽) / fin false r = fin (!t) σ := by
      rw [neg_def, div_def]; simp only [div, Flt.neg, r0.ne', if_false, Flt.round]
      change (match F.round (n / r) with | none => _ | some y => _) = _
      rw [hσ]; cases t <;> rfl
    have hz : NdFloat.isZero (fin t n : 𝔽) = false := by
      change Flt.isZero _ = false
      simp [Flt.isZero, hn0]
    have habs : ∀ (s : Bool) (m : ℝ), |val s m| = |m| := by intro s m; cases s <;> simp [val, sgn]
    refine ⟨⟨fin s c, fin (!t) σ⟩, fin false r, ?_, ⟨_, _, rfl⟩, ⟨_, _, rfl⟩, ⟨_, _, rfl⟩, ?_, ?_, ?_⟩
    · unfold GivensRotation.cancelY
      rw [hhyp, hrr]
      simp only [hz, Bool.not_false, if_true, ec, es]
    · change |val s c| ≤ 1
      rw [habs, abs_of_nonneg cnn]; exact c1
    · change |val (!t) σ| ≤ 1
      rw [habs, abs_of_nonneg σnn]; exact σ1
    · intro hN u η hu hη
      change _ ≤ Real.sqrt (val s m ^ 2 + val t n ^ 2) at hN
      change |val false r - Real.sqrt (val s m ^ 2 + val t n ^ 2)| ≤ 2 * u * Real.sqrt (val s m ^ 2 + val t n ^ 2) ∧
        |val s c ^ 2 + val (!t) σ ^ 2 - 1| ≤ _ ∧ |val s c * val s m - val (!t) σ * val t n - val false r| ≤ _ * val false r ∧
        |val (!t) σ * val s m + val s c * val t n| ≤ _ * val false r
      have er : (val false r : ℝ) = r := by simp [val, sgn]
      have etn : val (!t) σ = -val t σ := by cases t <;> simp [val, sgn]
      rw [hsq2 s m, hsq2 t n, ← hρ] at hN ⊢
      have hrn := Format.round_normal hN hrr
      rw [← hu] at hrn
      have hu0 : 0 ≤ u := by rw [hu]; positivity
      have hη0 : 0 ≤ η := by rw [hη]; positivity
      have acc := (ieee_accurate F .unrolled).err
      have a1 := acc _ _ (div_nonneg m0 r0.le) hc
      have a2 := acc _ _ (div_nonneg n0 r0.le) hσ
      rw [← hu, ← hη] at a1 a2
      have vdiv : ∀ (s : Bool) (a b : ℝ), |val s a - val s b| = |a - b| := by
        intro s a b
        cases s
        · simp [val, sgn]
        · simp only [val, sgn, if_true]
          rw [show -1 * a - -1 * b = -(a - b) by ring, abs_neg]
      have main := givens_arith (a := val s (m / r)) (b := val t (n / r)) (c := val s c) (s := val (!t) σ) (q := ρ / r)
        hu0 hη0 (by rw [habs, abs_of_nonneg (by positivity)]; exact (div_le_one r0).2 mr)
        (by rw [habs, abs_of_nonneg (by positivity)]; exact (div_le_one r0).2 nr)
        (by rw [habs, abs_of_nonneg cnn]; exact c1) (by rw [habs, abs_of_nonneg σnn]; exact σ1) (by positivity)
        (by rw [hsq2, hsq2]; field_simp; linarith)
        (by
          rw [show 1 - ρ / r = (r - ρ) / r by field_simp, abs_div, abs_of_pos r0, div_le_iff₀ r0]
          refine hrn.trans (le_of_eq ?_)
          field_simp)
        (by rw [vdiv, habs, abs_of_nonneg (div_nonneg m0 r0.le)]; exact a1)
        (by rw [etn, show -val t σ - -val t (n / r) = -(val t σ - val t (n / r)) by ring, abs_neg, vdiv, habs,
              abs_of_nonneg (div_nonneg n0 r0.le)]; exact a2)
      have vm : val s m = val s (m / r) * r := by simp only [val]; field_simp
      have vn : val t n = val t (n / r) * r := by simp only [val]; field_simp
      obtain ⟨k1, k2, k3⟩ := main
      refine ⟨by rw [er]; exact hrn, k1, ?_, ?_⟩
      · rw [er, vm, vn, show val s c * (val s (m / r) * r) - val (!t) σ * (val t (n / r) * r) - r =
          (val s c * val s (m / r) - val (!t) σ * val t (n / r) - 1) * r by ring, abs_mul, abs_of_pos r0]
        exact mul_le_mul_of_nonneg_right k2 r0.le
      · rw [er, vm, vn, show val (!t) σ * (val s (m / r) * r) + val s c * (val t (n / r) * r) =
          (val (!t) σ * val s (m / r) + val s c * val t (n / r)) * r by ring, abs_mul, abs_of_pos r0]
        exact mul_le_mul_of_nonneg_right k3 r0.le

/-- **C120, too large**: if the length overflows, `cancel_y` returns the zero matrix instead of a rotation, and a length of
infinity. -/
theorem C120_overflow (x y : 𝔽) (fx : IsFin x) (fy : IsFin y) (h0 : y.rv ≠ 0) (hr : ¬ IsFin (NdFloat.hypot x y)) :
    ∃ g r, GivensRotation.cancelY x y = some (g, r) ∧ r = inf false ∧ IsFin g.c ∧ IsFin g.s ∧ g.c.rv = 0 ∧ g.s.rv = 0 := by
  obtain ⟨s, m, rfl⟩ := fx
  obtain ⟨t, n, rfl⟩ := fy
  have hn0 : n ≠ 0 := fun h => h0 (by simp [rv, val, h])
  have hz : NdFloat.isZero (fin t n : 𝔽) = false := by
    change Flt.isZero _ = false
    simp [Flt.isZero, hn0]
  have hh : NdFloat.hypot (fin s m : 𝔽) (fin t n) = inf false := by
    change Flt.hypot _ _ = _
    change ¬ IsFin (Flt.hypot _ _) at hr
    simp only [Flt.hypot] at hr ⊢
    split
    · rfl
    · rename_i y hy
      rw [hy] at hr
      exact absurd ⟨_, _, rfl⟩ hr
  refine ⟨⟨fin s m / inf false, -fin t n / inf false⟩, inf false, ?_, rfl, ⟨_, _, rfl⟩, ⟨_, _, rfl⟩, ?_, ?_⟩
  · unfold GivensRotation.cancelY
    rw [hh]
    simp only [hz, Bool.not_false, if_true]
  · simp [div_def, div, rv, val]
  · simp [neg_def, div_def, div, Flt.neg, rv, val]

/-- **C120, too small**: for two copies of the smallest positive number `cancel_y` returns `c = 1` and `s = -1`; the
"rotation" doubles the squares of lengths. -/
theorem C120_subnormal : ∃ r, GivensRotation.cancelY (fin false (2 ^ F.emin) : 𝔽) (fin false (2 ^ F.emin)) =
    some (⟨fin false 1, fin true 1⟩, r) ∧ (rot2 1 (-1))ᵀ * rot2 1 (-1) = (2 : ℝ) • (1 : Matrix (Fin 2) (Fin 2) ℝ) := by
  have hp : (0 : ℝ) < 2 ^ F.emin := by positivity
  have hM : IsMag F (2 ^ F.emin) := ⟨1, F.emin, Nat.one_lt_two_pow (by omega), le_rfl, by have := F.half; have := F.one; omega, by simp⟩
  have hs2 : Real.sqrt (2 ^ F.emin * 2 ^ F.emin + 2 ^ F.emin * 2 ^ F.emin) = Real.sqrt 2 * 2 ^ F.emin := by
    rw [show (2 : ℝ) ^ F.emin * 2 ^ F.emin + 2 ^ F.emin * 2 ^ F.emin = 2 * (2 ^ F.emin) ^ 2 by ring,
      Real.sqrt_mul (by norm_num), Real.sqrt_sq hp.le]
  have hb1 : (1 : ℝ) < Real.sqrt 2 := by rw [Real.lt_sqrt (by norm_num)]; norm_num
  have hb2 : Real.sqrt 2 < 3 / 2 := by rw [Real.sqrt_lt' (by norm_num)]; norm_num
  have hρ0 : 0 < Real.sqrt 2 * (2 : ℝ) ^ F.emin := by positivity
  have hlog : Int.log 2 (Real.sqrt 2 * (2 : ℝ) ^ F.emin) < F.emin + 1 := by
    rw [← Int.lt_zpow_iff_log_lt (by norm_num) hρ0, zpow_add₀ (by norm_num)]
    push_cast
    rw [mul_comm]
    refine mul_lt_mul_of_pos_left ?_ hp
    rw [zpow_one]; linarith
  have hexp : F.exp (Real.sqrt 2 * (2 : ℝ) ^ F.emin) = F.emin := max_eq_right (by have := F.mant_pos; omega)
  have hround : F.round (Real.sqrt 2 * (2 : ℝ) ^ F.emin) = some (2 ^ F.emin) := by
    unfold Format.round
    dsimp only
    rw [hexp, mul_div_assoc, div_self hp.ne', mul_one]
    have : roundEven (Real.sqrt 2) = 1 := by
      have hf : ⌊Real.sqrt 2⌋ = 1 := Int.floor_eq_iff.2 ⟨by push_cast; linarith, by push_cast; linarith⟩
      unfold roundEven
      rw [if_pos (by unfold Int.fract; rw [hf]; push_cast; linarith), hf]
    rw [this, Int.cast_one, one_mul, abs_of_pos hp, if_pos hM.lt]
  have hyp : NdFloat.hypot (fin false (2 ^ F.emin) : 𝔽) (fin false (2 ^ F.emin)) = fin false (2 ^ F.emin) := by
    change Flt.hypot _ _ = _
    simp only [Flt.hypot]
    change (match F.round (Real.sqrt (val false _ * val false _ + val false _ * val false _)) with | none => _ | some y => _) = _
    rw [show ∀ x : ℝ, val false x = x by intro x; simp [val, sgn], hs2, hround]
  have h1 : F.round (1 : ℝ) = some 1 := isMag_one.round
  refine ⟨fin false (2 ^ F.emin), ?_, ?_⟩
  · unfold GivensRotation.cancelY
    rw [hyp]
    have hz : NdFloat.isZero (fin false (2 ^ F.emin) : 𝔽) = false := by
      change Flt.isZero _ = false
      simp [Flt.isZero, hp.ne']
    simp only [hz, Bool.not_false, if_true, div_def, neg_def, Flt.neg, div, hp.ne', if_false, div_self, ne_eq, not_false_eq_true, Flt.round]
    change some ((GivensRotation.mk (match F.round 1 with | none => _ | some y => _) (match F.round 1 with | none => _ | some y => _)), _) = _
    rw [h1]
    rfl
  · ext i j
    fin_cases i <;> fin_cases j <;> simp [rot2, Matrix.mul_apply, Fin.sum_univ_two] <;> norm_num

/-- `f64` numbers that meet the conditions of `C120_float`: `(3, -4)`. -/
example : ∃ g r, GivensRotation.cancelY (fin false 3 : Flt (Rounding.ieee .double)) (fin true 4) = some (g, r) ∧
    |r.rv - 5| ≤ 1 / 10 ^ 14 ∧ |g.c.rv ^ 2 + g.s.rv ^ 2 - 1| ≤ 1 / 10 ^ 14 := by
  have h5 : Real.sqrt (3 * 3 + -4 * -4) = 5 := by
    rw [show (3 * 3 + -4 * -4 : ℝ) = 5 ^ 2 by norm_num, Real.sqrt_sq (by norm_num)]
  have hM : ∀ k : ℕ, k < 2 ^ 53 → IsMag .double k := fun k hk =>
    ⟨k, 0, hk, by norm_num [Format.double], by norm_num [Format.double], by simp⟩
  have hy : IsFin (NdFloat.hypot (fin false 3 : Flt (Rounding.ieee .double)) (fin true 4)) := by
    change IsFin (Flt.hypot _ _)
    simp only [Flt.hypot]
    change IsFin (match Format.double.round (Real.sqrt (val false 3 * val false 3 + val true 4 * val true 4)) with
      | none => _ | some y => _)
    rw [show (val false 3 : ℝ) = 3 by simp [val, sgn], show (val true 4 : ℝ) = -4 by simp [val, sgn], h5,
      show (5 : ℝ) = ((5 : ℕ) : ℝ) by norm_num, (hM 5 (by norm_num)).round]
    exact ⟨_, _, rfl⟩
  obtain ⟨g, r, h, -, -, -, -, -, k⟩ := C120_float (F := .double) (fin false 3) (fin true 4)
    (by have := hM 3 (by norm_num); exact_mod_cast this) (by have := hM 4 (by norm_num); exact_mod_cast this)
    ⟨_, _, rfl⟩ ⟨_, _, rfl⟩ (by simp [rv, val, sgn]) hy
  have e : Real.sqrt ((fin false 3 : Flt (Rounding.ieee .double)).rv ^ 2 + (fin true 4 : Flt (Rounding.ieee .double)).rv ^ 2) = 5 := by
    rw [← h5]; simp [rv, val, sgn]; norm_num
  rw [e] at k
  have hη : (2 : ℝ) ^ (Format.double.emin - 1) ≤ 2 ^ (-60 : ℤ) := zpow_le_zpow_right₀ (by norm_num) (by norm_num [Format.double])
  obtain ⟨k1, k2, -, -⟩ := k ((zpow_le_one_of_nonpos₀ (by norm_num) (by norm_num [Format.double])).trans (by norm_num)) _ _ rfl rfl
  refine ⟨g, r, h, k1.trans ?_, k2.trans ?_⟩
  · norm_num [Format.double]
  · refine (add_le_add_right (mul_le_mul_of_nonneg_left hη (by norm_num)) _).trans ?_
    norm_num [Format.double]

/-- `f64` numbers that meet the conditions of `C120_overflow`: `(1.5 · 2^1023, 1.5 · 2^1023)`. -/
example : IsFloat .double (fin false (3 * 2 ^ (1022 : ℤ))) ∧
    ¬ IsFin (NdFloat.hypot (fin false (3 * 2 ^ (1022 : ℤ)) : Flt (Rounding.ieee .double)) (fin false (3 * 2 ^ (1022 : ℤ)))) := by
  refine ⟨⟨3 * 2 ^ 51, 971, by norm_num [Format.double], by norm_num [Format.double], by norm_num [Format.double], ?_⟩, ?_⟩
  · rw [Nat.cast_mul, Nat.cast_pow, Nat.cast_ofNat, Nat.cast_ofNat, mul_assoc, ← zpow_natCast (2 : ℝ) 51,
      ← zpow_add₀ (by norm_num : (2 : ℝ) ≠ 0)]
    rfl
  · change ¬ IsFin (Flt.hypot _ _)
    simp only [Flt.hypot]
    change ¬ IsFin (match Format.double.round (Real.sqrt (val false _ * val false _ + val false _ * val false _)) with
      | none => inf false | some y => fin false y)
    rw [show ∀ x : ℝ, val false x = x by intro x; simp [val, sgn]]
    have hp : (0 : ℝ) < 2 ^ (1022 : ℤ) := by positivity
    have hs : Real.sqrt (3 * (2 : ℝ) ^ (1022 : ℤ) * (3 * 2 ^ (1022 : ℤ)) + 3 * 2 ^ (1022 : ℤ) * (3 * 2 ^ (1022 : ℤ))) =
        3 * Real.sqrt 2 * 2 ^ (1022 : ℤ) := by
      rw [show 3 * (2 : ℝ) ^ (1022 : ℤ) * (3 * 2 ^ (1022 : ℤ)) + 3 * 2 ^ (1022 : ℤ) * (3 * 2 ^ (1022 : ℤ)) =
        2 * (3 * 2 ^ (1022 : ℤ)) ^ 2 by ring, Real.sqrt_mul (by norm_num), Real.sqrt_sq (by positivity)]
      ring
    rw [hs]
    cases h : Format.double.round (3 * Real.sqrt 2 * 2 ^ (1022 : ℤ)) with
    | none => rintro ⟨_, _, h⟩; cases h
    | some y =>
      exfalso
      have h0 : 0 ≤ 3 * Real.sqrt 2 * (2 : ℝ) ^ (1022 : ℤ) := by positivity
      have hlt := (Format.round_isMag h0 h).lt
      have hb1 : (7 / 5 : ℝ) < Real.sqrt 2 := by rw [Real.lt_sqrt (by norm_num)]; norm_num
      have herr := Format.round_normal (F := .double) (x := 3 * Real.sqrt 2 * 2 ^ (1022 : ℤ)) (y := y) (by
        have : (2 : ℝ) ^ (Format.double.emin + Format.double.mant) ≤ 2 ^ (1022 : ℤ) :=
          zpow_le_zpow_right₀ (by norm_num) (by norm_num [Format.double])
        refine this.trans ?_
        generalize (2 : ℝ) ^ (1022 : ℤ) = P at hp
        nlinarith) h
      have e1 : (2 : ℝ) ^ Format.double.emax = 4 * 2 ^ (1022 : ℤ) := by
        change (2 : ℝ) ^ (1024 : ℤ) = _
        rw [show (1024 : ℤ) = 2 + 1022 by norm_num, zpow_add₀ (by norm_num)]
        norm_num
      have e2 : (2 : ℝ) * 2 ^ (-(Format.double.mant : ℤ) - 1) ≤ 1 / 100 := by norm_num [Format.double]
      have h1 := (abs_le.1 (herr.trans (mul_le_mul_of_nonneg_right e2 h0))).1
      rw [e1] at hlt
      clear hs h herr e1 h0
      generalize (2 : ℝ) ^ (1022 : ℤ) = P at hp hlt h1
      nlinarith

end LinfaLinalg
