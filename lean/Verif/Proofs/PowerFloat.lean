import Verif.Proofs.Underflow

/-! # Calculating with signed powers of two in IEEE double precision -/

namespace LinfaLinalg

local notation "𝔽" => Flt Rounding.binary64

/-- The double `± 2 ^ j`. -/
noncomputable def pw (s : Bool) (j : ℤ) : 𝔽 := .fin s ((2 : ℝ) ^ j)

/-- The double `± 0`. -/
noncomputable def zr (s : Bool) : 𝔽 := .fin s 0

theorem two_zpow_pos (j : ℤ) : (0 : ℝ) < 2 ^ j := by positivity

theorem b64_pow {j : ℤ} (h1 : -1074 ≤ j) (h2 : j ≤ 900) : b64Round ((2 : ℝ) ^ j) = some (2 ^ j) :=
  b64_exact 1 j (by norm_num) h1 h2 (by norm_num) (two_zpow_pos j) rfl

theorem roundEven_small {x : ℝ} (h0 : 0 ≤ x) (h1 : x ≤ 1 / 2) : roundEven x = 0 := by
  refine roundEven_near ?_
  rcases lt_or_eq_of_le h1 with h | h
  · left; rw [Int.cast_zero, sub_zero, abs_of_nonneg h0]; exact h
  · right; rw [Int.cast_zero, sub_zero, abs_of_nonneg h0]; exact ⟨h, by simp⟩

/-- Numbers up to half the smallest subnormal are rounded to zero. -/
theorem b64_vanish {x : ℝ} (h0 : 0 ≤ x) (h1 : x ≤ (2 : ℝ) ^ (-1075 : ℤ)) : b64Round x = some 0 := by
  rcases eq_or_lt_of_le h0 with rfl | h
  · unfold b64Round
    dsimp only
    rw [zero_div, roundEven_small le_rfl (by norm_num)]
    simp
  have he : b64Exp x = -1074 := by
    refine max_eq_right ?_
    have : Int.log 2 x < -1074 := by
      rw [← Int.lt_zpow_iff_log_lt (by norm_num) h, show (((2 : ℕ) : ℝ)) = 2 by norm_num]
      exact lt_of_le_of_lt h1 (zpow_lt_zpow_right₀ (by norm_num) (by norm_num))
    omega
  have hr : roundEven (x / 2 ^ (-1074 : ℤ)) = 0 := by
    refine roundEven_small (by positivity) ?_
    rw [div_le_iff₀ (two_zpow_pos _)]
    refine h1.trans (le_of_eq ?_)
    rw [show (-1075 : ℤ) = -1 + -1074 by norm_num, zpow_add₀ (by norm_num)]
    norm_num
  unfold b64Round
  dsimp only
  rw [he, hr]
  simp

/-- Close to a power of two, in the range of normal numbers. -/
theorem b64_near_pow {x : ℝ} {i : ℤ} (h1 : -1000 ≤ i) (h2 : i ≤ 900) (hlo : (1 - 1 / 2 ^ 54) * (2 : ℝ) ^ i ≤ x)
    (hhi : x ≤ (1 + 1 / 2 ^ 54) * (2 : ℝ) ^ i) : b64Round x = some (2 ^ i) := by
  have hp := two_zpow_pos i
  have hx : 0 < x := lt_of_lt_of_le (by norm_num; exact hp) hlo
  have hup : Int.log 2 x < i + 1 := by
    rw [← Int.lt_zpow_iff_log_lt (by norm_num) hx, show (((2 : ℕ) : ℝ)) = 2 by norm_num, zpow_add₀ (by norm_num)]
    refine lt_of_le_of_lt hhi ?_
    rw [mul_comm]
    refine mul_lt_mul_of_pos_left (by norm_num) hp
  have hlow : i - 1 ≤ Int.log 2 x := by
    rw [← Int.zpow_le_iff_le_log (by norm_num) hx, show (((2 : ℕ) : ℝ)) = 2 by norm_num, zpow_sub₀ (by norm_num)]
    refine le_trans ?_ hlo
    rw [div_eq_mul_inv, mul_comm]
    refine mul_le_mul_of_nonneg_right (by norm_num) hp.le
  have key : ∀ (n : ℕ), 52 ≤ n → n ≤ 53 → b64Exp x = i - n →
      roundEven (x / 2 ^ b64Exp x) = 2 ^ n := by
    intro n hn hn' he
    refine roundEven_near ?_
    have e1 : x / 2 ^ b64Exp x = x / 2 ^ i * 2 ^ n := by
      rw [he, zpow_sub₀ (by norm_num), zpow_natCast]; field_simp
    have e2 : |x / 2 ^ i - 1| ≤ 1 / 2 ^ 54 := by
      rw [abs_le]
      constructor
      · have : 1 - 1 / 2 ^ 54 ≤ x / 2 ^ i := by rw [le_div_iff₀ hp]; exact hlo
        linarith
      · rw [sub_le_iff_le_add, div_le_iff₀ hp]; linarith
    have e3 : |x / 2 ^ b64Exp x - ((2 ^ n : ℤ) : ℝ)| ≤ 1 / 2 ^ 54 * 2 ^ n := by
      rw [e1]
      push_cast
      rw [show x / 2 ^ i * 2 ^ n - (2 : ℝ) ^ n = (x / 2 ^ i - 1) * 2 ^ n by ring, abs_mul,
        abs_of_pos (show (0 : ℝ) < 2 ^ n by positivity)]
      exact mul_le_mul_of_nonneg_right e2 (by positivity)
    have hn2 : n = 52 ∨ n = 53 := by omega
    rcases hn2 with rfl | rfl
    · left
      refine lt_of_le_of_lt e3 ?_
      norm_num
    · rcases lt_or_eq_of_le e3 with h | h
      · left; refine lt_of_lt_of_le h (by norm_num)
      · right
        refine ⟨h.trans (by norm_num), ?_⟩
        exact ⟨2 ^ 52, by norm_num⟩
  have hb : b64Exp x = i - (52 : ℕ) ∨ b64Exp x = i - (53 : ℕ) := by
    unfold b64Exp
    rw [max_eq_left (by omega)]
    omega
  have fin : ∀ n : ℕ, 52 ≤ n → n ≤ 53 → b64Exp x = i - n → b64Round x = some (2 ^ i) := by
    intro n hn hn' he
    have hr := key n hn hn' he
    unfold b64Round
    dsimp only
    rw [hr, he]
    have : |(((2 ^ n : ℤ)) : ℝ) * 2 ^ (i - (n : ℤ))| = 2 ^ i := by
      push_cast
      rw [zpow_sub₀ (by norm_num), zpow_natCast, abs_of_pos (by positivity)]
      field_simp
    rw [this, if_pos (zpow_lt_zpow_right₀ (by norm_num) (by omega))]
  rcases hb with h | h
  · exact fin 52 (by norm_num) (by norm_num) h
  · exact fin 53 (by norm_num) (by norm_num) h

theorem zpow_gap {i j : ℤ} (h : j + 54 ≤ i) : (2 : ℝ) ^ j ≤ 1 / 2 ^ 54 * 2 ^ i := by
  rw [show (1 / 2 ^ 54 : ℝ) = 2 ^ (-54 : ℤ) by norm_num, ← zpow_add₀ (by norm_num)]
  exact zpow_le_zpow_right₀ (by norm_num) (by omega)

theorem zr_false : (0 : 𝔽) = zr false := rfl
theorem pw_one : (1 : 𝔽) = pw false 0 := by simp [pw, Flt.one_def]
theorem pw_two : (NdFloat.ofRat 2 : 𝔽) = pw false 1 := by rw [Flt.b64_two, pw]; norm_num
theorem pw_neg_two : (NdFloat.ofRat (-2) : 𝔽) = pw true 1 := by rw [Flt.b64_neg_two, pw]; norm_num

theorem pw_half : (NdFloat.ofRat (1 / 2) : 𝔽) = pw false (-1) :=
  Flt.b64_ofReal (b64_pow (by norm_num) (by norm_num)) (two_zpow_pos _) (by norm_num [Flt.val, Flt.sgn])

theorem pw_eps : (NdFloat.epsilon : 𝔽) = pw false (-52) := by
  show Flt.fin false ((2 : ℝ)⁻¹ ^ 52) = _
  rw [pw]; norm_num

/-! ## The operations -/

theorem neg_pw (s : Bool) (j : ℤ) : -pw s j = pw (!s) j := rfl
theorem neg_zr (s : Bool) : -zr s = zr (!s) := rfl
theorem neg_nan : -(Flt.nan : 𝔽) = .nan := rfl
theorem abs_pw (s : Bool) (j : ℤ) : NdFloat.abs (pw s j) = pw false j := rfl
theorem abs_zr (s : Bool) : NdFloat.abs (zr s) = zr false := rfl
theorem signum_pw (s : Bool) (j : ℤ) : NdFloat.signum (pw s j) = pw s 0 := by
  show Flt.fin s 1 = _
  simp [pw]
theorem signum_zr (s : Bool) : NdFloat.signum (zr s) = pw s 0 := by
  show Flt.fin s 1 = _
  simp [pw]

theorem mul_pw {s t : Bool} {i j : ℤ} (h1 : -1074 ≤ i + j) (h2 : i + j ≤ 900) :
    pw s i * pw t j = pw (s != t) (i + j) :=
  Flt.b64_mul (by rw [← zpow_add₀ (by norm_num)]; exact b64_pow h1 h2) rfl

theorem mul_pw_vanish {s t : Bool} {i j : ℤ} (h : i + j ≤ -1075) : pw s i * pw t j = zr (s != t) :=
  Flt.b64_mul (by
    rw [← zpow_add₀ (by norm_num)]
    exact b64_vanish (two_zpow_pos _).le (zpow_le_zpow_right₀ (by norm_num) h)) rfl

theorem b64_zero : b64Round 0 = some 0 := b64_vanish le_rfl (two_zpow_pos _).le

theorem mul_pw_zr (s t : Bool) (i : ℤ) : pw s i * zr t = zr (s != t) :=
  Flt.b64_mul (by rw [mul_zero]; exact b64_zero) rfl
theorem mul_zr_pw (s t : Bool) (i : ℤ) : zr t * pw s i = zr (t != s) :=
  Flt.b64_mul (by rw [zero_mul]; exact b64_zero) rfl
theorem mul_zr_zr (s t : Bool) : zr s * zr t = zr (s != t) :=
  Flt.b64_mul (by rw [zero_mul]; exact b64_zero) rfl

theorem val_pw (s : Bool) (m : ℝ) : Flt.val s m = if s then -m else m := by cases s <;> simp [Flt.val, Flt.sgn]

theorem add_pw_double {s t : Bool} {i j : ℤ} (hs : s = t) (hij : i = j) (h1 : -1074 ≤ i + 1) (h2 : i + 1 ≤ 900) :
    pw s i + pw t j = pw s (i + 1) := by
  subst hs hij
  refine Flt.b64_add (b64_pow h1 h2) (two_zpow_pos _) ?_
  rw [val_pw, val_pw, zpow_add₀ (by norm_num), zpow_one]
  split_ifs <;> ring

theorem add_pw_cancel {s t : Bool} {i j : ℤ} (hs : s = !t) (hij : i = j) : pw s i + pw t j = zr false := by
  subst hs hij
  show Flt.add _ _ = _
  rw [pw, pw, Flt.add]
  have : Flt.val (!t) ((2 : ℝ) ^ i) + Flt.val t (2 ^ i) = 0 := by cases t <;> simp [Flt.val, Flt.sgn]
  rw [this]
  cases t <;> simp [Flt.ofReal, zr]

/-- The half of a power of two of the other sign remains after subtraction. -/
theorem add_pw_half {s t : Bool} {i j : ℤ} (hs : s = !t) (hij : i = j + 1) (h1 : -1074 ≤ j) (h2 : j ≤ 900) :
    pw s i + pw t j = pw s j := by
  subst hs hij
  refine Flt.b64_add (b64_pow h1 h2) (two_zpow_pos _) ?_
  rw [val_pw, val_pw, val_pw, zpow_add₀ (by norm_num), zpow_one]
  cases t <;> simp <;> ring

theorem add_pw_half' {s t : Bool} {i j : ℤ} (hs : s = !t) (hij : i + 1 = j) (h1 : -1074 ≤ i) (h2 : i ≤ 900) :
    pw s i + pw t j = pw t i := by
  subst hs hij
  refine Flt.b64_add (b64_pow h1 h2) (two_zpow_pos _) ?_
  rw [val_pw, val_pw, val_pw, zpow_add₀ (by norm_num), zpow_one]
  cases t <;> simp <;> ring

theorem b64_add_near {s t : Bool} {i j : ℤ} (h : j + 54 ≤ i) (h1 : -1000 ≤ i) (h2 : i ≤ 900) :
    (Flt.ofReal (s && t) (Flt.val s ((2 : ℝ) ^ i) + Flt.val t (2 ^ j)) : 𝔽) = pw s i := by
  have hg := zpow_gap h
  have hi := two_zpow_pos i
  have hj := two_zpow_pos j
  have hji : (2 : ℝ) ^ j < 2 ^ i := zpow_lt_zpow_right₀ (by norm_num) (by omega)
  have hr : ∀ x : ℝ, (1 - 1 / 2 ^ 54) * (2 : ℝ) ^ i ≤ x → x ≤ (1 + 1 / 2 ^ 54) * (2 : ℝ) ^ i →
      b64Round x = some (2 ^ i) := fun x => b64_near_pow h1 h2
  cases s
  · have hpos : 0 < Flt.val false ((2 : ℝ) ^ i) + Flt.val t (2 ^ j) := by
      cases t <;> simp [Flt.val, Flt.sgn] <;> linarith
    rw [Flt.ofReal, if_neg hpos.ne', Flt.round, abs_of_pos hpos]
    have : b64Round (Flt.val false ((2 : ℝ) ^ i) + Flt.val t (2 ^ j)) = some (2 ^ i) := by
      apply hr <;> cases t <;> simp only [Flt.val, Flt.sgn, if_true, if_false, Bool.false_eq_true] <;> linarith
    simp only [Rounding.binary64, this, pw]
    rw [decide_eq_false (not_lt.2 hpos.le)]
  · have hneg : Flt.val true ((2 : ℝ) ^ i) + Flt.val t (2 ^ j) < 0 := by
      cases t <;> simp [Flt.val, Flt.sgn] <;> linarith
    rw [Flt.ofReal, if_neg hneg.ne, Flt.round, abs_of_neg hneg]
    have : b64Round (-(Flt.val true ((2 : ℝ) ^ i) + Flt.val t (2 ^ j))) = some (2 ^ i) := by
      apply hr <;> cases t <;> simp only [Flt.val, Flt.sgn, if_true, if_false, Bool.false_eq_true] <;> linarith
    simp only [Rounding.binary64, this, pw]
    rw [decide_eq_true hneg]

theorem add_pw_left {s t : Bool} {i j : ℤ} (h : j + 54 ≤ i) (h1 : -1000 ≤ i) (h2 : i ≤ 900) :
    pw s i + pw t j = pw s i := b64_add_near h h1 h2

theorem add_pw_right {s t : Bool} {i j : ℤ} (h : i + 54 ≤ j) (h1 : -1000 ≤ j) (h2 : j ≤ 900) :
    pw s i + pw t j = pw t j := by
  show Flt.add _ _ = _
  rw [pw, pw, Flt.add, add_comm, Bool.and_comm]
  exact b64_add_near h h1 h2

theorem add_pw_zr {s t : Bool} {i : ℤ} (h1 : -1074 ≤ i) (h2 : i ≤ 900) : pw s i + zr t = pw s i :=
  Flt.b64_add (b64_pow h1 h2) (two_zpow_pos _) (by cases t <;> simp [Flt.val])
theorem add_zr_pw {s t : Bool} {i : ℤ} (h1 : -1074 ≤ i) (h2 : i ≤ 900) : zr t + pw s i = pw s i :=
  Flt.b64_add (b64_pow h1 h2) (two_zpow_pos _) (by cases t <;> simp [Flt.val])
theorem add_zr_zr (s t : Bool) : zr s + zr t = zr (s && t) := by
  show Flt.add _ _ = _
  simp [zr, Flt.add, Flt.val, Flt.ofReal]

theorem sub_add (a b : 𝔽) : a - b = a + -b := rfl

theorem sqrt_pw {i j : ℤ} (hij : i = j + j) (h1 : -1074 ≤ j) (h2 : j ≤ 900) :
    NdFloat.sqrt (pw false i) = pw false j := by
  subst hij
  exact Flt.b64_sqrt (b64_pow h1 h2) (two_zpow_pos _) (by rw [← zpow_add₀ (by norm_num)])

theorem sqrt_zr (s : Bool) : NdFloat.sqrt (zr s) = zr s := by
  show Flt.sqrt _ = _
  simp [zr, Flt.sqrt]

theorem div_pw {s t : Bool} {i j : ℤ} (h1 : -1074 ≤ i - j) (h2 : i - j ≤ 900) :
    pw s i / pw t j = pw (s != t) (i - j) :=
  Flt.b64_div (two_zpow_pos _).ne' (by rw [← zpow_sub₀ (by norm_num)]; exact b64_pow h1 h2) rfl
theorem div_zr_pw (s t : Bool) (j : ℤ) : zr s / pw t j = zr (s != t) :=
  Flt.b64_div (two_zpow_pos _).ne' (by rw [zero_div]; exact b64_zero) rfl
theorem div_zr_zr (s t : Bool) : zr s / zr t = Flt.nan := by
  show Flt.div _ _ = _
  simp [zr, Flt.div]

theorem hypot_pw_aux {i j : ℤ} (h : j + 54 ≤ i) (h1 : -1000 ≤ i) (h2 : i ≤ 900) :
    b64Round (Real.sqrt ((2 : ℝ) ^ i * 2 ^ i + 2 ^ j * 2 ^ j)) = some (2 ^ i) := by
  have hi := two_zpow_pos i
  have hj := two_zpow_pos j
  have hg := zpow_gap h
  refine b64_near_pow h1 h2 ?_ ?_
  · refine Real.le_sqrt_of_sq_le ?_
    have : ((1 - 1 / 2 ^ 54) * (2 : ℝ) ^ i) ^ 2 ≤ ((2 : ℝ) ^ i) ^ 2 :=
      pow_le_pow_left₀ (by positivity) (by nlinarith) 2
    nlinarith
  · rw [Real.sqrt_le_left (by positivity)]
    have h3 : (2 : ℝ) ^ j * 2 ^ j ≤ (1 / 2 ^ 54 * 2 ^ i) * (1 / 2 ^ 54 * 2 ^ i) := mul_le_mul hg hg hj.le (by positivity)
    nlinarith

theorem hypot_pw_left {s t : Bool} {i j : ℤ} (h : j + 54 ≤ i) (h1 : -1000 ≤ i) (h2 : i ≤ 900) :
    NdFloat.hypot (pw s i) (pw t j) = pw false i := by
  show Flt.hypot _ _ = _
  have : Rounding.binary64.hyp (Flt.val s ((2 : ℝ) ^ i)) (Flt.val t (2 ^ j)) = some (2 ^ i) := by
    refine Eq.trans ?_ (hypot_pw_aux h h1 h2)
    show b64Round _ = _
    congr 2
    cases s <;> cases t <;> simp [Flt.val, Flt.sgn]
  simp [pw, Flt.hypot, this]

theorem hypot_pw_right {s t : Bool} {i j : ℤ} (h : i + 54 ≤ j) (h1 : -1000 ≤ j) (h2 : j ≤ 900) :
    NdFloat.hypot (pw s i) (pw t j) = pw false j := by
  show Flt.hypot _ _ = _
  have : Rounding.binary64.hyp (Flt.val s ((2 : ℝ) ^ i)) (Flt.val t (2 ^ j)) = some (2 ^ j) := by
    refine Eq.trans ?_ (hypot_pw_aux h h1 h2)
    show b64Round _ = _
    congr 2
    cases s <;> cases t <;> simp [Flt.val, Flt.sgn] <;> ring
  simp [pw, Flt.hypot, this]

theorem isZero_pw (s : Bool) (i : ℤ) : NdFloat.isZero (pw s i) = false := by
  show Flt.isZero _ = _
  simp [pw, Flt.isZero, (two_zpow_pos i).ne']
theorem isZero_zr (s : Bool) : NdFloat.isZero (zr s) = true := by
  show Flt.isZero _ = _
  simp [zr, Flt.isZero]

theorem lt_pw {i j : ℤ} (h : i < j) : NdFloat.lt (pw false i) (pw false j) = true := by
  show Flt.lt _ _ = _
  simp only [pw, Flt.lt, val_pw, decide_eq_true_eq]
  simpa using zpow_lt_zpow_right₀ (a := (2 : ℝ)) (by norm_num) h
theorem lt_pw_false {i j : ℤ} (h : j ≤ i) : NdFloat.lt (pw false i) (pw false j) = false := by
  show Flt.lt _ _ = _
  simp only [pw, Flt.lt, val_pw, decide_eq_false_iff_not, not_lt]
  simpa using zpow_le_zpow_right₀ (a := (2 : ℝ)) (by norm_num) h
theorem lt_zr_pw (s : Bool) (j : ℤ) : NdFloat.lt (zr s) (pw false j) = true := by
  show Flt.lt _ _ = _
  simp [zr, pw, Flt.lt, val_pw, two_zpow_pos]
theorem lt_pw_zr (s : Bool) (j : ℤ) : NdFloat.lt (pw false j) (zr s) = false := by
  show Flt.lt _ _ = _
  simp [zr, pw, Flt.lt, val_pw, (two_zpow_pos j).le]
theorem le_pw {i j : ℤ} (h : i ≤ j) : NdFloat.le (pw false i) (pw false j) = true := by
  show Flt.le _ _ = _
  simp only [pw, Flt.le, val_pw, decide_eq_true_eq]
  simpa using zpow_le_zpow_right₀ (a := (2 : ℝ)) (by norm_num) h
theorem le_pw_false {i j : ℤ} (h : j < i) : NdFloat.le (pw false i) (pw false j) = false := by
  show Flt.le _ _ = _
  simp only [pw, Flt.le, val_pw, decide_eq_false_iff_not, not_le]
  simpa using zpow_lt_zpow_right₀ (a := (2 : ℝ)) (by norm_num) h
theorem le_pw_zr (s : Bool) (j : ℤ) : NdFloat.le (pw false j) (zr s) = false := by
  show Flt.le _ _ = _
  simp [zr, pw, Flt.le, val_pw, two_zpow_pos]

/-! NaN -/

theorem nan_add (x : 𝔽) : Flt.nan + x = Flt.nan := by show Flt.add _ _ = _; cases x <;> rfl
theorem add_nan (x : 𝔽) : x + Flt.nan = Flt.nan := by show Flt.add _ _ = _; cases x <;> rfl
theorem nan_mul (x : 𝔽) : Flt.nan * x = Flt.nan := by show Flt.mul _ _ = _; cases x <;> rfl
theorem mul_nan (x : 𝔽) : x * Flt.nan = Flt.nan := by show Flt.mul _ _ = _; cases x <;> rfl
theorem nan_div (x : 𝔽) : Flt.nan / x = Flt.nan := by show Flt.div _ _ = _; cases x <;> rfl
theorem div_nan (x : 𝔽) : x / Flt.nan = Flt.nan := by show Flt.div _ _ = _; cases x <;> rfl
theorem abs_nan : NdFloat.abs (Flt.nan : 𝔽) = Flt.nan := rfl
theorem hypot_nan_pw (s : Bool) (i : ℤ) : NdFloat.hypot Flt.nan (pw s i) = Flt.nan := rfl
theorem hypot_nan_nan : NdFloat.hypot (Flt.nan : 𝔽) Flt.nan = Flt.nan := rfl
theorem isZero_nan : NdFloat.isZero (Flt.nan : 𝔽) = false := rfl
theorem lt_nan (x : 𝔽) : NdFloat.lt x Flt.nan = false := by show Flt.lt _ _ = _; cases x <;> rfl
theorem le_nan (x : 𝔽) : NdFloat.le x Flt.nan = false := by show Flt.le _ _ = _; cases x <;> rfl
theorem nan_le (x : 𝔽) : NdFloat.le Flt.nan x = false := by show Flt.le _ _ = _; cases x <;> rfl

/-- `unrolled_dot` on two pairs. -/
theorem b64_dot_two (f g : Nat → 𝔽) : dotTo 2 f g = 0 + f 0 * g 0 + f 1 * g 1 := by
  have p1 : DotPlans.unrolled.plan 2 = .add (.add (.fold8 0) (.prod 0)) (.prod 1) := rfl
  have h0 : (Flt.fin false 0 : 𝔽).add (.fin false 0) = .fin false 0 := by
    simp [Flt.add, Flt.val, Flt.ofReal]
  show (DotPlans.unrolled.plan 2).eval (Flt.fin false 0 : 𝔽) Flt.add Flt.mul Flt.fma [(f 0, g 0), (f 1, g 1)] = _
  rw [p1]
  simp [DotPlan.fold8, DotPlan.acc, DotPlan.seq, DotPlan.eval, h0]
  rfl

end LinfaLinalg
