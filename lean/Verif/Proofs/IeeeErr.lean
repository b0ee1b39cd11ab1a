import Verif.Spec.IeeeVal
import Verif.Proofs.Rounded
import Verif.Proofs.NaN

/-! # Rounding errors of IEEE arithmetic with gradual underflow

If the result of an operation is finite, so are the arguments, and the result is the exact one up to a factor
`1 + δ` and an absolute error `η`. -/

set_option linter.unusedSimpArgs false

namespace LinfaLinalg

/-- binary64 rounds with a relative error of at most `2⁻⁵³` and an absolute error of at most `2⁻¹⁰⁷⁵`. -/
theorem b64_accurate (P : DotPlans) :
    ({ Rounding.binary64 with plans := P } : Rounding).Accurate (2 ^ (-53 : ℤ)) (2 ^ (-1075 : ℤ)) where
  u_nonneg := by positivity
  u_lt_one := by norm_num
  η_nonneg := by positivity
  η_le_one := zpow_le_one_of_nonpos₀ (by norm_num) (by norm_num)
  err y z hy h := by
    have h' : b64Round y = some z := h
    unfold b64Round at h'
    dsimp only at h'
    split_ifs at h'
    cases h'
    have hp : (0 : ℝ) < 2 ^ b64Exp y := by positivity
    have hr := roundEven_err (y / 2 ^ b64Exp y)
    have e : (roundEven (y / 2 ^ b64Exp y) : ℝ) * 2 ^ b64Exp y - y =
        ((roundEven (y / 2 ^ b64Exp y) : ℝ) - y / 2 ^ b64Exp y) * 2 ^ b64Exp y := by
      rw [sub_mul, div_mul_cancel₀ _ hp.ne']
    have h1 : |(roundEven (y / 2 ^ b64Exp y) : ℝ) * 2 ^ b64Exp y - y| ≤ 1 / 2 * 2 ^ b64Exp y := by
      rw [e, abs_mul, abs_of_pos hp]
      exact mul_le_mul_of_nonneg_right hr hp.le
    have h2 : |(|(roundEven (y / 2 ^ b64Exp y) : ℝ) * 2 ^ b64Exp y| - y)| ≤ 1 / 2 * 2 ^ b64Exp y := by
      refine le_trans ?_ h1
      have := abs_abs_sub_abs_le ((roundEven (y / 2 ^ b64Exp y) : ℝ) * 2 ^ b64Exp y) y
      rwa [abs_of_nonneg hy] at this
    rcases eq_or_lt_of_le hy with h0 | h0
    · subst h0
      simp [roundEven]
    refine h2.trans ?_
    rcases max_cases (Int.log 2 y - 52) (-1074) with ⟨hm, -⟩ | ⟨hm, -⟩
    · have hb : b64Exp y = Int.log 2 y - 52 := hm
      have hl := Int.zpow_log_le_self (b := 2) (by norm_num) h0
      have hl' : (2 : ℝ) ^ Int.log 2 y ≤ y := by exact_mod_cast hl
      have : (1 : ℝ) / 2 * 2 ^ b64Exp y = 2 ^ (-53 : ℤ) * 2 ^ Int.log 2 y := by
        rw [hb, ← zpow_add₀ (by norm_num), show (1 : ℝ) / 2 = 2 ^ (-1 : ℤ) by norm_num, ← zpow_add₀ (by norm_num)]
        congr 1
        ring
      rw [this]
      have h3 : (0 : ℝ) < 2 ^ (-1075 : ℤ) := by positivity
      exact (mul_le_mul_of_nonneg_left hl' (by positivity)).trans (le_add_of_nonneg_right h3.le)
    · have hb : b64Exp y = -1074 := hm
      have : (1 : ℝ) / 2 * 2 ^ b64Exp y = 2 ^ (-1075 : ℤ) := by
        rw [hb, show (1 : ℝ) / 2 = 2 ^ (-1 : ℤ) by norm_num, ← zpow_add₀ (by norm_num)]
        congr 1
      rw [this]
      have h3 : (0 : ℝ) ≤ 2 ^ (-53 : ℤ) * y := by positivity
      exact le_add_of_nonneg_left h3

namespace Flt
variable {R : Rounding} {u η : ℝ}

/-- The result `z` of an operation with the exact result `x`. -/
def Err (u η x z : ℝ) : Prop := ∃ t e, Near u 1 t ∧ |e| ≤ η ∧ z = x * t + e

theorem err_of_bound (h0 : 0 ≤ u) (h1 : u < 1) (hη : 0 ≤ η) {x z : ℝ} (h : |z - x| ≤ u * |x| + η) : Err u η x z := by
  by_cases hs : |z - x| ≤ u * |x|
  · obtain ⟨t, ht, e⟩ := near_of_err h0 h1 hs
    exact ⟨t, 0, ht, by rw [abs_zero]; exact hη, by rw [e, add_zero]⟩
  · push Not at hs
    have hx := mul_nonneg h0 (abs_nonneg x)
    rcases abs_cases (z - x) with ⟨a, b⟩ | ⟨a, b⟩
    · obtain ⟨t, ht, e⟩ := near_of_err h0 h1 (x := x) (y := x + u * |x|) (by
        rw [add_sub_cancel_left, abs_of_nonneg hx])
      refine ⟨t, z - (x + u * |x|), ht, ?_, by rw [← e]; ring⟩
      rw [abs_le]; constructor <;> linarith
    · obtain ⟨t, ht, e⟩ := near_of_err h0 h1 (x := x) (y := x - u * |x|) (by
        rw [sub_sub_cancel_left, abs_neg, abs_of_nonneg hx])
      refine ⟨t, z - (x - u * |x|), ht, ?_, by rw [← e]; ring⟩
      rw [abs_le]; constructor <;> linarith

theorem sgn_abs (s : Bool) : |sgn s| = 1 := by cases s <;> simp [sgn]

theorem sgn_xor (s t : Bool) : sgn (s != t) = sgn s * sgn t := by cases s <;> cases t <;> simp [sgn]

theorem round_err (hR : R.Accurate u η) {s : Bool} {y : ℝ} (hy : 0 ≤ y) (h : IsFin (round s y : Flt R)) :
    Err u η (sgn s * y) (round s y : Flt R).rv := by
  unfold round at *
  cases hz : R.rnd y with
  | none =>
    rw [hz] at h
    obtain ⟨_, _, h⟩ := h
    cases h
  | some z =>
    refine err_of_bound hR.u_nonneg hR.u_lt_one hR.η_nonneg ?_
    show |sgn s * z - sgn s * y| ≤ _
    rw [← mul_sub, abs_mul, abs_mul, sgn_abs, one_mul, one_mul, abs_of_nonneg hy]
    exact hR.err y z hy hz

theorem ofReal_err (hR : R.Accurate u η) {s : Bool} {x : ℝ} (h : IsFin (ofReal s x : Flt R)) :
    Err u η x (ofReal s x : Flt R).rv := by
  by_cases hx : x = 0
  · refine ⟨1, 0, near_one hR.u_nonneg hR.u_lt_one 1, by rw [abs_zero]; exact hR.η_nonneg, ?_⟩
    unfold ofReal
    rw [if_pos hx, hx]
    simp [rv, val]
  · have e : (ofReal s x : Flt R) = round (decide (x < 0)) |x| := if_neg hx
    rw [e] at h ⊢
    have := round_err hR (abs_nonneg x) h
    have e2 : sgn (decide (x < 0)) * |x| = x := by
      by_cases h0 : x < 0
      · rw [abs_of_neg h0]; simp [sgn, h0]
      · rw [abs_of_nonneg (not_lt.1 h0)]; simp [sgn, h0]
    rwa [e2] at this

theorem neg_rv (x : Flt R) : (-x).rv = -x.rv := by
  rw [neg_def]
  cases x with
  | nan => simp [neg, rv]
  | inf s => simp [neg, rv]
  | fin s m => cases s <;> simp [neg, rv, val, sgn]

theorem neg_fin {x : Flt R} : IsFin (-x) ↔ IsFin x := by
  rw [neg_def]
  cases x <;> simp [neg, IsFin]

theorem zero_rv : (0 : Flt R).rv = 0 := by simp [zero_def, rv, val]

theorem zero_fin : IsFin (0 : Flt R) := ⟨_, _, rfl⟩

theorem add_err (hR : R.Accurate u η) {x y : Flt R} (h : IsFin (x + y)) :
    IsFin x ∧ IsFin y ∧ Err u η (x.rv + y.rv) (x + y).rv := by
  rw [add_def] at *
  cases x with
  | nan => obtain ⟨_, _, h⟩ := h; cases h
  | inf s =>
    obtain ⟨_, _, h⟩ := h
    cases y with
    | nan => cases h
    | inf t => simp only [add] at h; split_ifs at h
    | fin t n => cases h
  | fin s m =>
    cases y with
    | nan => obtain ⟨_, _, h⟩ := h; cases h
    | inf t => obtain ⟨_, _, h⟩ := h; cases h
    | fin t n => exact ⟨⟨_, _, rfl⟩, ⟨_, _, rfl⟩, ofReal_err hR h⟩

theorem sub_err (hR : R.Accurate u η) {x y : Flt R} (h : IsFin (x - y)) :
    IsFin x ∧ IsFin y ∧ Err u η (x.rv - y.rv) (x - y).rv := by
  obtain ⟨h1, h2, h3⟩ := add_err hR (x := x) (y := -y) h
  rw [neg_rv] at h3
  exact ⟨h1, neg_fin.1 h2, h3⟩

theorem proper_round (s : Bool) (y : ℝ) : Proper (round s y : Flt R) := by
  intro t m h
  unfold round at h
  cases hz : R.rnd y with
  | none => rw [hz] at h; cases h
  | some z =>
    rw [hz] at h
    cases h
    exact R.rnd_nonneg _ _ hz

theorem proper_fin_zero (s : Bool) : Proper (fin s 0 : Flt R) := by
  intro t m h
  cases h
  exact le_rfl

theorem proper_ofReal (s : Bool) (x : ℝ) : Proper (ofReal s x : Flt R) := by
  unfold ofReal
  split_ifs
  · exact proper_fin_zero s
  · exact proper_round _ _

theorem proper_neg {x : Flt R} (h : Proper x) : Proper (-x) := by
  rw [neg_def]
  cases x with
  | fin s m => intro t k e; cases e; exact h s m rfl
  | _ => intro t k e; cases e

theorem proper_add (x y : Flt R) : Proper (x + y) := by
  rw [add_def]
  cases x <;> cases y <;> simp only [add] <;> try (intro t k e; cases e)
  · split_ifs <;> (intro t k e; cases e)
  · exact proper_ofReal _ _

theorem proper_sub (x y : Flt R) : Proper (x - y) := proper_add x (-y)

theorem proper_mul (x y : Flt R) : Proper (x * y) := by
  rw [mul_def]
  cases x <;> cases y <;> simp only [mul] <;> try (intro t k e; cases e)
  · split_ifs <;> (intro t k e; cases e)
  · split_ifs <;> (intro t k e; cases e)
  · exact proper_round _ _

theorem proper_div (x y : Flt R) : Proper (x / y) := by
  rw [div_def]
  cases x <;> cases y <;> simp only [div] <;> try (intro t k e; cases e)
  · exact le_rfl
  · split_ifs
    · intro t k e; cases e
    · intro t k e; cases e
    · exact proper_round _ _

theorem proper_sqrt (x : Flt R) : Proper (NdFloat.sqrt x) := by
  show Proper (sqrt x)
  cases x with
  | nan => intro t k e; cases e
  | inf s => simp only [sqrt]; split_ifs <;> (intro t k e; cases e)
  | fin s m =>
    simp only [sqrt]
    split_ifs with h
    · rw [h]; exact proper_fin_zero s
    · intro t k e; cases e
    · exact proper_round _ _

theorem mul_err (hR : R.Accurate u η) {x y : Flt R} (hx : Proper x) (hy : Proper y) (h : IsFin (x * y)) :
    IsFin x ∧ IsFin y ∧ Err u η (x.rv * y.rv) (x * y).rv := by
  rw [mul_def] at *
  cases x with
  | nan => obtain ⟨_, _, h⟩ := h; cases h
  | inf s =>
    obtain ⟨_, _, h⟩ := h
    cases y with
    | nan => cases h
    | inf t => cases h
    | fin t n => simp only [mul] at h; split_ifs at h
  | fin s m =>
    cases y with
    | nan => obtain ⟨_, _, h⟩ := h; cases h
    | inf t => obtain ⟨_, _, h⟩ := h; simp only [mul] at h; split_ifs at h
    | fin t n =>
      refine ⟨⟨_, _, rfl⟩, ⟨_, _, rfl⟩, ?_⟩
      have := round_err hR (mul_nonneg (hx s m rfl) (hy t n rfl)) h
      rw [sgn_xor, show sgn s * sgn t * (m * n) = (sgn s * m) * (sgn t * n) by ring] at this
      exact this

/-- A finite number divided by an infinity is zero, so the divisor has to be finite for the argument backwards. -/
theorem div_err (hR : R.Accurate u η) {x y : Flt R} (hx : Proper x) (hy : Proper y) (hf : IsFin y) (h : IsFin (x / y)) :
    IsFin x ∧ y.rv ≠ 0 ∧ Err u η (x.rv / y.rv) (x / y).rv := by
  rw [div_def] at *
  obtain ⟨t, n, rfl⟩ := hf
  cases x with
  | nan => obtain ⟨_, _, h⟩ := h; cases h
  | inf s => obtain ⟨_, _, h⟩ := h; cases h
  | fin s m =>
    have hn : n ≠ 0 := by
      rintro rfl
      obtain ⟨_, _, h⟩ := h
      simp only [div] at h
      split_ifs at h
    have e : div (fin s m) (fin t n) = (round (s != t) (m / n) : Flt R) := if_neg hn
    rw [e] at h ⊢
    have ht : sgn t ≠ 0 := by cases t <;> simp [sgn]
    refine ⟨⟨_, _, rfl⟩, mul_ne_zero ht hn, ?_⟩
    have := round_err hR (div_nonneg (hx s m rfl) (hy t n rfl)) h
    have e2 : sgn (s != t) * (m / n) = (sgn s * m) / (sgn t * n) := by
      rw [sgn_xor]
      cases s <;> cases t <;> simp [sgn, neg_div_neg_eq, neg_div, div_neg]
    rw [e2] at this
    exact this

theorem sqrt_err (hR : R.Accurate u η) {x : Flt R} (hx : Proper x) (h : IsFin (NdFloat.sqrt x)) :
    IsFin x ∧ 0 ≤ x.rv ∧ Err u η (Real.sqrt x.rv) (NdFloat.sqrt x).rv := by
  change IsFin (sqrt x) at h
  change _ ∧ _ ∧ Err u η _ (sqrt x).rv
  cases x with
  | nan => obtain ⟨_, _, h⟩ := h; cases h
  | inf s => obtain ⟨_, _, h⟩ := h; simp only [sqrt] at h; split_ifs at h
  | fin s m =>
    by_cases hm : m = 0
    · subst hm
      have e : sqrt (fin s 0) = (fin s 0 : Flt R) := if_pos rfl
      refine ⟨⟨_, _, rfl⟩, by simp [rv, val], 1, 0, near_one hR.u_nonneg hR.u_lt_one 1, by
        rw [abs_zero]; exact hR.η_nonneg, ?_⟩
      rw [e]
      simp [rv, val]
    · cases s with
      | true =>
        have e : sqrt (fin true m) = (nan : Flt R) := by simp [sqrt, hm]
        rw [e] at h
        obtain ⟨_, _, h⟩ := h
        cases h
      | false =>
        have e : sqrt (fin false m) = (round false (Real.sqrt m) : Flt R) := by simp [sqrt, hm]
        rw [e] at h ⊢
        have := round_err hR (Real.sqrt_nonneg m) h
        have e3 : (fin false m : Flt R).rv = m := by simp [rv, val, sgn]
        rw [e3]
        simp only [sgn, Bool.false_eq_true, if_false, one_mul] at this
        exact ⟨⟨_, _, rfl⟩, hx _ _ rfl, this⟩

end Flt

end LinfaLinalg
