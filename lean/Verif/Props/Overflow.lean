import Verif.Proofs.Overflow
import Verif.Proofs.Underflow

/-! # C94: overflow in the Householder reduction

`reflection_axis_mut` squares the entries of a column without scaling it. Values of type `Flt Rounding.binary64` carry
IEEE double precision. -/

namespace LinfaLinalg

/-- Magnitudes from `2¹⁰²⁴` on overflow. -/
theorem b64Round_overflow {y : ℝ} (h : (2 : ℝ) ^ (1024 : ℤ) ≤ y) : b64Round y = none := by
  have hp : (0 : ℝ) < 2 ^ (1024 : ℤ) := by positivity
  have hy : 0 < y := lt_of_lt_of_le hp h
  have hlog : (1024 : ℤ) ≤ Int.log 2 y := by
    rw [← Int.zpow_le_iff_le_log (by norm_num) hy]
    exact_mod_cast h
  have he : b64Exp y = Int.log 2 y - 52 := max_eq_left (by omega)
  have hq : (2 : ℝ) ^ (52 : ℤ) ≤ y / 2 ^ b64Exp y := by
    rw [le_div_iff₀ (by positivity), he, ← zpow_add₀ (by norm_num), show (52 : ℤ) + (Int.log 2 y - 52) = Int.log 2 y by ring]
    have := Int.zpow_log_le_self (b := 2) (by norm_num) hy
    exact_mod_cast this
  have hr : ((2 : ℝ) ^ (52 : ℤ)) ≤ (roundEven (y / 2 ^ b64Exp y) : ℝ) := by
    have hf : (2 ^ 52 : ℤ) ≤ ⌊y / 2 ^ b64Exp y⌋ := by
      rw [Int.le_floor]
      have : ((2 ^ 52 : ℤ) : ℝ) = 2 ^ (52 : ℤ) := by norm_num
      rw [this]
      exact hq
    have : (2 ^ 52 : ℤ) ≤ roundEven (y / 2 ^ b64Exp y) := by
      unfold roundEven
      split_ifs <;> omega
    have h2 : ((2 ^ 52 : ℤ) : ℝ) ≤ (roundEven (y / 2 ^ b64Exp y) : ℝ) := by exact_mod_cast this
    have : ((2 ^ 52 : ℤ) : ℝ) = 2 ^ (52 : ℤ) := by norm_num
    rw [← this]
    exact h2
  unfold b64Round
  dsimp only
  rw [if_neg]
  rw [not_lt]
  refine le_trans ?_ (le_abs_self _)
  calc (2 : ℝ) ^ (1024 : ℤ) ≤ 2 ^ Int.log 2 y := zpow_le_zpow_right₀ (by norm_num) hlog
    _ = 2 ^ (52 : ℤ) * 2 ^ b64Exp y := by rw [he, ← zpow_add₀ (by norm_num)]; congr 1; ring
    _ ≤ _ := mul_le_mul_of_nonneg_right hr (by positivity)

/-- The magnitude of a double is at least `2⁵¹²`. -/
def Large {R : Rounding} (x : Flt R) : Prop := ∃ s m, x = .fin s m ∧ (2 : ℝ) ^ (512 : ℤ) ≤ m

theorem Large.sqInf {P : DotPlans} {x : Flt { Rounding.binary64 with plans := P }} (h : Large x) : Flt.SqInf x := by
  obtain ⟨s, m, rfl, hm⟩ := h
  have hp : (0 : ℝ) < 2 ^ (512 : ℤ) := by positivity
  refine Or.inr ⟨s, m, rfl, lt_of_lt_of_le hp hm, fun y hy => b64Round_overflow ?_⟩
  refine le_trans ?_ hy
  calc (2 : ℝ) ^ (1024 : ℤ) = 2 ^ (512 : ℤ) * 2 ^ (512 : ℤ) := by rw [← zpow_add₀ (by norm_num)]; norm_num
    _ ≤ m * m := mul_self_le_mul_self hp.le hm

/-- C94, `least_squares`: in double precision, whatever the order of summation, a single entry of magnitude at least
`2⁵¹²` in the first column (the first row, if there are more columns than rows) is not reported, and every entry of
the answer is NaN. The other entries of that line may be any numbers; nothing is assumed about the rest of the matrix or
about the right-hand side. -/
theorem C94_least_squares_nan (P : DotPlans) (a b : Arr2 (Flt { Rounding.binary64 with plans := P })) (hb : b.nr = a.nr)
    (h0 : 0 < a.nr) (h0' : 0 < a.nc)
    (h : a.nc ≤ a.nr ∧ (∀ i, i < a.nr → a.get i 0 ≠ .nan) ∧ (∃ r, r < a.nr ∧ Large (a.get r 0)) ∨
      a.nr < a.nc ∧ (∀ i, i < a.nc → a.get 0 i ≠ .nan) ∧ ∃ c, c < a.nc ∧ Large (a.get 0 c)) :
    ∃ x, leastSquares a b = .ok x ∧ HasShape x a.nc b.nc ∧ ∀ i k, i < a.nc → k < b.nc → x.get i k = .nan := by
  rcases h with ⟨hle, h, r, hr, hl⟩ | ⟨hlt, h, c, hc, hl⟩
  · exact leastSquares_overflow a b hb hle h0' hr h hl.sqInf
  · exact leastSquares_overflow_wide a b hb hlt h0 hc h hl.sqInf

/-- C94, `qr` and `inverse`: an entry of magnitude at least `2⁵¹²` in the first column of a square matrix turns every
entry of the inverse into NaN. -/
theorem C94_inverse_nan (P : DotPlans) (a : Arr2 (Flt { Rounding.binary64 with plans := P })) (hs : a.nr = a.nc)
    (h : ∀ i, i < a.nr → a.get i 0 ≠ .nan) (r : Nat) (hr : r < a.nr) (hl : Large (a.get r 0)) :
    ∃ x, (do let q ← qrInto a; q.inverse) = .ok x ∧ HasShape x a.nr a.nr ∧
      ∀ i k, i < a.nr → k < a.nr → x.get i k = .nan := by
  obtain ⟨x, hx, h1, h2⟩ := leastSquares_overflow a (Arr2.eye a.nr a.nr) rfl (by omega) (by omega) hr h hl.sqInf
  refine ⟨x, ?_, ⟨h1.1.trans hs.symm, h1.2⟩, fun i k hi hk => h2 i k (by omega) hk⟩
  obtain ⟨q, hq, hsh⟩ := qrInto_ok a (by omega)
  unfold leastSquares at hx
  rw [if_pos (by omega), hq, ok_bind] at hx
  rw [hq, ok_bind]
  unfold QRDecomp.inverse checkSquare
  rw [if_neg (by rw [hsh.nr, hsh.nc]; simpa using hs)]
  simp only [ok_bind]
  rw [hsh.len, ← hs]
  exact hx

/-- C94: the first step of the reduction stores an infinite norm, and no later step recovers a number: all further
diagonal entries of `R` are NaN. -/
theorem C94_qr_diag (P : DotPlans) (a : Arr2 (Flt { Rounding.binary64 with plans := P })) (hle : a.nc ≤ a.nr)
    (h0 : 0 < a.nc) (h : ∀ i, i < a.nr → a.get i 0 ≠ .nan) (r : Nat) (hr : r < a.nr) (hl : Large (a.get r 0)) :
    ∃ q s, qrInto a = .ok q ∧ q.isInvertible = true ∧ q.diag.get 0 = .inf s ∧
      ∀ i, 0 < i → i < a.nc → q.diag.get i = .nan := by
  obtain ⟨q, s, hq, hsh, h2, -, h4⟩ := qrInto_overflow a hle h0 hr h hl.sqInf
  exact ⟨q, s, hq, isInvertible_overflow hsh h2 h4, h2, h4⟩

/-- The matrix `2⁵¹² I` satisfies the hypotheses: its inverse exists, is representable, and is returned as NaN. -/
example : ∃ x, (do let q ← qrInto (⟨3, 3, fun i j => .fin false (if i = j then (2 : ℝ) ^ (512 : ℤ) else 0)⟩ :
      Arr2 (Flt { Rounding.binary64 with plans := .unrolled })); q.inverse) = .ok x ∧ x.get 1 1 = .nan ∧
    b64Round ((2 : ℝ) ^ (512 : ℤ))⁻¹ = some ((2 : ℝ) ^ (512 : ℤ))⁻¹ := by
  obtain ⟨x, hx, -, h⟩ := C94_inverse_nan .unrolled
    ⟨3, 3, fun i j => .fin false (if i = j then (2 : ℝ) ^ (512 : ℤ) else 0)⟩ rfl (fun i _ h => by cases h) 0 (by norm_num)
    ⟨false, _, rfl, by simp⟩
  refine ⟨x, hx, h 1 1 (by norm_num) (by norm_num), ?_⟩
  exact b64_exact 1 (-512) (by norm_num) (by norm_num) (by norm_num) (by rw [zpow_neg, Int.cast_one, one_mul])
    (by positivity) rfl

end LinfaLinalg
