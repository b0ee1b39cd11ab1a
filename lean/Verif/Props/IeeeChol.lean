import Verif.Props.IeeeSolve
import Verif.Props.Overflow

/-! # C96: what `cholesky` leaves on the diagonal in IEEE arithmetic -/

namespace LinfaLinalg

open Matrix Flt

variable {R : Rounding} {u η : ℝ}

/-- Magnitudes below `2¹⁰²³` do not overflow. -/
theorem b64Round_small {x : ℝ} (h0 : 0 ≤ x) (h : x < (2 : ℝ) ^ (1023 : ℤ)) : ∃ y, b64Round x = some y := by
  rcases eq_or_lt_of_le h0 with rfl | h0
  · refine ⟨0, ?_⟩
    unfold b64Round
    simp only [zero_div]
    have : roundEven (0 : ℝ) = 0 := by simpa using roundEven_int 0
    rw [this, Int.cast_zero, zero_mul, abs_zero, if_pos (by positivity)]
  have hlog : Int.log 2 x < 1023 := by
    rw [← Int.lt_zpow_iff_log_lt (by norm_num) h0, show (((2 : ℕ) : ℝ)) = 2 by norm_num]
    exact h
  have he : b64Exp x ≤ 970 := max_le (by omega) (by norm_num)
  have hp : (0 : ℝ) < 2 ^ b64Exp x := by positivity
  have hr := (abs_le.1 (roundEven_err (x / 2 ^ b64Exp x))).2
  have hlo := (abs_le.1 (roundEven_err (x / 2 ^ b64Exp x))).1
  have h2 : (2 : ℝ) ^ b64Exp x ≤ 2 ^ (970 : ℤ) := zpow_le_zpow_right₀ (by norm_num) he
  have hn : 0 ≤ x / 2 ^ b64Exp x := by positivity
  have e3 : x / 2 ^ b64Exp x * 2 ^ b64Exp x = x := div_mul_cancel₀ _ hp.ne'
  have h970 : (2 : ℝ) ^ (970 : ℤ) ≤ 2 ^ (1023 : ℤ) := zpow_le_zpow_right₀ (by norm_num) (by norm_num)
  have h1024 : (2 : ℝ) ^ (1024 : ℤ) = 2 * 2 ^ (1023 : ℤ) := by
    rw [show (1024 : ℤ) = 1 + 1023 by norm_num, zpow_add₀ (by norm_num), zpow_one]
  refine ⟨_, if_pos ?_⟩
  set q := x / 2 ^ b64Exp x with hq
  set k : ℝ := (roundEven q : ℝ)
  set w : ℝ := 2 ^ b64Exp x
  set t : ℝ := 2 ^ (1023 : ℤ)
  rw [h1024, abs_lt]
  have h5 : (k - q) * w ≤ 1 / 2 * w := mul_le_mul_of_nonneg_right hr hp.le
  have h6 : -(1 / 2) * w ≤ (k - q) * w := mul_le_mul_of_nonneg_right hlo hp.le
  rw [sub_mul, e3] at h5 h6
  have h7 : w ≤ t := h2.trans h970
  clear_value w t k q
  clear h2 h970 h1024
  constructor <;> linarith

/-- Magnitudes up to a double do not overflow. -/
theorem b64Round_le {m x : ℝ} (hm : b64Round m = some m) (h0 : 0 ≤ x) (hx : x ≤ m) : ∃ y, b64Round x = some y := by
  rcases lt_or_ge x ((2 : ℝ) ^ (1023 : ℤ)) with h | h
  · exact b64Round_small h0 h
  unfold b64Round at hm
  dsimp only at hm
  split_ifs at hm with hm1
  rw [Option.some.injEq] at hm
  rw [hm] at hm1
  have hp : (0 : ℝ) < 2 ^ (1023 : ℤ) := by positivity
  have hx0 : 0 < x := lt_of_lt_of_le hp h
  have hm0 : 0 < m := lt_of_lt_of_le hx0 hx
  have hlog : ∀ y : ℝ, 2 ^ (1023 : ℤ) ≤ y → y < 2 ^ (1024 : ℤ) → b64Exp y = 971 := by
    intro y h1 h2
    have hy0 : 0 < y := lt_of_lt_of_le hp h1
    have a1 : (1023 : ℤ) ≤ Int.log 2 y := by
      rw [← Int.zpow_le_iff_le_log (by norm_num) hy0]
      exact_mod_cast h1
    have a2 : Int.log 2 y < 1024 := by
      rw [← Int.lt_zpow_iff_log_lt (by norm_num) hy0]
      exact_mod_cast h2
    unfold b64Exp
    rw [max_eq_left (by omega)]
    omega
  have ex := hlog x h (lt_of_le_of_lt hx hm1)
  have em := hlog m (h.trans hx) hm1
  rw [em] at hm
  have hw : (0 : ℝ) < 2 ^ (971 : ℤ) := by positivity
  set k := roundEven (m / 2 ^ (971 : ℤ)) with hk
  have hk0 : 0 ≤ k := by
    have := (abs_le.1 (roundEven_err (m / 2 ^ (971 : ℤ)))).1
    have h1 : 0 < m / 2 ^ (971 : ℤ) := by positivity
    have h2 : (-1 : ℝ) < k := by linarith
    have : (-1 : ℤ) < k := by exact_mod_cast h2
    omega
  rw [abs_of_nonneg (mul_nonneg (by exact_mod_cast hk0) hw.le)] at hm
  have hq : x / 2 ^ (971 : ℤ) ≤ k := by
    rw [div_le_iff₀ hw, hm]
    exact hx
  have hr : roundEven (x / 2 ^ (971 : ℤ)) ≤ k := by
    have hfl : ⌊x / 2 ^ (971 : ℤ)⌋ ≤ k := by
      have := (Int.floor_mono hq).trans_eq (Int.floor_intCast k)
      exact this
    rcases Int.lt_or_eq_of_le hfl with h1 | h1
    · unfold roundEven
      split_ifs <;> omega
    · have : x / 2 ^ (971 : ℤ) = k := le_antisymm hq (by rw [← h1]; exact Int.floor_le _)
      rw [this, roundEven_int]
  have hr0 : 0 ≤ roundEven (x / 2 ^ (971 : ℤ)) := by
    have := (abs_le.1 (roundEven_err (x / 2 ^ (971 : ℤ)))).1
    have h1 : 0 < x / 2 ^ (971 : ℤ) := by positivity
    have h2 : (-1 : ℝ) < roundEven (x / 2 ^ (971 : ℤ)) := by linarith
    have : (-1 : ℤ) < roundEven (x / 2 ^ (971 : ℤ)) := by exact_mod_cast h2
    omega
  refine ⟨_, if_pos ?_⟩
  rw [ex, abs_of_nonneg (mul_nonneg (by exact_mod_cast hr0) hw.le)]
  refine lt_of_le_of_lt ?_ hm1
  calc _ ≤ (k : ℝ) * 2 ^ (971 : ℤ) := mul_le_mul_of_nonneg_right (by exact_mod_cast hr) hw.le
    _ = m := hm

namespace Flt

/-- NaN, plus infinity, or a number that is not negative. -/
def NotNeg (x : Flt R) : Prop := x = nan ∨ x = inf false ∨ ∃ s m, x = fin s m ∧ 0 ≤ val s m

theorem notNeg_round (y : ℝ) : NotNeg (Flt.round false y : Flt R) := by
  unfold Flt.round
  cases h : R.rnd y with
  | none => exact Or.inr (Or.inl rfl)
  | some z => exact Or.inr (Or.inr ⟨_, _, rfl, by simpa [val, sgn] using R.rnd_nonneg _ _ h⟩)

theorem notNeg_sq (x : Flt R) : NotNeg (x * x) := by
  rw [mul_def]
  cases x with
  | nan => exact Or.inl rfl
  | inf s => simp only [mul, bne_self_eq_false]; exact Or.inr (Or.inl rfl)
  | fin s m => simp only [mul, bne_self_eq_false]; exact notNeg_round _

theorem notNeg_add {x y : Flt R} (hx : NotNeg x) (hy : NotNeg y) : NotNeg (x + y) := by
  rw [add_def]
  rcases hx with rfl | rfl | ⟨s, m, rfl, hm⟩
  · exact Or.inl rfl
  · rcases hy with rfl | rfl | ⟨t, n, rfl, hn⟩
    · exact Or.inl rfl
    · simp only [add, if_true]; exact Or.inr (Or.inl rfl)
    · exact Or.inr (Or.inl rfl)
  · rcases hy with rfl | rfl | ⟨t, n, rfl, hn⟩
    · exact Or.inl rfl
    · exact Or.inr (Or.inl rfl)
    · simp only [add, ofReal]
      split_ifs with h
      · exact Or.inr (Or.inr ⟨_, _, rfl, by simp [val]⟩)
      · rw [decide_eq_false (not_lt.2 (add_nonneg hm hn))]
        exact notNeg_round _

theorem notNeg_sumTo (n : Nat) (f : Nat → Flt R) : NotNeg (sumTo n fun k => f k * f k) := by
  unfold sumTo
  induction n with
  | zero => exact Or.inr (Or.inr ⟨_, _, rfl, by simp [val]⟩)
  | succ n ih =>
    rw [List.range_succ, List.foldl_append]
    exact notNeg_add ih (notNeg_sq _)

end Flt

/-- C96, what to check: when `cholesky` accepts a matrix of doubles and no diagonal entry of the factor is NaN, they are
all finite, so that the bounds of `C96_backward_error` hold. -/
theorem C96_nan_or_finite (P : DotPlans) {n : Nat} (a l : Arr2 (Flt { Rounding.binary64 with plans := P }))
    (ha : HasShape a n n) (hd : ∀ i, i < n → ∃ s m, a.get i i = .fin s m ∧ 0 ≤ m ∧ b64Round m = some m)
    (h : cholesky a = .ok l) (hl : ∀ i, i < n → l.get i i ≠ .nan) (i : Nat) (hi : i < n) : IsFin (l.get i i) := by
  obtain ⟨rfl, ha2⟩ := ha
  rcases cholesky_cases a ha2.symm with ⟨b, hb, hr, -, -⟩ | ⟨hb, -⟩
  swap
  · rw [hb] at h
    cases h
  rw [hb] at h
  cases h
  have e : (cleanLower b).get i i = b.get i i := by
    simp only [cleanLower]
    rw [if_neg (by omega)]
  have hni := hl i hi
  rw [e] at hni ⊢
  have hp := hr.piv i hi
  rw [hr.diag i hi] at hni ⊢
  obtain ⟨s, m, hm, hm0, hmr⟩ := hd i hi
  change Flt.le _ _ = false at hp
  change Flt.sqrt _ ≠ nan at hni
  change IsFin (Flt.sqrt _)
  unfold pivot at hp hni ⊢
  rw [hm, sub_def] at hp hni ⊢
  rcases notNeg_sumTo i (fun c => b.get i c) with hS | hS | ⟨t, k, hS, hk⟩
  · rw [hS] at hni
    exact absurd rfl hni
  · rw [hS] at hp
    change Flt.le (.inf true) (.fin false 0) = false at hp
    simp [Flt.le] at hp
  rw [hS] at hp hni ⊢
  simp only [Flt.neg, Flt.add] at hp hni ⊢
  have hv : val (!t) k = - val t k := by cases t <;> simp [val, sgn]
  rw [hv] at hp hni ⊢
  set v := val s m + -val t k with hvd
  have hz : (0 : Flt { Rounding.binary64 with plans := P }) = .fin false 0 := rfl
  rw [hz] at hp
  have hrnd : ∀ neg y, (Flt.round neg y : Flt { Rounding.binary64 with plans := P }) =
    match b64Round y with | none => .inf neg | some z => .fin neg z := fun _ _ => rfl
  have hnn : ∀ y z, b64Round y = some z → 0 ≤ z := Rounding.binary64.rnd_nonneg
  rcases lt_trichotomy v 0 with h0 | h0 | h0
  · exfalso
    rw [ofReal, if_neg h0.ne, decide_eq_true h0, hrnd] at hp
    cases hz : b64Round |v| with
    | none => rw [hz] at hp; simp [Flt.le] at hp
    | some z => rw [hz] at hp; have := hnn _ _ hz; simp [Flt.le, val, sgn] at hp; linarith
  · exfalso
    rw [ofReal, if_pos h0] at hp
    simp [Flt.le, val] at hp
  · have hvm : v ≤ m := by
      have : val s m ≤ m := by cases s <;> simp [val, sgn]; linarith
      linarith
    obtain ⟨y, hy⟩ := b64Round_le hmr h0.le hvm
    have hy' : b64Round |v| = some y := by rw [abs_of_pos h0]; exact hy
    rw [ofReal, if_neg h0.ne', decide_eq_false (not_lt.2 h0.le), hrnd, hy'] at hp ⊢
    simp only [Flt.sqrt]
    have hy0 := hnn _ _ hy
    split_ifs with h1 h2
    · exact ⟨_, _, rfl⟩
    · exact absurd h2 (by simp)
    have hy1 : y < 2 ^ (1024 : ℤ) := by
      unfold b64Round at hy
      dsimp only at hy
      split_ifs at hy with hlt
      cases hy
      exact hlt
    have hs : Real.sqrt y < 2 ^ (1023 : ℤ) := by
      rw [Real.sqrt_lt' (by positivity)]
      refine lt_of_lt_of_le hy1 ?_
      rw [← zpow_natCast, ← _root_.zpow_mul]
      exact zpow_le_zpow_right₀ (by norm_num) (by norm_num)
    obtain ⟨z, hz⟩ := b64Round_small (Real.sqrt_nonneg y) hs
    rw [hrnd, hz]
    exact ⟨_, _, rfl⟩

local notation "𝔽" => Flt Rounding.binary64

/-- The matrix `[[2⁻¹⁰⁰⁰, 0, 2⁶⁰⁰], [0, 1, 0], [2⁶⁰⁰, 0, 1]]`. -/
noncomputable def exIndef : Arr2 𝔽 :=
  ⟨3, 3, fun i j => if i = j then (if i = 0 then .fin false (2 ^ (-1000 : ℤ)) else .fin false 1)
    else if i = 1 ∨ j = 1 then .fin false 0 else .fin false (2 ^ (600 : ℤ))⟩

/-- C96, why it must be checked: `cholesky` accepts a finite symmetric matrix that is far from positive definite, with a
NaN in the factor. The overflow of `l₂₀` is turned into a NaN by the zero `l₁₀`, and a NaN pivot is not rejected. -/
theorem C96_accepts_indefinite : (∀ i j, ∃ m, exIndef.get i j = .fin false m) ∧
    (∀ i j, exIndef.get i j = exIndef.get j i) ∧
    (∃ x : Fin 3 → ℝ, x ⬝ᵥ (toMat 3 3 (vals exIndef)).mulVec x < 0) ∧
    ∃ l, cholesky exIndef = .ok l ∧ l.get 2 2 = .nan := by
  refine ⟨?_, ?_, ⟨![1, 0, -1], ?_⟩, ?_⟩
  · intro i j
    simp only [exIndef]
    split_ifs <;> exact ⟨_, rfl⟩
  · intro i j
    simp only [exIndef]
    by_cases h : i = j
    · subst h; rfl
    · rw [if_neg h, if_neg (Ne.symm h)]
      simp only [or_comm]
  · simp only [dotProduct, Matrix.mulVec, Fin.sum_univ_three, toMat_apply, vals, exIndef, rv]
    simp [val, sgn]
    have h3 : ((2 : ℝ) ^ 1000)⁻¹ < 1 := inv_lt_one_of_one_lt₀ (one_lt_pow₀ (by norm_num) (by norm_num))
    have h4 : (1 : ℝ) ≤ 2 ^ 600 := one_le_pow₀ (by norm_num)
    generalize ((2 : ℝ) ^ 1000)⁻¹ = p at h3 ⊢
    generalize (2 : ℝ) ^ 600 = q at h4 ⊢
    linarith
  have b0 : b64Round 0 = some 0 := by
    unfold b64Round
    simp only [zero_div]
    have : roundEven (0 : ℝ) = 0 := by simpa using roundEven_int 0
    rw [this, Int.cast_zero, zero_mul, abs_zero, if_pos (by positivity)]
  have hk : ∀ e : ℤ, -1074 ≤ e → e ≤ 900 → b64Round (2 ^ e) = some (2 ^ e) := fun e h1 h2 =>
    b64_exact 1 e (by norm_num) h1 h2 (by norm_num) (by positivity) rfl
  have hsub : ∀ m : ℝ, 0 < m → b64Round m = some m → (fin false m - 0 : 𝔽) = fin false m := fun m h1 h2 =>
    b64_sub h2 h1 (by simp [val])
  have hsub0 : ∀ t, (fin false 0 - fin t 0 : 𝔽) = fin (false && !t) 0 := by
    intro t
    rw [sub_def]
    simp only [Flt.neg, Flt.add, val, mul_zero, add_zero]
    exact if_pos rfl
  -- the entries determined by the first rows
  have e00 : pivot exIndef exIndef 0 = fin false (2 ^ (-1000 : ℤ)) :=
    hsub _ (by positivity) (hk _ (by norm_num) (by norm_num))
  have p0 : ∀ b : Arr2 𝔽, pivot exIndef b 0 = fin false (2 ^ (-1000 : ℤ)) := fun b => e00
  have l00 : ∀ b : Arr2 𝔽, b.get 0 0 = NdFloat.sqrt (pivot exIndef b 0) → b.get 0 0 = fin false (2 ^ (-500 : ℤ)) := by
    intro b h
    rw [h, p0]
    exact b64_sqrt (hk _ (by norm_num) (by norm_num)) (by positivity)
      (by rw [← zpow_add₀ (by norm_num)]; norm_num)
  have hne : (2 : ℝ) ^ (-500 : ℤ) ≠ 0 := by positivity
  have l10 : ∀ b : Arr2 𝔽, b.get 0 0 = fin false (2 ^ (-500 : ℤ)) → OffRow exIndef b 1 → b.get 1 0 = fin false 0 := by
    intro b h ho
    rw [ho 0 (by norm_num), h]
    change (fin false 0 - fin false 0 : 𝔽) / _ = _
    rw [hsub0]
    exact b64_div hne (by rw [zero_div]; exact b0) rfl
  have p1 : ∀ b : Arr2 𝔽, b.get 1 0 = fin false 0 → pivot exIndef b 1 = fin false 1 := by
    intro b h
    change fin false 1 - ((0 : 𝔽) + b.get 1 0 * b.get 1 0) = _
    rw [h, b64_mul (k := 0) (r := false) (by rw [mul_zero]; exact b0) rfl]
    have : (0 + fin false 0 : 𝔽) = 0 := by
      rw [add_def, zero_def]
      simp only [Flt.add, val, mul_zero, add_zero]
      exact if_pos rfl
    rw [this]
    exact hsub _ one_pos (by simpa using hk 0 (by norm_num) (by norm_num))
  have l20 : ∀ b : Arr2 𝔽, b.get 0 0 = fin false (2 ^ (-500 : ℤ)) → OffRow exIndef b 2 → b.get 2 0 = .inf false := by
    intro b h ho
    rw [ho 0 (by norm_num), h]
    change (fin false (2 ^ (600 : ℤ)) - 0 : 𝔽) / _ = _
    rw [hsub _ (by positivity) (hk _ (by norm_num) (by norm_num)), div_def]
    simp only [Flt.div]
    rw [if_neg hne]
    have : b64Round ((2 : ℝ) ^ (600 : ℤ) / 2 ^ (-500 : ℤ)) = none := b64Round_overflow (by
      rw [← zpow_sub₀ (by norm_num)]
      exact zpow_le_zpow_right₀ (by norm_num) (by norm_num))
    unfold Flt.round
    change (match b64Round ((2 : ℝ) ^ (600 : ℤ) / 2 ^ (-500 : ℤ)) with | none => _ | some _ => _) = _
    rw [this]
    rfl
  have l21 : ∀ b : Arr2 𝔽, b.get 1 0 = fin false 0 → b.get 2 0 = .inf false → OffRow exIndef b 2 → b.get 2 1 = .nan := by
    intro b h1 h2 ho
    rw [ho 1 (by norm_num)]
    change (fin false 0 - ((0 : 𝔽) + b.get 1 0 * b.get 2 0)) / _ = _
    have : (fin false 0 * .inf false : 𝔽) = .nan := if_pos rfl
    rw [h1, h2, this]
    rfl
  have p2 : ∀ b : Arr2 𝔽, b.get 2 0 = .inf false → b.get 2 1 = .nan → pivot exIndef b 2 = .nan := by
    intro b h1 h2
    change fin false 1 - (((0 : 𝔽) + b.get 2 0 * b.get 2 0) + b.get 2 1 * b.get 2 1) = _
    rw [h1, h2]
    rfl
  rcases cholesky_cases exIndef rfl with ⟨b, hb, hr, -, -⟩ | ⟨-, -, b, j, hj, hf, -⟩
  · refine ⟨_, hb, ?_⟩
    have h0 := l00 b (hr.diag 0 (by norm_num [exIndef]))
    have h2 := hr.off 2 (by norm_num [exIndef])
    have h20 := l20 b h0 h2
    have h21 := l21 b (l10 b h0 (hr.off 1 (by norm_num [exIndef]))) h20 h2
    simp only [cleanLower]
    rw [if_neg (by omega), hr.diag 2 (by norm_num [exIndef]), p2 b h20 h21]
    rfl
  · exfalso
    have hbad := hf.bad
    change j < 3 at hj
    change Flt.le _ (.fin false 0) = true at hbad
    interval_cases j
    · rw [p0] at hbad
      have : (0 : ℝ) < 2 ^ (-1000 : ℤ) := by positivity
      have h2 : val false (2 ^ (-1000 : ℤ)) ≤ val false 0 := of_decide_eq_true hbad
      simp only [val, sgn, Bool.false_eq_true, if_false, one_mul] at h2
      exact absurd this (not_lt.2 h2)
    · rw [p1 b (l10 b (l00 b (hf.diag 0 (by norm_num))) (hf.off 1 le_rfl))] at hbad
      simp only [Flt.le, val, sgn] at hbad
      norm_num at hbad
    · have h0 := l00 b (hf.diag 0 (by norm_num))
      have h2 := hf.off 2 le_rfl
      have h20 := l20 b h0 h2
      have h21 := l21 b (l10 b h0 (hf.off 1 (by norm_num))) h20 h2
      rw [p2 b h20 h21] at hbad
      cases hbad

/-- The matrix `[[4, 2], [2, 5]]` in doubles; its factor is `[[2, 0], [1, 2]]`. -/
noncomputable def exDblSpd : Arr2 𝔽 :=
  ⟨2, 2, fun i j => if i = j then (if i = 0 then .fin false 4 else .fin false 5) else .fin false 2⟩

/-- The right-hand side `(8, 9)`. -/
noncomputable def exDblRhs : Arr2 𝔽 := ⟨2, 1, fun i _ => if i = 0 then .fin false 8 else .fin false 9⟩

/-- The hypotheses of C96, C97 and of `C96_nan_or_finite` are met by a matrix of doubles; `solvec` returns the column
`(11 / 8, 5 / 4)`. -/
theorem exDblSpd_finite : (∃ l, cholesky exDblSpd = .ok l ∧ ∀ i, i < 2 → IsFin (l.get i i) ∧ l.get i i ≠ .nan) ∧
    (∀ i, i < 2 → ∃ s m, exDblSpd.get i i = .fin s m ∧ 0 ≤ m ∧ b64Round m = some m) ∧
    ∃ x, solvec exDblSpd exDblRhs = .ok x ∧ x.get 0 0 = .fin false (11 / 8) ∧ x.get 1 0 = .fin false (5 / 4) := by
  have hd : ∀ k : ℤ, 0 < k → k < 2 ^ 53 → b64Round ((k : ℝ) * 2 ^ (-3 : ℤ)) = some ((k : ℝ) * 2 ^ (-3 : ℤ)) :=
    fun k h1 h2 => b64_exact k (-3) (by rw [abs_of_pos h1]; exact h2) (by norm_num) (by norm_num) rfl
      (by have : (0 : ℝ) < k := by exact_mod_cast h1
          positivity) rfl
  have r1 : b64Round 1 = some 1 := by have := hd 8 (by norm_num) (by norm_num); norm_num at this; exact this
  have r2 : b64Round 2 = some 2 := by have := hd 16 (by norm_num) (by norm_num); norm_num at this; exact this
  have r4 : b64Round 4 = some 4 := by have := hd 32 (by norm_num) (by norm_num); norm_num at this; exact this
  have r5 : b64Round 5 = some 5 := by have := hd 40 (by norm_num) (by norm_num); norm_num at this; exact this
  have r52 : b64Round (5 / 2) = some (5 / 2) := by
    have := hd 20 (by norm_num) (by norm_num); norm_num at this; exact this
  have r54 : b64Round (5 / 4) = some (5 / 4) := by
    have := hd 10 (by norm_num) (by norm_num); norm_num at this; exact this
  have r114 : b64Round (11 / 4) = some (11 / 4) := by
    have := hd 22 (by norm_num) (by norm_num); norm_num at this; exact this
  have r118 : b64Round (11 / 8) = some (11 / 8) := by
    have := hd 11 (by norm_num) (by norm_num); norm_num at this; exact this
  have p0 : ∀ b : Arr2 𝔽, pivot exDblSpd b 0 = fin false 4 := fun b => by
    change (fin false 4 - fin false 0 : 𝔽) = _
    exact b64_sub r4 (by norm_num) (by simp [val])
  have l00 : ∀ b : Arr2 𝔽, b.get 0 0 = NdFloat.sqrt (pivot exDblSpd b 0) → b.get 0 0 = fin false 2 := by
    intro b h
    rw [h, p0]
    exact b64_sqrt r2 (by norm_num) (by norm_num)
  have l10 : ∀ b : Arr2 𝔽, b.get 0 0 = fin false 2 → OffRow exDblSpd b 1 → b.get 1 0 = fin false 1 := by
    intro b h ho
    rw [ho 0 (by norm_num), h]
    change (fin false 2 - fin false 0 : 𝔽) / _ = _
    rw [b64_sub (r := false) r2 (by norm_num) (by simp [val])]
    exact b64_div (by norm_num) (by norm_num; exact r1) rfl
  have p1 : ∀ b : Arr2 𝔽, b.get 1 0 = fin false 1 → pivot exDblSpd b 1 = fin false 4 := by
    intro b h
    change fin false 5 - ((0 : 𝔽) + b.get 1 0 * b.get 1 0) = _
    rw [h, b64_mul (k := 1) (r := false) (by rw [mul_one]; exact r1) rfl]
    rw [zero_def, b64_add (r := false) r1 one_pos (by simp [val])]
    exact b64_sub r4 (by norm_num) (by norm_num [val, sgn])
  have main : ∃ b, cholesky exDblSpd = .ok (cleanLower b) ∧ choleskyDirty exDblSpd = .ok b ∧ b.nr = 2 ∧ b.nc = 2 ∧
      b.get 0 0 = fin false 2 ∧ b.get 1 0 = fin false 1 ∧ b.get 1 1 = fin false 2 := by
    rcases cholesky_cases exDblSpd rfl with ⟨b, hb, hr, hd, -⟩ | ⟨-, -, b, j, hj, hf, -⟩
    · have h0 := l00 b (hr.diag 0 (by norm_num [exDblSpd]))
      have h1 := l10 b h0 (hr.off 1 (by norm_num [exDblSpd]))
      refine ⟨b, hb, hd, hr.nr, hr.nc, h0, h1, ?_⟩
      rw [hr.diag 1 (by norm_num [exDblSpd]), p1 b h1]
      exact b64_sqrt r2 (by norm_num) (by norm_num)
    · exfalso
      have hbad := hf.bad
      change j < 2 at hj
      change Flt.le _ (.fin false 0) = true at hbad
      interval_cases j
      · rw [p0] at hbad
        norm_num [Flt.le, val, sgn] at hbad
      · rw [p1 b (l10 b (l00 b (hf.diag 0 (by norm_num))) (hf.off 1 le_rfl))] at hbad
        norm_num [Flt.le, val, sgn] at hbad
  obtain ⟨b, hb, hd, hnr, hnc, h0, h1, h2⟩ := main
  refine ⟨⟨_, hb, ?_⟩, ?_, ?_⟩
  · intro i hi
    have : (cleanLower b).get i i = .fin false 2 := by
      simp only [cleanLower]
      rw [if_neg (by omega)]
      interval_cases i
      · exact h0
      · exact h2
    rw [this]
    exact ⟨⟨_, _, rfl⟩, by simp⟩
  · intro i hi
    interval_cases i
    · exact ⟨_, _, rfl, by norm_num, r4⟩
    · exact ⟨_, _, rfl, by norm_num, r5⟩
  unfold solvec
  rw [hd]
  simp only [ok_bind]
  rw [solveTriangular_eq b exDblRhs .lower (by rw [hnr, hnc]) (by rw [hnr]; rfl)]
  simp only [ok_bind]
  rw [solveTriangular_eq b.t _ .upper (by show b.nc = b.nr; rw [hnr, hnc]) (by show 2 = b.nc; rw [hnc])]
  have q1 : (fin false 8 / fin false 2 : 𝔽) = fin false 4 := b64_div (by norm_num) (by norm_num; exact r4) rfl
  have q2 : (-fin false 4 * fin false 1 : 𝔽) = fin true 4 := b64_mul (by rw [mul_one]; exact r4) rfl
  have q3 : (fin false 9 + fin true 4 : 𝔽) = fin false 5 := b64_add r5 (by norm_num) (by norm_num [val, sgn])
  have q4 : (fin false 5 / fin false 2 : 𝔽) = fin false (5 / 2) := b64_div (by norm_num) r52 rfl
  have q5 : (fin false (5 / 2) / fin false 2 : 𝔽) = fin false (5 / 4) := b64_div (by norm_num) (by norm_num; exact r54) rfl
  have q6 : (-fin false (5 / 4) * fin false 1 : 𝔽) = fin true (5 / 4) := b64_mul (by rw [mul_one]; exact r54) rfl
  have q7 : (fin false 4 + fin true (5 / 4) : 𝔽) = fin false (11 / 4) :=
    b64_add r114 (by norm_num) (by norm_num [val, sgn])
  have q8 : (fin false (11 / 4) / fin false 2 : 𝔽) = fin false (11 / 8) :=
    b64_div (by norm_num) (by norm_num; exact r118) rfl
  refine ⟨_, rfl, ?_, ?_⟩
  all_goals
    simp only [exDblRhs, hnr, hnc, Arr2.t, elimOrder, List.range', List.reverse_cons, List.reverse_nil, List.nil_append,
      List.cons_append, List.foldl_cons, List.foldl_nil, elimStep, elimRows, h0, h1, h2]
    norm_num [q1, q2, q3, q4, q5, q6, q7, q8]

end LinfaLinalg
