import Verif.Spec.Ieee
import Verif.Proofs.Svd
import Verif.Proofs.Eigh

/-! # NaN -/

set_option linter.unusedSectionVars false
set_option linter.unusedSimpArgs false

namespace LinfaLinalg

/-! ## The `2 × 2` eigenvalue computation on IEEE-like scalars -/

namespace Flt
variable {R : Rounding}

/-- Not NaN and not negative: `+∞` or a finite number with a clear sign bit or zero magnitude. -/
def Good : Flt R → Prop
  | nan => False
  | inf s => s = false
  | fin s m => 0 ≤ val s m

theorem Good.le_zero {x : Flt R} (h : Good x) : NdFloat.le (0 : Flt R) x = true := by
  cases x with
  | nan => exact h.elim
  | inf s => cases h; rfl
  | fin s m =>
    show le (fin false 0) (fin s m) = true
    simp only [le, decide_eq_true_eq]
    have : val false 0 = 0 := by simp [val]
    rw [this]; exact h

/-- A float that is not NaN. -/
def NotNan (x : Flt R) : Prop := x ≠ nan

theorem good_round {m : ℝ} : Good (round false m : Flt R) := by
  unfold round
  cases h : R.rnd m with
  | none => rfl
  | some y =>
    have := R.rnd_nonneg _ _ h
    simpa [Good, val, sgn] using this

theorem good_sq {x : Flt R} (h : x ≠ nan) : Good (x * x) := by
  rw [mul_def]
  cases x with
  | nan => exact absurd rfl h
  | inf s => simp [mul, Good]
  | fin s m =>
    simp only [mul, bne_self_eq_false]
    exact good_round

theorem good_ofReal {x : ℝ} {z : Bool} (h : 0 ≤ x) : Good (ofReal z x : Flt R) := by
  unfold ofReal
  split_ifs with h0
  · simp [Good, val]
  · rw [show decide (x < 0) = false by simpa using h]
    exact good_round

theorem good_add {x y : Flt R} (hx : Good x) (hy : Good y) : Good (x + y) := by
  rw [add_def]
  cases x with
  | nan => exact hx.elim
  | inf s =>
    cases hx
    cases y with
    | nan => exact hy.elim
    | inf t => cases hy; simp [add, Good]
    | fin t n => simp [add, Good]
  | fin s m =>
    cases y with
    | nan => exact hy.elim
    | inf t => cases hy; simp [add, Good]
    | fin t n => exact good_ofReal (add_nonneg hx hy)

theorem ofReal_ne_nan (z : Bool) (x : ℝ) : (ofReal z x : Flt R) ≠ nan := by
  unfold ofReal round
  split_ifs
  · simp
  · cases R.rnd |x| <;> simp

theorem fin_sub_ne_nan (s t : Bool) (m n : ℝ) : (fin s m - fin t n : Flt R) ≠ nan := by
  show ofReal _ _ ≠ nan
  exact ofReal_ne_nan _ _

/-- Multiplication by a finite nonzero number does not produce NaN. -/
theorem mul_fin_ne_nan {x : Flt R} {q : Bool} {p : ℝ} (hx : x ≠ nan) (hp : p ≠ 0) :
    (x * fin q p : Flt R) ≠ nan := by
  rw [mul_def]
  cases x with
  | nan => exact absurd rfl hx
  | inf s => simp [mul, hp]
  | fin s m =>
    simp only [mul, round]
    cases R.rnd (m * p) <;> simp

theorem nan_lt (x : Flt R) : lt nan x = false := rfl
theorem lt_nan (x : Flt R) : lt x nan = false := by cases x <;> rfl
theorem posInf_lt (x : Flt R) : lt (inf false) x = false := by cases x <;> rfl

/-- The deflation test does not select a block with a NaN or infinite entry on the diagonal, nor
one with a NaN beside it. -/
theorem deflate_fin {a o b : Flt R} {e : ℝ} (he : 0 < e)
    (h : NdFloat.lt ((fin false e : Flt R) * (NdFloat.abs b + NdFloat.abs a)) (NdFloat.abs o) = true) :
    (∃ s m, a = fin s m) ∧ (∃ s m, b = fin s m) ∧ o ≠ nan := by
  change lt (mul (fin false e) (add (abs b) (abs a))) (abs o) = true at h
  have key : ∃ s m, add (abs b) (abs a) = fin s m ∨ (∃ s m, a = fin s m) ∧ (∃ s m, b = fin s m) := by
    cases hy : add (abs b) (abs a) with
    | fin s m => exact ⟨s, m, Or.inl rfl⟩
    | nan => rw [hy] at h; exact absurd h (by simp [mul, nan_lt])
    | inf s =>
      refine ⟨false, 0, Or.inr ?_⟩
      cases a with
      | fin s m =>
        cases b with
        | fin t n => exact ⟨⟨_, _, rfl⟩, ⟨_, _, rfl⟩⟩
        | nan => simp [abs, add] at hy
        | inf t => simp [abs, add, mul, he.ne', posInf_lt] at h
      | nan => cases b <;> simp [abs, add] at hy
      | inf s => cases b <;> simp [abs, add, mul, he.ne', posInf_lt, nan_lt] at h
  have hab : (∃ s m, a = fin s m) ∧ (∃ s m, b = fin s m) := by
    obtain ⟨s, m, hk | hk⟩ := key
    · cases a <;> cases b <;> simp [abs, add] at hk ⊢
    · exact hk
  refine ⟨hab.1, hab.2, ?_⟩
  rintro rfl
  exact absurd h (by rw [show abs (nan : Flt R) = nan from rfl, lt_nan]; simp)

theorem half_eq : (NdFloat.ofRat (1 / 2) : Flt R) = fin false (1 / 2) := by
  show ofReal false ((1 / 2 : ℚ) : ℝ) = _
  have : ((1 / 2 : ℚ) : ℝ) = 1 / 2 := by norm_num
  rw [this]
  unfold ofReal round
  rw [if_neg (by norm_num), abs_of_pos (by norm_num), R.rnd_half]
  simp

theorem safe2x2 {e : ℝ} (he : 0 < e) : Safe2x2 (fin false e : Flt R) := by
  intro a o b h
  obtain ⟨⟨s, m, rfl⟩, ⟨t, n, rfl⟩, ho⟩ := deflate_fin he h
  unfold compute2x2Eigvals
  simp only [half_eq]
  have hv : ((fin s m - fin t n : Flt R) * fin false (1 / 2) : Flt R) ≠ nan :=
    mul_fin_ne_nan (fin_sub_ne_nan _ _ _ _) (by norm_num)
  rw [(good_add (good_sq ho) (good_sq hv)).le_zero]
  simp

end Flt
end LinfaLinalg
