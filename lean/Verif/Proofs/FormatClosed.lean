import Verif.Proofs.ParamClosed
import Verif.Proofs.PowerFloat
import Verif.Proofs.IeeeErr

/-! # Every operation on the numbers of a format gives a number of the format -/

namespace LinfaLinalg
open Flt Par

variable {F : Format}

local notation "𝔽" => Flt (Rounding.ieee F)

theorem roundEven_le_nat {x : ℝ} {k : ℤ} (h : x ≤ k) : roundEven x ≤ k := by
  have h1 := (abs_le.1 (roundEven_err x)).2
  have h2 : (roundEven x : ℝ) < k + 1 := by linarith
  exact_mod_cast Int.lt_add_one_iff.1 (by exact_mod_cast h2)

theorem roundEven_ge_nat {x : ℝ} {k : ℤ} (h : (k : ℝ) ≤ x) : k ≤ roundEven x := by
  have h1 := (abs_le.1 (roundEven_err x)).1
  have h2 : (k : ℝ) < roundEven x + 1 := by linarith
  exact_mod_cast Int.lt_add_one_iff.1 (by exact_mod_cast h2)

/-- Magnitudes of the finite numbers of a format. -/
def IsMag (F : Format) (m : ℝ) : Prop :=
  ∃ (k : ℕ) (e : ℤ), k < 2 ^ (F.mant + 1) ∧ F.emin ≤ e ∧ e ≤ F.emax - F.mant - 1 ∧ m = k * (2 : ℝ) ^ e

theorem IsMag.nonneg {m : ℝ} (h : IsMag F m) : 0 ≤ m := by
  obtain ⟨k, e, -, -, -, rfl⟩ := h
  positivity

theorem isMag_zero : IsMag F 0 :=
  ⟨0, 0, by positivity, by have := F.half; omega, by have := F.one; omega, by simp⟩

theorem isMag_one : IsMag F 1 :=
  ⟨1, 0, Nat.one_lt_two_pow (by omega), by have := F.half; omega, by have := F.one; omega, by simp⟩

theorem Format.round_zero : F.round 0 = some 0 := by
  unfold Format.round
  simp only [zero_div]
  rw [show ((0 : ℝ)) = ((0 : ℤ) : ℝ) by norm_num, roundEven_int]
  simp only [Int.cast_zero, zero_mul, abs_zero]
  rw [if_pos (by positivity)]

theorem Format.round_isMag {x y : ℝ} (h0 : 0 ≤ x) (h : F.round x = some y) : IsMag F y := by
  rcases h0.eq_or_lt with rfl | hx
  · rw [Format.round_zero] at h
    cases h
    exact isMag_zero
  unfold Format.round at h
  simp only at h
  split_ifs at h with hlt
  cases h
  set E := F.exp x with hE
  have hpE := two_zpow_pos E
  have hE1 : F.emin ≤ E := le_max_right _ _
  have hlog : x < (2 : ℝ) ^ (Int.log 2 x + 1) := by
    have := Int.lt_zpow_succ_log_self (b := 2) (by norm_num) x
    exact_mod_cast this
  have hlog' : (2 : ℝ) ^ (Int.log 2 x) ≤ x := by
    have := Int.zpow_log_le_self (b := 2) (by norm_num) hx
    exact_mod_cast this
  have hE2 : Int.log 2 x - F.mant ≤ E := le_max_left _ _
  have hpow : ∀ k : ℕ, ((2 ^ k : ℤ) : ℝ) * 2 ^ E = (2 : ℝ) ^ ((k : ℤ) + E) := by
    intro k
    rw [zpow_add₀ (by norm_num), zpow_natCast]
    push_cast
    rfl
  have hup : x / 2 ^ E ≤ ((2 ^ (F.mant + 1) : ℤ) : ℝ) := by
    rw [div_le_iff₀ hpE, hpow]
    exact hlog.le.trans (zpow_le_zpow_right₀ (by norm_num) (by push_cast; omega))
  have hk1 := roundEven_le_nat hup
  have hk0 : 0 ≤ roundEven (x / 2 ^ E) := roundEven_ge_nat (k := 0) (by push_cast; positivity)
  obtain ⟨k, hk⟩ := Int.eq_ofNat_of_zero_le hk0
  rw [hk] at hlt hk1 ⊢
  have hk2 : k ≤ 2 ^ (F.mant + 1) := by exact_mod_cast hk1
  have hnn : (0 : ℝ) ≤ ((k : ℤ) : ℝ) * 2 ^ E := by positivity
  rw [abs_of_nonneg hnn] at hlt ⊢
  rw [Int.cast_natCast] at hlt ⊢
  have hhalf := F.half
  have hone := F.one
  have hE3 : E ≤ F.emax - F.mant - 1 := by
    by_contra hc
    have hE4 : E = Int.log 2 x - F.mant := by
      rcases max_choice (Int.log 2 x - F.mant) F.emin with h | h
      · exact h
      · have : E = F.emin := h
        omega
    have hlow : ((2 ^ F.mant : ℤ) : ℝ) ≤ x / 2 ^ E := by
      rw [le_div_iff₀ hpE, hpow, hE4]
      refine le_trans (le_of_eq ?_) hlog'
      congr 1
      ring
    have := roundEven_ge_nat hlow
    rw [hk] at this
    have hk3 : ((2 ^ F.mant : ℤ) : ℝ) ≤ k := by exact_mod_cast this
    have : (2 : ℝ) ^ F.emax ≤ k * 2 ^ E := by
      calc (2 : ℝ) ^ F.emax ≤ 2 ^ ((F.mant : ℤ) + E) := zpow_le_zpow_right₀ (by norm_num) (by omega)
        _ = ((2 ^ F.mant : ℤ) : ℝ) * 2 ^ E := (hpow _).symm
        _ ≤ k * 2 ^ E := by gcongr
    linarith
  rcases hk2.eq_or_lt with hk4 | hk4
  · refine ⟨2 ^ F.mant, E + 1, Nat.pow_lt_pow_right (by norm_num) (by omega), by omega, ?_, ?_⟩
    · by_contra hc
      have h5 : (2 : ℝ) ^ F.emax ≤ (k : ℝ) * 2 ^ E := by
        rw [hk4]
        calc (2 : ℝ) ^ F.emax ≤ 2 ^ (((F.mant + 1 : ℕ) : ℤ) + E) := zpow_le_zpow_right₀ (by norm_num) (by push_cast; omega)
          _ = ((2 ^ (F.mant + 1) : ℕ) : ℝ) * 2 ^ E := by rw [← hpow]; push_cast; rfl
      linarith
    · rw [hk4, zpow_add₀ (by norm_num)]
      push_cast
      ring
  · exact ⟨k, E, hk4, hE1, hE3, rfl⟩

/-- Numbers of the format are not rounded. -/
theorem IsMag.round {m : ℝ} (h : IsMag F m) : F.round m = some m := by
  rcases h.nonneg.eq_or_lt with h0 | h0
  · rw [← h0, Format.round_zero]
  obtain ⟨k, e, hk, h1, h2, hx⟩ := h
  have hlog : Int.log 2 m < (F.mant + 1 : ℕ) + e := by
    rw [← Int.lt_zpow_iff_log_lt (by norm_num) h0, hx]
    rw [show (((2 : ℕ) : ℝ)) = 2 by norm_num, zpow_add₀ (by norm_num), zpow_natCast]
    refine mul_lt_mul_of_pos_right ?_ (by positivity)
    exact_mod_cast hk
  have hle : F.exp m ≤ e := max_le (by push_cast at hlog; omega) h1
  obtain ⟨n, hn⟩ := Int.le.dest hle
  unfold Format.round
  dsimp only
  set e' := F.exp m with he'
  have h3 : m / 2 ^ e' = ((k * 2 ^ n : ℤ) : ℝ) := by
    rw [hx, ← hn, zpow_add₀ (by norm_num)]
    push_cast
    rw [zpow_natCast]
    field_simp
  have h4 : |((roundEven (m / 2 ^ e') : ℤ) : ℝ) * 2 ^ e'| = m := by
    rw [h3, roundEven_int, ← h3, div_mul_cancel₀ _ (by positivity), abs_of_pos h0]
  rw [h4, if_pos]
  have hb := (Int.lt_zpow_iff_log_lt (b := 2) (by norm_num) h0 (x := (F.mant + 1 : ℕ) + e)).2 hlog
  refine lt_of_lt_of_le hb ?_
  rw [show (((2 : ℕ) : ℝ)) = 2 by norm_num]
  exact zpow_le_zpow_right₀ (by norm_num) (by push_cast; omega)

/-- Rounding has a relative error of at most `2 ^ (-mant - 1)` and an absolute error of at most `2 ^ (emin - 1)`. -/
theorem ieee_accurate (F : Format) (P : DotPlans) : ({ Rounding.ieee F with plans := P } : Rounding).Accurate
    (2 ^ (-(F.mant : ℤ) - 1)) (2 ^ (F.emin - 1)) where
  u_nonneg := by positivity
  u_lt_one := zpow_lt_one_of_neg₀ (by norm_num) (by omega)
  η_nonneg := by positivity
  η_le_one := zpow_le_one_of_nonpos₀ (by norm_num) (by have := F.half; omega)
  err y z hy h := by
    have h' : F.round y = some z := h
    rcases eq_or_lt_of_le hy with h0 | h0
    · subst h0
      rw [Format.round_zero] at h'
      cases h'
      rw [sub_self, abs_zero]
      positivity
    unfold Format.round at h'
    dsimp only at h'
    split_ifs at h'
    cases h'
    set E := F.exp y with hE
    have hp : (0 : ℝ) < 2 ^ E := by positivity
    have hr := roundEven_err (y / 2 ^ E)
    have e : (roundEven (y / 2 ^ E) : ℝ) * 2 ^ E - y = ((roundEven (y / 2 ^ E) : ℝ) - y / 2 ^ E) * 2 ^ E := by
      rw [sub_mul, div_mul_cancel₀ _ hp.ne']
    have h1 : |(roundEven (y / 2 ^ E) : ℝ) * 2 ^ E - y| ≤ 1 / 2 * 2 ^ E := by
      rw [e, abs_mul, abs_of_pos hp]
      exact mul_le_mul_of_nonneg_right hr hp.le
    have h2 : |(|(roundEven (y / 2 ^ E) : ℝ) * 2 ^ E| - y)| ≤ 1 / 2 * 2 ^ E := by
      refine le_trans ?_ h1
      have := abs_abs_sub_abs_le ((roundEven (y / 2 ^ E) : ℝ) * 2 ^ E) y
      rwa [abs_of_nonneg hy] at this
    refine h2.trans ?_
    have hhalf : (1 : ℝ) / 2 * 2 ^ E = 2 ^ (E - 1) := by
      rw [zpow_sub₀ (by norm_num)]
      ring
    rw [hhalf]
    rcases max_cases (Int.log 2 y - F.mant) F.emin with ⟨hm, -⟩ | ⟨hm, -⟩
    · have hb : E = Int.log 2 y - F.mant := hm
      have hl' : (2 : ℝ) ^ Int.log 2 y ≤ y := by
        have := Int.zpow_log_le_self (b := 2) (by norm_num) h0
        exact_mod_cast this
      have : (2 : ℝ) ^ (E - 1) = 2 ^ (-(F.mant : ℤ) - 1) * 2 ^ Int.log 2 y := by
        rw [hb, ← zpow_add₀ (by norm_num)]
        congr 1
        ring
      rw [this]
      exact (mul_le_mul_of_nonneg_left hl' (by positivity)).trans (le_add_of_nonneg_right (by positivity))
    · have hb : E = F.emin := hm
      rw [hb]
      exact le_add_of_nonneg_left (by positivity)

theorem isFloat_round {s : Bool} {x : ℝ} (h : 0 ≤ x) : IsFloat F (Flt.round s x : 𝔽) := by
  unfold Flt.round
  split
  · trivial
  · rename_i y hy
    exact Format.round_isMag h hy

theorem isFloat_ofReal (s : Bool) (x : ℝ) : IsFloat F (Flt.ofReal s x : 𝔽) := by
  unfold Flt.ofReal
  split
  · exact isMag_zero
  · exact isFloat_round (abs_nonneg _)

theorem isFloat_neg {a : 𝔽} (h : IsFloat F a) : IsFloat F (Flt.neg a) := by
  cases a <;> exact h

theorem isFloat_add {a b : 𝔽} : IsFloat F (Flt.add a b) := by
  cases a <;> cases b <;> unfold Flt.add
  any_goals trivial
  · dsimp only
    split_ifs <;> trivial
  · exact isFloat_ofReal _ _

theorem isFloat_mul {a b : 𝔽} (ha : IsFloat F a) (hb : IsFloat F b) : IsFloat F (Flt.mul a b) := by
  cases a <;> cases b <;> unfold Flt.mul
  any_goals trivial
  · dsimp only
    split_ifs <;> trivial
  · dsimp only
    split_ifs <;> trivial
  · exact isFloat_round (mul_nonneg (IsMag.nonneg ha) (IsMag.nonneg hb))

theorem isFloat_fma {a b c : 𝔽} : IsFloat F (Flt.fma a b c) := by
  cases a <;> cases b <;> cases c <;> unfold Flt.fma
  any_goals first | trivial | exact isFloat_add
  exact isFloat_ofReal _ _

theorem isFloat_div {a b : 𝔽} (ha : IsFloat F a) (hb : IsFloat F b) : IsFloat F (Flt.div a b) := by
  cases a <;> cases b <;> unfold Flt.div
  any_goals trivial
  · exact isMag_zero
  · dsimp only
    split_ifs
    · trivial
    · trivial
    · exact isFloat_round (div_nonneg (IsMag.nonneg ha) (IsMag.nonneg hb))

theorem closed_float : ClosedScalars (IsFloat F) where
  zero := isMag_zero
  one := isMag_one
  add := fun a b _ _ => isFloat_add
  sub := fun a b _ _ => isFloat_add
  mul := fun a b => isFloat_mul
  div := fun a b => isFloat_div
  neg := fun a => isFloat_neg
  sqrt := fun a ha => by
    change IsFloat F (Flt.sqrt a)
    cases a <;> unfold Flt.sqrt
    · trivial
    · dsimp only
      split_ifs <;> trivial
    · dsimp only
      split_ifs
      · exact ha
      · trivial
      · exact isFloat_round (Real.sqrt_nonneg _)
  abs := fun a ha => by
    cases a
    · trivial
    · trivial
    · exact ha
  signum := fun a ha => by
    cases a
    · trivial
    · exact isMag_one
    · exact isMag_one
  hypot := fun a b _ _ => by
    change IsFloat F (Flt.hypot a b)
    cases a <;> cases b <;> unfold Flt.hypot
    any_goals trivial
    dsimp only
    split
    · trivial
    · rename_i y hy
      exact Format.round_isMag (Real.sqrt_nonneg _) hy
  max := fun a b ha hb => by
    change IsFloat F (Flt.max a b)
    cases a <;> cases b <;> unfold Flt.max
    any_goals first | exact ha | exact hb
    all_goals dsimp only; split_ifs <;> assumption
  ofRat := fun q => isFloat_ofReal _ _
  negInf := trivial
  epsilon := ⟨1, -(F.mant : ℤ), Nat.one_lt_two_pow (by omega), by have := F.half; omega, by have := F.one; omega, by
    change (2 : ℝ)⁻¹ ^ F.mant = _
    rw [zpow_neg, zpow_natCast, inv_pow, Nat.cast_one, one_mul]⟩
  dot := fun l hl => by
    change IsFloat F (DotPlan.eval _ _ _ _ _ _)
    generalize (Rounding.ieee F).plans.plan l.length = p
    have hd : ∀ k, IsFloat F (l.getD k (Flt.fin false 0, Flt.fin false 0)).1 ∧
        IsFloat F (l.getD k (Flt.fin false 0, Flt.fin false 0)).2 := fun k => by
      rw [List.getD_eq_getElem?_getD]
      cases hk : l[k]? with
      | none => exact ⟨isMag_zero, isMag_zero⟩
      | some p => exact hl p (List.mem_of_getElem? hk)
    induction p with
    | zero => exact isMag_zero
    | prod k => exact isFloat_mul (hd k).1 (hd k).2
    | add s t _ _ => exact isFloat_add
    | fma s k _ => exact isFloat_fma

theorem closed_double : ClosedScalars IsDouble := closed_float

end LinfaLinalg
