import Verif.Proofs.Underflow
import Mathlib.LinearAlgebra.Matrix.Notation
set_option linter.unusedSimpArgs false
/-!
# Gradual underflow

C90: `reflection_axis_mut` squares the entries of a column without scaling it, so the reductions are wrong in
double precision when those squares underflow. Values of type `Flt Rounding.binary64` carry IEEE double precision
with subnormal numbers; the results on `Rnd` (C65-C88) are about arithmetic without underflow.
-/

namespace LinfaLinalg

open Matrix

local notation "𝔽" => Flt Rounding.binary64

local macro "exb" k:term:max e:term:max : term =>
  `(b64_exact $k $e (by norm_num) (by norm_num) (by norm_num) (by norm_num) (by norm_num) (by norm_num))

/-- The square root of the smallest subnormal number. -/
noncomputable def rho : ℝ := (2 : ℝ) ^ (-537 : ℤ)

local notation "ρ" => rho

theorem rho_sq : (2 : ℝ) ^ (-1074 : ℤ) = ρ * ρ := by
  rw [rho, ← zpow_add₀ (by norm_num)]; norm_num

theorem rho_pos : 0 < ρ := by unfold rho; positivity

theorem rho_small : ρ ≤ 1 / 2 ^ 60 := by
  rw [rho, show (1 / 2 ^ 60 : ℝ) = 2 ^ (-60 : ℤ) by norm_num]
  exact zpow_le_zpow_right₀ (by norm_num) (by norm_num)

theorem b64_rho {x y : ℝ} (k j : ℤ) (hk : |k| < 2 ^ 53) (hj : -4 ≤ j) (hj' : j ≤ 4) (hx : x = k * 2 ^ j * ρ) (h0 : 0 < x)
    (hy : y = x) : b64Round x = some y :=
  b64_exact k (j - 537) hk (by omega) (by omega) (by rw [hx, mul_assoc, rho, ← zpow_add₀ (by norm_num)]; rfl) h0 hy

theorem b64_sub_rho {x y : ℝ} (k : ℤ) (hk : |k| < 2 ^ 53) (hx : x = k * (ρ * ρ)) (h0 : 0 < x)
    (hy : y = x) : b64Round x = some y :=
  b64_exact k (-1074) hk (by omega) (by omega) (by rw [hx, rho_sq]) h0 hy

/-- The reflection for the column `3/4 ρ`: every operation, and an axis of length `7/8`. -/
theorem tinyAxis :
    (0 + Flt.fin false (3 / 4 * ρ) * Flt.fin false (3 / 4 * ρ) : 𝔽) = .fin false (ρ * ρ) ∧
    NdFloat.sqrt (Flt.fin false (ρ * ρ) : 𝔽) = .fin false ρ ∧
    NdFloat.signum (Flt.fin false (3 / 4 * ρ) : 𝔽) * .fin false ρ = .fin false ρ ∧
    (Flt.fin false (3 / 4 * ρ) + Flt.fin false ρ : 𝔽) = .fin false (7 / 4 * ρ) ∧
    (Flt.fin false (ρ * ρ) + NdFloat.abs (Flt.fin false (3 / 4 * ρ)) * Flt.fin false ρ : 𝔽) * NdFloat.ofRat 2 =
      .fin false (4 * (ρ * ρ)) ∧
    NdFloat.isZero (Flt.fin false (4 * (ρ * ρ)) : 𝔽) = false ∧
    NdFloat.sqrt (Flt.fin false (4 * (ρ * ρ)) : 𝔽) = .fin false (2 * ρ) ∧
    (Flt.fin false (7 / 4 * ρ) / Flt.fin false (2 * ρ) : 𝔽) = .fin false (7 / 8) := by
  have hp := rho_pos
  have hpp : 0 < ρ * ρ := by positivity
  have g1 : b64Round (ρ * ρ) = some (ρ * ρ) := b64_sub_rho 1 (by norm_num) (by norm_num) hpp rfl
  refine ⟨?_, ?_, ?_, ?_, ?_, ?_, ?_, ?_⟩
  · rw [Flt.b64_mul (r := false) (k := ρ * ρ) (by rw [← rho_sq]; apply b64_tiny <;> rw [rho_sq] <;> nlinarith) rfl]
    exact Flt.b64_add g1 hpp (by simp [Flt.val])
  · exact Flt.b64_sqrt (b64_rho 1 0 (by norm_num) (by norm_num) (by norm_num) (by norm_num) hp rfl) hp rfl
  · exact Flt.b64_mul (b64_rho 1 0 (by norm_num) (by norm_num) (by norm_num) (by norm_num) (by simp [hp]) (by ring)) rfl
  · exact Flt.b64_add (b64_rho 7 (-2) (by norm_num) (by norm_num) (by norm_num) (by norm_num) (by linarith) rfl)
      (by linarith) (by simp [Flt.val, Flt.sgn]; ring)
  · rw [Flt.b64_two]
    have : (NdFloat.abs (Flt.fin false (3 / 4 * ρ)) * Flt.fin false ρ : 𝔽) = .fin false (ρ * ρ) :=
      Flt.b64_mul (by rw [← rho_sq]; apply b64_tiny <;> rw [rho_sq] <;> nlinarith) rfl
    rw [this, Flt.b64_add (r := false) (k := 2 * (ρ * ρ)) (b64_sub_rho 2 (by norm_num) (by norm_num) (by linarith) rfl)
      (by linarith) (by simp [Flt.val, Flt.sgn]; ring)]
    exact Flt.b64_mul (b64_sub_rho 4 (by norm_num) (by push_cast; ring) (by linarith) (by ring)) rfl
  · show Flt.isZero _ = false
    simp only [Flt.isZero, decide_eq_false_iff_not]
    positivity
  · exact Flt.b64_sqrt (b64_rho 2 0 (by norm_num) (by norm_num) (by norm_num) (by norm_num) (by linarith) rfl) (by linarith)
      (by ring)
  · refine Flt.b64_div (by positivity) ?_ rfl
    have : 7 / 4 * ρ / (2 * ρ) = 7 / 8 := by field_simp; norm_num
    rw [this]
    exact exb 7 (-3)

/-- The matrix `[[1, 3/4 ρ], [3/4 ρ, 1]]`. -/
noncomputable def exTiny : Arr2 𝔽 := ⟨2, 2, fun i j => if i = j then .fin false 1 else .fin false (3 / 4 * ρ)⟩

theorem exTiny_amax : exTiny.amax = .fin false 1 := by
  have h1 : ¬ (1 : ℝ) < 3 / 4 * ρ := by have := rho_small; norm_num at this ⊢; linarith
  simp only [Arr2.amax, Arr2.toList, exTiny, List.range_succ, List.range_zero]
  simp [NdFloat.abs, Flt.abs, NdFloat.max, NdFloat.negInf, Flt.max, Flt.lt, Flt.val, Flt.sgn, h1]

/-- **C90 (eigenvalues).** There are symmetric `2 × 2` matrices of doubles with entries between `0` and `1` on which
`eigvalsh` returns a number that is not within `7/10` of any eigenvalue. -/
theorem C90_eigvalsh_wrong : ∃ x : ℝ, 0 < x ∧ x < 1 ∧ b64Round x = some x ∧ ∀ fuel, ∃ vals,
    eigvalsh (fuel + 1) (⟨2, 2, fun i j => if i = j then .fin false 1 else .fin false x⟩ : Arr2 𝔽) = .ok vals ∧
    vals.len = 2 ∧ ∃ l : ℝ, vals.get 1 = .fin false l ∧
    ∀ (l' : ℝ) (v : Fin 2 → ℝ), v ≠ 0 → !![1, x; x, 1] *ᵥ v = l' • v → 7 / 10 < |l' - l| := by
  have hp := rho_pos
  have hs := rho_small
  refine ⟨3 / 4 * ρ, by positivity, by norm_num at hs ⊢; linarith,
    b64_rho 3 (-2) (by norm_num) (by norm_num) (by norm_num) (by norm_num) (by positivity) rfl, fun fuel => ?_⟩
  obtain ⟨a1, a2, a3, a4, a5, a6, a7, a8⟩ := tinyAxis
  have e1 : ∀ {y : ℝ}, b64Round y = some y → (Flt.fin false y / Flt.fin false 1 : 𝔽) = .fin false y := fun h =>
    Flt.b64_div one_ne_zero (by rwa [div_one]) rfl
  obtain ⟨t, ht, t1, t2, t3, t4, t5, t6⟩ := tridiag2 b64_dot_one (fun i j => exTiny.get i j / exTiny.amax)
    (d := .fin false 1) (p := .fin false (7 / 4)) (w := .fin false (49 / 32)) (q := .fin true (49 / 32))
    (m1 := .fin true (17 / 32)) (m2 := .fin true (66 / 32)) (m3 := .fin false (289 / 1024))
    (by rw [exTiny_amax]
        exact e1 (b64_rho 3 (-2) (by norm_num) (by norm_num) (by norm_num) (by norm_num) (by positivity) rfl))
    (by rw [exTiny_amax]; exact e1 (exb 1 0)) a1 a2 a3 a4 a5 a6 a7 a8
    (by
      rw [Flt.b64_mul (r := false) (k := 7 / 8) (exb 7 (-3)) rfl, Flt.zero_def,
        Flt.b64_add (r := false) (k := 7 / 8) (exb 7 (-3)) (by norm_num) (by simp [Flt.val]), Flt.b64_two]
      exact Flt.b64_mul (exb 7 (-2)) rfl)
    (by
      rw [Flt.b64_mul (r := false) (k := 49 / 32) (exb 49 (-5)) rfl, Flt.zero_def]
      exact Flt.b64_add (exb 49 (-5)) (by norm_num) (by simp [Flt.val]))
    (by
      rw [Flt.b64_mul (r := false) (k := 49 / 32) (exb 49 (-5)) rfl, Flt.one_def, Flt.neg_def]
      exact Flt.b64_mul (exb 49 (-5)) rfl)
    (by
      rw [Flt.b64_mul (r := false) (k := 49 / 32) (exb 49 (-5)) rfl, Flt.one_def, Flt.neg_def]
      exact Flt.b64_mul (exb 49 (-5)) rfl)
    (Flt.b64_add (exb 17 (-5)) (by norm_num) (by norm_num [Flt.val, Flt.sgn]))
    (Flt.b64_add (exb 66 (-5)) (by norm_num) (by norm_num [Flt.val, Flt.sgn]))
    (by
      rw [Flt.b64_add (r := false) (k := 49 / 16) (exb 49 (-4)) (by norm_num) (by norm_num [Flt.val, Flt.sgn]),
        Flt.b64_mul (r := false) (k := 49 / 64) (exb 49 (-6)) rfl,
        Flt.b64_mul (r := false) (k := 2401 / 1024) (exb 2401 (-10)) rfl]
      exact Flt.b64_add (exb 289 (-10)) (by norm_num) (by norm_num [Flt.val, Flt.sgn]))
  have t4' : t.diagMatrix.get 0 0 = .fin false 1 := by
    rw [t4, exTiny_amax]; exact e1 (exb 1 0)
  obtain ⟨vals, hv, v1, v2, v3⟩ := eigvals2 b64_dot_one fuel exTiny ⟨rfl, rfl⟩ t
    (by rw [exTiny_amax]; show Flt.isZero _ = false; simp [Flt.isZero]) ht t1 t2 t3
    (by
      rw [t4', t5, t6]
      have e : (NdFloat.abs (Flt.fin false (289 / 1024)) + NdFloat.abs (Flt.fin false 1) : 𝔽) = .fin false (1313 / 1024) :=
        Flt.b64_add (exb 1313 (-10)) (by norm_num) (by norm_num [Flt.val, Flt.sgn])
      rw [e]
      have e' : (NdFloat.epsilon * Flt.fin false (1313 / 1024) : 𝔽) = .fin false ((2 : ℝ)⁻¹ ^ 52 * (1313 / 1024)) := by
        show (Flt.fin false ((2 : ℝ)⁻¹ ^ 52) * Flt.fin false (1313 / 1024) : 𝔽) = _
        exact Flt.b64_mul (exb 1313 (-62)) rfl
      rw [e']
      show Flt.lt _ _ = false
      simp only [Flt.lt, Flt.abs, Flt.neg, NdFloat.abs, Flt.neg_def, decide_eq_false_iff_not, Flt.val, Flt.sgn]
      norm_num at hs ⊢
      linarith)
  refine ⟨vals, hv, v1, 289 / 1024, ?_, ?_⟩
  · rw [v3, t5, exTiny_amax]
    exact Flt.b64_mul (exb 289 (-10)) rfl
  · intro l' v hv0 hl
    have h0 := congrFun hl 0
    have h1 := congrFun hl 1
    simp [Matrix.mulVec, dotProduct, Fin.sum_univ_two] at h0 h1
    set x := 3 / 4 * ρ with hx
    have hx1 : x ≤ 1 / 1000 := by norm_num at hs ⊢; rw [hx]; linarith
    have hx0 : 0 < x := by positivity
    have hq : (l' - 1) ^ 2 = x ^ 2 := by
      have g0 : ((l' - 1) ^ 2 - x ^ 2) * v 0 = 0 := by linear_combination -(l' - 1) * h0 - x * h1
      have g1 : ((l' - 1) ^ 2 - x ^ 2) * v 1 = 0 := by linear_combination -(l' - 1) * h1 - x * h0
      by_contra hne
      apply hv0
      funext i
      have hne' := sub_ne_zero.2 hne
      fin_cases i
      · exact (mul_eq_zero.1 g0).resolve_left hne'
      · exact (mul_eq_zero.1 g1).resolve_left hne'
    have hab : |l' - 1| ≤ 1 / 1000 := by
      rw [← abs_of_pos hx0] at hx1
      exact le_trans (sq_le_sq.1 hq.le) hx1
    rw [abs_le] at hab
    rw [lt_abs]
    left
    linarith

/-- **C90 (linear systems).** There is a double `x > 0` such that `least_squares` solves the `1 × 1` system `x w = x`
with an answer below `2/5`. -/
theorem C90_solve_wrong : ∃ x : ℝ, 0 < x ∧ b64Round x = some x ∧ ∃ (w : Arr2 𝔽) (l : ℝ),
    leastSquares (⟨1, 1, fun _ _ => .fin false x⟩ : Arr2 𝔽) ⟨1, 1, fun _ _ => .fin false x⟩ = .ok w ∧ HasShape w 1 1 ∧
    w.get 0 0 = .fin false l ∧ l < 2 / 5 := by
  have hp := rho_pos
  refine ⟨3 / 4 * ρ, by positivity,
    b64_rho 3 (-2) (by norm_num) (by norm_num) (by norm_num) (by norm_num) (by positivity) rfl, ?_⟩
  obtain ⟨a1, a2, a3, a4, a5, a6, a7, a8⟩ := tinyAxis
  obtain ⟨w, h1, h2, h3⟩ := qrSolve1 b64_dot_one (⟨1, 1, fun _ _ => .fin false (3 / 4 * ρ)⟩ : Arr2 𝔽)
    ⟨1, 1, fun _ _ => .fin false (3 / 4 * ρ)⟩ ⟨rfl, rfl⟩ ⟨rfl, rfl⟩ rfl rfl a1 a2 a3 a4 a5 a6 a7 a8
    (k := .fin true (21 / 16 * ρ)) (d := .fin true (51 / 128 * ρ)) (e := .fin false (51 / 128))
    (by
      show Flt.isZero (Flt.neg _) = false
      simp only [Flt.isZero, Flt.neg, decide_eq_false_iff_not]
      exact hp.ne')
    (by
      have hr : b64Round (21 / 32 * ρ) = some (21 / 32 * ρ) :=
        b64_exact 21 (-542) (by norm_num) (by norm_num) (by norm_num)
          (by rw [show (-542 : ℤ) = -5 + -537 by norm_num, zpow_add₀ (by norm_num), ← rho]; norm_num; ring) (by positivity) rfl
      rw [Flt.b64_mul (r := false) (k := 21 / 32 * ρ) (by rw [← hr]; congr 1; ring) rfl, Flt.zero_def,
        Flt.b64_add (r := false) (k := 21 / 32 * ρ) hr (by positivity) (by simp [Flt.val]),
        Flt.b64_sub (r := false) (k := 21 / 32 * ρ) hr (by positivity) (by simp [Flt.val]), Flt.b64_neg_two]
      exact Flt.b64_mul (b64_rho 21 (-4) (by norm_num) (by norm_num) (by norm_num) (by norm_num; ring) (by positivity)
        (by ring)) rfl)
    (by
      have hr : b64Round (147 / 128 * ρ) = some (147 / 128 * ρ) :=
        b64_exact 147 (-544) (by norm_num) (by norm_num) (by norm_num)
          (by rw [show (-544 : ℤ) = -7 + -537 by norm_num, zpow_add₀ (by norm_num), ← rho]; norm_num; ring) (by positivity) rfl
      have hr' : b64Round (51 / 128 * ρ) = some (51 / 128 * ρ) :=
        b64_exact 51 (-544) (by norm_num) (by norm_num) (by norm_num)
          (by rw [show (-544 : ℤ) = -7 + -537 by norm_num, zpow_add₀ (by norm_num), ← rho]; norm_num; ring) (by positivity) rfl
      rw [Flt.b64_mul (r := true) (k := 147 / 128 * ρ) (by rw [← hr]; congr 1; ring) rfl]
      exact Flt.b64_add hr' (by positivity) (by simp [Flt.val, Flt.sgn]; ring))
    (by
      have hr' : b64Round (51 / 128 * ρ) = some (51 / 128 * ρ) :=
        b64_exact 51 (-544) (by norm_num) (by norm_num) (by norm_num)
          (by rw [show (-544 : ℤ) = -7 + -537 by norm_num, zpow_add₀ (by norm_num), ← rho]; norm_num; ring) (by positivity) rfl
      have e1 : (Flt.fin true (51 / 128 * ρ) * NdFloat.signum (-Flt.fin false ρ) : 𝔽) = .fin false (51 / 128 * ρ) :=
        Flt.b64_mul (by rw [mul_one]; exact hr') rfl
      rw [e1]
      refine Flt.b64_div hp.ne' ?_ rfl
      rw [mul_div_assoc, div_self hp.ne', mul_one]
      exact exb 51 (-7))
  exact ⟨w, 51 / 128, h1, h2, h3, by norm_num⟩

/-- **C90 (lost columns).** In double precision, whatever the order of summation, every `m × n` matrix, `m ≥ n ≥ 1`,
whose first column has entries of magnitude at most `2⁻⁵³⁸` is reported as `NonInvertible`, also if it has full rank. -/
theorem C90_lost_column (P : DotPlans) {m n k : Nat} (hn : 1 ≤ n) (hm : n ≤ m)
    (a b : Arr2 (Flt { Rounding.binary64 with plans := P })) (ha : HasShape a m n) (hb : HasShape b m k)
    (h : ∀ i, i < m → ∃ s x, a.get i 0 = .fin s x ∧ 0 ≤ x ∧ x ≤ (2 : ℝ) ^ (-538 : ℤ)) :
    leastSquares a b = .error (.err .nonInvertible) := by
  have hz : ∀ x : ℝ, 0 ≤ x → x < 1 / 2 * (2 : ℝ) ^ (-1074 : ℤ) → b64Round x = some 0 := by
    intro x h0 h1
    rcases h0.eq_or_lt with rfl | h0
    · unfold b64Round
      simp [roundEven]
    have hg : (0 : ℝ) < 2 ^ (-1074 : ℤ) := by positivity
    have hlog : Int.log 2 x < -1073 := by
      rw [← Int.lt_zpow_iff_log_lt (by norm_num) h0, show (((2 : ℕ) : ℝ)) = 2 by norm_num]
      rw [show (-1073 : ℤ) = -1074 + 1 by norm_num, zpow_add₀ (by norm_num)]
      linarith
    have he : b64Exp x = -1074 := max_eq_right (by omega)
    have hr : roundEven (x / 2 ^ (-1074 : ℤ)) = 0 := by
      refine roundEven_near (Or.inl ?_)
      rw [Int.cast_zero, sub_zero, abs_of_pos (by positivity), div_lt_iff₀ hg]
      exact h1
    unfold b64Round
    dsimp only
    rw [he, hr]
    simp
  obtain ⟨ha1, ha2⟩ := ha
  obtain ⟨q, hq, hs, hd⟩ := qrInto_lost (R := { Rounding.binary64 with plans := P }) (hz 0 le_rfl (by positivity))
    (exb 2 0) a (by omega) (by omega) (by
      intro i hi
      obtain ⟨s, x, e, h0, h1⟩ := h i (by omega)
      refine ⟨s, x, e, hz _ (mul_self_nonneg x) ?_⟩
      have : x * x ≤ (2 : ℝ) ^ (-538 : ℤ) * (2 : ℝ) ^ (-538 : ℤ) := mul_self_le_mul_self h0 h1
      refine lt_of_le_of_lt this ?_
      rw [← zpow_add₀ (by norm_num), show (1 / 2 : ℝ) = 2 ^ (-1 : ℤ) by norm_num, ← zpow_add₀ (by norm_num)]
      exact zpow_lt_zpow_right₀ (by norm_num) (by norm_num))
  unfold leastSquares
  rw [if_pos (by omega), hq, ok_bind]
  refine (hs.solveInto_cases (by omega) b).2.1 (hb.1.trans ha1.symm) ?_
  unfold QRDecomp.isInvertible
  rw [List.all_eq_false]
  refine ⟨q.diag.get 0, ?_, ?_⟩
  · unfold Arr1.toList
    rw [List.mem_map]
    exact ⟨0, by rw [List.mem_range, hs.len]; omega, rfl⟩
  · rw [hd]
    show ¬ (!Flt.isZero (.fin false 0)) = true
    simp [Flt.isZero]

/-- The invertible matrix `2⁻⁵³⁸ I` of order three satisfies the hypotheses. -/
example : ∃ a : Arr2 𝔽, HasShape a 3 3 ∧ (∀ i j, a.get i j = .fin false (if i = j then (2 : ℝ) ^ (-538 : ℤ) else 0)) ∧
    leastSquares a a = .error (.err .nonInvertible) :=
  ⟨⟨3, 3, fun i j => .fin false (if i = j then (2 : ℝ) ^ (-538 : ℤ) else 0)⟩, ⟨rfl, rfl⟩, fun _ _ => rfl,
    C90_lost_column .unrolled (by norm_num) le_rfl _ _ ⟨rfl, rfl⟩ ⟨rfl, rfl⟩ fun i _ =>
      ⟨false, _, rfl, by split_ifs <;> positivity, by split_ifs <;> [exact le_rfl; positivity]⟩⟩

end LinfaLinalg
