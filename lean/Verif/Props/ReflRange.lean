import Verif.Props.HouseRange
import Verif.Proofs.Householder

/-! # C147: reflecting columns within the range of the float format -/

namespace LinfaLinalg

open Flt

variable {R : Rounding} {u η : ℝ}

/-- One entry, if the inner product is known with an error. -/
theorem refl_range (hR : R.Accurate u η) {B g m A : ℝ} (hΩ : R.Below (128 * B)) (hB : 1 ≤ B) (hg0 : 0 < g) (hg1 : g ≤ 1 / 100)
    (hv : (1 - u)⁻¹ - 1 ≤ 2 / 5 * g) (hm : 1 ≤ m) (hη1 : η ≤ g / 6) (hmη : m * η ≤ B) {D c w : Flt R} {t : ℝ}
    (fD : IsFin D) (fc : IsFin c) (fw : IsFin w) (pw : Proper w) (hA : A ≤ 2 * B) (ht : |t| ≤ A)
    (hD : |D.rv - t| ≤ g * A + 2 * (m - 1) * η) (hc : |c.rv| ≤ B) (hw : |w.rv| ≤ 2) :
    IsFin (c + (D - 0) * NdFloat.ofRat (-2) * w) ∧
    |(c + (D - 0) * NdFloat.ofRat (-2) * w).rv - (c.rv - 2 * w.rv * t)| ≤
      g * (|c.rv| + 7 * |w.rv| * A) + (6 * |w.rv| * m + 3) * η := by
  have hη := hR.η_nonneg
  have hu1 := hR.u_lt_one
  have hu0 := hR.u_nonneg
  obtain ⟨v, hvd⟩ : ∃ v, v = (1 - u)⁻¹ - 1 := ⟨_, rfl⟩
  have hv0 : 0 ≤ v := by
    have : 1 ≤ (1 - u)⁻¹ := by rw [one_le_inv₀ (by linarith)]; linarith
    linarith
  rw [← hvd] at hv
  have hv1 : v ≤ 1 / 250 := by linarith
  have ha0 := abs_nonneg w.rv
  have hA0 : 0 ≤ A := (abs_nonneg t).trans ht
  have hgA : 0 ≤ g * A := by positivity
  have hgA1 : g * A ≤ 1 / 100 * A := mul_le_mul_of_nonneg_right hg1 hA0
  obtain ⟨q, hq⟩ : ∃ q, q = m * η := ⟨_, rfl⟩
  have hq0 : 0 ≤ q := by rw [hq]; positivity
  have hηq : η ≤ q := by rw [hq]; nlinarith
  rw [show 2 * (m - 1) * η = 2 * (m * η) - 2 * η by ring, ← hq] at hD
  rw [← hq] at hmη
  -- a product with `v` of something below a combination of `A`, `q` and others
  have vle : ∀ {z b : ℝ}, z ≤ b → 0 ≤ z → 0 ≤ b → v * z ≤ 2 / 5 * g * b ∧ v * z ≤ 1 / 250 * b := fun h h0 hb =>
    ⟨mul_le_mul hv h h0 (by positivity), mul_le_mul hv1 h h0 (by norm_num)⟩
  have hgq : 0 ≤ g * q := by positivity
  have hgq1 : g * q ≤ 1 / 100 * q := mul_le_mul_of_nonneg_right hg1 hq0
  -- the inner product
  have hD1 : |D.rv| ≤ 101 / 100 * A + 2 * q := by
    have := abs_sub_abs_le_abs_sub D.rv t
    linarith
  have z0 : (0 : Flt R).rv = 0 := zero_rv
  obtain ⟨f1, e1⟩ : IsFin (D - 0) ∧ |(D - 0 : Flt R).rv - D.rv| ≤ v * |D.rv| + η := by
    have hf : IsFin (D - 0) := sub_isFin hΩ fD zero_fin (by rw [z0, sub_zero]; linarith)
    have h1 := (sub_err hR hf).2.2.bound hu0 hu1
    rw [z0, sub_zero, ← hvd] at h1
    exact ⟨hf, h1⟩
  have p1 : Proper (D - 0) := proper_sub _ _
  set D1 := D - 0 with hD1d
  have e1' : |D1.rv - t| ≤ 141 / 100 * (g * A) + 201 / 100 * q := by
    have h1 := abs_sub_le D1.rv D.rv t
    have h2 := (vle hD1 (abs_nonneg _) (by positivity)).1
    linarith
  have hD1' : |D1.rv| ≤ 102 / 100 * A + 201 / 100 * q := by
    have := abs_sub_abs_le_abs_sub D1.rv t
    linarith
  -- the factor
  have ft : IsFin (NdFloat.ofRat (-2) : Flt R) := by
    show IsFin (ofReal false ((-2 : ℚ) : ℝ))
    unfold ofReal
    split_ifs
    · exact ⟨_, _, rfl⟩
    · refine round_isFin hΩ (abs_nonneg _) ?_
      push_cast
      rw [abs_neg, abs_of_pos (by norm_num)]
      linarith
  have pt : Proper (NdFloat.ofRat (-2) : Flt R) := proper_ofReal _ _
  have et : |(NdFloat.ofRat (-2) : Flt R).rv + 2| ≤ g := by
    have h1 := (ofReal_err hR (x := ((-2 : ℚ) : ℝ)) (s := false) ft).bound hu0 hu1
    rw [← hvd] at h1
    push_cast at h1
    rw [abs_neg, abs_of_pos (by norm_num : (0 : ℝ) < 2), sub_neg_eq_add] at h1
    have h2 : ((NdFloat.ofRat (-2) : Flt R)).rv = (ofReal false (-2) : Flt R).rv := by
      show (ofReal false ((-2 : ℚ) : ℝ) : Flt R).rv = _
      push_cast; rfl
    rw [h2]
    linarith
  set k := (NdFloat.ofRat (-2) : Flt R) with hk
  have hk1 : |k.rv| ≤ 201 / 100 := by have := abs_le.1 et; exact abs_le.2 ⟨by linarith, by linarith⟩
  have hDk : |D1.rv * k.rv + 2 * t| ≤ 385 / 100 * (g * A) + 405 / 100 * q := by
    have h1 := abs_add_le ((D1.rv - t) * k.rv) (t * (k.rv + 2))
    rw [show (D1.rv - t) * k.rv + t * (k.rv + 2) = D1.rv * k.rv + 2 * t by ring, abs_mul, abs_mul] at h1
    have h2 : |D1.rv - t| * |k.rv| ≤ (141 / 100 * (g * A) + 201 / 100 * q) * (201 / 100) :=
      mul_le_mul e1' hk1 (abs_nonneg _) (by positivity)
    have h3 : |t| * |k.rv + 2| ≤ A * g := mul_le_mul ht et (abs_nonneg _) hA0
    linarith
  have hDk1 : |D1.rv * k.rv| ≤ 204 / 100 * A + 405 / 100 * q := by
    have h1 := abs_sub_abs_le_abs_sub (D1.rv * k.rv) (-(2 * t))
    rw [sub_neg_eq_add, abs_neg, abs_mul (2 : ℝ) t, abs_of_pos (by norm_num : (0 : ℝ) < 2)] at h1
    linarith
  obtain ⟨f2, e2⟩ := mul_step hR hΩ p1 pt f1 ft (by linarith)
  rw [← hvd] at e2
  have p2 : Proper (D1 * k) := proper_mul _ _
  set D2 := D1 * k with hD2d
  have e2' : |D2.rv + 2 * t| ≤ 47 / 10 * (g * A) + 51 / 10 * q := by
    have h1 := abs_sub_le D2.rv (D1.rv * k.rv) (-(2 * t))
    rw [sub_neg_eq_add, sub_neg_eq_add] at h1
    have h2 := (vle hDk1 (abs_nonneg _) (by positivity)).1
    linarith
  have hD2 : |D2.rv| ≤ 205 / 100 * A + 51 / 10 * q := by
    have h1 := abs_sub_abs_le_abs_sub D2.rv (-(2 * t))
    rw [sub_neg_eq_add, abs_neg, abs_mul, abs_of_pos (by norm_num : (0 : ℝ) < 2)] at h1
    linarith
  -- times the entry of the axis
  obtain ⟨a, ha⟩ : ∃ a, a = |w.rv| := ⟨_, rfl⟩
  rw [← ha] at ha0 hw ⊢
  have hD2w : |D2.rv * w.rv| ≤ a * (205 / 100 * A + 51 / 10 * q) := by
    rw [abs_mul, ← ha, mul_comm]; exact mul_le_mul_of_nonneg_left hD2 ha0
  have hlim : a * (205 / 100 * A + 51 / 10 * q) ≤ 2 * (205 / 100 * A + 51 / 10 * q) := mul_le_mul_of_nonneg_right hw (by positivity)
  obtain ⟨f3, e3⟩ := mul_step hR hΩ p2 pw f2 fw (by linarith)
  rw [← hvd] at e3
  set D3 := D2 * w with hD3d
  have haA : 0 ≤ a * (g * A) := by positivity
  have haq : 0 ≤ a * q := by positivity
  have hagq : a * (g * q) ≤ a * (1 / 100 * q) := mul_le_mul_of_nonneg_left hgq1 ha0
  have e3' : |D3.rv + 2 * w.rv * t| ≤ 56 / 10 * (a * (g * A)) + 52 / 10 * (a * q) + η := by
    have h1 := abs_sub_le D3.rv (D2.rv * w.rv) (-(2 * w.rv * t))
    rw [sub_neg_eq_add, sub_neg_eq_add] at h1
    have h2 := (vle hD2w (abs_nonneg _) (by positivity)).1
    have h3 : |D2.rv * w.rv + 2 * w.rv * t| ≤ a * (47 / 10 * (g * A) + 51 / 10 * q) := by
      rw [show D2.rv * w.rv + 2 * w.rv * t = w.rv * (D2.rv + 2 * t) by ring, abs_mul, ← ha]
      exact mul_le_mul_of_nonneg_left e2' ha0
    linarith
  -- the sum
  have hD3 : |D3.rv| ≤ a * (206 / 100 * A + 53 / 10 * q) + 101 / 100 * η := by
    have h1 := abs_sub_abs_le_abs_sub D3.rv (D2.rv * w.rv)
    have h2 := (vle hD2w (abs_nonneg _) (by positivity)).2
    have : 0 ≤ a * A := by positivity
    linarith
  have hcD : |c.rv + D3.rv| ≤ |c.rv| + (a * (206 / 100 * A + 53 / 10 * q) + 101 / 100 * η) :=
    (abs_add_le _ _).trans (by linarith)
  have hlim2 : a * (206 / 100 * A + 53 / 10 * q) ≤ 2 * (206 / 100 * A + 53 / 10 * q) := mul_le_mul_of_nonneg_right hw (by positivity)
  obtain ⟨f4, e4⟩ := add_step hR hΩ fc f3 (by linarith)
  rw [← hvd] at e4
  refine ⟨f4, ?_⟩
  have h1 := abs_sub_le (c + D3).rv (c.rv + D3.rv) (c.rv - 2 * w.rv * t)
  have h2 := vle hcD (abs_nonneg _) (by positivity)
  rw [show c.rv + D3.rv - (c.rv - 2 * w.rv * t) = D3.rv + 2 * w.rv * t by ring] at h1
  have hgc : 0 ≤ g * |c.rv| := by positivity
  have hgη : g * η ≤ 1 / 100 * η := mul_le_mul_of_nonneg_right hg1 hη
  have e : (6 * a * m + 3) * η = 6 * (a * q) + 3 * η := by rw [hq]; ring
  rw [e]
  linarith

/-- C147: in every IEEE 754 format with at least the precision and range of single precision, if the entries of the axis are
finite and at most 2 in absolute value, those of the matrix are finite and at most `2^(emax - 8)`, and the products of the
axis with each column have absolute values adding up to at most `2^(emax - 7)`, then `reflect_cols` with bias 0 returns, every
entry is finite, and its error is a small multiple of `γ_(n+2)` times the size of its terms, plus an underflow error. -/
theorem C147_reflect {F : Format} (hF : F.Wide) (P : DotPlans) (axis : Arr1 (Flt { Rounding.ieee F with plans := P }))
    (a : Arr2 (Flt { Rounding.ieee F with plans := P })) (hlen : axis.len = a.nr) (hn : a.nr + 2 ≤ 2 ^ (F.mant - 6))
    (hw : ∀ k, k < a.nr → IsFin (axis.get k) ∧ Proper (axis.get k) ∧ |(axis.get k).rv| ≤ 2)
    (ha : ∀ i j, i < a.nr → j < a.nc → IsFin (a.get i j) ∧ Proper (a.get i j) ∧ |(a.get i j).rv| ≤ 2 ^ (F.emax - 8))
    (hS : ∀ j, j < a.nc → ∑ k ∈ Finset.range a.nr, |(axis.get k).rv * (a.get k j).rv| ≤ 2 ^ (F.emax - 7)) :
    ∃ r, reflectCols axis 0 a = .ok r ∧ r.nr = a.nr ∧ r.nc = a.nc ∧ ∀ i j, i < a.nr → j < a.nc → IsFin (r.get i j) ∧
      |(r.get i j).rv - ((a.get i j).rv - 2 * (axis.get i).rv * ∑ k ∈ Finset.range a.nr, (axis.get k).rv * (a.get k j).rv)| ≤
        gam (2 ^ (-(F.mant : ℤ) - 1)) (a.nr + 2) * (|(a.get i j).rv| +
          7 * |(axis.get i).rv| * ∑ k ∈ Finset.range a.nr, |(axis.get k).rv * (a.get k j).rv|) +
        (6 * |(axis.get i).rv| * (a.nr + 1) ^ 2 + 3) * 2 ^ (F.emin - 1) := by
  refine ⟨_, reflectCols_eq axis 0 a hlen, rfl, rfl, fun i j hi hj => ?_⟩
  dsimp only
  rw [if_pos ⟨hi, hj⟩]
  have C := ieee_cholRange hF P hn
  have e1 : (2 : ℝ) ^ (F.emax - 1) = 128 * 2 ^ (F.emax - 8) := by
    rw [show F.emax - 1 = 7 + (F.emax - 8) by ring, zpow_add₀ (by norm_num)]; norm_num
  have e2 : (2 : ℝ) ^ (F.emax - 7) = 2 * 2 ^ (F.emax - 8) := by
    rw [show F.emax - 7 = 1 + (F.emax - 8) by ring, zpow_add₀ (by norm_num)]; norm_num
  have e3 : (2 : ℝ) ^ (F.emax - 3) = 32 * 2 ^ (F.emax - 8) := by
    rw [show F.emax - 3 = 5 + (F.emax - 8) by ring, zpow_add₀ (by norm_num)]; norm_num
  have hB : (1 : ℝ) ≤ 2 ^ (F.emax - 8) := one_le_zpow₀ (by norm_num) (by obtain ⟨w1, w2, w3⟩ := hF; have := F.one; omega)
  have hΩ := C.below
  rw [e1] at hΩ
  have hu0 : (0 : ℝ) < 2 ^ (-(F.mant : ℤ) - 1) := by positivity
  have hn1 : (1 : ℝ) ≤ a.nr := by exact_mod_cast (by omega : 1 ≤ a.nr)
  have hgu : ((a.nr + 2 : Nat) : ℝ) * 2 ^ (-(F.mant : ℤ) - 1) ≤ gam (2 ^ (-(F.mant : ℤ) - 1)) (a.nr + 2) :=
    le_gam hu0.le C.nu
  push_cast at hgu
  have hgm : gam (2 ^ (-(F.mant : ℤ) - 1)) (a.nr + 1) ≤ gam (2 ^ (-(F.mant : ℤ) - 1)) (a.nr + 2) :=
    gam_mono hu0.le (by omega) C.nu
  have hug : 3 * (2 : ℝ) ^ (-(F.mant : ℤ) - 1) ≤ gam (2 ^ (-(F.mant : ℤ) - 1)) (a.nr + 2) := by
    have : 3 * (2 : ℝ) ^ (-(F.mant : ℤ) - 1) ≤ (a.nr + 2) * (2 : ℝ) ^ (-(F.mant : ℤ) - 1) :=
      mul_le_mul_of_nonneg_right (by linarith) hu0.le
    linarith
  have hη0 := C.acc.η_nonneg
  have hη1 : (2 : ℝ) ^ (F.emin - 1) ≤ 2 ^ (-(F.mant : ℤ) - 1) / 2 := by
    rw [le_div_iff₀ (by norm_num), ← zpow_add_one₀ (by norm_num)]
    exact zpow_le_zpow_right₀ (by norm_num) (by have := F.half; omega)
  have hnB : (a.nr : ℝ) + 1 ≤ 2 ^ (F.emax - 8) := by
    have b1 : ((a.nr + 2 : Nat) : ℝ) ≤ ((2 ^ (F.mant - 6) : Nat) : ℝ) := by exact_mod_cast hn
    have b2 : (((2 ^ (F.mant - 6) : Nat) : ℝ)) ≤ 2 ^ (F.emax - 8) := by
      push_cast
      rw [← zpow_natCast]
      refine zpow_le_zpow_right₀ (by norm_num) ?_
      obtain ⟨w1, w2, w3⟩ := hF
      omega
    push_cast at b1 b2
    linarith
  have hmη : ((a.nr : ℝ) + 1) ^ 2 * 2 ^ (F.emin - 1) ≤ 2 ^ (F.emax - 8) := by
    have h1 := C.ηn
    have h2 : ((a.nr : ℝ) + 1) * 2 ^ (F.emin - 1) ≤ 1 := by nlinarith
    calc ((a.nr : ℝ) + 1) ^ 2 * 2 ^ (F.emin - 1) = (a.nr + 1) * ((a.nr + 1) * 2 ^ (F.emin - 1)) := by ring
      _ ≤ 2 ^ (F.emax - 8) * 1 := mul_le_mul hnB h2 (by positivity) (by positivity)
      _ = _ := mul_one _
  have hSj := hS j hj
  rw [e2] at hSj
  obtain ⟨d1, d2⟩ := C145_sum hF P a.nr hn axis.get (fun k => a.get k j) (fun k hk => ⟨(hw k hk).1, (hw k hk).2.1⟩)
    (fun k hk => ⟨(ha k j hk hj).1, (ha k j hk hj).2.1⟩) (by rw [e3]; linarith)
  have hA0 : 0 ≤ ∑ k ∈ Finset.range a.nr, |(axis.get k).rv * (a.get k j).rv| := Finset.sum_nonneg fun k _ => abs_nonneg _
  have hmain := refl_range (m := ((a.nr : ℝ) + 1) ^ 2) C.acc hΩ hB C.g0 C.g1 ?_ (by nlinarith) (by linarith) hmη d1 (ha i j hi hj).1 (hw i hi).1
    (hw i hi).2.1 hSj (Finset.abs_sum_le_sum_abs _ _) (d2.trans ?_) (ha i j hi hj).2.2 (hw i hi).2.2
  · unfold reflEntry
    rw [hlen]
    exact hmain
  · have hu1 := C.acc.u_lt_one
    have hg1 := C.g1
    have h1 : (1 - (2 : ℝ) ^ (-(F.mant : ℤ) - 1))⁻¹ ≤ 1 + 2 / 5 * gam (2 ^ (-(F.mant : ℤ) - 1)) (a.nr + 2) := by
      rw [inv_le_iff_one_le_mul₀ (by linarith)]
      nlinarith
    linarith
  · refine add_le_add (mul_le_mul_of_nonneg_right hgm hA0) ?_
    refine mul_le_mul_of_nonneg_right ?_ hη0
    nlinarith

/-- C147, `reflect_rows`. -/
theorem C147_reflect_rows {F : Format} (hF : F.Wide) (P : DotPlans) (axis : Arr1 (Flt { Rounding.ieee F with plans := P }))
    (a : Arr2 (Flt { Rounding.ieee F with plans := P })) (hlen : axis.len = a.nc) (hn : a.nc + 2 ≤ 2 ^ (F.mant - 6))
    (hw : ∀ k, k < a.nc → IsFin (axis.get k) ∧ Proper (axis.get k) ∧ |(axis.get k).rv| ≤ 2)
    (ha : ∀ i j, i < a.nr → j < a.nc → IsFin (a.get i j) ∧ Proper (a.get i j) ∧ |(a.get i j).rv| ≤ 2 ^ (F.emax - 8))
    (hS : ∀ i, i < a.nr → ∑ k ∈ Finset.range a.nc, |(axis.get k).rv * (a.get i k).rv| ≤ 2 ^ (F.emax - 7)) :
    ∃ r, reflectRows axis 0 a = .ok r ∧ r.nr = a.nr ∧ r.nc = a.nc ∧ ∀ i j, i < a.nr → j < a.nc → IsFin (r.get i j) ∧
      |(r.get i j).rv - ((a.get i j).rv - 2 * (axis.get j).rv * ∑ k ∈ Finset.range a.nc, (axis.get k).rv * (a.get i k).rv)| ≤
        gam (2 ^ (-(F.mant : ℤ) - 1)) (a.nc + 2) * (|(a.get i j).rv| +
          7 * |(axis.get j).rv| * ∑ k ∈ Finset.range a.nc, |(axis.get k).rv * (a.get i k).rv|) +
        (6 * |(axis.get j).rv| * (a.nc + 1) ^ 2 + 3) * 2 ^ (F.emin - 1) := by
  obtain ⟨r, h1, h2, h3, h4⟩ := C147_reflect hF P axis a.t hlen hn hw (fun i j hi hj => ha j i hj hi) hS
  refine ⟨r.t, by unfold reflectRows; rw [h1]; rfl, h3, h2, fun i j hi hj => h4 j i hj hi⟩

/-- The axis `1/2, 1/2, -1/2, 1/2` of C147. -/
noncomputable def exReflAxis {R : Rounding} : Arr1 (Flt R) := ⟨4, fun k => .fin (k == 2) (1 / 2)⟩

/-- A matrix with numbers of very different sizes. -/
noncomputable def exReflMat {R : Rounding} : Arr2 (Flt R) := ⟨4, 2, fun i j => .fin (i == j) (2 ^ (20 * i))⟩

theorem exRefl_ok (P : DotPlans) : ∃ r, reflectCols (exReflAxis : Arr1 (Flt { Rounding.ieee .single with plans := P })) 0 exReflMat = .ok r ∧
    ∀ i j, i < 4 → j < 2 → IsFin (r.get i j) := by
  have hpow : ∀ i : Nat, i < 4 → (2 : ℝ) ^ (20 * i) ≤ 2 ^ (60 : Nat) := fun i hi => pow_le_pow_right₀ (by norm_num) (by omega)
  have hab : ∀ i j : Nat, |(exReflMat (R := { Rounding.ieee .single with plans := P }).get i j).rv| = 2 ^ (20 * i) := by
    intro i j
    show |val _ _| = _
    exact abs_val (by positivity)
  have haw : ∀ k : Nat, |(exReflAxis (R := { Rounding.ieee .single with plans := P }).get k).rv| = 1 / 2 := by
    intro k
    show |val _ _| = _
    exact abs_val (by norm_num)
  obtain ⟨r, h1, -, -, h2⟩ := C147_reflect Format.single_wide P exReflAxis exReflMat rfl (by norm_num [exReflMat, Format.single])
    (fun k _ => ⟨⟨_, _, rfl⟩, by intro s m h; cases h; norm_num, by rw [haw]; norm_num⟩)
    (fun i j hi _ => ⟨⟨_, _, rfl⟩, by intro s m h; cases h; positivity, by
      rw [hab]; exact (hpow i hi).trans (by norm_num [Format.single])⟩)
    (fun j _ => by
      have : ∀ k ∈ Finset.range (exReflMat (R := { Rounding.ieee .single with plans := P })).nr,
          |(exReflAxis (R := { Rounding.ieee .single with plans := P }).get k).rv * (exReflMat (R := { Rounding.ieee .single with plans := P }).get k j).rv| ≤
            1 / 2 * 2 ^ (60 : Nat) := by
        intro k hk
        rw [abs_mul, haw, hab]
        exact mul_le_mul_of_nonneg_left (hpow k (Finset.mem_range.1 hk)) (by norm_num)
      refine (Finset.sum_le_sum this).trans ?_
      simp [exReflMat, Format.single]
      norm_num)
  exact ⟨r, h1, fun i j hi hj => (h2 i j hi hj).1⟩

end LinfaLinalg
