import Verif.Props.HouseRange
import Verif.Proofs.Givens

/-! # C148: applying Givens rotations within the range of the float format -/

namespace LinfaLinalg

open Flt

variable {R : Rounding} {u η : ℝ}

/-- A sum of two products, each of a factor of at most `B` and one of at most 1. -/
theorem rot_range (hR : R.Accurate u η) {B : ℝ} (hΩ : R.Below (4 * B)) (hB : 1 ≤ B) (hu : u ≤ 1 / 1000) (hη1 : η ≤ 1 / 1000)
    {a b c s : Flt R} (ha : IsFin a ∧ Proper a) (hb : IsFin b ∧ Proper b) (hc : IsFin c ∧ Proper c) (hs : IsFin s ∧ Proper s)
    (hac : |a.rv * c.rv| ≤ B) (hsb : |s.rv * b.rv| ≤ B) :
    IsFin (a * c + s * b) ∧ |(a * c + s * b).rv - (a.rv * c.rv + s.rv * b.rv)| ≤
      3 * u * (|a.rv * c.rv| + |s.rv * b.rv|) + 4 * η := by
  have hη := hR.η_nonneg
  have hu0 := hR.u_nonneg
  obtain ⟨v, hvd⟩ : ∃ v, v = (1 - u)⁻¹ - 1 := ⟨_, rfl⟩
  have hv : v ≤ 101 / 100 * u := by
    have : (1 - u)⁻¹ ≤ 1 + 101 / 100 * u := by
      rw [inv_le_iff_one_le_mul₀ (by linarith)]
      nlinarith
    linarith
  have hv0 : 0 ≤ v := by
    have : 1 ≤ (1 - u)⁻¹ := by rw [one_le_inv₀ (by linarith)]; linarith
    linarith
  have hv1 : v ≤ 1 / 500 := by linarith
  obtain ⟨f1, e1⟩ := mul_step hR hΩ ha.2 hc.2 ha.1 hc.1 (by linarith)
  obtain ⟨f2, e2⟩ := mul_step hR hΩ hs.2 hb.2 hs.1 hb.1 (by linarith)
  rw [← hvd] at e1 e2
  obtain ⟨p, hp⟩ : ∃ p, p = |a.rv * c.rv| := ⟨_, rfl⟩
  obtain ⟨q, hq⟩ : ∃ q, q = |s.rv * b.rv| := ⟨_, rfl⟩
  have hp0 : 0 ≤ p := by rw [hp]; exact abs_nonneg _
  have hq0 : 0 ≤ q := by rw [hq]; exact abs_nonneg _
  rw [← hp] at e1 hac ⊢
  rw [← hq] at e2 hsb ⊢
  have e12 : |(a * c).rv + (s * b).rv - (a.rv * c.rv + s.rv * b.rv)| ≤ v * (p + q) + 2 * η := by
    rw [add_sub_add_comm]
    exact (abs_add_le _ _).trans (by linarith)
  have hT : |(a * c).rv + (s * b).rv| ≤ (1 + v) * (p + q) + 2 * η := by
    have h1 := abs_sub_abs_le_abs_sub ((a * c).rv + (s * b).rv) (a.rv * c.rv + s.rv * b.rv)
    have h2 := abs_add_le (a.rv * c.rv) (s.rv * b.rv)
    rw [← hp, ← hq] at h2
    linarith
  have hT1 : (1 + v) * (p + q) ≤ 501 / 500 * (2 * B) := mul_le_mul (by linarith) (by linarith) (by linarith) (by norm_num)
  obtain ⟨f3, e3⟩ := add_step hR hΩ f1 f2 (by linarith)
  rw [← hvd] at e3
  refine ⟨f3, ?_⟩
  have h1 := abs_sub_le (a * c + s * b).rv ((a * c).rv + (s * b).rv) (a.rv * c.rv + s.rv * b.rv)
  have h2 := mul_le_mul_of_nonneg_left hT hv0
  have h3 : v * ((1 + v) * (p + q) + 2 * η) = (v + v * v) * (p + q) + 2 * (v * η) := by ring
  have h4 : v * η ≤ 1 / 500 * η := mul_le_mul_of_nonneg_right hv1 hη
  have h5 : v * v ≤ 1 / 500 * v := mul_le_mul_of_nonneg_right hv1 hv0
  have h6 : (2 * v + v * v) * (p + q) ≤ 3 * u * (p + q) := mul_le_mul_of_nonneg_right (by linarith) (by linarith)
  linarith

theorem mul_le_of {x y B : ℝ} (hx : |x| ≤ B) (hy : |y| ≤ 1) : |x * y| ≤ B := by
  rw [abs_mul]
  exact (mul_le_mul hx hy (abs_nonneg _) ((abs_nonneg x).trans hx)).trans_eq (mul_one B)

/-- The constants of a format. -/
theorem rot_consts {F : Format} (hF : F.Wide) (P : DotPlans) :
    ({ Rounding.ieee F with plans := P } : Rounding).Accurate (2 ^ (-(F.mant : ℤ) - 1)) (2 ^ (F.emin - 1)) ∧
    ({ Rounding.ieee F with plans := P } : Rounding).Below (4 * 2 ^ (F.emax - 3)) ∧ (1 : ℝ) ≤ 2 ^ (F.emax - 3) ∧
    (2 : ℝ) ^ (-(F.mant : ℤ) - 1) ≤ 1 / 1000 ∧ (2 : ℝ) ^ (F.emin - 1) ≤ 1 / 1000 := by
  have C := ieee_cholRange (n := 0) hF P (by
    have := hF.mant
    calc 0 + 2 ≤ 2 ^ 1 := by norm_num
      _ ≤ 2 ^ (F.mant - 6) := Nat.pow_le_pow_right (by norm_num) (by omega))
  obtain ⟨w1, w2, w3⟩ := hF
  have e4 : (2 : ℝ) ^ (F.emax - 1) = 4 * 2 ^ (F.emax - 3) := by
    rw [show F.emax - 1 = 2 + (F.emax - 3) by ring, zpow_add₀ (by norm_num)]; norm_num
  have hb := C.below
  rw [e4] at hb
  have small : ∀ k : ℤ, k ≤ -10 → (2 : ℝ) ^ k ≤ 1 / 1000 := fun k hk =>
    (zpow_le_zpow_right₀ (by norm_num) hk).trans (by norm_num)
  exact ⟨C.acc, hb, one_le_zpow₀ (by norm_num) (by omega), small _ (by omega), small _ (by omega)⟩

/-- C148, `rotate_rows`: in every IEEE 754 format with at least the precision and range of single precision, if `c` and `s` are
finite and at most 1 in absolute value (as C120 has it) and the entries are finite and at most `2^(emax - 3)`, then every row of
the result is finite and is the row times the rotation, each entry with a relative error of three roundings of
its terms and four times half the smallest positive number. -/
theorem C148_rows {F : Format} (hF : F.Wide) (P : DotPlans) (g : GivensRotation (Flt { Rounding.ieee F with plans := P }))
    (a : Arr2 (Flt { Rounding.ieee F with plans := P })) (h2 : a.nc = 2)
    (hc : IsFin g.c ∧ Proper g.c ∧ |g.c.rv| ≤ 1) (hs : IsFin g.s ∧ Proper g.s ∧ |g.s.rv| ≤ 1)
    (ha : ∀ i j, i < a.nr → j < 2 → IsFin (a.get i j) ∧ Proper (a.get i j) ∧ |(a.get i j).rv| ≤ 2 ^ (F.emax - 3)) :
    ∃ r, g.rotateRows a = .ok r ∧ r.nr = a.nr ∧ r.nc = 2 ∧ ∀ i, i < a.nr →
      (IsFin (r.get i 0) ∧ |(r.get i 0).rv - ((a.get i 0).rv * g.c.rv + (a.get i 1).rv * g.s.rv)| ≤
        3 * 2 ^ (-(F.mant : ℤ) - 1) * (|(a.get i 0).rv * g.c.rv| + |(a.get i 1).rv * g.s.rv|) + 4 * 2 ^ (F.emin - 1)) ∧
      (IsFin (r.get i 1) ∧ |(r.get i 1).rv - ((a.get i 1).rv * g.c.rv - (a.get i 0).rv * g.s.rv)| ≤
        3 * 2 ^ (-(F.mant : ℤ) - 1) * (|(a.get i 0).rv * g.s.rv| + |(a.get i 1).rv * g.c.rv|) + 4 * 2 ^ (F.emin - 1)) := by
  obtain ⟨k1, k2, k3, k4, k5⟩ := rot_consts hF P
  refine ⟨_, rotateRows_ok g a h2, rfl, h2, fun i hi => ?_⟩
  dsimp only
  rw [if_pos hi, if_pos hi, if_pos rfl, if_neg one_ne_zero, if_pos rfl]
  obtain ⟨a1, a2, a3⟩ := ha i 0 hi (by norm_num)
  obtain ⟨b1, b2, b3⟩ := ha i 1 hi (by norm_num)
  obtain ⟨c1, c2, c3⟩ := hc
  obtain ⟨s1, s2, s3⟩ := hs
  constructor
  · have := rot_range k1 k2 k3 k4 k5 ⟨a1, a2⟩ ⟨b1, b2⟩ ⟨c1, c2⟩ ⟨s1, s2⟩ (mul_le_of a3 c3)
      (by rw [mul_comm]; exact mul_le_of b3 s3)
    rwa [mul_comm g.s.rv] at this
  · have := rot_range (a := -g.s) (c := a.get i 0) (s := a.get i 1) (b := g.c) k1 k2 k3 k4 k5
      ⟨neg_fin.2 s1, proper_neg s2⟩ ⟨c1, c2⟩ ⟨a1, a2⟩ ⟨b1, b2⟩
      (by rw [neg_rv, neg_mul, abs_neg, mul_comm]; exact mul_le_of a3 s3) (mul_le_of b3 c3)
    rw [neg_rv, neg_mul, abs_neg, mul_comm g.s.rv, neg_add_eq_sub] at this
    exact this

/-- C148, `rotate_cols`. -/
theorem C148_cols {F : Format} (hF : F.Wide) (P : DotPlans) (g : GivensRotation (Flt { Rounding.ieee F with plans := P }))
    (a : Arr2 (Flt { Rounding.ieee F with plans := P })) (h2 : a.nr = 2)
    (hc : IsFin g.c ∧ Proper g.c ∧ |g.c.rv| ≤ 1) (hs : IsFin g.s ∧ Proper g.s ∧ |g.s.rv| ≤ 1)
    (ha : ∀ i j, i < 2 → j < a.nc → IsFin (a.get i j) ∧ Proper (a.get i j) ∧ |(a.get i j).rv| ≤ 2 ^ (F.emax - 3)) :
    ∃ r, g.rotateCols a = .ok r ∧ r.nr = 2 ∧ r.nc = a.nc ∧ ∀ j, j < a.nc →
      (IsFin (r.get 0 j) ∧ |(r.get 0 j).rv - ((a.get 0 j).rv * g.c.rv - (a.get 1 j).rv * g.s.rv)| ≤
        3 * 2 ^ (-(F.mant : ℤ) - 1) * (|(a.get 0 j).rv * g.c.rv| + |(a.get 1 j).rv * g.s.rv|) + 4 * 2 ^ (F.emin - 1)) ∧
      (IsFin (r.get 1 j) ∧ |(r.get 1 j).rv - ((a.get 1 j).rv * g.c.rv + (a.get 0 j).rv * g.s.rv)| ≤
        3 * 2 ^ (-(F.mant : ℤ) - 1) * (|(a.get 0 j).rv * g.s.rv| + |(a.get 1 j).rv * g.c.rv|) + 4 * 2 ^ (F.emin - 1)) := by
  obtain ⟨r, h1, h3, h4, h5⟩ := C148_rows hF P g.inverse a.t h2 hc
    ⟨neg_fin.2 hs.1, proper_neg hs.2.1, by
      show |(-g.s).rv| ≤ 1
      rw [neg_rv, abs_neg]; exact hs.2.2⟩ (fun i j hi hj => ha j i hj hi)
  refine ⟨r.t, by unfold GivensRotation.rotateCols; rw [h1], h4, h3, fun j hj => ?_⟩
  obtain ⟨⟨f1, e1⟩, f2, e2⟩ := h5 j hj
  have es : g.inverse.s.rv = -g.s.rv := neg_rv g.s
  have ec : g.inverse.c = g.c := rfl
  rw [es, ec, mul_neg, abs_neg, ← sub_eq_add_neg] at e1
  rw [es, ec, mul_neg, abs_neg, sub_neg_eq_add] at e2
  exact ⟨⟨f1, e1⟩, f2, e2⟩

/-- The rotation with `c = s = 1/2` and a row of numbers near the limit. -/
theorem exRot_ok (P : DotPlans) : ∃ r, (⟨.fin false (1 / 2), .fin true (1 / 2)⟩ : GivensRotation (Flt { Rounding.ieee .single with plans := P })).rotateRows
    ⟨1, 2, fun _ j => .fin (j == 0) (2 ^ 124)⟩ = .ok r ∧ IsFin (r.get 0 0) ∧ IsFin (r.get 0 1) := by
  obtain ⟨r, h1, -, -, h2⟩ := C148_rows Format.single_wide P ⟨.fin false (1 / 2), .fin true (1 / 2)⟩
    ⟨1, 2, fun _ j => .fin (j == 0) (2 ^ 124)⟩ rfl
    ⟨⟨_, _, rfl⟩, by intro s m h; cases h; norm_num, by
      show |val _ _| ≤ 1
      rw [abs_val (by norm_num)]; norm_num⟩
    ⟨⟨_, _, rfl⟩, by intro s m h; cases h; norm_num, by
      show |val _ _| ≤ 1
      rw [abs_val (by norm_num)]; norm_num⟩
    (fun i j _ _ => ⟨⟨_, _, rfl⟩, by intro s m h; cases h; positivity, by
      show |val _ _| ≤ _
      rw [abs_val (by positivity)]; norm_num [Format.single]⟩)
  exact ⟨r, h1, (h2 0 (by norm_num)).1.1, (h2 0 (by norm_num)).2.1⟩

end LinfaLinalg
