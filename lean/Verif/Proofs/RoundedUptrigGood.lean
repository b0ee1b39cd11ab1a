import Verif.Proofs.RoundedUptrig
import Verif.Spec.SvdRun

/-! # Rounding errors of `compute_2x2_uptrig_svd` with factors, on well conditioned blocks -/

set_option linter.unusedSimpArgs false
set_option linter.unusedSectionVars false

namespace LinfaLinalg

open Matrix

variable {R : StdModel}

/-! ## The exact decomposition of a `2 × 2` block -/

section exact
variable {a f g V1 V2 W : ℝ}

theorem uptrig_min_le (hsum : V1 ^ 2 + V2 ^ 2 = a ^ 2 + f ^ 2 + g ^ 2) (hprod : V1 * V2 = a * g) (hle : V1 ^ 2 ≤ V2 ^ 2) :
    V1 ^ 2 ≤ a ^ 2 ∧ V1 ^ 2 ≤ g ^ 2 := by
  have hp : V1 ^ 2 * V2 ^ 2 = a ^ 2 * g ^ 2 := by rw [← mul_pow, ← mul_pow, hprod]
  have h1 : (V1 ^ 2 - a ^ 2) * (V1 ^ 2 - (f ^ 2 + g ^ 2)) = a ^ 2 * f ^ 2 := by
    linear_combination V1 ^ 2 * hsum - hp
  have h2 : (V1 ^ 2 - g ^ 2) * (V1 ^ 2 - (a ^ 2 + f ^ 2)) = g ^ 2 * f ^ 2 := by
    linear_combination V1 ^ 2 * hsum - hp
  constructor
  · by_contra hc
    push Not at hc
    have : 0 ≤ V1 ^ 2 - (f ^ 2 + g ^ 2) := by
      by_contra h; push Not at h
      nlinarith [mul_pos (sub_pos.2 hc) (neg_pos.2 h), sq_nonneg (a * f)]
    linarith
  · by_contra hc
    push Not at hc
    have : 0 ≤ V1 ^ 2 - (a ^ 2 + f ^ 2) := by
      by_contra h; push Not at h
      nlinarith [mul_pos (sub_pos.2 hc) (neg_pos.2 h), sq_nonneg (g * f)]
    linarith

theorem uptrig_exact (hsum : V1 ^ 2 + V2 ^ 2 = a ^ 2 + f ^ 2 + g ^ 2) (hprod : V1 * V2 = a * g) (hV : V1 ≠ 0) (hW : 0 < W)
    (hWW : W * W = (a * f) * (a * f) + (V1 ^ 2 - a ^ 2) * (V1 ^ 2 - a ^ 2)) :
    ∃ z1 z2 y1 y2 : ℝ, z1 = a * f / W ∧ z2 = (V1 ^ 2 - a ^ 2) / W ∧ z1 * z1 + z2 * z2 = 1 ∧ y1 * y1 + y2 * y2 = 1 ∧
      V1 * y1 = a * z1 + f * z2 ∧ V1 * y2 = g * z2 ∧ (-a * z2 + f * z1) * y1 + g * z1 * y2 = 0 ∧
      (-a * z2 + f * z1) * (-y2) + g * z1 * y1 = V2 := by
  obtain ⟨z1, h1⟩ : ∃ z1, z1 = a * f / W := ⟨_, rfl⟩
  obtain ⟨z2, h2⟩ : ∃ z2, z2 = (V1 ^ 2 - a ^ 2) / W := ⟨_, rfl⟩
  have e1 : z1 * W = a * f := by rw [h1]; field_simp
  have e2 : z2 * W = V1 ^ 2 - a ^ 2 := by rw [h2]; field_simp
  have hW0 := hW.ne'
  have hz : z1 * z1 + z2 * z2 = 1 := by
    have : (z1 * z1 + z2 * z2) * (W * W) = 1 * (W * W) := by
      linear_combination (z1 * W + a * f) * e1 + (z2 * W + (V1 ^ 2 - a ^ 2)) * e2 - hWW
    exact mul_right_cancel₀ (mul_ne_zero hW0 hW0) this
  have m1 : a * (a * z1 + f * z2) = V1 ^ 2 * z1 := by
    have : (a * (a * z1 + f * z2)) * W = (V1 ^ 2 * z1) * W := by
      linear_combination (a ^ 2 - V1 ^ 2) * e1 + a * f * e2
    exact mul_right_cancel₀ hW0 this
  have hp : V1 ^ 2 * V2 ^ 2 = a ^ 2 * g ^ 2 := by rw [← mul_pow, ← mul_pow, hprod]
  have m2 : f * (a * z1 + f * z2) + g * (g * z2) = V1 ^ 2 * z2 := by
    have : (f * (a * z1 + f * z2) + g * (g * z2)) * W = (V1 ^ 2 * z2) * W := by
      linear_combination a * f * e1 + (f ^ 2 + g ^ 2 - V1 ^ 2) * e2 - V1 ^ 2 * hsum + hp
    exact mul_right_cancel₀ hW0 this
  obtain ⟨y1, k1⟩ : ∃ y1, y1 = (a * z1 + f * z2) / V1 := ⟨_, rfl⟩
  obtain ⟨y2, k2⟩ : ∃ y2, y2 = g * z2 / V1 := ⟨_, rfl⟩
  have n1 : V1 * y1 = a * z1 + f * z2 := by rw [k1]; field_simp
  have n2 : V1 * y2 = g * z2 := by rw [k2]; field_simp
  rw [← n1] at m1 m2
  rw [← n2] at m2
  have t1 : a * y1 = V1 * z1 := mul_left_cancel₀ hV (by linear_combination m1)
  have t2 : f * y1 + g * y2 = V1 * z2 := mul_left_cancel₀ hV (by linear_combination m2)
  have hy : y1 * y1 + y2 * y2 = 1 := by
    have : V1 * (y1 * y1 + y2 * y2) = V1 * 1 := by
      linear_combination y1 * n1 + y2 * n2 + z1 * t1 + z2 * t2 + V1 * hz
    exact mul_left_cancel₀ hV this
  refine ⟨z1, z2, y1, y2, h1, h2, hz, hy, n1, n2, by linear_combination -z2 * t1 + z1 * t2, ?_⟩
  refine mul_left_cancel₀ hV ?_
  rw [hprod]
  linear_combination (-(-a * z2 + f * z1)) * n2 + g * z1 * n1 + a * g * hz

end exact

/-! ## Perturbations -/

/-- The direction of a perturbed vector. -/
theorem normalize_near {x y X Y ρ W ε : ℝ} (hρ : 0 ≤ ρ) (hW : 0 < W) (hε1 : ε < 1 / 2) (h1 : ρ * ρ = x * x + y * y)
    (h2 : W * W = X * X + Y * Y) (hx : |x - X| ≤ ε * W) (hy : |y - Y| ≤ ε * W) :
    0 < ρ ∧ |ρ - W| ≤ 2 * ε * W ∧ |x / ρ - X / W| ≤ 3 * ε ∧ |y / ρ - Y / W| ≤ 3 * ε := by
  have ax : |x| ≤ ρ := by
    apply abs_le_of_sq_le_sq _ hρ; nlinarith [mul_self_nonneg y]
  have ay : |y| ≤ ρ := by
    apply abs_le_of_sq_le_sq _ hρ; nlinarith [mul_self_nonneg x]
  have aX : |X| ≤ W := by
    apply abs_le_of_sq_le_sq _ hW.le; nlinarith [mul_self_nonneg Y]
  have aY : |Y| ≤ W := by
    apply abs_le_of_sq_le_sq _ hW.le; nlinarith [mul_self_nonneg X]
  have hε : 0 ≤ ε * W := (abs_nonneg _).trans hx
  have hs : 0 < ρ + W := by linarith
  have k : |ρ - W| ≤ 2 * ε * W := by
    have e : (ρ - W) * (ρ + W) = (x - X) * (x + X) + (y - Y) * (y + Y) := by linear_combination h1 - h2
    have e' : |ρ - W| * (ρ + W) ≤ 2 * ε * W * (ρ + W) := by
      rw [← abs_of_pos hs, ← abs_mul, e, abs_of_pos hs]
      refine (abs_add_le _ _).trans ?_
      rw [abs_mul, abs_mul]
      have b1 : |x + X| ≤ ρ + W := (abs_add_le _ _).trans (by linarith)
      have b2 : |y + Y| ≤ ρ + W := (abs_add_le _ _).trans (by linarith)
      have c1 := mul_le_mul hx b1 (abs_nonneg _) hε
      have c2 := mul_le_mul hy b2 (abs_nonneg _) hε
      linarith
    exact le_of_mul_le_mul_right e' hs
  have hρ : 0 < ρ := by
    have e1 := (abs_le.1 k).1
    have e2 := mul_lt_mul_of_pos_right hε1 hW
    linarith
  have key : ∀ x X : ℝ, |x| ≤ ρ → |x - X| ≤ ε * W → |x / ρ - X / W| ≤ 3 * ε := by
    intro x X ax hx
    have e : x / ρ - X / W = ((x - X) + x / ρ * (W - ρ)) / W := by field_simp; ring
    have b : |x / ρ| ≤ 1 := by rw [abs_div, abs_of_pos hρ, div_le_one hρ]; exact ax
    rw [e, abs_div, abs_of_pos hW, div_le_iff₀ hW]
    refine (abs_add_le _ _).trans ?_
    rw [abs_mul]
    have c := mul_le_mul b (le_of_eq (abs_sub_comm W ρ)) (abs_nonneg _) zero_le_one
    rw [one_mul] at c
    linarith
  exact ⟨hρ, k, key x X ax hx, key y Y ay hy⟩

/-- A product of a coefficient and the entries of two unit vectors. -/
theorem abs_tri_le {β k c z y' z' ε δ : ℝ} (hk : |k| ≤ β) (hz : |z| ≤ 1) (hy' : |y'| ≤ 1)
    (h1 : |c - y'| ≤ δ) (h2 : |z - z'| ≤ ε) : |k * z * c - k * z' * y'| ≤ β * (δ + ε) := by
  have hβ : 0 ≤ β := (abs_nonneg _).trans hk
  rw [show k * z * c - k * z' * y' = k * (z * (c - y') + y' * (z - z')) by ring, abs_mul]
  refine mul_le_mul hk ((abs_add_le _ _).trans ?_) (abs_nonneg _) hβ
  rw [abs_mul, abs_mul]
  have c1 := mul_le_mul hz h1 (abs_nonneg _) zero_le_one
  have c2 := mul_le_mul hy' h2 (abs_nonneg _) zero_le_one
  linarith

/-- The rotated block, when the rotations are near those of the exact decomposition. -/
theorem block_entries {a f g V1 V2 z1 z2 y1 y2 c s c' s' β ε δ : ℝ} (ha : |a| ≤ β) (hf : |f| ≤ β) (hg : |g| ≤ β)
    (hy : y1 * y1 + y2 * y2 = 1) (hc' : c' * c' + s' * s' = 1)
    (n1 : V1 * y1 = a * z1 + f * z2) (n2 : V1 * y2 = g * z2) (n3 : (-a * z2 + f * z1) * y1 + g * z1 * y2 = 0)
    (n4 : (-a * z2 + f * z1) * (-y2) + g * z1 * y1 = V2)
    (h1 : |c' - z1| ≤ ε) (h2 : |s' - z2| ≤ ε) (h3 : |c - y1| ≤ δ) (h4 : |s - y2| ≤ δ) :
    |(a * c' + f * s') * c + g * s' * s - V1| ≤ 3 * β * (δ + ε) ∧
    |(a * c' + f * s') * (-s) + g * s' * c| ≤ 3 * β * (δ + ε) ∧
    |(-a * s' + f * c') * c + g * c' * s| ≤ 3 * β * (δ + ε) ∧
    |(-a * s' + f * c') * (-s) + g * c' * c - V2| ≤ 3 * β * (δ + ε) := by
  have bc := abs_le_one_left hc'
  have bs := abs_le_one_right hc'
  have by1 := abs_le_one_left hy
  have by2 := abs_le_one_right hy
  have t : ∀ p q r P Q S : ℝ, |p - P| ≤ β * (δ + ε) → |q - Q| ≤ β * (δ + ε) → |r - S| ≤ β * (δ + ε) →
      |p + q + r - (P + Q + S)| ≤ 3 * β * (δ + ε) := by
    intro p q r P Q S e1 e2 e3
    rw [show p + q + r - (P + Q + S) = (p - P) + (q - Q) + (r - S) by ring]
    have := abs_add_three (p - P) (q - Q) (r - S)
    linarith
  have ng : ∀ p P : ℝ, |p - P| ≤ β * (δ + ε) → |-p - -P| ≤ β * (δ + ε) := fun p P h => by
    rwa [neg_sub_neg, abs_sub_comm]
  have a11 := abs_tri_le ha bc by1 h3 h1
  have f21 := abs_tri_le hf bs by1 h3 h2
  have g22 := abs_tri_le hg bs by2 h4 h2
  have a12 := abs_tri_le ha bc by2 h4 h1
  have f22 := abs_tri_le hf bs by2 h4 h2
  have g21 := abs_tri_le hg bs by1 h3 h2
  have a21 := abs_tri_le ha bs by1 h3 h2
  have f11 := abs_tri_le hf bc by1 h3 h1
  have g12 := abs_tri_le hg bc by2 h4 h1
  have a22 := abs_tri_le ha bs by2 h4 h2
  have f12 := abs_tri_le hf bc by2 h4 h1
  have g11 := abs_tri_le hg bc by1 h3 h1
  refine ⟨?_, ?_, ?_, ?_⟩
  · have := t _ _ _ _ _ _ a11 f21 g22
    rw [show a * z1 * y1 + f * z2 * y1 + g * z2 * y2 = V1 by
      linear_combination -y1 * n1 - y2 * n2 + V1 * hy] at this
    rwa [show (a * c' + f * s') * c + g * s' * s - V1 = a * c' * c + f * s' * c + g * s' * s - V1 by ring]
  · have := t _ _ _ _ _ _ (ng _ _ a12) (ng _ _ f22) g21
    rw [show -(a * z1 * y2) + -(f * z2 * y2) + g * z2 * y1 = 0 by linear_combination y2 * n1 - y1 * n2, sub_zero] at this
    rwa [show (a * c' + f * s') * (-s) + g * s' * c = -(a * c' * s) + -(f * s' * s) + g * s' * c by ring]
  · have := t _ _ _ _ _ _ (ng _ _ a21) f11 g12
    rw [show -(a * z2 * y1) + f * z1 * y1 + g * z1 * y2 = 0 by linear_combination n3, sub_zero] at this
    rwa [show (-a * s' + f * c') * c + g * c' * s = -(a * s' * c) + f * c' * c + g * c' * s by ring]
  · have := t _ _ _ _ _ _ a22 (ng _ _ f12) g11
    rw [show a * z2 * y2 + -(f * z1 * y2) + g * z1 * y1 = V2 by linear_combination n4] at this
    rwa [show (-a * s' + f * c') * (-s) + g * c' * c - V2 = a * s' * s + -(f * c' * s) + g * c' * c - V2 by ring]

/-! ## The computed rotations -/

/-- `GivensRotation::new` on a vector that is not zero. -/
theorem givensNew_pos {x y : Rnd R} {ρ : ℝ} (hρ : 0 < ρ) (h : ρ * ρ = x.v * x.v + y.v * y.v) :
    ∃ g r, GivensRotation.new x y = (g, r) ∧ Rel R 1 r.v ρ ∧ Rel R 2 g.c.v (x.v / ρ) ∧ Rel R 2 g.s.v (y.v / ρ) := by
  have hρ' : ρ = Real.sqrt (x.v * x.v + y.v * y.v) := by rw [← h, Real.sqrt_mul_self hρ.le]
  have hrel : Rel R 1 (NdFloat.hypot x y).v ρ := by
    rw [Rnd.hypot_v, hρ']; exact Rel.hyp _ _
  have hlt : NdFloat.lt (0 : Rnd R) (NdFloat.hypot x y) = true := by
    simp only [Rnd.lt_v, decide_eq_true_eq]
    have := hrel.pos hρ
    simpa using this
  refine ⟨⟨x / NdFloat.hypot x y, y / NdFloat.hypot x y⟩, NdFloat.hypot x y, ?_, hrel, ?_, ?_⟩
  · unfold GivensRotation.new GivensRotation.tryNew
    simp only [hlt, if_true, Option.getD_some]
  · exact ((Rel.refl 0 _).div hrel).trans (Rel.rnd _)
  · exact ((Rel.refl 0 _).div hrel).trans (Rel.rnd _)

/-- The errors of the input of the first rotation. -/
theorem first_input {γ a V v w2 t1 t2 : ℝ} (hγ : 0 ≤ γ) (hγ1 : γ ≤ 1 / 104) (hV : V ^ 2 ≤ a ^ 2)
    (hv : |v - V| ≤ γ * |V|) (h1 : |t1 - v * v| ≤ γ * |v * v|) (h2 : |t2 - a * a| ≤ γ * |a * a|)
    (h3 : |w2 - (t1 - t2)| ≤ γ * |t1 - t2|) : |w2 - (V ^ 2 - a ^ 2)| ≤ 6 * γ * a ^ 2 := by
  have hvv : |v * v - V ^ 2| ≤ 21 / 10 * γ * V ^ 2 := by
    rw [show v * v - V ^ 2 = (v - V) * (v - V) + 2 * V * (v - V) by ring]
    refine (abs_add_le _ _).trans ?_
    rw [abs_mul, abs_mul, abs_mul, abs_two]
    have e1 := mul_le_mul hv hv (abs_nonneg _) (mul_nonneg hγ (abs_nonneg _))
    have e2 := mul_le_mul_of_nonneg_left hv (by positivity : 0 ≤ 2 * |V|)
    have e3 : γ * |V| * (γ * |V|) = γ * γ * V ^ 2 := by rw [← sq_abs V]; ring
    have e4 : 2 * |V| * (γ * |V|) = 2 * γ * V ^ 2 := by rw [← sq_abs V]; ring
    have e5 : γ * γ * V ^ 2 ≤ 1 / 10 * γ * V ^ 2 := by
      refine mul_le_mul_of_nonneg_right ?_ (sq_nonneg _)
      nlinarith
    linarith
  have hb : |v * v| ≤ (1 + 21 / 10 * γ) * V ^ 2 := by
    have := abs_sub_abs_le_abs_sub (v * v) (V ^ 2)
    rw [abs_of_nonneg (sq_nonneg V)] at this
    linarith
  have ha : |a * a| = a ^ 2 := by rw [abs_mul_self, sq]
  rw [ha] at h2
  have hV0 := sq_nonneg V
  have ha0 := sq_nonneg a
  have hs : |t1 - V ^ 2| ≤ 32 / 10 * γ * V ^ 2 := by
    have e1 := abs_sub_le t1 (v * v) (V ^ 2)
    have e2 := mul_le_mul_of_nonneg_left hb hγ
    have e3 : γ * (21 / 10 * γ) * V ^ 2 ≤ γ * (1 / 10) * V ^ 2 := by
      refine mul_le_mul_of_nonneg_right (mul_le_mul_of_nonneg_left (by linarith) hγ) hV0
    nlinarith
  have hd : |(t1 - t2) - (V ^ 2 - a ^ 2)| ≤ 42 / 10 * γ * a ^ 2 := by
    rw [show (t1 - t2) - (V ^ 2 - a ^ 2) = (t1 - V ^ 2) - (t2 - a * a) by ring]
    have e1 := abs_sub (t1 - V ^ 2) (t2 - a * a)
    have e2 := mul_le_mul_of_nonneg_left hV (by positivity : 0 ≤ 32 / 10 * γ)
    linarith
  have hm : |V ^ 2 - a ^ 2| ≤ a ^ 2 := by rw [abs_le]; constructor <;> linarith
  have hn : |t1 - t2| ≤ (1 + 42 / 10 * γ) * a ^ 2 := by
    have := abs_sub_abs_le_abs_sub (t1 - t2) (V ^ 2 - a ^ 2)
    linarith
  have e1 := abs_sub_le w2 (t1 - t2) (V ^ 2 - a ^ 2)
  have e2 := mul_le_mul_of_nonneg_left hn hγ
  have e3 : γ * (42 / 10 * γ) * a ^ 2 ≤ γ * (1 / 10) * a ^ 2 := by
    refine mul_le_mul_of_nonneg_right (mul_le_mul_of_nonneg_left (by linarith) hγ) ha0
  nlinarith

/-- A rounded sum of two rounded products. -/
theorem rounded_dot {γ η a f c s z1 z2 p q x B : ℝ} (hγ : 0 ≤ γ) (hγ1 : γ ≤ 1 / 104) (hB : |a| + |f| ≤ B)
    (hc : |c| ≤ 1) (hs : |s| ≤ 1) (h1 : |c - z1| ≤ η) (h2 : |s - z2| ≤ η)
    (hp : |p - a * c| ≤ γ * |a * c|) (hq : |q - f * s| ≤ γ * |f * s|) (hx : |x - (p + q)| ≤ γ * |p + q|) :
    |x - (a * z1 + f * z2)| ≤ (21 / 10 * γ + η) * B := by
  have ha := abs_nonneg a
  have hf := abs_nonneg f
  have hη : 0 ≤ η := (abs_nonneg _).trans h1
  have hac : |a * c| ≤ |a| := by rw [abs_mul]; exact mul_le_of_le_one_right ha hc
  have hfs : |f * s| ≤ |f| := by rw [abs_mul]; exact mul_le_of_le_one_right hf hs
  have e1 : |p + q - (a * c + f * s)| ≤ γ * B := by
    rw [show p + q - (a * c + f * s) = (p - a * c) + (q - f * s) by ring]
    have := abs_add_le (p - a * c) (q - f * s)
    have g1 := mul_le_mul_of_nonneg_left hac hγ
    have g2 := mul_le_mul_of_nonneg_left hfs hγ
    have g3 := mul_le_mul_of_nonneg_left hB hγ
    linarith
  have e2 : |p + q| ≤ (1 + γ) * B := by
    have g1 := abs_sub_abs_le_abs_sub (p + q) (a * c + f * s)
    have g2 := abs_add_le (a * c) (f * s)
    linarith
  have e3 : |a * c + f * s - (a * z1 + f * z2)| ≤ η * B := by
    rw [show a * c + f * s - (a * z1 + f * z2) = a * (c - z1) + f * (s - z2) by ring]
    have g1 := abs_add_le (a * (c - z1)) (f * (s - z2))
    rw [abs_mul, abs_mul] at g1
    have g2 := mul_le_mul_of_nonneg_left h1 ha
    have g3 := mul_le_mul_of_nonneg_left h2 hf
    have g4 := mul_le_mul_of_nonneg_left hB hη
    linarith
  have g1 := abs_sub_le x (p + q) (a * z1 + f * z2)
  have g2 := abs_sub_le (p + q) (a * c + f * s) (a * z1 + f * z2)
  have g3 := mul_le_mul_of_nonneg_left e2 hγ
  have hB0 : 0 ≤ B := by linarith
  have g4 : γ * γ * B ≤ γ * (1 / 10) * B :=
    mul_le_mul_of_nonneg_right (mul_le_mul_of_nonneg_left (by linarith) hγ) hB0
  nlinarith

/-- The values after the multiplications by the norms. -/
theorem last_values {γ κ V1 V2 v1 v2 ρ1 ρ2 ν w1 w2 : ℝ} (hγ : 0 ≤ γ) (hκ : γ ≤ κ) (hκ1 : κ ≤ 1 / 104) (hV1 : V1 ≠ 0)
    (hρ1 : 0 < ρ1) (h1 : |v1 - V1 * ρ1| ≤ γ * |V1 * ρ1|) (h2 : |v2 - V2 * ρ1| ≤ γ * |V2 * ρ1|)
    (hν : ν = |v1|) (h3 : |ρ2 * ν - (|V1|)| ≤ 64 * κ * |V1|) (hw1 : |w1 - v1 * ρ2| ≤ γ * |v1 * ρ2|)
    (hw2 : |w2 - v2 * ρ2| ≤ γ * |v2 * ρ2|) (hsgn : v1 * |V1| = V1 * ν) :
    |w1 - V1| ≤ 70 * κ * |V1| ∧ |w2 - V2| ≤ 70 * κ * |V2| := by
  have hκ0 : 0 ≤ κ := hγ.trans hκ
  have hV : 0 < |V1| := abs_pos.2 hV1
  obtain ⟨t, ht⟩ : ∃ t, t = ρ2 * ν / |V1| := ⟨_, rfl⟩
  have ht' : ρ2 * ν = t * |V1| := by rw [ht]; field_simp
  have htb : |t - 1| ≤ 64 * κ := by
    rw [ht', show t * |V1| - |V1| = (t - 1) * |V1| by ring, abs_mul, abs_abs] at h3
    exact le_of_mul_le_mul_right h3 hV
  have hfin : ∀ w x V : ℝ, |w - x| ≤ γ * |x| → ∀ q, x = q * V → |q - 1| ≤ 68 * κ → |w - V| ≤ 70 * κ * |V| := by
    intro w x V hw q hq hqb
    have hV0 := abs_nonneg V
    rw [hq, abs_mul] at hw
    have e1 : |q| ≤ 1 + 68 * κ := by
      have := abs_sub_abs_le_abs_sub q 1
      rw [abs_one] at this
      linarith
    have e2 := abs_sub_le w (q * V) V
    rw [show q * V - V = (q - 1) * V by ring, abs_mul] at e2
    have e3 := mul_le_mul_of_nonneg_right hqb hV0
    have e4 : γ * (|q| * |V|) ≤ κ * (2 * |V|) := by
      refine mul_le_mul hκ (mul_le_mul_of_nonneg_right (by linarith) hV0) (by positivity) hκ0
    linarith
  constructor
  · refine hfin w1 (v1 * ρ2) V1 hw1 t ?_ (by linarith)
    refine mul_right_cancel₀ hV.ne' ?_
    linear_combination ρ2 * hsgn + V1 * ht'
  · have hν1 : |ν - (|V1|) * ρ1| ≤ γ * (|V1| * ρ1) := by
      have := abs_abs_sub_abs_le_abs_sub v1 (V1 * ρ1)
      rw [abs_mul, abs_of_pos hρ1, ← hν] at this
      rw [abs_mul, abs_of_pos hρ1] at h1
      exact this.trans h1
    obtain ⟨α, hα⟩ : ∃ α, α = ν / (|V1| * ρ1) := ⟨_, rfl⟩
    have hα' : ν = α * (|V1| * ρ1) := by rw [hα]; field_simp
    have hp : 0 < |V1| * ρ1 := mul_pos hV hρ1
    have hαb : |α - 1| ≤ γ := by
      rw [hα', show α * (|V1| * ρ1) - |V1| * ρ1 = (α - 1) * (|V1| * ρ1) by ring, abs_mul, abs_of_pos hp] at hν1
      exact le_of_mul_le_mul_right hν1 hp
    have hα1 := abs_le.1 hαb
    by_cases hV2 : V2 = 0
    · subst hV2
      have e2 : v2 = 0 := by simpa using h2
      subst e2
      have : w2 = 0 := by simpa using hw2
      rw [this]; simp
    · obtain ⟨β, hβ⟩ : ∃ β, β = v2 / (V2 * ρ1) := ⟨_, rfl⟩
      have hne : V2 * ρ1 ≠ 0 := mul_ne_zero hV2 hρ1.ne'
      have hβ' : v2 = β * (V2 * ρ1) := by rw [hβ]; field_simp
      have hβb : |β - 1| ≤ γ := by
        rw [hβ', show β * (V2 * ρ1) - V2 * ρ1 = (β - 1) * (V2 * ρ1) by ring, abs_mul] at h2
        exact le_of_mul_le_mul_right h2 (abs_pos.2 hne)
      have hα0 : 0 < α := by linarith
      refine hfin w2 (v2 * ρ2) V2 hw2 (β / α * t) ?_ ?_
      · rw [hβ']
        have : ρ2 * α * ρ1 = t := by
          refine mul_right_cancel₀ hV.ne' ?_
          rw [← ht', hα']; ring
        field_simp
        linear_combination β * this
      · have e1 : |β / α - 1| ≤ 21 / 10 * κ := by
          rw [show β / α - 1 = (β - α) / α by field_simp, abs_div, abs_of_pos hα0, div_le_iff₀ hα0]
          have : |β - α| ≤ 2 * γ := by
            have := abs_sub_le β 1 α
            rw [abs_sub_comm 1 α] at this
            linarith
          nlinarith
        rw [show β / α * t - 1 = (β / α - 1) * t + (t - 1) by ring]
        refine (abs_add_le _ _).trans ?_
        rw [abs_mul]
        have ht2 : |t| ≤ 17 / 10 := by
          have := abs_sub_abs_le_abs_sub t 1
          rw [abs_one] at this
          linarith
        have := mul_le_mul e1 ht2 (abs_nonneg _) (by positivity)
        linarith

/-- The second rotation and the final values. -/
theorem second_rotation {K γ κ b V1 V2 y1 y2 z1 z2 c' s' ρ1 : ℝ} {a f g v1 v2 : Rnd R} {rv : GivensRotation (Rnd R)}
    (hu : 10 * R.uw < 1) (hγd : γ = gam R.uw 10) (hKγ : 104 * κ ≤ 1) (hK : 1 ≤ K) (hκd : κ = K ^ 2 * γ) (hV1 : V1 ≠ 0)
    (hρ1 : 0 < ρ1) (hx1 : Rel R 10 v1.v (V1 * ρ1)) (hx2 : Rel R 8 v2.v (V2 * ρ1)) (hy : y1 * y1 + y2 * y2 = 1)
    (n1 : V1 * y1 = a.v * z1 + f.v * z2) (n2 : V1 * y2 = g.v * z2) (hb0 : 0 ≤ b) (hbV : b ≤ K * |V1|)
    (haf : |a.v| + |f.v| ≤ 3 / 2 * b) (hg : |g.v| ≤ 3 / 2 * b) (hunit : c' * c' + s' * s' = 1)
    (d1 : |c' - z1| ≤ 3 * (6 * (K * γ))) (d2 : |s' - z2| ≤ 3 * (6 * (K * γ))) (c1 : Rel R 2 rv.c.v c')
    (c2 : Rel R 2 rv.s.v s') : ∃ ru t2, GivensRotation.new ((a * rv.c + f * rv.s) / v1) (g * rv.s / v1) = (ru, t2) ∧
      ∃ c s, c * c + s * s = 1 ∧ Rel R 2 ru.c.v c ∧ Rel R 2 ru.s.v s ∧ |c - y1| ≤ 96 * κ ∧ |s - y2| ≤ 96 * κ ∧
        |(v1 * t2).v - V1| ≤ 70 * κ * |V1| ∧ |(v2 * t2).v - V2| ≤ 70 * κ * |V2| := by
  have hγ : 0 ≤ γ := by rw [hγd]; exact gam_nonneg (n := 10) R.uw_nonneg (by exact_mod_cast hu)
  have herr : ∀ {k x y}, Rel R k y x → k ≤ 10 → |y - x| ≤ γ * |x| := fun h hk => by rw [hγd]; exact h.err hk hu
  have hK0 : 0 ≤ K := by linarith
  have hκK : K * γ ≤ κ := by rw [hκd]; exact mul_le_mul_of_nonneg_right (by nlinarith) hγ
  have hγK : γ ≤ K * γ := le_mul_of_one_le_left hγ hK
  have hκ1 : κ ≤ 1 / 104 := by linarith
  have hγ1 : γ ≤ 1 / 104 := by linarith
  have hκ0 : 0 ≤ κ := by linarith
  have hVp : 0 < |V1| := abs_pos.2 hV1
  obtain ⟨θ, hθ, hθv⟩ := id hx1
  have hθ0 : 0 < θ := hθ.pos R.uw_nonneg R.uw_lt_one
  have hν : |v1.v| = |V1| * ρ1 * θ := by rw [hθv, abs_mul, abs_mul, abs_of_pos hρ1, abs_of_pos hθ0]
  have hνp : 0 < |v1.v| := by rw [hν]; positivity
  have hsgn : v1.v * |V1| = V1 * |v1.v| := by rw [hν, hθv]; ring
  have hv1 : v1.v ≠ 0 := abs_pos.1 hνp
  clear hν hθ hθv hθ0
  have hBV : (21 / 10 * γ + 3 * (6 * (K * γ))) * (3 / 2 * b) ≤ 61 / 2 * κ * |V1| := by
    have e1 : (21 / 10 * γ + 3 * (6 * (K * γ))) * (3 / 2 * b) ≤ (203 / 10 * (K * γ)) * (3 / 2 * (K * |V1|)) := by
      refine mul_le_mul (by linarith) (by linarith) (by positivity) (by positivity)
    refine e1.trans ?_
    have e2 : 0 ≤ K ^ 2 * γ * |V1| := by positivity
    rw [hκd]
    linarith
  have hc'1 := abs_le_one_left hunit
  have hs'1 := abs_le_one_right hunit
  have hB0 : 0 ≤ 3 / 2 * b := by positivity
  have hxh : |(a * rv.c + f * rv.s).v - V1 * y1| ≤ 61 / 2 * κ * |V1| := by
    rw [n1]
    exact (rounded_dot hγ hγ1 haf hc'1 hs'1 d1 d2 (herr (((Rel.refl 0 a.v).mul c1).trans (Rel.rnd _)) (by norm_num))
      (herr (((Rel.refl 0 f.v).mul c2).trans (Rel.rnd _)) (by norm_num)) (herr (Rel.rnd _) (by norm_num))).trans hBV
  have hyh : |(g * rv.s).v - V1 * y2| ≤ 61 / 2 * κ * |V1| := by
    rw [n2]
    refine le_trans ?_ hBV
    have e1 : |(g * rv.s).v - g.v * s'| ≤ γ * |g.v * s'| :=
      herr (((Rel.refl 0 g.v).mul c2).trans (Rel.rnd _)) (by norm_num)
    have e2 : |g.v * s'| ≤ |g.v| := by rw [abs_mul]; exact mul_le_of_le_one_right (abs_nonneg _) hs'1
    have e3 := abs_sub_le (g * rv.s).v (g.v * s') (g.v * z2)
    rw [show g.v * s' - g.v * z2 = g.v * (s' - z2) by ring, abs_mul] at e3
    have e4 := mul_le_mul hg d2 (abs_nonneg _) hB0
    have e5 := mul_le_mul_of_nonneg_left (e2.trans hg) hγ
    have e6 := mul_nonneg hγ hB0
    linarith
  have key : ∀ (x : Rnd R) (y : ℝ), |y| ≤ 1 → |x.v - V1 * y| ≤ 61 / 2 * κ * |V1| →
      |(x / v1).v * |v1.v| - |V1| * y| ≤ 32 * κ * |V1| := by
    intro x y hy1 hx
    have e1 : |(x / v1).v - x.v / v1.v| ≤ γ * |x.v / v1.v| := herr (Rel.rnd _) (by norm_num)
    have e2 : |x.v| ≤ 3 / 2 * |V1| := by
      have g1 := abs_sub_abs_le_abs_sub x.v (V1 * y)
      rw [abs_mul] at g1
      have g2 := mul_le_of_le_one_right hVp.le hy1
      have g3 := mul_le_mul_of_nonneg_right hκ1 hVp.le
      linarith
    have e3 : |(x / v1).v * |v1.v| - x.v / v1.v * (|v1.v|)| ≤ γ * |x.v| := by
      rw [← sub_mul, abs_mul, abs_abs]
      refine (mul_le_mul_of_nonneg_right e1 hνp.le).trans (le_of_eq ?_)
      rw [abs_div]; field_simp
    have e4 : |x.v / v1.v * |v1.v| - |V1| * y| = |x.v - V1 * y| := by
      rcases abs_choice v1.v with h | h
      · have hV : |V1| = V1 := by
          rw [h] at hsgn
          exact mul_left_cancel₀ hv1 (by linear_combination hsgn)
        rw [h, hV]; congr 1; field_simp
      · have hV : |V1| = -V1 := by
          rw [h] at hsgn
          exact mul_left_cancel₀ hv1 (by linear_combination hsgn)
        rw [h, hV, ← abs_neg (x.v - V1 * y)]; congr 1; field_simp; ring
    have e5 := abs_sub_le ((x / v1).v * |v1.v|) (x.v / v1.v * |v1.v|) (|V1| * y)
    rw [e4] at e5
    have e6 := mul_le_mul_of_nonneg_left e2 hγ
    have e7 := mul_le_mul_of_nonneg_right (hγK.trans hκK) hVp.le
    linarith
  have h1 := key _ y1 (abs_le_one_left hy) hxh
  have h2 := key _ y2 (abs_le_one_right hy) hyh
  clear key hxh hyh hBV
  generalize (a * rv.c + f * rv.s) / v1 = x at *
  generalize g * rv.s / v1 = y at *
  obtain ⟨ρ2, hρ2⟩ : ∃ ρ, ρ = Real.sqrt (x.v * x.v + y.v * y.v) := ⟨_, rfl⟩
  have hρ20 : 0 ≤ ρ2 := by rw [hρ2]; exact Real.sqrt_nonneg _
  have hρ22 : ρ2 * ρ2 = x.v * x.v + y.v * y.v := by
    rw [hρ2]; exact Real.mul_self_sqrt (add_nonneg (mul_self_nonneg _) (mul_self_nonneg _))
  obtain ⟨hp, k1, k2, k3⟩ := normalize_near (ρ := ρ2 * |v1.v|) (mul_nonneg hρ20 hνp.le) hVp (by linarith)
    (by linear_combination |v1.v| * |v1.v| * hρ22) (show |V1| * |V1| = |V1| * y1 * (|V1| * y1) + |V1| * y2 * (|V1| * y2) by
      linear_combination (-(|V1| * |V1|)) * hy) h1 h2
  have hρ2p : 0 < ρ2 := (pos_iff_pos_of_mul_pos hp).2 hνp
  obtain ⟨ru, t2, hru, ht2, q1, q2⟩ := givensNew_pos hρ2p hρ22
  have hc : ∀ x y : ℝ, x * |v1.v| / (ρ2 * |v1.v|) - |V1| * y / |V1| = x / ρ2 - y := by
    intro x y; field_simp
  rw [hc] at k2 k3
  refine ⟨ru, t2, hru, x.v / ρ2, y.v / ρ2, ?_, q1, q2, by linarith, by linarith, ?_⟩
  · field_simp
    linear_combination -hρ22
  · exact last_values hγ (hγK.trans hκK) hκ1 hV1 hρ1 (herr hx1 (by norm_num)) (herr hx2 (by norm_num)) rfl
      (by linarith) (herr (((Rel.refl 0 v1.v).mul ht2).trans (Rel.rnd _)) (by norm_num))
      (herr (((Rel.refl 0 v2.v).mul ht2).trans (Rel.rnd _)) (by norm_num)) hsgn

set_option maxHeartbeats 1000000 in
/-- `compute_2x2_uptrig_svd` in floating point with factors, on a well conditioned block. -/
theorem uptrig_good (hu : 10 * R.uw < 1) {K : ℝ} (hK : 1 ≤ K) (hKγ : 104 * (K ^ 2 * gam R.uw 10) ≤ 1) {a f g : Rnd R}
    (hg : UptrigGood K a.v f.v g.v) {cu cv : Bool} (hc : (cv || cu) = true) :
    ∃ (v1 v2 : Rnd R) (ru rv : GivensRotation (Rnd R)) (c s c' s' : ℝ),
      compute2x2UptrigSvd a f g cu cv = (v1, v2, if cu then some ru else none, if cv then some rv else none) ∧
      c * c + s * s = 1 ∧ c' * c' + s' * s' = 1 ∧ Rel R 3 ru.c.v c ∧ Rel R 3 ru.s.v s ∧ Rel R 3 rv.c.v c' ∧
      Rel R 3 rv.s.v s' ∧ ∀ β, |a.v| ≤ β → |f.v| ≤ β → |g.v| ≤ β →
        |(a.v * c' + f.v * s') * c + g.v * s' * s - v1.v| ≤ 500 * (K ^ 2 * gam R.uw 10) * β ∧
        |(a.v * c' + f.v * s') * (-s) + g.v * s' * c| ≤ 500 * (K ^ 2 * gam R.uw 10) * β ∧
        |(-a.v * s' + f.v * c') * c + g.v * c' * s| ≤ 500 * (K ^ 2 * gam R.uw 10) * β ∧
        |(-a.v * s' + f.v * c') * (-s) + g.v * c' * c - v2.v| ≤ 500 * (K ^ 2 * gam R.uw 10) * β := by
  obtain ⟨hag, hcond, hsep⟩ := hg
  obtain ⟨γ, hγd⟩ : ∃ γ, γ = gam R.uw 10 := ⟨_, rfl⟩
  have hγ : 0 ≤ γ := by rw [hγd]; exact gam_nonneg (n := 10) R.uw_nonneg (by exact_mod_cast hu)
  rw [← hγd] at hKγ ⊢
  have herr : ∀ {k x y}, Rel R k y x → k ≤ 10 → |y - x| ≤ γ * |x| := fun h hk => by rw [hγd]; exact h.err hk hu
  obtain ⟨κ, hκd⟩ : ∃ κ, κ = K ^ 2 * γ := ⟨_, rfl⟩
  rw [← hκd] at hKγ ⊢
  have hK0 : 0 ≤ K := by linarith
  have hκK : K * γ ≤ κ := by rw [hκd]; exact mul_le_mul_of_nonneg_right (by nlinarith) hγ
  have hγK : γ ≤ K * γ := le_mul_of_one_le_left hγ hK
  have hκ1 : κ ≤ 1 / 104 := by linarith
  have hγ1 : γ ≤ 1 / 104 := by linarith
  have hκ0 : 0 ≤ κ := by linarith
  obtain ⟨p, hp⟩ : ∃ p, p = Real.sqrt ((a.v + g.v) * (a.v + g.v) + f.v * f.v) := ⟨_, rfl⟩
  obtain ⟨q, hq⟩ : ∃ q, q = Real.sqrt ((a.v - g.v) * (a.v - g.v) + f.v * f.v) := ⟨_, rfl⟩
  obtain ⟨r1, r2, hsum, hprod, hp0, hq0⟩ := uptrig_rel a f g hp hq
  have hle : ((p - q) / 2) ^ 2 ≤ ((p + q) / 2) ^ 2 := by nlinarith [mul_nonneg hp0 hq0]
  have hV20 : 0 ≤ (p + q) / 2 := by positivity
  generalize (p - q) / 2 = V1 at *
  generalize (p + q) / 2 = V2 at *
  clear hp hq hp0 hq0
  have hV1 : V1 ≠ 0 := fun h => hag (by rw [← hprod, h, zero_mul])
  obtain ⟨m1, m2⟩ := uptrig_min_le hsum hprod hle
  -- the norm of the block
  obtain ⟨b, hb⟩ : ∃ b, b = Real.sqrt (a.v ^ 2 + f.v ^ 2 + g.v ^ 2) := ⟨_, rfl⟩
  have hb0 : 0 ≤ b := by rw [hb]; exact Real.sqrt_nonneg _
  have hbb : b * b = a.v ^ 2 + f.v ^ 2 + g.v ^ 2 := by rw [hb]; exact Real.mul_self_sqrt (by positivity)
  have hV2b : V2 ≤ b := (le_abs_self _).trans (abs_le_of_sq_le_sq (by nlinarith [sq_nonneg V1]) hb0)
  have hbpos : 0 < b := by
    rcases hb0.lt_or_eq with h | h
    · exact h
    · exfalso
      rw [← h] at hbb
      have : a.v ^ 2 = 0 := by nlinarith [sq_nonneg a.v, sq_nonneg f.v, sq_nonneg g.v]
      exact hag (by rw [pow_eq_zero_iff two_ne_zero] at this; rw [this, zero_mul])
  have hbV : b ≤ K * |V1| := by
    rw [← hbb, ← hprod, abs_mul, abs_of_nonneg hV20] at hcond
    have : b * b ≤ K * |V1| * b := hcond.trans (by
      rw [← mul_assoc]; exact mul_le_mul_of_nonneg_left hV2b (by positivity))
    exact le_of_mul_le_mul_right this hbpos
  -- the first rotation
  obtain ⟨W, hW⟩ : ∃ W, W = Real.sqrt ((a.v * f.v) * (a.v * f.v) + (V1 ^ 2 - a.v ^ 2) * (V1 ^ 2 - a.v ^ 2)) := ⟨_, rfl⟩
  have hW0 : 0 ≤ W := by rw [hW]; exact Real.sqrt_nonneg _
  have hWW : W * W = (a.v * f.v) * (a.v * f.v) + (V1 ^ 2 - a.v ^ 2) * (V1 ^ 2 - a.v ^ 2) := by
    rw [hW]; exact Real.mul_self_sqrt (add_nonneg (mul_self_nonneg _) (mul_self_nonneg _))
  have haf : |a.v * f.v| ≤ W := abs_le_of_sq_le_sq (by nlinarith [mul_self_nonneg (V1 ^ 2 - a.v ^ 2)]) hW0
  have hva : |V1 ^ 2 - a.v ^ 2| ≤ W := abs_le_of_sq_le_sq (by nlinarith [mul_self_nonneg (a.v * f.v)]) hW0
  have haW : a.v ^ 2 ≤ K * W := by
    rcases hsep with h | h
    · have e1 := mul_le_mul_of_nonneg_left h (abs_nonneg a.v)
      have e2 := mul_le_mul_of_nonneg_left haf hK0
      rw [abs_mul] at e2
      rw [← sq_abs]; nlinarith
    · refine h.trans (mul_le_mul_of_nonneg_left ?_ hK0)
      have := neg_abs_le (V1 ^ 2 - a.v ^ 2)
      linarith
  have ha : a.v ≠ 0 := fun h => hag (by rw [h, zero_mul])
  have hWpos : 0 < W := by
    rcases hW0.lt_or_eq with h | h
    · exact h
    · exfalso
      rw [← h, mul_zero] at haW
      exact ha (pow_eq_zero_iff two_ne_zero |>.1 (le_antisymm haW (sq_nonneg _)))
  obtain ⟨z1, z2, y1, y2, hz1, hz2, hz, hy, n1, n2, n3, n4⟩ := uptrig_exact hsum hprod hV1 hWpos hWW
  unfold compute2x2UptrigSvd
  simp only [if_pos hc]
  generalize a * g * NdFloat.ofRat 2 / (NdFloat.hypot (a + g) f + NdFloat.hypot (a - g) f) = x1 at *
  generalize (NdFloat.hypot (a + g) f + NdFloat.hypot (a - g) f) / NdFloat.ofRat 2 = x2 at *
  have hw1 : |(a * f).v - a.v * f.v| ≤ 6 * (K * γ) * W := by
    refine (herr (Rel.rnd _) (by norm_num)).trans ?_
    have e1 := mul_le_mul_of_nonneg_left haf hγ
    have e2 := mul_le_mul_of_nonneg_right hγK hW0
    have e3 := mul_nonneg (mul_nonneg hK0 hγ) hW0
    linarith
  have hw2 : |(x1 * x1 - a * a).v - (V1 ^ 2 - a.v ^ 2)| ≤ 6 * (K * γ) * W := by
    have := first_input hγ hγ1 m1 (herr r1 (by norm_num)) (herr (Rel.rnd _) (by norm_num)) (herr (Rel.rnd (a.v * a.v)) (by norm_num))
      (herr (Rel.rnd (R.rnd (x1.v * x1.v) - R.rnd (a.v * a.v))) (by norm_num))
    refine this.trans ((mul_le_mul_of_nonneg_left haW (by positivity : 0 ≤ 6 * γ)).trans (le_of_eq ?_))
    ring
  obtain ⟨w1, hw1d⟩ : ∃ w, w = a * f := ⟨_, rfl⟩
  obtain ⟨w2, hw2d⟩ : ∃ w, w = x1 * x1 - a * a := ⟨_, rfl⟩
  rw [← hw1d] at hw1 ⊢
  rw [← hw2d] at hw2 ⊢
  obtain ⟨ρ1, hρ1⟩ : ∃ ρ, ρ = Real.sqrt (w1.v * w1.v + w2.v * w2.v) := ⟨_, rfl⟩
  have hρ10 : 0 ≤ ρ1 := by rw [hρ1]; exact Real.sqrt_nonneg _
  have hρ11 : ρ1 * ρ1 = w1.v * w1.v + w2.v * w2.v := by
    rw [hρ1]; exact Real.mul_self_sqrt (add_nonneg (mul_self_nonneg _) (mul_self_nonneg _))
  obtain ⟨hρ1p, -, d1, d2⟩ := normalize_near hρ10 hWpos (by linarith) hρ11 hWW hw1 hw2
  obtain ⟨rv, t1, hrv, ht1, c1, c2⟩ := givensNew_pos hρ1p hρ11
  rw [hrv]
  rw [← hz1] at d1
  rw [← hz2] at d2
  have hunit : w1.v / ρ1 * (w1.v / ρ1) + w2.v / ρ1 * (w2.v / ρ1) = 1 := by
    have := hρ1p.ne'
    field_simp
    linear_combination -hρ11
  clear hrv hρ1 hw1 hw2 hw1d hw2d
  generalize w1.v / ρ1 = c' at *
  generalize w2.v / ρ1 = s' at *
  have hc'1 := abs_le_one_left hunit
  have hs'1 := abs_le_one_right hunit
  dsimp only
  have hx1 : Rel R 10 (x1 * t1).v (V1 * ρ1) := (r1.mul ht1).trans (Rel.rnd _)
  have hx2 : Rel R 8 (x2 * t1).v (V2 * ρ1) := (r2.mul ht1).trans (Rel.rnd _)
  obtain ⟨v1, hv1d⟩ : ∃ v, v = x1 * t1 := ⟨_, rfl⟩
  obtain ⟨v2, hv2d⟩ : ∃ v, v = x2 * t1 := ⟨_, rfl⟩
  rw [← hv1d] at hx1 ⊢
  rw [← hv2d] at hx2 ⊢
  clear hv1d hv2d r1 r2
  have haf15 : |a.v| + |f.v| ≤ 3 / 2 * b := by
    refine (le_abs_self _).trans (abs_le_of_sq_le_sq ?_ (by positivity))
    have e1 := sq_abs a.v
    have e2 := sq_abs f.v
    have e3 := sq_nonneg (|a.v| - |f.v|)
    have e4 := sq_nonneg g.v
    have e5 := sq_nonneg b
    clear * - e1 e2 e3 e4 e5 hbb
    nlinarith
  have hgb : |g.v| ≤ 3 / 2 * b := by
    refine abs_le_of_sq_le_sq ?_ (by positivity)
    have e1 := sq_nonneg a.v
    have e2 := sq_nonneg f.v
    have e5 := sq_nonneg b
    clear * - e1 e2 e5 hbb
    nlinarith
  obtain ⟨ru, t2, hru, c, s, hcs, q1, q2, k1, k2, k3, k4⟩ := second_rotation hu hγd hKγ hK hκd hV1 hρ1p hx1 hx2 hy n1 n2 hb0 hbV
    haf15 hgb hunit d1 d2 c1 c2
  rw [hru]
  refine ⟨v1 * t2, v2 * t2, ru, rv, c, s, c', s', rfl, hcs, hunit, q1.mono (by norm_num), q2.mono (by norm_num),
    c1.mono (by norm_num), c2.mono (by norm_num), fun β ha' hf' hg' => ?_⟩
  obtain ⟨b1, b2, b3, b4⟩ := block_entries ha' hf' hg' hy hunit n1 n2 n3 n4 d1 d2 k1 k2
  have hβ : 0 ≤ β := (abs_nonneg _).trans ha'
  have hVβ : |V1| ≤ β := (abs_le_of_sq_le_sq (by rw [sq_abs]; exact m1) (abs_nonneg _)).trans ha'
  have hV2β : |V2| ≤ 2 * β := by
    refine abs_le_of_sq_le_sq ?_ (by linarith)
    have e1 := sq_le_sq' (abs_le.1 ha').1 (abs_le.1 ha').2
    have e2 := sq_le_sq' (abs_le.1 hg').1 (abs_le.1 hg').2
    have e3 := sq_le_sq' (abs_le.1 hf').1 (abs_le.1 hf').2
    have e4 := sq_nonneg V1
    clear * - e1 e2 e3 e4 hsum
    nlinarith
  have hT : 3 * β * (96 * κ + 3 * (6 * (K * γ))) ≤ 342 * κ * β := by
    have := mul_le_mul_of_nonneg_left hκK hβ
    linarith
  have hκβ : 0 ≤ κ * β := mul_nonneg hκ0 hβ
  have e1 := mul_le_mul_of_nonneg_left hVβ (by positivity : 0 ≤ 70 * κ)
  have e2 := mul_le_mul_of_nonneg_left hV2β (by positivity : 0 ≤ 70 * κ)
  refine ⟨?_, by linarith, by linarith, ?_⟩
  · have := abs_sub_le ((a.v * c' + f.v * s') * c + g.v * s' * s) V1 (v1 * t2).v
    rw [abs_sub_comm V1] at this
    linarith
  · have := abs_sub_le ((-a.v * s' + f.v * c') * (-s) + g.v * c' * c) V2 (v2 * t2).v
    rw [abs_sub_comm V2] at this
    linarith

/-- `compute_2x2_uptrig_svd` in floating point: rotations up to rounding, and accurate values if no factor is requested
or the block is well conditioned. -/
theorem uptrig_near (hu : 10 * R.uw < 1) {K : Nat} (hKγ : 104 * ((K : ℝ) ^ 2 * gam R.uw 10) ≤ 1) (a f g : Rnd R)
    (cu cv : Bool) :
    ∃ (v1 v2 : Rnd R) (ru rv : GivensRotation (Rnd R)) (c s c' s' : ℝ),
      compute2x2UptrigSvd a f g cu cv = (v1, v2, if cu then some ru else none, if cv then some rv else none) ∧
      c * c + s * s = 1 ∧ c' * c' + s' * s' = 1 ∧ Rel R 3 ru.c.v c ∧ Rel R 3 ru.s.v s ∧ Rel R 3 rv.c.v c' ∧
      Rel R 3 rv.s.v s' ∧
      ((cu = false ∧ cv = false) ∨ (1 ≤ K ∧ UptrigGood K a.v f.v g.v) → ∀ β, |a.v| ≤ β → |f.v| ≤ β → |g.v| ≤ β →
        |(a.v * c' + f.v * s') * c + g.v * s' * s - v1.v| ≤ (2 + 500 * (K : ℝ) ^ 2) * gam R.uw 10 * β ∧
        |(a.v * c' + f.v * s') * (-s) + g.v * s' * c| ≤ (2 + 500 * (K : ℝ) ^ 2) * gam R.uw 10 * β ∧
        |(-a.v * s' + f.v * c') * c + g.v * c' * s| ≤ (2 + 500 * (K : ℝ) ^ 2) * gam R.uw 10 * β ∧
        |(-a.v * s' + f.v * c') * (-s) + g.v * c' * c - v2.v| ≤ (2 + 500 * (K : ℝ) ^ 2) * gam R.uw 10 * β) := by
  have hγ := gam_nonneg (n := 10) R.uw_nonneg (by exact_mod_cast hu)
  by_cases hg : (1 ≤ K ∧ UptrigGood K a.v f.v g.v) ∧ (cv || cu) = true
  · obtain ⟨⟨hK, hg⟩, hc⟩ := hg
    obtain ⟨v1, v2, ru, rv, c, s, c', s', e1, e2, e3, e4, e5, e6, e7, e8⟩ :=
      uptrig_good hu (by exact_mod_cast hK : (1 : ℝ) ≤ K) hKγ hg hc
    refine ⟨v1, v2, ru, rv, c, s, c', s', e1, e2, e3, e4, e5, e6, e7, fun _ β ha hf hg => ?_⟩
    obtain ⟨b1, b2, b3, b4⟩ := e8 β ha hf hg
    have hβ : 0 ≤ gam R.uw 10 * β := mul_nonneg hγ ((abs_nonneg _).trans ha)
    refine ⟨?_, ?_, ?_, ?_⟩ <;> linarith
  · obtain ⟨v1, v2, ru, rv, c, s, c', s', e1, e2, e3, e4, e5, e6, e7, e8⟩ := uptrig_rnd hu a f g cu cv
    refine ⟨v1, v2, ru, rv, c, s, c', s', e1, e2, e3, e4, e5, e6, e7, fun hor β ha hf hg' => ?_⟩
    have hc : cu = false ∧ cv = false := by
      rcases hor with h | h
      · exact h
      · have : ¬ (cv || cu) = true := fun h' => hg ⟨h, h'⟩
        cases cu <;> cases cv <;> simp_all
    obtain ⟨V1, V2, w1, w2, w3, w4, hb⟩ := e8 hc.1 hc.2
    obtain ⟨b1, b2⟩ := hb β ha hf hg'
    have hβ : 0 ≤ gam R.uw 10 * β := mul_nonneg hγ ((abs_nonneg _).trans ha)
    have hK : 0 ≤ (K : ℝ) ^ 2 * (gam R.uw 10 * β) := mul_nonneg (sq_nonneg _) hβ
    refine ⟨?_, ?_, ?_, ?_⟩
    · rw [show (a.v * c' + f.v * s') * c + g.v * s' * s = V1 by linear_combination V1 * e2 - c * w1 - s * w2,
        abs_sub_comm]
      linarith
    · rw [show (a.v * c' + f.v * s') * (-s) + g.v * s' * c = 0 by linear_combination s * w1 - c * w2, abs_zero]
      linarith
    · rw [w3, abs_zero]; linarith
    · rw [w4, abs_sub_comm]; linarith

end LinfaLinalg
