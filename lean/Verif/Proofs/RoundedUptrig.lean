import Verif.Proofs.RoundedSvdSweep
import Mathlib.Analysis.SpecialFunctions.Complex.Arg

/-! # Rounding errors of `compute_2x2_uptrig_svd` -/

set_option linter.unusedSimpArgs false
set_option linter.unusedSectionVars false

namespace LinfaLinalg

open Matrix

variable {R : StdModel}

theorem polar (x y : ℝ) : ∃ θ : ℝ, Real.sqrt (x * x + y * y) * Real.cos θ = x ∧ Real.sqrt (x * x + y * y) * Real.sin θ = y := by
  have h : ‖(⟨x, y⟩ : ℂ)‖ = Real.sqrt (x * x + y * y) := by
    rw [← Complex.normSq_mk, ← Complex.sq_norm, Real.sqrt_sq (norm_nonneg _)]
  refine ⟨Complex.arg ⟨x, y⟩, ?_, ?_⟩
  · rw [← h]; exact Complex.norm_mul_cos_arg _
  · rw [← h]; exact Complex.norm_mul_sin_arg _

/-- The singular value decomposition of an upper triangular `2 × 2` matrix, by rotations; the smaller value has the
sign of the determinant. -/
theorem uptrig_svd (a f g : ℝ) : ∃ c s c' s' : ℝ,
    c * c + s * s = 1 ∧ c' * c' + s' * s' = 1 ∧
    (Real.sqrt ((a + g) * (a + g) + f * f) - Real.sqrt ((a - g) * (a - g) + f * f)) / 2 * c = a * c' + f * s' ∧
    (Real.sqrt ((a + g) * (a + g) + f * f) - Real.sqrt ((a - g) * (a - g) + f * f)) / 2 * s = g * s' ∧
    (-a * s' + f * c') * c + g * c' * s = 0 ∧
    (-a * s' + f * c') * (-s) + g * c' * c =
      (Real.sqrt ((a + g) * (a + g) + f * f) + Real.sqrt ((a - g) * (a - g) + f * f)) / 2 := by
  obtain ⟨φ, h1, h2⟩ := polar (a + g) f
  obtain ⟨ψ, h3, h4⟩ := polar (a - g) f
  generalize Real.sqrt ((a + g) * (a + g) + f * f) = p at *
  generalize Real.sqrt ((a - g) * (a - g) + f * f) = q at *
  obtain ⟨α, hα⟩ : ∃ α, α = (ψ - φ - Real.pi) / 2 := ⟨_, rfl⟩
  obtain ⟨β, hβ⟩ : ∃ β, β = (φ + ψ - Real.pi) / 2 := ⟨_, rfl⟩
  have k1 : Real.cos α * Real.cos β - Real.sin α * Real.sin β = -Real.cos ψ := by
    rw [← Real.cos_add, ← Real.cos_sub_pi]; congr 1; rw [hα, hβ]; ring
  have k2 : Real.sin α * Real.cos β + Real.cos α * Real.sin β = -Real.sin ψ := by
    rw [← Real.sin_add, ← Real.sin_sub_pi]; congr 1; rw [hα, hβ]; ring
  have k3 : Real.cos β * Real.cos α + Real.sin β * Real.sin α = Real.cos φ := by
    rw [← Real.cos_sub]; congr 1; rw [hα, hβ]; ring
  have k4 : Real.sin β * Real.cos α - Real.cos β * Real.sin α = Real.sin φ := by
    rw [← Real.sin_sub]; congr 1; rw [hα, hβ]; ring
  have n1 : Real.cos α * Real.cos α + Real.sin α * Real.sin α = 1 := by
    have := Real.sin_sq_add_cos_sq α; nlinarith
  have n2 : Real.cos β * Real.cos β + Real.sin β * Real.sin β = 1 := by
    have := Real.sin_sq_add_cos_sq β; nlinarith
  have n3 := Real.sin_sq_add_cos_sq φ
  have n4 := Real.sin_sq_add_cos_sq ψ
  generalize Real.cos α = c at *
  generalize Real.sin α = s at *
  generalize Real.cos β = c' at *
  generalize Real.sin β = s' at *
  generalize Real.cos φ = x at *
  generalize Real.sin φ = y at *
  generalize Real.cos ψ = z at *
  generalize Real.sin ψ = w at *
  have r1 : c * (a * c' + f * s') + s * (g * s') = (p - q) / 2 := by
    linear_combination (a - g) / 2 * k1 + (a + g) / 2 * k3 + f / 2 * k2 + f / 2 * k4 - x / 2 * h1 - y / 2 * h2 + z / 2 * h3 + w / 2 * h4 + p / 2 * n3 - q / 2 * n4
  have r2 : -s * (a * c' + f * s') + c * (g * s') = 0 := by
    linear_combination -(a - g) / 2 * k2 + (a + g) / 2 * k4 + f / 2 * k1 - f / 2 * k3 - y / 2 * h1 + x / 2 * h2 - w / 2 * h3 + z / 2 * h4
  have r3 : (-a * s' + f * c') * c + g * c' * s = 0 := by
    linear_combination -(a - g) / 2 * k2 - (a + g) / 2 * k4 + f / 2 * k1 + f / 2 * k3 + y / 2 * h1 - x / 2 * h2 - w / 2 * h3 + z / 2 * h4
  have r4 : (-a * s' + f * c') * (-s) + g * c' * c = (p + q) / 2 := by
    linear_combination -(a - g) / 2 * k1 + (a + g) / 2 * k3 - f / 2 * k2 + f / 2 * k4 - x / 2 * h1 - y / 2 * h2 - z / 2 * h3 - w / 2 * h4 + p / 2 * n3 + q / 2 * n4
  refine ⟨c, s, c', s', n1, n2, ?_, ?_, r3, r4⟩
  · linear_combination (-c) * r1 + s * r2 + (a * c' + f * s') * n1
  · linear_combination (-s) * r1 - c * r2 + (g * s') * n1

/-- The computed singular values of an upper triangular `2 × 2` matrix, before they are multiplied by the norms, are
accurate to high relative accuracy. -/
theorem uptrig_rel (a f g : Rnd R) {p q : ℝ} (hp : p = Real.sqrt ((a.v + g.v) * (a.v + g.v) + f.v * f.v))
    (hq : q = Real.sqrt ((a.v - g.v) * (a.v - g.v) + f.v * f.v)) :
    Rel R 8 (a * g * NdFloat.ofRat 2 / (NdFloat.hypot (a + g) f + NdFloat.hypot (a - g) f)).v ((p - q) / 2) ∧
    Rel R 6 ((NdFloat.hypot (a + g) f + NdFloat.hypot (a - g) f) / NdFloat.ofRat 2).v ((p + q) / 2) ∧
    ((p - q) / 2) ^ 2 + ((p + q) / 2) ^ 2 = a.v ^ 2 + f.v ^ 2 + g.v ^ 2 ∧ (p - q) / 2 * ((p + q) / 2) = a.v * g.v ∧
    0 ≤ p ∧ 0 ≤ q := by
  have hhyp : ∀ x y z : ℝ, Rel R 1 x z → Rel R 3 (R.hyp x y) (Real.sqrt (z * z + y * y)) := by
    intro x y z h
    have h1 : Rel R 2 (x * x + y * y) (z * z + y * y) :=
      (h.mul h).add_nonneg (Rel.refl 2 _) (mul_self_nonneg _) (mul_self_nonneg _)
    exact (h1.sqrt (add_nonneg (mul_self_nonneg _) (mul_self_nonneg _))).trans (Rel.hyp _ _)
  have hpp : 0 ≤ (a.v + g.v) * (a.v + g.v) + f.v * f.v := add_nonneg (mul_self_nonneg _) (mul_self_nonneg _)
  have hqq : 0 ≤ (a.v - g.v) * (a.v - g.v) + f.v * f.v := add_nonneg (mul_self_nonneg _) (mul_self_nonneg _)
  have hp2 : p * p = (a.v + g.v) * (a.v + g.v) + f.v * f.v := by rw [hp]; exact Real.mul_self_sqrt hpp
  have hq2 : q * q = (a.v - g.v) * (a.v - g.v) + f.v * f.v := by rw [hq]; exact Real.mul_self_sqrt hqq
  have hp0 : 0 ≤ p := by rw [hp]; exact Real.sqrt_nonneg _
  have hq0 : 0 ≤ q := by rw [hq]; exact Real.sqrt_nonneg _
  have h1 : Rel R 3 (R.hyp (R.rnd (a.v + g.v)) f.v) p := by rw [hp]; exact hhyp _ _ _ (Rel.rnd _)
  have h2 : Rel R 3 (R.hyp (R.rnd (a.v - g.v)) f.v) q := by rw [hq]; exact hhyp _ _ _ (Rel.rnd _)
  have h3 : Rel R 4 (R.rnd (R.hyp (R.rnd (a.v + g.v)) f.v + R.hyp (R.rnd (a.v - g.v)) f.v)) (p + q) :=
    (h1.add_nonneg h2 hp0 hq0).trans (Rel.rnd _)
  have htwo : (NdFloat.ofRat 2 : Rnd R).v = R.rnd 2 := by
    show R.rnd ((2 : ℚ) : ℝ) = R.rnd 2
    norm_num
  refine ⟨?_, ?_, by linear_combination hp2 / 2 + hq2 / 2, by linear_combination hp2 / 4 - hq2 / 4, hp0, hq0⟩
  · have hv : Rel R 8 (a * g * NdFloat.ofRat 2 / (NdFloat.hypot (a + g) f + NdFloat.hypot (a - g) f)).v
        (a.v * g.v * 2 / (p + q)) := by
      simp only [Rnd.div_v, Rnd.mul_v, Rnd.add_v, Rnd.sub_v, Rnd.hypot_v, htwo]
      exact (((((Rel.rnd (a.v * g.v)).mul (Rel.rnd 2)).trans (Rel.rnd _)).div h3).trans (Rel.rnd _))
    have hv1 : a.v * g.v * 2 / (p + q) = (p - q) / 2 := by
      by_cases h0 : p + q = 0
      · have hp' : p = 0 := by linarith
        have hq' : q = 0 := by linarith
        rw [hp', hq']; simp
      · rw [div_eq_div_iff h0 two_ne_zero]
        linear_combination -(hp2 - hq2)
    rwa [hv1] at hv
  · simp only [Rnd.div_v, Rnd.mul_v, Rnd.add_v, Rnd.sub_v, Rnd.hypot_v, htwo]
    exact ((h3.div (Rel.rnd 2)).trans (Rel.rnd _))

theorem uptrig_values (hu : 10 * R.uw < 1) (a f g : Rnd R) {β : ℝ} (ha : |a.v| ≤ β) (hf : |f.v| ≤ β) (hg : |g.v| ≤ β) :
    |(a * g * NdFloat.ofRat 2 / (NdFloat.hypot (a + g) f + NdFloat.hypot (a - g) f)).v -
      (Real.sqrt ((a.v + g.v) * (a.v + g.v) + f.v * f.v) - Real.sqrt ((a.v - g.v) * (a.v - g.v) + f.v * f.v)) / 2| ≤
        2 * gam R.uw 10 * β ∧
    |((NdFloat.hypot (a + g) f + NdFloat.hypot (a - g) f) / NdFloat.ofRat 2).v -
      (Real.sqrt ((a.v + g.v) * (a.v + g.v) + f.v * f.v) + Real.sqrt ((a.v - g.v) * (a.v - g.v) + f.v * f.v)) / 2| ≤
        2 * gam R.uw 10 * β := by
  have hγ := gam_nonneg (n := 10) R.uw_nonneg (by exact_mod_cast hu)
  obtain ⟨p, hp⟩ : ∃ p, p = Real.sqrt ((a.v + g.v) * (a.v + g.v) + f.v * f.v) := ⟨_, rfl⟩
  obtain ⟨q, hq⟩ : ∃ q, q = Real.sqrt ((a.v - g.v) * (a.v - g.v) + f.v * f.v) := ⟨_, rfl⟩
  obtain ⟨r1, r2, hsum, -, -, -⟩ := uptrig_rel a f g hp hq
  have hβ : 0 ≤ β := (abs_nonneg _).trans ha
  rw [← hp, ← hq]
  have hb : a.v ^ 2 + f.v ^ 2 + g.v ^ 2 ≤ 3 * β ^ 2 := by
    have e1 := sq_le_sq' (abs_le.1 ha).1 (abs_le.1 ha).2
    have e2 := sq_le_sq' (abs_le.1 hg).1 (abs_le.1 hg).2
    have e3 := sq_le_sq' (abs_le.1 hf).1 (abs_le.1 hf).2
    linarith
  have b1 : |(p - q) / 2| ≤ 2 * β := by
    apply abs_le_of_sq_le_sq _ (by linarith)
    nlinarith [sq_nonneg ((p + q) / 2)]
  have b2 : |(p + q) / 2| ≤ 2 * β := by
    apply abs_le_of_sq_le_sq _ (by linarith)
    nlinarith [sq_nonneg ((p - q) / 2)]
  have e1 := r1.err (by norm_num) hu
  have e2 := r2.err (by norm_num) hu
  constructor
  · nlinarith [mul_le_mul_of_nonneg_left b1 hγ]
  · nlinarith [mul_le_mul_of_nonneg_left b2 hγ]

/-- `GivensRotation::new` returns a rotation up to rounding. -/
theorem givensNew_rnd (x y : Rnd R) : ∃ c s : ℝ, c * c + s * s = 1 ∧
    Rel R 3 (GivensRotation.new x y).1.c.v c ∧ Rel R 3 (GivensRotation.new x y).1.s.v s := by
  unfold GivensRotation.new
  cases h : GivensRotation.tryNew x y 0 with
  | none => exact ⟨1, 0, by norm_num, Rel.refl 3 1, Rel.refl 3 0⟩
  | some q =>
    obtain ⟨g, r⟩ := q
    obtain ⟨ρ, -, -, h1, h2, h3⟩ := tryNew_rnd (by simp) h
    exact ⟨_, _, h1, h2.mono (by norm_num), h3.mono (by norm_num)⟩

/-- `compute_2x2_uptrig_svd` in floating point: rotations up to rounding, and accurate values if no factor is
requested. -/
theorem uptrig_rnd (hu : 10 * R.uw < 1) (a f g : Rnd R) (cu cv : Bool) :
    ∃ (v1 v2 : Rnd R) (ru rv : GivensRotation (Rnd R)) (c s c' s' : ℝ),
      compute2x2UptrigSvd a f g cu cv = (v1, v2, if cu then some ru else none, if cv then some rv else none) ∧
      c * c + s * s = 1 ∧ c' * c' + s' * s' = 1 ∧ Rel R 3 ru.c.v c ∧ Rel R 3 ru.s.v s ∧ Rel R 3 rv.c.v c' ∧
      Rel R 3 rv.s.v s' ∧
      (cu = false → cv = false → ∃ V1 V2 : ℝ, V1 * c = a.v * c' + f.v * s' ∧ V1 * s = g.v * s' ∧
        (-a.v * s' + f.v * c') * c + g.v * c' * s = 0 ∧ (-a.v * s' + f.v * c') * (-s) + g.v * c' * c = V2 ∧
        ∀ β, |a.v| ≤ β → |f.v| ≤ β → |g.v| ≤ β → |v1.v - V1| ≤ 2 * gam R.uw 10 * β ∧
          |v2.v - V2| ≤ 2 * gam R.uw 10 * β) := by
  by_cases hc : (cv || cu) = true
  · have hno : cu = false → cv = false → False := by
      intro h1 h2; rw [h1, h2] at hc; simp at hc
    unfold compute2x2UptrigSvd
    simp only [if_pos hc]
    obtain ⟨c', s', h1, h2, h3⟩ := givensNew_rnd (a * f)
      (a * g * NdFloat.ofRat 2 / (NdFloat.hypot (a + g) f + NdFloat.hypot (a - g) f) *
        (a * g * NdFloat.ofRat 2 / (NdFloat.hypot (a + g) f + NdFloat.hypot (a - g) f)) - a * a)
    generalize GivensRotation.new (a * f)
      (a * g * NdFloat.ofRat 2 / (NdFloat.hypot (a + g) f + NdFloat.hypot (a - g) f) *
        (a * g * NdFloat.ofRat 2 / (NdFloat.hypot (a + g) f + NdFloat.hypot (a - g) f)) - a * a) = n1 at *
    obtain ⟨rv, sv⟩ := n1
    simp only at h2 h3 ⊢
    generalize hx : (a * rv.c + f * rv.s) /
      (a * g * NdFloat.ofRat 2 / (NdFloat.hypot (a + g) f + NdFloat.hypot (a - g) f) * sv) = x
    generalize hy : g * rv.s /
      (a * g * NdFloat.ofRat 2 / (NdFloat.hypot (a + g) f + NdFloat.hypot (a - g) f) * sv) = y
    obtain ⟨c, s, h4, h5, h6⟩ := givensNew_rnd x y
    generalize GivensRotation.new x y = n2 at *
    obtain ⟨ru, su⟩ := n2
    exact ⟨_, _, ru, rv, c, s, c', s', rfl, h4, h1, h5, h6, h2, h3, fun e1 e2 => (hno e1 e2).elim⟩
  · have hcu : cu = false := by cases cu <;> simp_all
    have hcv : cv = false := by cases cv <;> simp_all
    subst hcu hcv
    obtain ⟨c, s, c', s', h1, h2, h3, h4, h5, h6⟩ := uptrig_svd a.v f.v g.v
    refine ⟨_, _, ⟨⟨c⟩, ⟨s⟩⟩, ⟨⟨c'⟩, ⟨s'⟩⟩, c, s, c', s', rfl, h1, h2, Rel.refl 3 _, Rel.refl 3 _, Rel.refl 3 _,
      Rel.refl 3 _, fun _ _ => ⟨_, _, h3, h4, h5, h6, fun β ha hf hg => uptrig_values hu a f g ha hf hg⟩⟩

end LinfaLinalg
