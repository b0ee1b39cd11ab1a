import Verif.Props.DotRange
import Verif.Proofs.HouseholderReal

/-! # A Householder reflection within the range of the float format -/

namespace LinfaLinalg

open Flt

variable {R : Rounding} {u η Ω : ℝ}

section
variable (hR : R.Accurate u η) (hΩ : R.Below Ω)
include hR hΩ

theorem add_step {x y : Flt R} (hx : IsFin x) (hy : IsFin y) (h : |x.rv + y.rv| < Ω) :
    IsFin (x + y) ∧ |(x + y).rv - (x.rv + y.rv)| ≤ ((1 - u)⁻¹ - 1) * |x.rv + y.rv| + η :=
  ⟨add_isFin hΩ hx hy h, (add_err hR (add_isFin hΩ hx hy h)).2.2.bound hR.u_nonneg hR.u_lt_one⟩

theorem mul_step {x y : Flt R} (px : Proper x) (py : Proper y) (hx : IsFin x) (hy : IsFin y) (h : |x.rv * y.rv| < Ω) :
    IsFin (x * y) ∧ |(x * y).rv - x.rv * y.rv| ≤ ((1 - u)⁻¹ - 1) * |x.rv * y.rv| + η :=
  ⟨mul_isFin hΩ px py hx hy h, (mul_err hR px py (mul_isFin hΩ px py hx hy h)).2.2.bound hR.u_nonneg hR.u_lt_one⟩

theorem div_step {x y : Flt R} (px : Proper x) (py : Proper y) (hx : IsFin x) (hy : IsFin y) (h0 : y.rv ≠ 0)
    (h : |x.rv / y.rv| < Ω) : IsFin (x / y) ∧ |(x / y).rv - x.rv / y.rv| ≤ ((1 - u)⁻¹ - 1) * |x.rv / y.rv| + η :=
  ⟨div_isFin hΩ px py hx hy h0 h, (div_err hR px py hy (div_isFin hΩ px py hx hy h0 h)).2.2.bound hR.u_nonneg hR.u_lt_one⟩

theorem sqrt_step {x : Flt R} (px : Proper x) (hx : IsFin x) (h0 : 0 < x.rv) (h : √x.rv < Ω) :
    IsFin (NdFloat.sqrt x) ∧ |(NdFloat.sqrt x).rv - √x.rv| ≤ ((1 - u)⁻¹ - 1) * √x.rv + η := by
  have hf := sqrt_isFin hΩ px hx h0 h
  have := (sqrt_err hR px hf).2.2.bound hR.u_nonneg hR.u_lt_one
  rw [abs_of_nonneg (Real.sqrt_nonneg x.rv)] at this
  exact ⟨hf, this⟩

end

theorem rel_bounds {a b c g : ℝ} (hb : 0 < b) (hg1 : g ≤ 1 / 100) (hc : 0 ≤ c) (h : |a - b| ≤ c * g * b) :
    (1 - c / 100) * b ≤ a ∧ a ≤ (1 + c / 100) * b ∧ |a| ≤ (1 + c / 100) * b := by
  have h1 : c * g * b ≤ c / 100 * b := mul_le_mul_of_nonneg_right (by nlinarith) hb.le
  have h2 := abs_le.1 (h.trans h1)
  have h3 := abs_sub_abs_le_abs_sub a b
  rw [abs_of_pos hb] at h3
  exact ⟨by linarith, by linarith, by linarith⟩

theorem sqrt_rel {a b e : ℝ} (hb : 0 < b) (ha : 0 ≤ a) (h : |a - b| ≤ e * b) : |√a - √b| ≤ e * √b := by
  have hs : 0 < √b := Real.sqrt_pos.2 hb
  have h1 : |√a - √b| * (√a + √b) = |a - b| := by
    rw [← abs_of_nonneg (add_nonneg (Real.sqrt_nonneg a) hs.le), ← abs_mul]
    congr 1
    have := Real.mul_self_sqrt ha
    have := Real.mul_self_sqrt hb.le
    nlinarith
  have h2 : |√a - √b| * √b ≤ |a - b| := by
    rw [← h1]
    exact mul_le_mul_of_nonneg_left (by linarith [Real.sqrt_nonneg a]) (abs_nonneg _)
  have h3 : |√a - √b| * √b ≤ e * √b * √b := by
    rw [mul_assoc, Real.mul_self_sqrt hb.le]; linarith
  exact le_of_mul_le_mul_right h3 hs

theorem Flt.proper_dotTo (n : Nat) (f g : Nat → Flt R) : Proper (dotTo n f g) := by
  show Proper (DotPlan.eval _ _ _ _ _ (R.plans.plan _))
  generalize R.plans.plan _ = d
  cases d with
  | zero => exact proper_fin_zero _
  | prod k => exact proper_mul _ _
  | add s t => exact proper_add _ _
  | fma s k =>
    show Proper (Flt.fma _ _ _)
    unfold Flt.fma
    split
    · exact proper_ofReal _ _
    · intro s m h; cases h
    · intro s m h; cases h
    · exact proper_add _ _

/-- The exact axis for either choice of the sign of a zero. -/
theorem reflSpec_sign {n : Nat} (hn : 0 < n) (x : Nat → ℝ) {s : ℝ} (hss : s * s = 1) (hsx : s * x 0 = |x 0|)
    (hq : 0 < ∑ k ∈ Finset.range n, x k * x k) :
    ReflSpec n x (fun k => (if k = 0 then x 0 + s * √(∑ k ∈ Finset.range n, x k * x k) else x k) /
      √((∑ k ∈ Finset.range n, x k * x k + |x 0| * √(∑ k ∈ Finset.range n, x k * x k)) * 2))
      (-(s * √(∑ k ∈ Finset.range n, x k * x k))) := by
  set q := ∑ k ∈ Finset.range n, x k * x k with hqd
  set N := √q with hN
  have hNN : N * N = q := Real.mul_self_sqrt hq.le
  have hN0 : 0 < N := Real.sqrt_pos.2 hq
  set Z : ℝ := (q + |x 0| * N) * 2 with hZ
  have hZ0 : 0 < Z := by
    have := mul_nonneg (abs_nonneg (x 0)) hN0.le
    rw [hZ]; linarith
  have hr0 : 0 < √Z := Real.sqrt_pos.2 hZ0
  have hrr : √Z * √Z = Z := Real.mul_self_sqrt hZ0.le
  obtain ⟨m, rfl⟩ : ∃ m, n = m + 1 := ⟨n - 1, by omega⟩
  rw [Finset.sum_range_succ'] at hqd
  have hyx : ∑ k ∈ Finset.range (m + 1), (if k = 0 then x 0 + s * N else x k) * x k = Z / 2 := by
    rw [Finset.sum_range_succ']
    simp only [Nat.add_one_ne_zero, if_false, if_true]
    have : (x 0 + s * N) * x 0 = x 0 * x 0 + N * (s * x 0) := by ring
    rw [this, hsx, hZ]; linarith
  have hyy : ∑ k ∈ Finset.range (m + 1), (if k = 0 then x 0 + s * N else x k) * (if k = 0 then x 0 + s * N else x k) = Z := by
    rw [Finset.sum_range_succ']
    simp only [Nat.add_one_ne_zero, if_false, if_true]
    have : (x 0 + s * N) * (x 0 + s * N) = x 0 * x 0 + 2 * N * (s * x 0) + s * s * (N * N) := by ring
    rw [this, hsx, hss, hNN, hZ]; linarith
  have hunit : ∑ k ∈ Finset.range (m + 1), (if k = 0 then x 0 + s * N else x k) / √Z * ((if k = 0 then x 0 + s * N else x k) / √Z) = 1 := by
    have e : ∀ k, (if k = 0 then x 0 + s * N else x k) / √Z * ((if k = 0 then x 0 + s * N else x k) / √Z) =
        (if k = 0 then x 0 + s * N else x k) * (if k = 0 then x 0 + s * N else x k) / Z := by
      intro k; rw [div_mul_div_comm, hrr]
    rw [Finset.sum_congr rfl fun k _ => e k, ← Finset.sum_div, hyy, div_self hZ0.ne']
  have hs0 : s ≠ 0 := by rintro rfl; simp at hss
  refine ⟨fun r _ => ?_, fun r _ => ?_, fun h => ?_, fun _ => hunit, ?_⟩
  · have e : ∑ k ∈ Finset.range (m + 1), (if k = 0 then x 0 + s * N else x k) / √Z * x k = Z / 2 / √Z := by
      rw [← hyx, Finset.sum_div]
      exact Finset.sum_congr rfl fun k _ => by ring
    rw [e]
    have : ∀ y : ℝ, 2 * (y / √Z) * (Z / 2 / √Z) = y := by
      intro y
      rw [show 2 * (y / √Z) * (Z / 2 / √Z) = y * (Z / (√Z * √Z)) by field_simp, hrr, div_self hZ0.ne', mul_one]
    rw [this]
    by_cases hr : r = 0
    · subst hr; simp
    · simp [hr]
  · rw [hunit, sub_self, mul_zero]
  · exact absurd (neg_eq_zero.1 h) (mul_ne_zero hs0 hN0.ne')
  · rw [neg_mul_neg, mul_mul_mul_comm, hss, one_mul, hNN]

theorem Flt.signum_rv {x : Flt R} (hx : IsFin x) (px : Proper x) : ∃ s : ℝ, s * s = 1 ∧ s * x.rv = |x.rv| ∧
    IsFin (NdFloat.signum x) ∧ Proper (NdFloat.signum x) ∧ (NdFloat.signum x).rv = s := by
  obtain ⟨b, m, rfl⟩ := hx
  have hm := px b m rfl
  have e : (NdFloat.signum (fin b m : Flt R)) = fin b 1 := rfl
  refine ⟨sgn b, by cases b <;> simp [sgn], ?_, ?_, ?_, ?_⟩
  · change sgn b * val b m = |val b m|
    rw [abs_val hm]
    cases b <;> simp [val, sgn]
  · rw [e]; exact ⟨_, _, rfl⟩
  · rw [e]; intro s m h; cases h; norm_num
  · rw [e]; simp [rv, val]

set_option maxHeartbeats 2000000 in
/-- `reflection_axis_mut` if the sum of the squares is known with a relative error. -/
theorem axis_range (hR : R.Accurate u η) {B g : ℝ} (hΩ : R.Below (16 * B)) (hB : 1 ≤ B) (hg0 : 0 < g) (hg1 : g ≤ 1 / 100)
    (hv : (1 - u)⁻¹ - 1 ≤ 2 / 5 * g) (col : Arr1 (Flt R)) (h0 : 0 < col.len)
    (hf : ∀ k, k < col.len → IsFin (col.get k) ∧ Proper (col.get k)) (x : Nat → ℝ) (hx : ∀ k, (col.get k).rv = x k)
    {S : ℝ} (hSd : S = ∑ k ∈ Finset.range col.len, x k * x k) (hS0 : 0 < S) (hSB : S ≤ B)
    (hη1 : η ≤ g / 6) (hη2 : η ≤ g / 6 * √S) (hη3 : η ≤ g / 100 * S)
    (dfin : IsFin (dotTo col.len col.get col.get)) (dprop : Proper (dotTo col.len col.get col.get))
    (derr : |(dotTo col.len col.get col.get).rv - S| ≤ 11 / 10 * g * S) :
    ∃ w d, reflectionAxisMut col = .ok (w, some d) ∧ w.len = col.len ∧ IsFin d ∧ (∀ k, k < col.len → IsFin (w.get k)) ∧
      ∃ (w' : Nat → ℝ) (d' : ℝ), ReflSpec col.len x w' d' ∧ |d.rv - d'| ≤ 3 * g * |d'| ∧
        ∀ k, k < col.len → |(w.get k).rv - w' k| ≤ 12 * g * |w' k| + η := by
  have hη := hR.η_nonneg
  have hu1 := hR.u_lt_one
  have hu0 := hR.u_nonneg
  obtain ⟨v, hvd⟩ : ∃ v, v = (1 - u)⁻¹ - 1 := ⟨_, rfl⟩
  have hv0 : 0 ≤ v := by
    have : 1 ≤ (1 - u)⁻¹ := by rw [one_le_inv₀ (by linarith)]; linarith
    linarith
  rw [← hvd] at hv
  obtain ⟨f0, p0⟩ := hf 0 h0
  obtain ⟨s, hss, hsx, fs, ps, es⟩ := signum_rv f0 p0
  rw [hx] at hsx
  have hspec := reflSpec_sign h0 x hss hsx (by rw [← hSd]; exact hS0)
  rw [← hSd] at hspec
  have hs1 : |s| = 1 := by
    have : |s| * |s| = 1 := by rw [← abs_mul, hss, abs_one]
    exact (mul_self_eq_one_iff.1 this).resolve_right (by linarith [abs_nonneg s])
  obtain ⟨N, hN⟩ : ∃ N, N = √S := ⟨_, rfl⟩
  rw [← hN] at hspec hη2
  have hN0 : 0 < N := by rw [hN]; exact Real.sqrt_pos.2 hS0
  have hNN : N * N = S := by rw [hN]; exact Real.mul_self_sqrt hS0.le
  have hNB : N ≤ B := by
    have := sq_nonneg (N - 1)
    rw [sub_sq] at this
    have : N ^ 2 = S := by rw [sq, hNN]
    linarith
  have hx0N : |x 0| ≤ N := by
    have h1 : x 0 * x 0 ≤ S := by
      rw [hSd]
      exact Finset.single_le_sum (f := fun k => x k * x k) (fun k _ => mul_self_nonneg _) (Finset.mem_range.2 h0)
    rw [hN, ← Real.sqrt_mul_self_eq_abs]
    exact Real.sqrt_le_sqrt h1
  have ha0 := abs_nonneg (x 0)
  -- the norm
  set D := dotTo col.len col.get col.get with hD
  have hgS : 0 < g * S := mul_pos hg0 hS0
  have hD1 : D.rv ≤ 102 / 100 * S := by have := (rel_bounds hS0 hg1 (by norm_num) derr).2.1; linarith
  have hD0 : 0 < D.rv := by have := (rel_bounds hS0 hg1 (by norm_num) derr).1; linarith
  have hrt := sqrt_rel hS0 hD0.le derr
  rw [← hN] at hrt
  have hgN : 0 < g * N := mul_pos hg0 hN0
  have hsD : √D.rv ≤ 102 / 100 * N := by have := (rel_bounds hN0 hg1 (by norm_num) hrt).2.1; linarith
  have hsD0 := Real.sqrt_nonneg D.rv
  obtain ⟨fN, eN⟩ := sqrt_step hR hΩ dprop dfin hD0 (by linarith)
  have pN : Proper (NdFloat.sqrt D) := proper_sqrt D
  rw [← hvd] at eN
  set Nh := NdFloat.sqrt D with hNh
  have eN2 : |Nh.rv - N| ≤ 2 * g * N := by
    have h1 := abs_sub_le Nh.rv (√D.rv) N
    have h2 : v * √D.rv ≤ 2 / 5 * g * (102 / 100 * N) := mul_le_mul hv hsD hsD0 (by positivity)
    linarith
  have hNh1 : Nh.rv ≤ 102 / 100 * N := by have := (rel_bounds hN0 hg1 (by norm_num) eN2).2.1; linarith
  have hNh0 : 0 < Nh.rv := by have := (rel_bounds hN0 hg1 (by norm_num) eN2).1; linarith
  -- with its sign
  have hsN : |s * Nh.rv| = Nh.rv := by rw [abs_mul, hs1, one_mul, abs_of_pos hNh0]
  obtain ⟨fM, eM⟩ := mul_step hR hΩ ps pN fs fN (by rw [es, hsN]; linarith)
  rw [es, hsN, ← hvd] at eM
  set Mh := NdFloat.signum (col.get 0) * Nh with hMh
  have eM2 : |Mh.rv - s * N| ≤ 3 * g * N := by
    have h1 := abs_sub_le Mh.rv (s * Nh.rv) (s * N)
    have h2 : |s * Nh.rv - s * N| = |Nh.rv - N| := by rw [← mul_sub, abs_mul, hs1, one_mul]
    have h3 : v * Nh.rv ≤ 2 / 5 * g * (102 / 100 * N) := mul_le_mul hv hNh1 hNh0.le (by positivity)
    linarith
  -- the first entry
  have hsum : |x 0 + s * N| = |x 0| + N := by
    have : x 0 + s * N = s * (|x 0| + N) := by rw [← hsx]; linear_combination (-(x 0)) * hss
    rw [this, abs_mul, hs1, one_mul, abs_of_nonneg (by linarith)]
  have hMa : |x 0 + Mh.rv| ≤ |x 0| + 103 / 100 * N := by
    have h1 := abs_add_le (x 0 + s * N) (Mh.rv - s * N)
    rw [show x 0 + s * N + (Mh.rv - s * N) = x 0 + Mh.rv by ring, hsum] at h1
    have : g * N ≤ 1 / 100 * N := mul_le_mul_of_nonneg_right hg1 hN0.le
    linarith
  obtain ⟨fy, ey⟩ := add_step hR hΩ f0 fM (by rw [hx]; linarith)
  rw [hx, ← hvd] at ey
  set y0 := col.get 0 + Mh with hy0
  have ey2 : |y0.rv - (x 0 + s * N)| ≤ 4 * g * |x 0 + s * N| := by
    rw [hsum]
    have h1 := abs_sub_le y0.rv (x 0 + Mh.rv) (x 0 + s * N)
    have h2 : |x 0 + Mh.rv - (x 0 + s * N)| = |Mh.rv - s * N| := by rw [add_sub_add_left_eq_sub]
    have h3 : v * |x 0 + Mh.rv| ≤ 2 / 5 * g * (|x 0| + 103 / 100 * N) := mul_le_mul hv hMa (abs_nonneg _) (by positivity)
    have : 0 ≤ g * |x 0| := by positivity
    linarith
  -- the square of the new norm
  have fa : IsFin (NdFloat.abs (col.get 0)) := abs_fin.2 f0
  have pa : Proper (NdFloat.abs (col.get 0)) := by
    obtain ⟨b, m, hbm⟩ := f0
    rw [hbm]
    have hm := p0 b m hbm
    intro s' m' h; cases h; exact hm
  have ea : (NdFloat.abs (col.get 0)).rv = |x 0| := by rw [abs_rv p0, hx]
  have hxN : |x 0| * N ≤ S := by rw [← hNN]; exact mul_le_mul_of_nonneg_right hx0N hN0.le
  have hxN0 : 0 ≤ |x 0| * N := by positivity
  have hpa : |(NdFloat.abs (col.get 0)).rv * Nh.rv| = |x 0| * Nh.rv := by rw [ea, abs_of_nonneg (by positivity)]
  have hpl : |x 0| * Nh.rv ≤ 102 / 100 * (|x 0| * N) := by
    have := mul_le_mul_of_nonneg_left hNh1 ha0
    linarith
  obtain ⟨fp, ep⟩ := mul_step hR hΩ pa pN fa fN (by rw [hpa]; linarith)
  rw [hpa, ea, ← hvd] at ep
  set ph := NdFloat.abs (col.get 0) * Nh with hph
  have ep2 : |ph.rv - |x 0| * N| ≤ 5 / 2 * g * (|x 0| * N) + g / 100 * S := by
    have h1 := abs_sub_le ph.rv (|x 0| * Nh.rv) (|x 0| * N)
    have h2 : |(|x 0| * Nh.rv - |x 0| * N)| ≤ |x 0| * (2 * g * N) := by
      rw [← mul_sub, abs_mul, abs_abs]; exact mul_le_mul_of_nonneg_left eN2 ha0
    have h3 : v * (|x 0| * Nh.rv) ≤ 2 / 5 * g * (102 / 100 * (|x 0| * N)) := mul_le_mul hv hpl (by positivity) (by positivity)
    have : 0 ≤ g * (|x 0| * N) := by positivity
    linarith
  obtain ⟨Q, hQ⟩ : ∃ Q, Q = S + |x 0| * N := ⟨_, rfl⟩
  have hQ0 : 0 < Q := by linarith
  have hgQ : 0 < g * Q := mul_pos hg0 hQ0
  have hgQe : g * Q = g * S + g * (|x 0| * N) := by rw [hQ]; ring
  have hDp : |D.rv + ph.rv - Q| ≤ 252 / 100 * g * Q := by
    have h1 := abs_add_le (D.rv - S) (ph.rv - |x 0| * N)
    rw [show D.rv - S + (ph.rv - |x 0| * N) = D.rv + ph.rv - Q by rw [hQ]; ring] at h1
    have : 0 ≤ g * (|x 0| * N) := by positivity
    linarith
  have hDp1 : |D.rv + ph.rv| ≤ 103 / 100 * Q := by
    have := (rel_bounds hQ0 hg1 (by norm_num) hDp).2.2
    linarith
  obtain ⟨fA, eA⟩ := add_step hR hΩ dfin fp (by linarith)
  rw [← hvd] at eA
  set Ah := D + ph with hAh
  have hηQ : η ≤ g / 100 * Q := by
    have : 0 ≤ g * (|x 0| * N) := by positivity
    linarith
  have eA2 : |Ah.rv - Q| ≤ 3 * g * Q := by
    have h1 := abs_sub_le Ah.rv (D.rv + ph.rv) Q
    have h3 : v * |D.rv + ph.rv| ≤ 2 / 5 * g * (103 / 100 * Q) := mul_le_mul hv hDp1 (abs_nonneg _) (by positivity)
    linarith
  have hA0 : 0 < Ah.rv := by have := (rel_bounds hQ0 hg1 (by norm_num) eA2).1; linarith
  have hA1 : Ah.rv ≤ 103 / 100 * Q := by have := (rel_bounds hQ0 hg1 (by norm_num) eA2).2.1; linarith
  have ft : IsFin (NdFloat.ofRat 2 : Flt R) := by
    show IsFin (ofReal false ((2 : ℚ) : ℝ))
    unfold ofReal
    split_ifs
    · exact ⟨_, _, rfl⟩
    · refine round_isFin hΩ (abs_nonneg _) ?_
      push_cast
      rw [abs_of_pos (by norm_num)]
      linarith
  have pt : Proper (NdFloat.ofRat 2 : Flt R) := proper_ofReal _ _
  have et : |(NdFloat.ofRat 2 : Flt R).rv - 2| ≤ g := by
    have h1 := (ofReal_err hR (x := ((2 : ℚ) : ℝ)) (s := false) ft).bound hu0 hu1
    rw [← hvd] at h1
    push_cast at h1
    rw [abs_of_pos (by norm_num : (0 : ℝ) < 2)] at h1
    have h2 : ((NdFloat.ofRat 2 : Flt R)).rv = (ofReal false 2 : Flt R).rv := by
      show (ofReal false ((2 : ℚ) : ℝ) : Flt R).rv = _
      push_cast; rfl
    rw [h2]
    linarith
  set th := (NdFloat.ofRat 2 : Flt R) with hth
  have ht1 : th.rv ≤ 201 / 100 := by have := (abs_le.1 et).2; linarith
  have ht0 : 0 < th.rv := by have := (abs_le.1 et).1; linarith
  obtain ⟨Z, hZ⟩ : ∃ Z, Z = Q * 2 := ⟨_, rfl⟩
  have hgZe : g * Z = 2 * (g * Q) := by rw [hZ]; ring
  have hAt : |Ah.rv * th.rv - Z| ≤ 36 / 10 * g * Z := by
    have h1 := abs_add_le ((Ah.rv - Q) * th.rv) (Q * (th.rv - 2))
    rw [show (Ah.rv - Q) * th.rv + Q * (th.rv - 2) = Ah.rv * th.rv - Z by rw [hZ]; ring, abs_mul, abs_mul,
      abs_of_pos ht0, abs_of_pos hQ0] at h1
    have h2 : |Ah.rv - Q| * th.rv ≤ 3 * g * Q * (201 / 100) := mul_le_mul eA2 ht1 ht0.le (by positivity)
    have h3 : Q * |th.rv - 2| ≤ Q * g := mul_le_mul_of_nonneg_left et hQ0.le
    linarith
  have hZ0 : 0 < Z := by linarith
  have hgZ : 0 < g * Z := mul_pos hg0 hZ0
  have hAt1 : |Ah.rv * th.rv| ≤ 104 / 100 * Z := by
    have := (rel_bounds hZ0 hg1 (by norm_num) hAt).2.2
    linarith
  obtain ⟨fZ, eZ⟩ := mul_step hR hΩ (proper_add D ph) pt fA ft (by linarith)
  rw [← hvd] at eZ
  have pZ : Proper (Ah * th) := proper_mul Ah th
  set Zh := Ah * th with hZh
  have eZ2 : |Zh.rv - Z| ≤ 5 * g * Z := by
    have h1 := abs_sub_le Zh.rv (Ah.rv * th.rv) Z
    have h3 : v * |Ah.rv * th.rv| ≤ 2 / 5 * g * (104 / 100 * Z) := mul_le_mul hv hAt1 (abs_nonneg _) (by positivity)
    linarith
  have hZh0 : 0 < Zh.rv := by have := (rel_bounds hZ0 hg1 (by norm_num) eZ2).1; linarith
  -- its root
  have hrZ := sqrt_rel hZ0 hZh0.le eZ2
  obtain ⟨r, hr⟩ : ∃ r, r = √Z := ⟨_, rfl⟩
  rw [← hr] at hrZ
  have hr0 : 0 < r := by rw [hr]; exact Real.sqrt_pos.2 hZ0
  have hrr : r * r = Z := by rw [hr]; exact Real.mul_self_sqrt hZ0.le
  have hgr : 0 < g * r := mul_pos hg0 hr0
  have hNr : N ≤ r := by
    rw [hN, hr]
    exact Real.sqrt_le_sqrt (by linarith)
  have hrB : r ≤ 4 * B := by
    have := sq_nonneg (r - 1)
    rw [sub_sq] at this
    have : r ^ 2 = Z := by rw [sq, hrr]
    linarith
  have hsZ : √Zh.rv ≤ 105 / 100 * r := by have := (rel_bounds hr0 hg1 (by norm_num) hrZ).2.1; linarith
  obtain ⟨fr, er⟩ := sqrt_step hR hΩ pZ fZ hZh0 (by linarith)
  rw [← hvd] at er
  have pr : Proper (NdFloat.sqrt Zh) := proper_sqrt Zh
  set rh := NdFloat.sqrt Zh with hrh
  have er2 : |rh.rv - r| ≤ 6 * g * r := by
    have h1 := abs_sub_le rh.rv (√Zh.rv) r
    have h3 : v * √Zh.rv ≤ 2 / 5 * g * (105 / 100 * r) := mul_le_mul hv hsZ (Real.sqrt_nonneg _) (by positivity)
    have h4 : g / 6 * N ≤ g / 6 * r := mul_le_mul_of_nonneg_left hNr (by positivity)
    linarith
  have hrh0 : 94 / 100 * r ≤ rh.rv := by have := (rel_bounds hr0 hg1 (by norm_num) er2).1; linarith
  have hrhp : 0 < rh.rv := by linarith
  -- the division
  have hdiv : ∀ (y : Flt R) (t : ℝ), IsFin y → Proper y → |y.rv - t| ≤ 4 * g * |t| → |t| ≤ 2 * r →
      IsFin (y / rh) ∧ |(y / rh).rv - t / r| ≤ 12 * g * |t / r| + η := by
    intro y t fy py ey hty
    have ht := abs_nonneg t
    have hq : |y.rv / rh.rv - t / r| ≤ 1064 / 100 * g * |t / r| := by
      have e : y.rv / rh.rv - t / r = ((y.rv - t) * r + t * (r - rh.rv)) / (rh.rv * r) := by
        field_simp; ring
      rw [e, abs_div, abs_of_pos (mul_pos hrhp hr0), div_le_iff₀ (mul_pos hrhp hr0), abs_div, abs_of_pos hr0]
      have h1 := abs_add_le ((y.rv - t) * r) (t * (r - rh.rv))
      rw [abs_mul, abs_mul, abs_of_pos hr0, abs_sub_comm r] at h1
      have h2 := mul_le_mul_of_nonneg_right ey hr0.le
      have h3 := mul_le_mul_of_nonneg_left er2 ht
      have h4 : 1064 / 100 * g * (|t| / r) * (rh.rv * r) = 1064 / 100 * g * |t| * rh.rv := by field_simp
      rw [h4]
      have h5 : g * |t| * (94 / 100 * r) ≤ g * |t| * rh.rv := mul_le_mul_of_nonneg_left hrh0 (by positivity)
      have : 0 ≤ g * |t| * r := by positivity
      linarith
    have htr : |t / r| ≤ 2 := by rw [abs_div, abs_of_pos hr0, div_le_iff₀ hr0]; exact hty
    have htr0 := abs_nonneg (t / r)
    have hq1 : |y.rv / rh.rv| ≤ 111 / 100 * |t / r| := by
      have := abs_sub_abs_le_abs_sub (y.rv / rh.rv) (t / r)
      have : g * |t / r| ≤ 1 / 100 * |t / r| := mul_le_mul_of_nonneg_right hg1 htr0
      linarith
    obtain ⟨k1, k2⟩ := div_step hR hΩ py pr fy fr hrhp.ne' (by linarith)
    rw [← hvd] at k2
    refine ⟨k1, ?_⟩
    have h1 := abs_sub_le (y / rh).rv (y.rv / rh.rv) (t / r)
    have h3 : v * |y.rv / rh.rv| ≤ 2 / 5 * g * (111 / 100 * |t / r|) := mul_le_mul hv hq1 (abs_nonneg _) (by positivity)
    have : 0 ≤ g * |t / r| := by positivity
    linarith
  have hxr : ∀ k, k < col.len → |x k| ≤ 2 * r := by
    intro k hk
    have h1 : x k * x k ≤ S := by
      rw [hSd]
      exact Finset.single_le_sum (f := fun k => x k * x k) (fun k _ => mul_self_nonneg _) (Finset.mem_range.2 hk)
    have h2 : |x k| ≤ N := by rw [hN, ← Real.sqrt_mul_self_eq_abs]; exact Real.sqrt_le_sqrt h1
    linarith
  have hent : ∀ k, k < col.len → IsFin ((if k = 0 then y0 else col.get k) / rh) ∧
      |((if k = 0 then y0 else col.get k) / rh).rv - (if k = 0 then x 0 + s * N else x k) / r| ≤
        12 * g * |(if k = 0 then x 0 + s * N else x k) / r| + η := by
    intro k hk
    split_ifs with hk0
    · exact hdiv y0 _ fy (proper_add _ _) ey2 (by rw [hsum]; linarith)
    · exact hdiv (col.get k) _ (hf k hk).1 (hf k hk).2 (by rw [hx, sub_self, abs_zero]; positivity) (hxr k hk)
  have hz : NdFloat.isZero Zh = false := by
    obtain ⟨b, m, hbm⟩ := fZ
    rw [hbm] at hZh0 ⊢
    show Flt.isZero (fin b m) = false
    have : m ≠ 0 := by rintro rfl; simp [rv, val] at hZh0
    simp [Flt.isZero, this]
  refine ⟨(col.upd 0 y0).map fun x => x / rh, -Mh, ?_, rfl, neg_fin.2 fM, fun k hk => ?_, _, _, hspec, ?_, fun k hk => ?_⟩
  · unfold reflectionAxisMut
    simp only [Arr1.dot, if_true, ok_bind]
    rw [Arr1.idx_ok h0]
    simp only [ok_bind]
    rw [Arr1.idxSet_ok h0]
    simp only [ok_bind]
    rw [← hD, ← hNh, ← hMh, ← hph, ← hAh, ← hth, ← hZh, hz]
    rfl
  · have := (hent k hk).1
    simpa only [Arr1.map, Arr1.upd_get] using this
  · rw [neg_rv, abs_neg, abs_mul, hs1, one_mul, abs_of_pos hN0, neg_sub_neg, abs_sub_comm]
    exact eM2
  · have := (hent k hk).2
    rw [hr, hZ, hQ] at this
    simpa only [Arr1.map, Arr1.upd_get] using this

end LinfaLinalg
