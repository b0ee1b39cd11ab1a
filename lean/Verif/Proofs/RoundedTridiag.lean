import Verif.Proofs.RoundedBidiag
import Verif.Proofs.Tridiagonal
import Verif.Proofs.EighTerm
import Verif.Proofs.Weyl

/-! # Rounding errors of the tridiagonal decomposition -/

set_option linter.unusedSectionVars false

namespace LinfaLinalg

open Matrix

section
variable {R : StdModel}

/-- The update of one entry of the trailing block, with all roundings made explicit. -/
theorem rank2_near (K L : Nat) (m : Nat → Nat → Rnd R) (x : Nat → Rnd R) (w : Nat → ℝ)
    (hx : ∀ k, k < L → ∃ t, Near R.u K t ∧ (x k).v = w k * t) (r c : Nat) (hr : r < L) (hc : c < L)
    (pv : Nat → Rnd R) (hpv : ∀ i, pv i = (dotTo L (m i) x) * NdFloat.ofRat 2)
    (dot : Rnd R) (hdot : dot = dotTo L x pv) :
    ∃ (t0 : ℝ) (q1 q2 : Nat → ℝ) (q3 : Nat → Nat → ℝ), Near R.u (4 * K + 2 * L + 8) t0 ∧
      (∀ k, k < L → Near R.u (4 * K + 2 * L + 8) (q1 k)) ∧ (∀ k, k < L → Near R.u (4 * K + 2 * L + 8) (q2 k)) ∧
      (∀ k l, k < L → l < L → Near R.u (4 * K + 2 * L + 8) (q3 k l)) ∧
      (m r c + -1 * (pv r * x c) + -1 * (x r * pv c) + (dot + dot) * (x r * x c)).v =
        (m r c).v * t0 - 2 * (∑ k ∈ Finset.range L, (m r k).v * w k * q1 k) * w c
          - 2 * (∑ k ∈ Finset.range L, (m c k).v * w k * q2 k) * w r
          + 4 * (∑ k ∈ Finset.range L, w k * ∑ l ∈ Finset.range L, (m k l).v * w l * q3 k l) * w r * w c := by
  have h0 := R.u_nonneg
  have h1 := R.u_lt_one
  choose! t ht et using hx
  have hp : ∀ i, ∃ (q : Nat → ℝ) (τ : ℝ), (∀ k, Near R.u (L + 1) (q k)) ∧ Near R.u 2 τ ∧
      (pv i).v = 2 * (∑ k ∈ Finset.range L, (m i k).v * w k * (t k * q k)) * τ := by
    intro i
    obtain ⟨q, hq, eq⟩ := dotTo_products L (m i) x
    obtain ⟨τ2, hτ2, e2⟩ := R.rnd_near (((2 : ℚ) : ℝ))
    have e2' : (NdFloat.ofRat 2 : Rnd R).v = ((2 : ℚ) : ℝ) * τ2 := e2
    obtain ⟨τ3, hτ3, e3⟩ := R.rnd_near ((dotTo L (m i) x).v * (NdFloat.ofRat 2 : Rnd R).v)
    refine ⟨q, τ2 * τ3, hq, hτ2.mul h0 h1 hτ3, ?_⟩
    rw [hpv, Rnd.mul_v, e3, eq, e2']
    have : ∑ k ∈ Finset.range L, (m i k).v * (x k).v * q k =
        ∑ k ∈ Finset.range L, (m i k).v * w k * (t k * q k) := by
      refine Finset.sum_congr rfl fun k hk => ?_
      rw [et k (Finset.mem_range.1 hk)]; ring
    rw [this]
    push_cast
    ring
  choose q τ hq hτ ep using hp
  obtain ⟨q', hq', eq'⟩ := dotTo_products L x pv
  rw [← hdot] at eq'
  obtain ⟨a1, ha1, e1⟩ := R.rnd_near ((pv r).v * (x c).v)
  obtain ⟨a2, ha2, e2⟩ := R.rnd_near ((-1 : Rnd R).v * (pv r * x c).v)
  obtain ⟨a3, ha3, e3⟩ := R.rnd_near ((m r c).v + (-1 * (pv r * x c) : Rnd R).v)
  obtain ⟨b1, hb1, f1⟩ := R.rnd_near ((x r).v * (pv c).v)
  obtain ⟨b2, hb2, f2⟩ := R.rnd_near ((-1 : Rnd R).v * (x r * pv c).v)
  obtain ⟨b3, hb3, f3⟩ := R.rnd_near ((m r c + -1 * (pv r * x c) : Rnd R).v + (-1 * (x r * pv c) : Rnd R).v)
  obtain ⟨c0, hc0, g0⟩ := R.rnd_near (dot.v + dot.v)
  obtain ⟨c1, hc1, g1⟩ := R.rnd_near ((x r).v * (x c).v)
  obtain ⟨c2, hc2, g2⟩ := R.rnd_near ((dot + dot).v * (x r * x c).v)
  obtain ⟨c3, hc3, g3⟩ := R.rnd_near ((m r c + -1 * (pv r * x c) + -1 * (x r * pv c) : Rnd R).v +
    ((dot + dot) * (x r * x c)).v)
  have hneg : (-1 : Rnd R).v = -1 := rfl
  refine ⟨a3 * b3 * c3, fun k => t k * q r k * τ r * (t c * a1 * a2 * (a3 * b3 * c3)),
    fun k => t k * q c k * τ c * (t r * b1 * b2 * (b3 * c3)),
    fun k l => t l * q k l * τ k * (t k * q' k) * c0 * (t r * t c * c1) * c2 * c3, ?_, ?_, ?_, ?_, ?_⟩
  · exact ((ha3.mul h0 h1 hb3).mul h0 h1 hc3).mono h0 h1 (by omega)
  · intro k hk
    exact ((((ht k hk).mul h0 h1 (hq r k)).mul h0 h1 (hτ r)).mul h0 h1
      ((((ht c hc).mul h0 h1 ha1).mul h0 h1 ha2).mul h0 h1 ((ha3.mul h0 h1 hb3).mul h0 h1 hc3))).mono h0 h1 (by omega)
  · intro k hk
    exact ((((ht k hk).mul h0 h1 (hq c k)).mul h0 h1 (hτ c)).mul h0 h1
      ((((ht r hr).mul h0 h1 hb1).mul h0 h1 hb2).mul h0 h1 (hb3.mul h0 h1 hc3))).mono h0 h1 (by omega)
  · intro k l hk hl
    exact ((((((((ht l hl).mul h0 h1 (hq k l)).mul h0 h1 (hτ k)).mul h0 h1 ((ht k hk).mul h0 h1 (hq' k))).mul h0 h1
      hc0).mul h0 h1 (((ht r hr).mul h0 h1 (ht c hc)).mul h0 h1 hc1)).mul h0 h1 hc2).mul h0 h1 hc3).mono h0 h1 (by omega)
  · rw [Rnd.add_v, g3, Rnd.add_v (m r c + _), f3, Rnd.add_v (m r c), e3, Rnd.mul_v (-1) (pv r * x c), e2,
      Rnd.mul_v (pv r), e1, Rnd.mul_v (-1) (x r * pv c), f2, Rnd.mul_v (x r) (pv c), f1, Rnd.mul_v (dot + dot), g2,
      Rnd.add_v dot, g0, Rnd.mul_v (x r) (x c), g1, hneg, ep r, ep c, et r hr, et c hc]
    have s1 : ∑ k ∈ Finset.range L, (m r k).v * w k * (t k * q r k * τ r * (t c * a1 * a2 * (a3 * b3 * c3))) =
        (∑ k ∈ Finset.range L, (m r k).v * w k * (t k * q r k)) * (τ r * (t c * a1 * a2 * (a3 * b3 * c3))) := by
      rw [Finset.sum_mul]
      exact Finset.sum_congr rfl fun k _ => by ring
    have s2 : ∑ k ∈ Finset.range L, (m c k).v * w k * (t k * q c k * τ c * (t r * b1 * b2 * (b3 * c3))) =
        (∑ k ∈ Finset.range L, (m c k).v * w k * (t k * q c k)) * (τ c * (t r * b1 * b2 * (b3 * c3))) := by
      rw [Finset.sum_mul]
      exact Finset.sum_congr rfl fun k _ => by ring
    have s3 : ∑ k ∈ Finset.range L, w k * ∑ l ∈ Finset.range L, (m k l).v * w l *
          (t l * q k l * τ k * (t k * q' k) * c0 * (t r * t c * c1) * c2 * c3) =
        dot.v / 2 * (c0 * (t r * t c * c1) * c2 * c3) := by
      rw [eq', Finset.sum_div, Finset.sum_mul]
      refine Finset.sum_congr rfl fun k hk => ?_
      rw [et k (Finset.mem_range.1 hk), ep k]
      have : ∑ l ∈ Finset.range L, (m k l).v * w l *
          (t l * q k l * τ k * (t k * q' k) * c0 * (t r * t c * c1) * c2 * c3) =
          (∑ l ∈ Finset.range L, (m k l).v * w l * (t l * q k l)) *
            (τ k * (t k * q' k) * c0 * (t r * t c * c1) * c2 * c3) := by
        rw [Finset.sum_mul]
        exact Finset.sum_congr rfl fun l _ => by ring
      rw [this]
      ring
    rw [s1, s2, s3]
    ring

/-- The same as a bound. -/
theorem rank2_bound {K L N : Nat} (m : Nat → Nat → Rnd R) (x : Nat → Rnd R) (w : Nat → ℝ)
    (hx : ∀ k, k < L → ∃ t, Near R.u K t ∧ (x k).v = w k * t) (r c : Nat) (hr : r < L) (hc : c < L)
    (pv : Nat → Rnd R) (hpv : ∀ i, pv i = (dotTo L (m i) x) * NdFloat.ofRat 2)
    (dot : Rnd R) (hdot : dot = dotTo L x pv) (hN : 4 * K + 2 * L + 8 ≤ N) (hu : N * R.u < 1) :
    |(m r c + -1 * (pv r * x c) + -1 * (x r * pv c) + (dot + dot) * (x r * x c)).v -
      ((m r c).v - 2 * (∑ k ∈ Finset.range L, (m r k).v * w k) * w c
          - 2 * (∑ k ∈ Finset.range L, (m c k).v * w k) * w r
          + 4 * (∑ k ∈ Finset.range L, w k * ∑ l ∈ Finset.range L, (m k l).v * w l) * w r * w c)| ≤
      gam R.u N * (|(m r c).v| + 2 * (∑ k ∈ Finset.range L, |(m r k).v| * |w k|) * |w c|
          + 2 * (∑ k ∈ Finset.range L, |(m c k).v| * |w k|) * |w r|
          + 4 * (∑ k ∈ Finset.range L, |w k| * ∑ l ∈ Finset.range L, |(m k l).v| * |w l|) * |w r| * |w c|) := by
  have h0 := R.u_nonneg
  have h1 := R.u_lt_one
  obtain ⟨t0, q1, q2, q3, n0, n1, n2, n3, e⟩ := rank2_near K L m x w hx r c hr hc pv hpv dot hdot
  set g := gam R.u N
  have hg : ∀ t, Near R.u (4 * K + 2 * L + 8) t → |t - 1| ≤ g := fun t h => (h.mono h0 h1 hN).abs_sub_one h0 h1 hu
  have hS : ∀ (f q : Nat → ℝ), (∀ k, k < L → Near R.u (4 * K + 2 * L + 8) (q k)) →
      |∑ k ∈ Finset.range L, f k * w k * q k - ∑ k ∈ Finset.range L, f k * w k| ≤
        g * ∑ k ∈ Finset.range L, |f k| * |w k| := by
    intro f q hq
    rw [← Finset.sum_sub_distrib, Finset.mul_sum]
    refine (Finset.abs_sum_le_sum_abs _ _).trans (Finset.sum_le_sum fun k hk => ?_)
    rw [show f k * w k * q k - f k * w k = f k * w k * (q k - 1) by ring, abs_mul, abs_mul, mul_comm]
    exact mul_le_mul_of_nonneg_right (hg _ (hq k (Finset.mem_range.1 hk))) (by positivity)
  have d0 : |(m r c).v * t0 - (m r c).v| ≤ g * |(m r c).v| := by
    rw [show (m r c).v * t0 - (m r c).v = (t0 - 1) * (m r c).v by ring, abs_mul]
    exact mul_le_mul_of_nonneg_right (hg _ n0) (abs_nonneg _)
  have d1 := hS (fun k => (m r k).v) q1 n1
  have d2 := hS (fun k => (m c k).v) q2 n2
  have d3 : |∑ k ∈ Finset.range L, w k * ∑ l ∈ Finset.range L, (m k l).v * w l * q3 k l -
      ∑ k ∈ Finset.range L, w k * ∑ l ∈ Finset.range L, (m k l).v * w l| ≤
      g * ∑ k ∈ Finset.range L, |w k| * ∑ l ∈ Finset.range L, |(m k l).v| * |w l| := by
    rw [← Finset.sum_sub_distrib, Finset.mul_sum]
    refine (Finset.abs_sum_le_sum_abs _ _).trans (Finset.sum_le_sum fun k hk => ?_)
    rw [← mul_sub, abs_mul]
    have := mul_le_mul_of_nonneg_left (hS (fun l => (m k l).v) (q3 k)
      (fun l hl => n3 k l (Finset.mem_range.1 hk) hl)) (abs_nonneg (w k))
    calc _ ≤ _ := this
      _ = _ := by ring
  rw [e]
  set A1 := ∑ k ∈ Finset.range L, (m r k).v * w k * q1 k
  set B1 := ∑ k ∈ Finset.range L, (m r k).v * w k
  set A2 := ∑ k ∈ Finset.range L, (m c k).v * w k * q2 k
  set B2 := ∑ k ∈ Finset.range L, (m c k).v * w k
  set A3 := ∑ k ∈ Finset.range L, w k * ∑ l ∈ Finset.range L, (m k l).v * w l * q3 k l
  set B3 := ∑ k ∈ Finset.range L, w k * ∑ l ∈ Finset.range L, (m k l).v * w l
  have e1 : (m r c).v * t0 - 2 * A1 * w c - 2 * A2 * w r + 4 * A3 * w r * w c -
      ((m r c).v - 2 * B1 * w c - 2 * B2 * w r + 4 * B3 * w r * w c) =
      ((m r c).v * t0 - (m r c).v) - 2 * ((A1 - B1) * w c) - 2 * ((A2 - B2) * w r) + 4 * ((A3 - B3) * (w r * w c)) := by
    ring
  rw [e1]
  have m1 := mul_le_mul_of_nonneg_right d1 (abs_nonneg (w c))
  have m2 := mul_le_mul_of_nonneg_right d2 (abs_nonneg (w r))
  have m3 := mul_le_mul_of_nonneg_right d3 (mul_nonneg (abs_nonneg (w r)) (abs_nonneg (w c)))
  rw [← abs_mul] at m1 m2
  rw [← abs_mul, ← abs_mul] at m3
  have t1 := abs_add_le ((m r c).v * t0 - (m r c).v - 2 * ((A1 - B1) * w c) - 2 * ((A2 - B2) * w r))
    (4 * ((A3 - B3) * (w r * w c)))
  have t2 := abs_sub ((m r c).v * t0 - (m r c).v - 2 * ((A1 - B1) * w c)) (2 * ((A2 - B2) * w r))
  have t3 := abs_sub ((m r c).v * t0 - (m r c).v) (2 * ((A1 - B1) * w c))
  rw [abs_mul 4, abs_of_nonneg (by norm_num : (0 : ℝ) ≤ 4)] at t1
  rw [abs_mul 2, abs_of_nonneg (by norm_num : (0 : ℝ) ≤ 2)] at t2 t3
  calc _ ≤ |(m r c).v * t0 - (m r c).v| + 2 * |(A1 - B1) * w c| + 2 * |(A2 - B2) * w r| +
        4 * |(A3 - B3) * (w r * w c)| := by linarith
    _ ≤ _ := by
      refine (add_le_add (add_le_add (add_le_add d0 (mul_le_mul_of_nonneg_left m1 (by norm_num)))
        (mul_le_mul_of_nonneg_left m2 (by norm_num))) (mul_le_mul_of_nonneg_left m3 (by norm_num))).trans (le_of_eq ?_)
      rw [abs_mul (w r)]
      ring

/-- What one step of the tridiagonalization does, with rounding errors. -/
structure TriStepNear (n i : Nat) (a b : Arr2 (Rnd R)) (d : Rnd R) (w : Nat → ℝ) : Prop where
  shape : HasShape b n n
  ok : HouseOk n (i + 1) (NdFloat.signum d : Rnd R).v w
  near : ∀ r, i + 1 ≤ r → r < n → ∃ t, Near R.u (2 * n + 12) t ∧ (b.get r i).v = w r * t
  frame : ∀ r c, c < i ∨ r ≤ i → b.get r c = a.get r c
  col : ∃ e t, Near R.u (2 * n + 12) t ∧ d.v = e * t ∧ ∀ r, r < n →
    hApp n (i + 1) (NdFloat.signum e) w (fun k => (a.get k i).v) r =
      if r < i + 1 then (a.get r i).v else if r = i + 1 then |e| else 0
  block : ∀ r c, r < n → c < n → i + 1 ≤ r → i + 1 ≤ c → |(b.get r c).v - ((a.get r c).v
    - 2 * (∑ k ∈ Finset.range n, (a.get r k).v * w k) * w c
    - 2 * (∑ k ∈ Finset.range n, (a.get c k).v * w k) * w r
    + 4 * (∑ k ∈ Finset.range n, w k * ∑ l ∈ Finset.range n, (a.get k l).v * w l) * w r * w c)| ≤
      gam R.u (10 * n + 56) * (|(a.get r c).v| + 2 * (∑ k ∈ Finset.range n, |(a.get r k).v| * |w k|) * |w c|
        + 2 * (∑ k ∈ Finset.range n, |(a.get c k).v| * |w k|) * |w r|
        + 4 * (∑ k ∈ Finset.range n, |w k| * ∑ l ∈ Finset.range n, |(a.get k l).v| * |w l|) * |w r| * |w c|)

theorem tridiagStep_rnd {n : Nat} (i : Nat) (a : Arr2 (Rnd R)) (off p : Arr1 (Rnd R)) (hi : i < n - 1)
    (ha : HasShape a n n) (h3 : off.len = n - 1) (h4 : p.len = n - 1)
    (hu : ((10 * n + 56 : Nat) : ℝ) * R.u < 1) :
    ∃ b d p' w, tridiagStep i a off p = .ok (b, off.upd i d, p') ∧ p'.len = n - 1 ∧
      TriStepNear n i a b d w := by
  have h0 := R.u_nonneg
  have h1' := R.u_lt_one
  have hg0 : 0 ≤ gam R.u (10 * n + 56) := gam_nonneg h0 hu
  obtain ⟨h1, h2⟩ := ha
  unfold tridiagStep
  rw [Arr2.colSlice_ok (by omega) le_rfl (by omega)]
  simp only [ok_bind]
  rw [Arr2.slice_ok (by omega) le_rfl (by omega) le_rfl]
  simp only [ok_bind, h1, h2]
  have hin : i + 1 ≤ n := by omega
  obtain ⟨w, o, hw, hl, w', e, hs, ho, hwn, td, htd, ed⟩ := reflectionAxisMut_rnd
    (⟨n - (i + 1), fun k => a.get (i + 1 + k) i⟩ : Arr1 (Rnd R)) (by simp; omega)
  simp only at hl hs hwn htd
  rw [hw]
  simp only [ok_bind]
  rw [Arr1.idxSet_ok (by omega)]
  simp only [ok_bind]
  set d : Rnd R := o.getD 0 with hd
  set W := shiftVec (i + 1) w' with hW
  have hsig : (NdFloat.signum d : Rnd R).v = NdFloat.signum e := signum_rnd_near htd ed
  have hok : HouseOk n (i + 1) (NdFloat.signum d : Rnd R).v W := by
    rw [hsig]
    refine ⟨fun r h => shiftVec_lt _ h, real_signum_sq _, fun r h => ?_⟩
    by_cases hrp : r < i + 1
    · rw [hW, shiftVec_lt _ hrp, zero_mul]
    · have := hs.unit (r - (i + 1)) (by omega)
      rw [sum_range_supp hin _ (fun k hk => by rw [hW, shiftVec_lt _ hk, zero_mul])]
      simp only [hW, shiftVec_add]
      rw [shiftVec, if_pos (by omega)]
      exact this
  have hcolr : ∃ e t, Near R.u (2 * n + 12) t ∧ d.v = e * t ∧ ∀ r, r < n →
      hApp n (i + 1) (NdFloat.signum e) W (fun k => (a.get k i).v) r =
        if r < i + 1 then (a.get r i).v else if r = i + 1 then |e| else 0 := by
    refine ⟨e, td, htd.mono h0 h1' (by omega), ed, fun r hr => ?_⟩
    unfold hApp
    by_cases hip : r < i + 1
    · rw [if_pos hip, if_pos hip]
    · rw [if_neg hip, if_neg hip, sum_range_supp hin _
        (fun k hk => by rw [hW, shiftVec_lt _ hk, zero_mul])]
      simp only [hW, shiftVec_add]
      have := hs.refl (r - (i + 1)) (by omega)
      rw [show i + 1 + (r - (i + 1)) = r by omega] at this
      rw [shiftVec, if_pos (by omega), this]
      by_cases hipe : r = i + 1
      · rw [if_pos (by omega), if_pos hipe, real_signum_mul_self]
      · rw [if_neg (by omega), if_neg hipe, mul_zero]
  have hput : ∀ r c, (a.putCol (i + 1) i w).get r c =
      if c = i ∧ i + 1 ≤ r ∧ r < n then w.get (r - (i + 1)) else a.get r c := by
    intro r c
    simp only [Arr2.putCol, hl, show i + 1 + (n - (i + 1)) = n by omega]
  have hWge : ∀ r, i + 1 ≤ r → W r = w' (r - (i + 1)) := by
    intro r hr; rw [hW, shiftVec, if_pos hr]
  have hnear : ∀ b : Arr2 (Rnd R), (∀ r, b.get r i = (a.putCol (i + 1) i w).get r i) → ∀ r, i + 1 ≤ r → r < n →
      ∃ t, Near R.u (2 * n + 12) t ∧ (b.get r i).v = W r * t := by
    intro b hb r hr1 hr2
    obtain ⟨t, ht, et⟩ := hwn (r - (i + 1)) (by omega)
    exact ⟨t, ht.mono h0 h1' (by omega), by rw [hb, hput, if_pos ⟨rfl, hr1, hr2⟩, hWge r hr1, et]⟩
  have hsumr : ∀ f : Nat → ℝ, ∑ k ∈ Finset.range n, f k * W k =
      ∑ k ∈ Finset.range (n - (i + 1)), f (i + 1 + k) * w' k := by
    intro f
    rw [sum_range_supp hin _ (fun k hk => by rw [hW, shiftVec_lt _ hk, mul_zero])]
    simp only [hW, shiftVec_add]
  have hsuml : ∀ f : Nat → ℝ, ∑ k ∈ Finset.range n, W k * f k =
      ∑ k ∈ Finset.range (n - (i + 1)), w' k * f (i + 1 + k) := by
    intro f
    rw [sum_range_supp hin _ (fun k hk => by rw [hW, shiftVec_lt _ hk, zero_mul])]
    simp only [hW, shiftVec_add]
  have hsumra : ∀ f : Nat → ℝ, ∑ k ∈ Finset.range n, f k * |W k| =
      ∑ k ∈ Finset.range (n - (i + 1)), f (i + 1 + k) * |w' k| := by
    intro f
    rw [sum_range_supp hin _ (fun k hk => by rw [hW, shiftVec_lt _ hk, abs_zero, mul_zero])]
    simp only [hW, shiftVec_add]
  have hsumla : ∀ f : Nat → ℝ, ∑ k ∈ Finset.range n, |W k| * f k =
      ∑ k ∈ Finset.range (n - (i + 1)), |w' k| * f (i + 1 + k) := by
    intro f
    rw [sum_range_supp hin _ (fun k hk => by rw [hW, shiftVec_lt _ hk, abs_zero, zero_mul])]
    simp only [hW, shiftVec_add]
  cases o with
  | none =>
    have hd0 : e = 0 := ho.1 rfl
    have hz : ∀ k, i + 1 ≤ k → k < n → W k = 0 := by
      intro k hk1 hk2
      rw [hWge k hk1]; exact hs.zero hd0 _ (by omega)
    refine ⟨_, d, _, W, rfl, h4, ⟨h1, h2⟩, hok, hnear _ (fun _ => rfl), ?_, hcolr, ?_⟩
    · intro r c h
      rw [hput, if_neg (by omega)]
    · intro r c hr hc hir hic
      rw [hput, if_neg (by omega), hz r hir hr, hz c hic hc]
      simp only [abs_zero, mul_zero, zero_mul, sub_zero, add_zero, sub_self]
      exact mul_nonneg hg0 (abs_nonneg _)
  | some ν =>
    simp only [Option.isSome_some, if_true]
    rw [Arr1.slice_ok (by omega) le_rfl]
    simp only [ok_bind]
    rw [matVecMul_ok (by simp only; omega) (by simp only; omega)]
    simp only [ok_bind]
    rw [Arr1.dot_ok (by simp only; omega)]
    simp only [ok_bind]
    rw [rankOneUpdate_ok (by simp only; omega) (by simp only; omega)]
    simp only [ok_bind]
    rw [rankOneUpdate_ok (by simp only; omega) (by simp only; omega)]
    simp only [ok_bind]
    rw [rankOneUpdate_ok (by simp only; omega) (by simp only; omega)]
    simp only [ok_bind]
    refine ⟨_, d, _, W, rfl, h4, ⟨h1, h2⟩, hok, hnear _ (fun r => ?_), ?_, hcolr, ?_⟩
    · simp only [Arr2.put]
      rw [if_neg (by omega)]
    · intro r c h
      simp only [Arr2.put]
      rw [if_neg (by omega), hput, if_neg (by omega)]
    · intro r c hr hc hir hic
      have key := rank2_bound (K := 2 * n + 12) (L := n - (i + 1)) (N := 10 * n + 56)
        (fun r c => a.get (i + 1 + r) (i + 1 + c)) w.get w'
        (fun k hk => by
          obtain ⟨t, ht, et⟩ := hwn k hk
          exact ⟨t, ht.mono h0 h1' (by omega), et⟩)
        (r - (i + 1)) (c - (i + 1)) (by omega) (by omega) _ (fun _ => rfl) _ rfl (by omega) hu
      simp only [Arr2.put]
      rw [if_pos (by omega)]
      simp only [hsumr, hsuml, hsumra, hsumla, hWge r hir, hWge c hic, hl]
      simp only [show i + 1 + (r - (i + 1)) = r by omega, show i + 1 + (c - (i + 1)) = c by omega] at key ⊢
      exact key

/-! ## Symmetric and skew-symmetric parts -/

/-- The symmetric part of a matrix. -/
noncomputable def symPart {n : Nat} (X : Matrix (Fin n) (Fin n) ℝ) : Matrix (Fin n) (Fin n) ℝ :=
  (1 / 2 : ℝ) • (X + Xᵀ)

/-- The skew-symmetric part of a matrix. -/
noncomputable def skewPart {n : Nat} (X : Matrix (Fin n) (Fin n) ℝ) : Matrix (Fin n) (Fin n) ℝ :=
  (1 / 2 : ℝ) • (X - Xᵀ)

theorem symPart_apply {n : Nat} (X : Matrix (Fin n) (Fin n) ℝ) (i j : Fin n) :
    symPart X i j = (X i j + X j i) / 2 := by
  simp only [symPart, Matrix.smul_apply, Matrix.add_apply, Matrix.transpose_apply, smul_eq_mul]; ring

theorem skewPart_apply {n : Nat} (X : Matrix (Fin n) (Fin n) ℝ) (i j : Fin n) :
    skewPart X i j = (X i j - X j i) / 2 := by
  simp only [skewPart, Matrix.smul_apply, Matrix.sub_apply, Matrix.transpose_apply, smul_eq_mul]; ring

theorem frob_symPart_le {n : Nat} (X : Matrix (Fin n) (Fin n) ℝ) : frob (symPart X) ≤ frob X := by
  have := frob_add_le X Xᵀ
  rw [frob_transpose] at this
  rw [symPart, frob_smul, abs_of_nonneg (by norm_num)]
  linarith

theorem frob_skewPart_le {n : Nat} (X : Matrix (Fin n) (Fin n) ℝ) : frob (skewPart X) ≤ frob X := by
  have := frob_add_le X (-Xᵀ)
  rw [frob_neg, frob_transpose] at this
  rw [skewPart, frob_smul, abs_of_nonneg (by norm_num), sub_eq_add_neg]
  linarith

theorem symPart_add {n : Nat} (X Y : Matrix (Fin n) (Fin n) ℝ) : symPart (X + Y) = symPart X + symPart Y := by
  ext i j; simp only [symPart_apply, Matrix.add_apply]; ring

theorem skewPart_add {n : Nat} (X Y : Matrix (Fin n) (Fin n) ℝ) : skewPart (X + Y) = skewPart X + skewPart Y := by
  ext i j; simp only [skewPart_apply, Matrix.add_apply]; ring

theorem symPart_of_symm {n : Nat} {X : Matrix (Fin n) (Fin n) ℝ} (h : Xᵀ = X) : symPart X = X := by
  ext i j
  have : X j i = X i j := congrFun (congrFun h i) j
  rw [symPart_apply, this]; ring

theorem skewPart_of_symm {n : Nat} {X : Matrix (Fin n) (Fin n) ℝ} (h : Xᵀ = X) : skewPart X = 0 := by
  ext i j
  have : X j i = X i j := congrFun (congrFun h i) j
  rw [skewPart_apply, this, sub_self, zero_div]; rfl

theorem symPart_symm {n : Nat} (X : Matrix (Fin n) (Fin n) ℝ) : (symPart X)ᵀ = symPart X := by
  ext i j; rw [Matrix.transpose_apply, symPart_apply, symPart_apply]; ring

/-- What a step does to the symmetric and to the skew-symmetric part: the update keeps the skew-symmetric part as
it is, so that it does not grow except by rounding. -/
theorem triStep_parts {n : Nat} {X Y S K H E : Matrix (Fin n) (Fin n) ℝ} {ω : Matrix (Fin n) (Fin 1) ℝ}
    (hY : Y = H * S * H + (K - (2 : ℝ) • (K * ω * ωᵀ) + (2 : ℝ) • (ω * ωᵀ * K)) + E) (hS : Sᵀ = S) (hK : Kᵀ = -K)
    (hHs : Hᵀ = H) (hH : Hᵀ * H = 1) (hω : frob ω ≤ 1) (h1 : frob (S - symPart X) ≤ frob (skewPart X))
    (h2 : frob K ≤ frob (skewPart X)) :
    frob (symPart Y - H * symPart X * H) ≤ 5 * frob (skewPart X) + frob E ∧
      frob (skewPart Y) ≤ frob (skewPart X) + frob E := by
  have hHH : H * Hᵀ = 1 := by rw [hHs]; rwa [hHs] at hH
  have hsym : (H * S * H)ᵀ = H * S * H := by
    rw [Matrix.transpose_mul, Matrix.transpose_mul, hHs, hS, Matrix.mul_assoc]
  set Z := (2 : ℝ) • (ω * ωᵀ * K) - (2 : ℝ) • (K * ω * ωᵀ) with hZ
  have hZs : Zᵀ = Z := by
    rw [hZ, Matrix.transpose_sub, Matrix.transpose_smul, Matrix.transpose_smul, Matrix.transpose_mul,
      Matrix.transpose_mul, Matrix.transpose_mul, Matrix.transpose_mul, Matrix.transpose_transpose, hK]
    simp only [Matrix.neg_mul, Matrix.mul_neg, Matrix.mul_assoc, smul_neg]
    abel
  have hY' : Y = (H * S * H + Z) + (K + E) := by rw [hY, hZ]; abel
  have hKsym : symPart K = 0 := by
    ext i j
    have : K j i = -K i j := congrFun (congrFun hK i) j
    rw [symPart_apply, this]; simp
  have hKskew : skewPart K = K := by
    ext i j
    have : K j i = -K i j := congrFun (congrFun hK i) j
    rw [skewPart_apply, this]; ring
  have e1 : symPart Y = H * S * H + Z + symPart E := by
    rw [hY', symPart_add, symPart_add K, hKsym, zero_add, symPart_of_symm]
    rw [Matrix.transpose_add, hsym, hZs]
  have e2 : skewPart Y = K + skewPart E := by
    rw [hY', skewPart_add, skewPart_add K, hKskew, skewPart_of_symm, zero_add]
    rw [Matrix.transpose_add, hsym, hZs]
  have hKω : frob (K * ω * ωᵀ) ≤ frob K := by
    have a1 := frob_mul_le (K * ω) ωᵀ
    have a2 := frob_mul_le K ω
    rw [frob_transpose] at a1
    have a3 := frob_nonneg K
    have a4 := frob_nonneg ω
    nlinarith [mul_nonneg a3 a4]
  have hωK : frob (ω * ωᵀ * K) ≤ frob K := by
    rw [← frob_transpose, Matrix.transpose_mul, Matrix.transpose_mul, Matrix.transpose_transpose, hK, Matrix.neg_mul,
      frob_neg, ← Matrix.mul_assoc]
    exact hKω
  have hZn : frob Z ≤ 4 * frob K := by
    rw [hZ, sub_eq_add_neg]
    have := frob_add_le ((2 : ℝ) • (ω * ωᵀ * K)) (-((2 : ℝ) • (K * ω * ωᵀ)))
    rw [frob_neg, frob_smul, frob_smul, abs_of_nonneg (by norm_num : (0 : ℝ) ≤ 2)] at this
    linarith
  constructor
  · have e3 : symPart Y - H * symPart X * H = H * (S - symPart X) * H + (Z + symPart E) := by
      rw [e1, Matrix.mul_sub, Matrix.sub_mul]; abel
    rw [e3]
    have a1 := frob_add_le (H * (S - symPart X) * H) (Z + symPart E)
    have a2 := frob_add_le Z (symPart E)
    rw [frob_mul_orth (by rw [hHs] at hHH ⊢; exact hHH), frob_orth_mul hH] at a1
    have := frob_symPart_le E
    linarith
  · rw [e2]
    have a1 := frob_add_le K (skewPart E)
    have := frob_skewPart_le E
    linarith

/-! ## The error matrix of a step -/

theorem frob_absMat {m n : Nat} (X : Matrix (Fin m) (Fin n) ℝ) : frob (absMat X) = frob X :=
  le_antisymm (frob_mono fun i j => by simp [absMat]) (frob_mono fun i j => by simp [absMat])

theorem rank2_entry {n : Nat} (X Z : Matrix (Fin n) (Fin n) ℝ) (w : Nat → ℝ) (ω : Matrix (Fin n) (Fin 1) ℝ)
    (hω : ω = Matrix.of fun (k : Fin n) (_ : Fin 1) => w k) (r c : Fin n) :
    (absMat Z + (absMat X + (2 : ℝ) • (absMat X * absMat ω * (absMat ω)ᵀ) +
      (2 : ℝ) • (absMat ω * (absMat X * absMat ω)ᵀ) +
      (4 : ℝ) • (absMat ω * ((absMat ω)ᵀ * (absMat X * absMat ω)) * (absMat ω)ᵀ)) : Matrix (Fin n) (Fin n) ℝ) r c =
    |Z r c| + (|X r c| + 2 * (∑ k : Fin n, |X r k| * |w k|) * |w c| + 2 * (∑ k : Fin n, |X c k| * |w k|) * |w r| +
      4 * (∑ k : Fin n, |w k| * ∑ l : Fin n, |X k l| * |w l|) * |w r| * |w c|) := by
  subst hω
  simp only [Matrix.add_apply, Matrix.smul_apply, Matrix.mul_apply, absMat, Matrix.map_apply, Matrix.transpose_apply,
    Matrix.of_apply, Finset.univ_unique, Finset.sum_singleton, smul_eq_mul]
  ring

/-- The bound of the entries of the error matrix gives a bound of its norm. -/
theorem rank2_frob {n : Nat} {E X Z : Matrix (Fin n) (Fin n) ℝ} {ω : Matrix (Fin n) (Fin 1) ℝ} {g : ℝ} (hg : 0 ≤ g)
    (hω : frob ω ≤ 1) (hE : ∀ r c, |E r c| ≤ g * (absMat Z + (absMat X + (2 : ℝ) • (absMat X * absMat ω * (absMat ω)ᵀ) +
      (2 : ℝ) • (absMat ω * (absMat X * absMat ω)ᵀ) +
      (4 : ℝ) • (absMat ω * ((absMat ω)ᵀ * (absMat X * absMat ω)) * (absMat ω)ᵀ)) : Matrix (Fin n) (Fin n) ℝ) r c) :
    frob E ≤ g * (frob Z + 9 * frob X) := by
  set a := absMat X with ha
  set o := absMat ω with ho
  have hx : frob a = frob X := frob_absMat X
  have hω' : frob o ≤ 1 := by rw [ho, frob_absMat]; exact hω
  have hx0 := frob_nonneg X
  have ho0 := frob_nonneg o
  have p1 : frob (a * o) ≤ frob X := by
    have := frob_mul_le a o
    rw [hx] at this
    nlinarith
  have p2 : frob (a * o * oᵀ) ≤ frob X := by
    have := frob_mul_le (a * o) oᵀ
    rw [frob_transpose] at this
    nlinarith [frob_nonneg (a * o)]
  have p3 : frob (o * (a * o)ᵀ) ≤ frob X := by
    have := frob_mul_le o (a * o)ᵀ
    rw [frob_transpose] at this
    nlinarith [frob_nonneg (a * o)]
  have p4 : frob (oᵀ * (a * o)) ≤ frob X := by
    have := frob_mul_le oᵀ (a * o)
    rw [frob_transpose] at this
    nlinarith [frob_nonneg (a * o)]
  have p5 : frob (o * (oᵀ * (a * o)) * oᵀ) ≤ frob X := by
    have q1 := frob_mul_le (o * (oᵀ * (a * o))) oᵀ
    have q2 := frob_mul_le o (oᵀ * (a * o))
    rw [frob_transpose] at q1
    have q3 := frob_nonneg (oᵀ * (a * o))
    have q4 := frob_nonneg (o * (oᵀ * (a * o)))
    nlinarith
  have hG : frob E ≤ frob (g • (absMat Z + (a + (2 : ℝ) • (a * o * oᵀ) + (2 : ℝ) • (o * (a * o)ᵀ) +
      (4 : ℝ) • (o * (oᵀ * (a * o)) * oᵀ)))) := by
    refine frob_mono fun r c => ?_
    rw [Matrix.smul_apply, smul_eq_mul]
    exact (hE r c).trans (le_abs_self _)
  rw [frob_smul, abs_of_nonneg hg] at hG
  refine hG.trans (mul_le_mul_of_nonneg_left ?_ hg)
  have s1 := frob_add_le (absMat Z) (a + (2 : ℝ) • (a * o * oᵀ) + (2 : ℝ) • (o * (a * o)ᵀ) +
      (4 : ℝ) • (o * (oᵀ * (a * o)) * oᵀ))
  have s2 := frob_add_le (a + (2 : ℝ) • (a * o * oᵀ) + (2 : ℝ) • (o * (a * o)ᵀ))
    ((4 : ℝ) • (o * (oᵀ * (a * o)) * oᵀ))
  have s3 := frob_add_le (a + (2 : ℝ) • (a * o * oᵀ)) ((2 : ℝ) • (o * (a * o)ᵀ))
  have s4 := frob_add_le a ((2 : ℝ) • (a * o * oᵀ))
  rw [frob_smul, abs_of_nonneg (by norm_num)] at s2 s3 s4
  rw [frob_absMat] at s1
  linarith

/-! ## One step -/

/-- The trailing block made symmetric, with the lower part of column `i` kept. -/
noncomputable def mirrored (i : Nat) (a : Arr2 ℝ) : Arr2 ℝ :=
  ⟨a.nr, a.nc, fun r c => if r < i ∨ c < i then a.get r c else if r = i then a.get c i
    else if c = i then a.get r i else (a.get r c + a.get c r) / 2⟩

/-- What is left: skew-symmetric. -/
noncomputable def unmirrored (n i : Nat) (a : Arr2 ℝ) : Matrix (Fin n) (Fin n) ℝ :=
  Matrix.of fun r c => if i < (r : Nat) ∧ i < (c : Nat) then (a.get r c - a.get c r) / 2 else 0

theorem mirrored_parts {n i : Nat} (a : Arr2 ℝ) (e : Nat → ℝ) :
    frob ((Matrix.of fun (r c : Fin n) => triPartial i (mirrored i a) e r c) -
      symPart (Matrix.of fun (r c : Fin n) => triPartial i a e r c)) ≤
        frob (skewPart (Matrix.of fun (r c : Fin n) => triPartial i a e r c)) ∧
    frob (unmirrored n i a) ≤ frob (skewPart (Matrix.of fun (r c : Fin n) => triPartial i a e r c)) := by
  constructor <;> refine frob_mono fun r c => ?_
  · simp only [Matrix.sub_apply, symPart_apply, skewPart_apply, Matrix.of_apply]
    by_cases h : i ≤ (r : Nat) ∧ i ≤ (c : Nat)
    · have h' : i ≤ (c : Nat) ∧ i ≤ (r : Nat) := ⟨h.2, h.1⟩
      simp only [triPartial, h, and_self, if_true, mirrored]
      rw [if_neg (by omega)]
      by_cases hr : (r : Nat) = i
      · rw [if_pos hr, ← hr, ← abs_neg]
        apply le_of_eq
        congr 1
        ring
      · rw [if_neg hr]
        by_cases hc : (c : Nat) = i
        · rw [if_pos hc, ← hc]
          apply le_of_eq
          congr 1
          ring
        · rw [if_neg hc, sub_self, abs_zero]
          exact abs_nonneg _
    · have h' : ¬(i ≤ (c : Nat) ∧ i ≤ (r : Nat)) := by omega
      have e1 : triPartial i a e c r = triPartial i a e r c := by
        unfold triPartial
        rw [if_neg h, if_neg h']
        split_ifs <;> first | rfl | omega | skip
        rename_i h1 _
        rw [h1]
      have e2 : triPartial i (mirrored i a) e r c = triPartial i a e r c := by
        unfold triPartial
        rw [if_neg h, if_neg h]
        by_cases hrc : (r : Nat) = c
        · rw [if_pos hrc, if_pos hrc]
          simp only [mirrored]
          rw [if_pos (by omega)]
        · rw [if_neg hrc, if_neg hrc]
      rw [e1, e2]
      rw [show triPartial i a e r c - (triPartial i a e r c + triPartial i a e r c) / 2 = 0 by ring, abs_zero]
      exact abs_nonneg _
  · simp only [unmirrored, skewPart_apply, Matrix.of_apply]
    split_ifs with h
    · simp only [triPartial]
      rw [if_pos (by omega), if_pos (by omega)]
    · rw [abs_zero]; exact abs_nonneg _

theorem TriStepNear.parts {n i : Nat} (hi : i < n - 1) {a b : Arr2 (Rnd R)} {d : Rnd R} {w : Nat → ℝ}
    (h : TriStepNear n i a b d w) (ha : HasShape a n n) (e0 : Nat → ℝ) (hu : ((10 * n + 56 : Nat) : ℝ) * R.u < 1)
    (X Y H : Matrix (Fin n) (Fin n) ℝ) (hX : X = Matrix.of fun (r c : Fin n) => triPartial i (Rnd.vals a) e0 r c)
    (hY : Y = Matrix.of fun (r c : Fin n) => triPartial (i + 1) (Rnd.vals b) (fun k => if k = i then d.v else e0 k) r c)
    (hH : H = house n (i + 1) (NdFloat.signum d : Rnd R).v w) :
    frob (symPart Y - H * symPart X * H) ≤
      5 * frob (skewPart X) + 10 * gam R.u (10 * n + 56) * (frob (symPart X) + 2 * frob (skewPart X)) ∧
    frob (skewPart Y) ≤ frob (skewPart X) +
      10 * gam R.u (10 * n + 56) * (frob (symPart X) + 2 * frob (skewPart X)) := by
  have h0 := R.u_nonneg
  have h1 := R.u_lt_one
  have hg0 : 0 ≤ gam R.u (10 * n + 56) := gam_nonneg h0 hu
  obtain ⟨e, t, ht, ed, hcol⟩ := h.col
  have hsig : (NdFloat.signum d : Rnd R).v = NdFloat.signum e := signum_rnd_near ht ed
  have hok : HouseOk n (i + 1) (NdFloat.signum e) w := by rw [← hsig]; exact h.ok
  rw [hsig] at hH
  set A := Rnd.vals a with hA
  set a' := mirrored i A with ha'
  have ha'i : ∀ k, a'.get k i = A.get k i := by
    intro k
    simp only [ha', mirrored]
    by_cases hk : k < i
    · rw [if_pos (Or.inl hk)]
    · rw [if_neg (by omega)]
      by_cases hk2 : k = i
      · rw [if_pos hk2, hk2]
      · simp only [if_neg hk2, if_true]
  have hsym : ∀ r c, r < n → c < n → i ≤ r → i ≤ c → a'.get r c = a'.get c r := by
    intro r c _ _ hr hc
    simp only [ha', mirrored]
    rw [if_neg (show ¬(r < i ∨ c < i) by omega), if_neg (show ¬(c < i ∨ r < i) by omega)]
    by_cases h1 : r = i
    · by_cases h2 : c = i
      · rw [h1, h2]
      · rw [if_pos h1, if_neg h2, if_pos h1]
    · by_cases h2 : c = i
      · rw [if_neg h1, if_pos h2, if_pos h2]
      · rw [if_neg h1, if_neg h2, if_neg h2, if_neg h1, add_comm]
  set F : (Nat → Nat → ℝ) → Nat → Nat → ℝ := fun f r c => f r c
    - 2 * (∑ k ∈ Finset.range n, f r k * w k) * w c
    - 2 * (∑ k ∈ Finset.range n, f c k * w k) * w r
    + 4 * (∑ k ∈ Finset.range n, w k * ∑ l ∈ Finset.range n, f k l * w l) * w r * w c with hF
  set b' : Arr2 ℝ := ⟨n, n, fun r c => if c < i ∨ r ≤ i then a'.get r c else if c = i then w r else
    F a'.get r c⟩ with hb'
  have hst : TriStep n i a' b' e w := by
    refine ⟨⟨rfl, rfl⟩, ?_, hok, ?_, ?_, ?_⟩
    · intro r hr
      by_cases hir : i + 1 ≤ r
      · simp only [hb']
        rw [if_pos hir, if_neg (by omega), if_pos trivial]
      · rw [if_neg hir]; exact hok.supp r (by omega)
    · intro r c hrc
      simp only [hb']
      rw [if_pos hrc]
    · intro r hr
      simp only [ha'i]
      exact hcol r hr
    · intro r c hr hc hir hic
      simp only [hb']
      rw [if_neg (by omega), if_neg (by omega)]
  have hconj := triStep_conj (e := e0) hi hst hsym
  rw [← hH] at hconj
  set S : Matrix (Fin n) (Fin n) ℝ := Matrix.of fun (r c : Fin n) => triPartial i a' e0 r c with hS
  set K := unmirrored n i A with hK
  set ω : Matrix (Fin n) (Fin 1) ℝ := Matrix.of fun k _ => w k with hω
  have hωn : frob ω ≤ 1 := by
    refine frob_le_of_sq zero_le_one ?_
    simp only [hω, Matrix.of_apply, Finset.univ_unique, Finset.sum_singleton]
    have := hok.sum_le_one
    simp only [sq, mul_one] at this ⊢
    exact this
  have hSs : Sᵀ = S := by
    ext r c
    exact triPartial_symm hsym c r c.2 r.2
  have hKs : Kᵀ = -K := by
    ext r c
    simp only [hK, unmirrored, Matrix.transpose_apply, Matrix.neg_apply, Matrix.of_apply]
    by_cases hc : i < (r : Nat) ∧ i < (c : Nat)
    · rw [if_pos hc, if_pos hc.symm]; ring
    · rw [if_neg hc, if_neg (fun h => hc h.symm), neg_zero]
  obtain ⟨n1, n2⟩ := mirrored_parts (n := n) (i := i) A e0
  rw [← hX] at n1 n2
  set E := Y - (H * S * H + (K - (2 : ℝ) • (K * ω * ωᵀ) + (2 : ℝ) • (ω * ωᵀ * K))) with hE
  have hHs : Hᵀ = H := by rw [hH]; exact house_symm hok
  have hHo : Hᵀ * H = 1 := by rw [hH]; exact house_orth hok
  have hmain := triStep_parts (X := X) (Y := Y) (S := S) (K := K) (H := H) (E := E) (ω := ω)
    (by rw [hE]; abel) hSs hKs hHs hHo hωn n1 n2
  -- the norm of the error
  have hSK : ∀ r c : Fin n, i < (r : Nat) → i < (c : Nat) → (S + K) r c = A.get r c := by
    intro r c hr hc
    simp only [Matrix.add_apply, hS, hK, unmirrored, Matrix.of_apply, triPartial, ha', mirrored]
    rw [if_pos (by omega), if_neg (by omega), if_neg (by omega), if_neg (by omega), if_pos (by omega)]
    ring
  have hEn : frob E ≤ gam R.u (10 * n + 56) * (frob (H * S * H) + 9 * frob (S + K)) := by
    refine rank2_frob hg0 hωn fun r c => ?_
    rw [rank2_entry _ _ w ω hω]
    have pos : 0 ≤ |(S + K) r c| + 2 * (∑ k : Fin n, |(S + K) r k| * |w k|) * |w c| +
        2 * (∑ k : Fin n, |(S + K) c k| * |w k|) * |w r| +
        4 * (∑ k : Fin n, |w k| * ∑ l : Fin n, |(S + K) k l| * |w l|) * |w r| * |w c| := by
      have q1 : 0 ≤ ∑ k : Fin n, |(S + K) r k| * |w k| := Finset.sum_nonneg fun _ _ => by positivity
      have q2 : 0 ≤ ∑ k : Fin n, |(S + K) c k| * |w k| := Finset.sum_nonneg fun _ _ => by positivity
      have q3 : 0 ≤ ∑ k : Fin n, |w k| * ∑ l : Fin n, |(S + K) k l| * |w l| :=
        Finset.sum_nonneg fun _ _ => mul_nonneg (abs_nonneg _) (Finset.sum_nonneg fun _ _ => by positivity)
      positivity
    have hKp : (K - (2 : ℝ) • (K * ω * ωᵀ) + (2 : ℝ) • (ω * ωᵀ * K)) r c =
        K r c - 2 * (∑ k : Fin n, K r k * w k) * w c - 2 * (∑ k : Fin n, K c k * w k) * w r := by
      have e1 : (ω * ωᵀ * K) r c = -((∑ k : Fin n, K c k * w k) * w r) := by
        rw [Matrix.mul_apply, Finset.sum_mul, ← Finset.sum_neg_distrib]
        refine Finset.sum_congr rfl fun k _ => ?_
        have : K k c = -K c k := congrFun (congrFun hKs c) k
        simp only [Matrix.mul_apply, Finset.univ_unique, Finset.sum_singleton, Matrix.transpose_apply, hω,
          Matrix.of_apply]
        rw [this]
        ring
      have e2 : (K * ω * ωᵀ) r c = (∑ k : Fin n, K r k * w k) * w c := by
        simp only [Matrix.mul_apply, Finset.univ_unique, Finset.sum_singleton, Matrix.transpose_apply, hω,
          Matrix.of_apply]
      rw [Matrix.add_apply, Matrix.sub_apply, Matrix.smul_apply, Matrix.smul_apply, e1, e2, smul_eq_mul, smul_eq_mul]
      ring
    have hEe : E r c = triPartial (i + 1) (Rnd.vals b) (fun k => if k = i then d.v else e0 k) r c -
        (triPartial (i + 1) b' (fun k => if k = i then e else e0 k) r c +
          (K r c - 2 * (∑ k : Fin n, K r k * w k) * w c - 2 * (∑ k : Fin n, K c k * w k) * w r)) := by
      rw [hE, Matrix.sub_apply, Matrix.add_apply, hKp, hconj, hY]
      rfl
    by_cases hblk : i + 1 ≤ (r : Nat) ∧ i + 1 ≤ (c : Nat)
    · obtain ⟨hr, hc⟩ := hblk
      have hb := h.block r c r.2 c.2 hr hc
      have hAS : ∀ r k : Fin n, i < (r : Nat) → |(S + K) r k| * |w k| = |(a.get r k).v| * |w k| := by
        intro r k hr
        by_cases hk : (k : Nat) < i + 1
        · rw [hok.supp k hk, abs_zero, mul_zero, mul_zero]
        · rw [hSK r k hr (by omega)]; rfl
      have hsum1 : ∀ r : Fin n, i < (r : Nat) → ∑ k : Fin n, |(S + K) r k| * |w k| =
          ∑ k ∈ Finset.range n, |(a.get r k).v| * |w k| := by
        intro r hr
        rw [Finset.sum_range (fun k => |(a.get r k).v| * |w k|)]
        exact Finset.sum_congr rfl fun k _ => hAS r k hr
      have hsum2 : ∑ k : Fin n, |w k| * ∑ l : Fin n, |(S + K) k l| * |w l| =
          ∑ k ∈ Finset.range n, |w k| * ∑ l ∈ Finset.range n, |(a.get k l).v| * |w l| := by
        rw [Finset.sum_range (fun k => |w k| * ∑ l ∈ Finset.range n, |(a.get k l).v| * |w l|)]
        refine Finset.sum_congr rfl fun k _ => ?_
        by_cases hk : (k : Nat) < i + 1
        · rw [hok.supp k hk, abs_zero, zero_mul, zero_mul]
        · rw [hsum1 k (by omega)]
      rw [hsum1 r hr, hsum1 c hc, hsum2, hSK r c hr hc]
      have hAK : ∀ r k : Fin n, i < (r : Nat) → (a.get r k).v * w k = a'.get r k * w k + K r k * w k := by
        intro r k hr
        by_cases hk : (k : Nat) < i + 1
        · rw [hok.supp k hk]; ring
        · have := hSK r k hr (by omega)
          have h2 : S r k = a'.get r k := by
            simp only [hS, Matrix.of_apply, triPartial]
            rw [if_pos (by omega)]
          rw [Matrix.add_apply, h2] at this
          rw [show (a.get r k).v = A.get r k from rfl, ← this]
          ring
      have hs1 : ∀ r : Fin n, i < (r : Nat) → ∑ k ∈ Finset.range n, (a.get r k).v * w k =
          ∑ k ∈ Finset.range n, a'.get r k * w k + ∑ k : Fin n, K r k * w k := by
        intro r hr
        rw [Finset.sum_range (fun k => (a.get r k).v * w k), Finset.sum_range (fun k => a'.get r k * w k),
          ← Finset.sum_add_distrib]
        exact Finset.sum_congr rfl fun k _ => hAK r k hr
      have hs2 : ∑ k ∈ Finset.range n, w k * ∑ l ∈ Finset.range n, (a.get k l).v * w l =
          ∑ k ∈ Finset.range n, w k * ∑ l ∈ Finset.range n, a'.get k l * w l := by
        have hz : ∑ k : Fin n, w k * ∑ l : Fin n, K k l * w l = 0 := by
          have hneg : ∑ k : Fin n, w k * ∑ l : Fin n, K k l * w l =
              -∑ k : Fin n, w k * ∑ l : Fin n, K k l * w l := by
            conv_lhs => simp only [Finset.mul_sum]
            rw [Finset.sum_comm, ← Finset.sum_neg_distrib]
            refine Finset.sum_congr rfl fun k _ => ?_
            rw [Finset.mul_sum, ← Finset.sum_neg_distrib]
            refine Finset.sum_congr rfl fun l _ => ?_
            have : K l k = -K k l := congrFun (congrFun hKs k) l
            rw [this]
            ring
          linarith
        rw [Finset.sum_range (fun k => w k * ∑ l ∈ Finset.range n, (a.get k l).v * w l),
          Finset.sum_range (fun k => w k * ∑ l ∈ Finset.range n, a'.get k l * w l), ← sub_eq_zero,
          ← Finset.sum_sub_distrib, ← hz]
        refine Finset.sum_congr rfl fun k _ => ?_
        by_cases hk : (k : Nat) < i + 1
        · rw [hok.supp k hk]; ring
        · rw [hs1 k (by omega)]; ring
      have hEb : E r c = (b.get r c).v - ((a.get r c).v
          - 2 * (∑ k ∈ Finset.range n, (a.get r k).v * w k) * w c
          - 2 * (∑ k ∈ Finset.range n, (a.get c k).v * w k) * w r
          + 4 * (∑ k ∈ Finset.range n, w k * ∑ l ∈ Finset.range n, (a.get k l).v * w l) * w r * w c) := by
        have h2 : (a.get r c).v = a'.get r c + K r c := by
          have := hSK r c hr hc
          have h2 : S r c = a'.get r c := by
            simp only [hS, Matrix.of_apply, triPartial]
            rw [if_pos (by omega)]
          rw [Matrix.add_apply, h2] at this
          exact this.symm
        have h3 : triPartial (i + 1) b' (fun k => if k = i then e else e0 k) r c = F a'.get r c := by
          simp only [triPartial, hb']
          rw [if_pos ⟨hr, hc⟩, if_neg (by omega), if_neg (by omega)]
        have h4 : triPartial (i + 1) (Rnd.vals b) (fun k => if k = i then d.v else e0 k) r c = (b.get r c).v := by
          unfold triPartial
          rw [if_pos ⟨hr, hc⟩]; rfl
        rw [hEe, h3, h4, hs1 r hr, hs1 c hc, hs2, h2, hF]
        ring
      rw [hEb]
      refine hb.trans (mul_le_mul_of_nonneg_left ?_ hg0)
      have := abs_nonneg ((H * S * H) r c)
      have e3 : |A.get r c| = |(a.get r c).v| := rfl
      rw [e3]
      linarith
    · have hK0 : ∀ r k : Fin n, (r : Nat) ≤ i ∨ (k : Nat) ≤ i → K r k = 0 := by
        intro r k hk
        simp only [hK, unmirrored, Matrix.of_apply]
        rw [if_neg (by omega)]
      have hKr : (∑ k : Fin n, K r k * w k) * w c = 0 := by
        by_cases hr : (r : Nat) ≤ i
        · rw [Finset.sum_eq_zero (fun k _ => by rw [hK0 r k (Or.inl hr), zero_mul]), zero_mul]
        · rw [hok.supp c (by omega), mul_zero]
      have hKc : (∑ k : Fin n, K c k * w k) * w r = 0 := by
        by_cases hr : (c : Nat) ≤ i
        · rw [Finset.sum_eq_zero (fun k _ => by rw [hK0 c k (Or.inl hr), zero_mul]), zero_mul]
        · rw [hok.supp r (by omega), mul_zero]
      have hZ : (H * S * H) r c = triPartial (i + 1) b' (fun k => if k = i then e else e0 k) r c := by
        rw [hconj]; rfl
      have hE0 : E r c = triPartial (i + 1) (Rnd.vals b) (fun k => if k = i then d.v else e0 k) r c -
          (H * S * H) r c := by
        rw [hEe, hZ, hK0 r c (by omega)]
        linear_combination 2 * hKr + 2 * hKc
      have key : |E r c| ≤ gam R.u (10 * n + 56) * |(H * S * H) r c| := by
        have hde : ∀ x y, |d.v| - |e| = x → |e| = y → |x| ≤ gam R.u (10 * n + 56) * |y| := by
          rintro x y rfl rfl
          rw [ed, abs_mul, abs_of_pos (ht.pos h0 h1), show |e| * t - |e| = (t - 1) * |e| by ring, abs_mul]
          exact mul_le_mul_of_nonneg_right ((ht.mono h0 h1 (by omega)).abs_sub_one h0 h1 hu) (abs_nonneg _)
        have hzero : ∀ x y : ℝ, x = y → |x - y| ≤ gam R.u (10 * n + 56) * |y| := by
          rintro x y rfl
          rw [sub_self, abs_zero]
          exact mul_nonneg hg0 (abs_nonneg _)
        rw [hE0, hZ]
        unfold triPartial
        rw [if_neg hblk, if_neg hblk]
        by_cases hrc : (r : Nat) = c
        · rw [if_pos hrc, if_pos hrc]
          refine hzero _ _ ?_
          have hri : (r : Nat) ≤ i := by omega
          simp only [hb']
          rw [if_pos (Or.inr hri)]
          have h2 : (Rnd.vals b).get r r = A.get r r := by
            show (b.get r r).v = (a.get r r).v
            rw [h.frame r r (Or.inr hri)]
          rw [h2]
          by_cases hri2 : (r : Nat) = i
          · rw [hri2, ha'i]
          · simp only [ha', mirrored]
            rw [if_pos (by omega)]
        · rw [if_neg hrc, if_neg hrc]
          by_cases h2 : (r : Nat) = c + 1
          · rw [if_pos h2, if_pos h2]
            by_cases h3 : (c : Nat) = i
            · dsimp only; rw [if_pos h3, if_pos h3]; exact hde _ _ rfl rfl
            · dsimp only; rw [if_neg h3, if_neg h3]; exact hzero _ _ rfl
          · rw [if_neg h2, if_neg h2]
            by_cases h2 : (c : Nat) = r + 1
            · rw [if_pos h2, if_pos h2]
              by_cases h3 : (r : Nat) = i
              · dsimp only; rw [if_pos h3, if_pos h3]; exact hde _ _ rfl rfl
              · dsimp only; rw [if_neg h3, if_neg h3]; exact hzero _ _ rfl
            · rw [if_neg h2, if_neg h2]; exact hzero _ _ rfl
      refine key.trans (mul_le_mul_of_nonneg_left ?_ hg0)
      linarith
  have hHSH : frob (H * S * H) = frob S := by
    rw [frob_mul_orth (by rw [← hHo, hHs]), frob_orth_mul hHo]
  have s1 : frob S ≤ frob (symPart X) + frob (skewPart X) := by
    have := frob_add_le (S - symPart X) (symPart X)
    rw [sub_add_cancel] at this
    linarith
  have s2 := frob_add_le S K
  have hE2 : frob E ≤ 10 * gam R.u (10 * n + 56) * (frob (symPart X) + 2 * frob (skewPart X)) := by
    rw [hHSH] at hEn
    refine hEn.trans ?_
    rw [mul_comm (10 : ℝ), mul_assoc]
    refine mul_le_mul_of_nonneg_left ?_ hg0
    have := frob_nonneg (skewPart X)
    linarith
  exact ⟨hmain.1.trans (by linarith), hmain.2.trans (by linarith)⟩

/-! ## The loop -/

/-- The loop invariant of `sym_tridiagonal` after `i` steps, with rounding errors: the symmetric part of the matrix
is orthogonally similar to one near `A`, and the skew-symmetric part is small. -/
structure TriNear (n i : Nat) (a : Arr2 (Rnd R)) (s : Arr2 (Rnd R) × Arr1 (Rnd R) × Arr1 (Rnd R))
    (W : Nat → Nat → ℝ) : Prop where
  shape : HasShape s.1 n n
  olen : s.2.1.len = n - 1
  plen : s.2.2.len = n - 1
  stored : ∀ k, k < i → StoredNear (2 * n + 12) n s.1 1 s.2.1.get k (W k)
  back : ∃ Δ : Matrix (Fin n) (Fin n) ℝ, toMat n n (Rnd.vals a) + Δ = prodP (nearP n 1 s.2.1.get W) i *
      symPart (Matrix.of fun (r c : Fin n) => triPartial i (Rnd.vals s.1) (fun k => (s.2.1.get k).v) r c) *
        (prodP (nearP n 1 s.2.1.get W) i)ᵀ ∧
    frob Δ ≤ 10 * gam R.u (10 * n + 56) * (5 * i ^ 2 + 2 * i) * frob (toMat n n (Rnd.vals a))
  skew : frob (skewPart (Matrix.of fun (r c : Fin n) => triPartial i (Rnd.vals s.1) (fun k => (s.2.1.get k).v) r c)) ≤
    10 * gam R.u (10 * n + 56) * (2 * i) * frob (toMat n n (Rnd.vals a))

theorem TriNear.step {n i : Nat} {a b : Arr2 (Rnd R)} {off p : Arr1 (Rnd R)} {W : Nat → Nat → ℝ}
    (h : TriNear n i a (b, off, p) W) (hi : i < n - 1) (hu : ((10 * n + 56 : Nat) : ℝ) * R.u < 1)
    (hc : 10 * gam R.u (10 * n + 56) * (5 * n ^ 2 + 6 * n) ≤ 1) :
    ∃ s W', tridiagStep i b off p = .ok s ∧ TriNear n (i + 1) a s W' := by
  obtain ⟨hsh, hol, hpl, hst, ⟨Δ, heq, hΔ⟩, hsk⟩ := h
  simp only at hsh hol hpl hst heq hsk
  have hg0 : 0 ≤ 10 * gam R.u (10 * n + 56) := mul_nonneg (by norm_num) (gam_nonneg R.u_nonneg hu)
  obtain ⟨b', d, p', w, e, hp', hs⟩ := tridiagStep_rnd i b off p hi hsh hol hpl hu
  set off' := off.upd i d with hoff
  have hdi : off'.get i = d := by rw [hoff, Arr1.upd_get, if_pos rfl]
  have hdk : ∀ k, k ≠ i → off'.get k = off.get k := by
    intro k hk; rw [hoff, Arr1.upd_get, if_neg hk]
  set W' : Nat → Nat → ℝ := fun k => if k = i then w else W k with hW'
  have hWi : W' i = w := if_pos rfl
  have hWk : ∀ k, k < i → W' k = W k := fun k hk => if_neg (by omega)
  have hprod : prodP (nearP n 1 off'.get W') i = prodP (nearP n 1 off.get W) i :=
    prodP_congr fun k hk => by simp only [nearP, hdk k (by omega), hWk k hk]
  have hQ : (prodP (nearP n 1 off.get W) i)ᵀ * prodP (nearP n 1 off.get W) i = 1 :=
    prodP_orth fun k hk => (hst k hk).orth
  have hHeq : nearP n 1 off'.get W' i = house n (i + 1) (NdFloat.signum d : Rnd R).v w := by
    simp only [nearP, hdi, hWi]
  set H := house n (i + 1) (NdFloat.signum d : Rnd R).v w with hH
  set Q := prodP (nearP n 1 off.get W) i with hQdef
  set X : Matrix (Fin n) (Fin n) ℝ := Matrix.of fun (r c : Fin n) => triPartial i (Rnd.vals b)
    (fun k => (off.get k).v) r c with hX
  set Y : Matrix (Fin n) (Fin n) ℝ := Matrix.of fun (r c : Fin n) => triPartial (i + 1) (Rnd.vals b')
    (fun k => (off'.get k).v) r c with hY
  have hfun : (fun k => (off'.get k).v) = fun k => if k = i then d.v else (off.get k).v := by
    funext k
    by_cases hk : k = i
    · rw [if_pos hk, hk, hdi]
    · rw [if_neg hk, hdk k hk]
  obtain ⟨p1, p2⟩ := hs.parts hi hsh (fun k => (off.get k).v) hu X Y H hX (by rw [hY, hfun]) hH
  set A := toMat n n (Rnd.vals a) with hA
  set g := 10 * gam R.u (10 * n + 56) with hg
  have hA0 := frob_nonneg A
  have hHs : Hᵀ = H := house_symm hs.ok
  have hHo : Hᵀ * H = 1 := house_orth hs.ok
  have hHH : H * H = 1 := house_mul_self hs.ok
  have hin : ((i : ℝ) + 1) ≤ n := by exact_mod_cast (by omega : i + 1 ≤ n)
  have hi0 : (0 : ℝ) ≤ i := Nat.cast_nonneg i
  have hS : frob (symPart X) ≤ (1 + g * (5 * i ^ 2 + 2 * i)) * frob A := by
    have h1 : frob (Q * symPart X * Qᵀ) = frob (symPart X) := by
      rw [frob_mul_orth (by rw [Matrix.transpose_transpose]; exact hQ), frob_orth_mul hQ]
    rw [← h1, ← heq]
    have := frob_add_le A Δ
    linarith
  have hL : frob (symPart X) + 2 * frob (skewPart X) ≤ 2 * frob A := by
    have hb : g * (5 * (i : ℝ) ^ 2 + 6 * i) ≤ 1 := by
      refine le_trans (mul_le_mul_of_nonneg_left ?_ hg0) hc
      nlinarith
    have : frob (symPart X) + 2 * frob (skewPart X) ≤ (1 + g * (5 * (i : ℝ) ^ 2 + 6 * i)) * frob A := by
      calc _ ≤ (1 + g * (5 * (i : ℝ) ^ 2 + 2 * i)) * frob A + 2 * (g * (2 * i) * frob A) := by linarith
        _ = _ := by ring
    refine this.trans ?_
    have := mul_le_mul_of_nonneg_right hb hA0
    linarith
  have hgL : g * (frob (symPart X) + 2 * frob (skewPart X)) ≤ g * (2 * frob A) := mul_le_mul_of_nonneg_left hL hg0
  refine ⟨(b', off', p'), W', e, hs.shape, by simp only [hoff, Arr1.upd_len]; exact hol, hp', ?_, ?_, ?_⟩
  · intro k hk
    by_cases hki : k = i
    · subst hki
      rw [hWi]
      exact ⟨by rw [show (b', off', p').2.1.get k = d from hdi]; exact hs.ok, fun r h1 h2 => hs.near r h1 h2⟩
    · rw [hWk k (by omega)]
      exact (hst k (by omega)).congr (fun r => hs.frame r k (Or.inl (by omega))) (hdk k (by omega))
  · refine ⟨Δ + Q * H * (symPart Y - H * symPart X * H) * (Q * H)ᵀ, ?_, ?_⟩
    · show A + _ = prodP (nearP n 1 off'.get W') (i + 1) * symPart Y * (prodP (nearP n 1 off'.get W') (i + 1))ᵀ
      rw [show prodP (nearP n 1 off'.get W') (i + 1) =
        prodP (nearP n 1 off'.get W') i * nearP n 1 off'.get W' i from rfl, hprod, hHeq, ← add_assoc, heq,
        Matrix.mul_sub, Matrix.sub_mul]
      have : Q * H * (H * symPart X * H) * (Q * H)ᵀ = Q * symPart X * Qᵀ := by
        rw [Matrix.transpose_mul, hHs]
        calc Q * H * (H * symPart X * H) * (H * Qᵀ) = Q * (H * H) * symPart X * (H * H) * Qᵀ := by
              simp only [Matrix.mul_assoc]
          _ = _ := by rw [hHH, Matrix.mul_one, Matrix.mul_one]
      rw [this]
      abel
    · have hQH : (Q * H)ᵀ * (Q * H) = 1 := by
        rw [Matrix.transpose_mul, Matrix.mul_assoc, ← Matrix.mul_assoc Qᵀ, hQ, Matrix.one_mul, hHo]
      have h1 := frob_add_le Δ (Q * H * (symPart Y - H * symPart X * H) * (Q * H)ᵀ)
      rw [frob_mul_orth (by rw [Matrix.transpose_transpose]; exact hQH), frob_orth_mul hQH] at h1
      push_cast
      have : g * (5 * ((i : ℝ) + 1) ^ 2 + 2 * (i + 1)) * frob A =
          g * (5 * i ^ 2 + 2 * i) * frob A + 5 * (g * (2 * i) * frob A) + g * (2 * frob A) + 5 * (g * frob A) := by ring
      rw [this]
      have := mul_nonneg hg0 hA0
      linarith
  · push_cast
    show frob (skewPart Y) ≤ _
    have : g * (2 * ((i : ℝ) + 1)) * frob A = g * (2 * i) * frob A + g * (2 * frob A) := by ring
    rw [this]
    linarith

theorem triPartial_zero {n : Nat} (a : Arr2 ℝ) (e : Nat → ℝ) :
    (Matrix.of fun (r c : Fin n) => triPartial 0 a e r c) = toMat n n a := by
  ext r c; simp [triPartial]

/-- The symmetric tridiagonal matrix a decomposition stands for. -/
noncomputable def TridiagonalDecomp.tMatV (t : TridiagonalDecomp (Rnd R)) (n : Nat) : Matrix (Fin n) (Fin n) ℝ :=
  Matrix.of fun r c => if (r : Nat) = c then (t.diagMatrix.get r r).v
    else if (r : Nat) = c + 1 then |(t.offDiagonal.get c).v|
    else if (c : Nat) = r + 1 then |(t.offDiagonal.get r).v| else 0

theorem symTridiagonal_rnd {n : Nat} (a : Arr2 (Rnd R)) (ha : HasShape a n n) (hn : 1 ≤ n)
    (hs : (toMat n n (Rnd.vals a)).IsSymm) (hu : ((10 * n + 56 : Nat) : ℝ) * R.u < 1)
    (hc : 10 * gam R.u (10 * n + 56) * (5 * n ^ 2 + 6 * n) ≤ 1) :
    ∃ t Q, symTridiagonal a = .ok t ∧ t.generateQ = .ok Q ∧ TriShape n t ∧ HasShape Q n n ∧
      ∃ P Δ : Matrix (Fin n) (Fin n) ℝ, Pᵀ * P = 1 ∧
        toMat n n (Rnd.vals a) + Δ = P * t.tMatV n * Pᵀ ∧
        frob Δ ≤ 10 * gam R.u (10 * n + 56) * (5 * (n - 1 : Nat) ^ 2 + 2 * (n - 1 : Nat)) *
          frob (toMat n n (Rnd.vals a)) ∧
        ∀ j, colNorm (toMat n n (Rnd.vals Q) - P) j ≤ reflErrs R n (n - 1) := by
  have hw : Succeeds (forRange 0 (n - 1)
      (a, (Arr1.zeros (n - 1) : Arr1 (Rnd R)), (Arr1.zeros (n - 1) : Arr1 (Rnd R)))
      fun i (a, off, p) => tridiagStep i a off p) (fun s => ∃ W, TriNear n (n - 1) a s W) := by
    refine wp_forRange (fun i s => ∃ W, TriNear n i a s W) (Nat.zero_le _) ?_ ?_
    · refine ⟨fun _ _ => 0, ha, rfl, rfl, by intro k hk; omega, ⟨0, ?_, ?_⟩, ?_⟩
      · rw [triPartial_zero, symPart_of_symm hs]
        simp [prodP]
      · rw [show frob (0 : Matrix (Fin n) (Fin n) ℝ) = 0 by simp [frob]]
        simp
      · rw [triPartial_zero, skewPart_of_symm hs, show frob (0 : Matrix (Fin n) (Fin n) ℝ) = 0 by simp [frob]]
        simp
    · rintro i ⟨b, off, p⟩ _ hi ⟨W, hinv⟩
      obtain ⟨s, W', e, h⟩ := hinv.step hi hu hc
      exact wp_of_ok e ⟨W', h⟩
  obtain ⟨⟨b, off, p⟩, e, W, hinv⟩ := succeeds_iff.1 hw
  obtain ⟨hsh, hol, hpl, hst, ⟨Δ, heq, hΔ⟩, -⟩ := hinv
  simp only at hsh hol hpl hst heq
  have hu5 : ((5 * n + 31 : Nat) : ℝ) * R.u < 1 := lt_of_le_of_lt
    (mul_le_mul_of_nonneg_right (by exact_mod_cast (by omega : 5 * n + 31 ≤ 10 * n + 56)) R.u_nonneg) hu
  obtain ⟨Q, e2, s2, t2⟩ := assembleQ_rnd' (m := n) (D := n) b 1 (fun i => off.idx i) off.get W hsh.1
    (by rw [hsh.1, hsh.2, min_self]) hn (fun i hi => Arr1.idx_ok (by omega)) (fun i hi => hst i hi) hu5
  have eye1 : eyeMat n n = 1 := by
    ext i j; simp [eyeMat, Matrix.one_apply, Fin.ext_iff]
  rw [eye1, Matrix.mul_one] at t2
  refine ⟨⟨b, off⟩, Q, ?_, e2, ⟨hsh.1, hsh.2, hol⟩, s2, prodP (nearP n 1 off.get W) (n - 1), Δ,
    prodP_orth fun k hk => (hst k hk).orth, ?_, hΔ, t2⟩
  · unfold symTridiagonal
    rw [checkSquare_ok (by rw [ha.1, ha.2])]
    simp only [ok_bind]
    rw [ha.1, if_neg (by omega), e]
    rfl
  · rw [heq]
    congr 2
    ext r c
    rw [symPart_apply]
    simp only [TridiagonalDecomp.tMatV, Matrix.of_apply, triPartial, Rnd.vals]
    have hr := r.2
    have hcc := c.2
    by_cases h1 : (r : Nat) = c
    · have : r = c := Fin.ext h1
      subst this
      simp
    · have h1' : ¬ (c : Nat) = r := fun h => h1 h.symm
      have n1 : ¬ (n - 1 ≤ (r : Nat) ∧ n - 1 ≤ (c : Nat)) := by omega
      have n2 : ¬ (n - 1 ≤ (c : Nat) ∧ n - 1 ≤ (r : Nat)) := by omega
      simp only [n1, n2, h1, h1', if_false]
      by_cases h2 : (r : Nat) = c + 1
      · have h3 : ¬ (c : Nat) = r + 1 := by omega
        simp only [h2, if_true]
        rw [if_neg (by omega)]
        ring
      · simp only [h2, if_false]
        by_cases h3 : (c : Nat) = r + 1
        · simp only [h3, if_true]; ring
        · simp only [h3, if_false]; ring

end

end LinfaLinalg
