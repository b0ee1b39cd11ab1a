import Verif.Proofs.CholForward

/-! # One entry of the Cholesky factor in floats, without overflow -/

namespace LinfaLinalg

/-- The arithmetic, and the range in which the diagonal entries lie: `τ` is far enough above the underflow threshold and `M` far
enough below the overflow threshold for a relative error `g`. -/
structure CholRange (R : Rounding) (u η Ω g τ M : ℝ) (n : Nat) : Prop where
  acc : R.Accurate u η
  below : R.Below Ω
  nu : ((n + 2 : Nat) : ℝ) * u < 1
  gam : gam u (n + 2) ≤ g
  g0 : 0 < g
  g1 : g ≤ 1 / 100
  τ0 : 0 < τ
  low : 16 * n * η ≤ g * τ
  low' : 16 * η ≤ g * √τ
  ηn : 4 * n * η ≤ 1
  high : 4 * M + 4 < Ω
  high' : 3 * √M < Ω * √g

open Flt

variable {R : Rounding} {u η Ω g τ M : ℝ} {n : Nat}

theorem CholRange.near (P : CholRange R u η Ω g τ M n) {k : Nat} (hk : k ≤ n + 2) {t : ℝ} (h : Near u k t) : |t - 1| ≤ g :=
  ((h.mono P.acc.u_nonneg P.acc.u_lt_one hk).abs_sub_one P.acc.u_nonneg P.acc.u_lt_one P.nu).trans P.gam

theorem CholRange.inv_le (P : CholRange R u η Ω g τ M n) {k : Nat} (hk : k ≤ n + 2) : ((1 - u) ^ k)⁻¹ ≤ 2 := by
  have h1 := (inv_pow_mono P.acc.u_nonneg P.acc.u_lt_one hk).trans (inv_pow_le_gam P.acc.u_nonneg P.nu)
  have := P.gam; have := P.g1
  linarith

/-- The rounded sum of products: finite, and close to the exact sum. -/
theorem CholRange.sum (P : CholRange R u η Ω g τ M n) {c : Nat} (hc : c < n) (f h : Nat → Flt R) (pf : ∀ k, k < c → Proper (f k))
    (ph : ∀ k, k < c → Proper (h k)) (ff : ∀ k, k < c → IsFin (f k)) (fh : ∀ k, k < c → IsFin (h k)) {w : ℝ} (hτ : τ ≤ w)
    (hM : w ≤ M) (hS : ∑ k ∈ Finset.range c, |(f k).rv * (h k).rv| ≤ w) :
    IsFin (sumTo c fun k => f k * h k) ∧
      |(sumTo c fun k => f k * h k).rv - ∑ k ∈ Finset.range c, (f k).rv * (h k).rv| ≤ 5 / 4 * (g * w) := by
  have hη0 := P.acc.η_nonneg
  have hcn : (c : ℝ) ≤ n := by exact_mod_cast hc.le
  have fin : IsFin (sumTo c fun k => f k * h k) := by
    refine sumTo_isFin P.acc P.below c f h pf ph ff fh (P.inv_le (by omega)) ?_ hS ?_
    · have := P.ηn; nlinarith
    · have := P.high; linarith
  refine ⟨fin, ?_⟩
  obtain ⟨-, q, E, hq, hE, e⟩ := flt_sumTo_products P.acc c f h pf ph fin
  have hE1 : |E| ≤ g * w / 4 := by
    have h1 := P.low
    have h2 : η * (2 * c) * ((1 - u) ^ (c + 1))⁻¹ ≤ η * (2 * c) * 2 := mul_le_mul_of_nonneg_left (P.inv_le (by omega)) (by positivity)
    have h3 : η * c ≤ η * n := mul_le_mul_of_nonneg_left hcn hη0
    have h4 : g * τ ≤ g * w := mul_le_mul_of_nonneg_left hτ P.g0.le
    linarith
  have h1 : |∑ k ∈ Finset.range c, (f k).rv * (h k).rv * q k - ∑ k ∈ Finset.range c, (f k).rv * (h k).rv| ≤ g * w := by
    rw [← Finset.sum_sub_distrib]
    refine (Finset.abs_sum_le_sum_abs _ _).trans ?_
    refine le_trans ?_ (mul_le_mul_of_nonneg_left hS P.g0.le)
    rw [Finset.mul_sum]
    refine Finset.sum_le_sum fun k _ => ?_
    have := P.near (by omega : c + 1 ≤ n + 2) (hq k)
    rw [← mul_sub_one, abs_mul, mul_comm]
    exact mul_le_mul_of_nonneg_right this (abs_nonneg _)
  rw [e]
  have h2 := abs_add_le (∑ k ∈ Finset.range c, (f k).rv * (h k).rv * q k - ∑ k ∈ Finset.range c, (f k).rv * (h k).rv) E
  rw [sub_add_eq_add_sub] at h2
  linarith

/-- One entry beside the diagonal. -/
theorem CholRange.off (P : CholRange R u η Ω g τ M n) {c : Nat} (hc : c < n) {x d : Flt R} (fx : IsFin x)
    (pd : Proper d) (fd : IsFin d) (f h : Nat → Flt R) (pf : ∀ k, k < c → Proper (f k))
    (ph : ∀ k, k < c → Proper (h k)) (ff : ∀ k, k < c → IsFin (f k)) (fh : ∀ k, k < c → IsFin (h k)) {ar ac : ℝ}
    (hr : τ ≤ ar) (hr' : ar ≤ M) (hcl : τ ≤ ac) (hcl' : ac ≤ M) (hx : |x.rv| ≤ √ar * √ac)
    (hS : ∑ k ∈ Finset.range c, |(f k).rv * (h k).rv| ≤ √ar * √ac) (hd : √g * √ac ≤ d.rv) (hd' : d.rv ≤ 2 * √ac) :
    IsFin ((x - sumTo c fun k => f k * h k) / d) ∧
      |∑ k ∈ Finset.range c, (f k).rv * (h k).rv + d.rv * ((x - sumTo c fun k => f k * h k) / d).rv - x.rv| ≤
        4 * g * (√ar * √ac) := by
  have hη0 := P.acc.η_nonneg
  have hg0 := P.g0
  have hg1 := P.g1
  have hτ0 := P.τ0
  have hn1 : (1 : ℝ) ≤ n := by exact_mod_cast (by omega : 1 ≤ n)
  set w := √ar * √ac with hw
  have sr : √τ ≤ √ar := Real.sqrt_le_sqrt hr
  have sc : √τ ≤ √ac := Real.sqrt_le_sqrt hcl
  have st : 0 < √τ := Real.sqrt_pos.2 hτ0
  have sac : 0 < √ac := lt_of_lt_of_le st sc
  have sM : √ar ≤ √M := Real.sqrt_le_sqrt hr'
  have hτw : τ ≤ w := by
    rw [← Real.mul_self_sqrt hτ0.le]; exact mul_le_mul sr sc st.le (st.le.trans sr)
  have hM0 : 0 ≤ M := hτ0.le.trans (hr.trans hr')
  have hwM : w ≤ M := by
    rw [← Real.mul_self_sqrt hM0]; exact mul_le_mul sM (Real.sqrt_le_sqrt hcl') sac.le (Real.sqrt_nonneg _)
  have hw0 : 0 < w := hτ0.trans_le hτw
  have hgw : g * τ ≤ g * w := mul_le_mul_of_nonneg_left hτw hg0.le
  have hη1 : η ≤ g * w / 16 := by
    have := P.low
    nlinarith
  have hη2 : η * √ac ≤ g * w / 16 := by
    have h1 := mul_le_mul_of_nonneg_right P.low' sac.le
    have h2 : g * √τ * √ac ≤ g * √ar * √ac := mul_le_mul_of_nonneg_right (mul_le_mul_of_nonneg_left sr hg0.le) sac.le
    rw [hw]; linarith
  have hgw100 : g * w ≤ w / 100 := by nlinarith
  obtain ⟨fs, es⟩ := P.sum hc f h pf ph ff fh hτw hwM hS
  set s := sumTo c fun k => f k * h k with hs
  set T := ∑ k ∈ Finset.range c, (f k).rv * (h k).rv with hT
  have hTw : |T| ≤ w := (Finset.abs_sum_le_sum_abs _ _).trans hS
  have hxs : |x.rv - s.rv| ≤ 21 / 10 * w := by
    have h1 : |s.rv| ≤ w + 5 / 4 * (g * w) := by
      have := abs_add_le (s.rv - T) T
      rw [sub_add_cancel] at this
      linarith
    have := abs_sub x.rv s.rv
    linarith
  have fD : IsFin (x - s) := sub_isFin P.below fx fs (by have := P.high; linarith)
  obtain ⟨-, -, t, e, ht, he, et⟩ := sub_err P.acc fD
  have ht' := P.near (by omega) ht
  have ht1 : |t| ≤ 101 / 100 := by
    have := abs_add_le (t - 1) 1
    rw [sub_add_cancel, abs_one] at this
    linarith
  have hD : |(x - s).rv| ≤ 3 * w := by
    rw [et]
    refine (abs_add_le _ _).trans ?_
    rw [abs_mul]
    have := mul_le_mul hxs ht1 (abs_nonneg _) (by positivity)
    linarith
  have sg : 0 < √g := Real.sqrt_pos.2 hg0
  have hd0 : 0 < d.rv := lt_of_lt_of_le (mul_pos sg sac) hd
  have fQ : IsFin ((x - s) / d) := by
    refine div_isFin P.below (proper_sub _ _) pd fD fd hd0.ne' ?_
    rw [abs_div, abs_of_pos hd0, div_lt_iff₀ hd0]
    have h1 : 3 * √ar * √ac < Ω * √g * √ac := mul_lt_mul_of_pos_right (by have := P.high'; linarith) sac
    have hΩ : 0 < Ω := by have := P.high; linarith
    have h2 : Ω * (√g * √ac) ≤ Ω * d.rv := mul_le_mul_of_nonneg_left hd hΩ.le
    rw [hw] at hD
    linarith
  refine ⟨fQ, ?_⟩
  obtain ⟨-, -, t', e', ht2, he', et'⟩ := div_err P.acc (proper_sub _ _) pd fd fQ
  have ht3 := P.near (by omega) (ht.mul P.acc.u_nonneg P.acc.u_lt_one ht2)
  have ht4 := P.near (by omega) ht2
  have ht5 : |t'| ≤ 101 / 100 := by
    have := abs_add_le (t' - 1) 1
    rw [sub_add_cancel, abs_one] at this
    linarith
  have key : T + d.rv * ((x - s) / d).rv - x.rv = (T - s.rv) + (x.rv - s.rv) * (t * t' - 1) + e * t' + e' * d.rv := by
    rw [et', et]
    field_simp
    ring
  rw [key]
  have k1 : |(x.rv - s.rv) * (t * t' - 1)| ≤ 21 / 10 * w * g := by
    rw [abs_mul]; exact mul_le_mul hxs ht3 (abs_nonneg _) (by positivity)
  have k2 : |e * t'| ≤ η * (101 / 100) := by
    rw [abs_mul]; exact mul_le_mul he ht5 (abs_nonneg _) hη0
  have k3 : |e' * d.rv| ≤ η * (2 * √ac) := by
    rw [abs_mul, abs_of_pos hd0]; exact mul_le_mul he' hd' hd0.le hη0
  have k4 : |T - s.rv| ≤ 5 / 4 * (g * w) := by rw [abs_sub_comm]; exact es
  have := abs_add_le ((T - s.rv) + (x.rv - s.rv) * (t * t' - 1) + e * t') (e' * d.rv)
  have := abs_add_three (T - s.rv) ((x.rv - s.rv) * (t * t' - 1)) (e * t')
  have : 0 < g * w := mul_pos hg0 hw0
  linarith

set_option maxHeartbeats 800000 in
/-- The diagonal entry: the pivot is positive, and the root does not overflow. -/
theorem CholRange.pivot (P : CholRange R u η Ω g τ M n) {c : Nat} (hc : c < n) {x : Flt R} (fx : IsFin x)
    (f : Nat → Flt R) (pf : ∀ k, k < c → Proper (f k)) (ff : ∀ k, k < c → IsFin (f k)) (hr : τ ≤ x.rv) (hr' : x.rv ≤ M)
    (hS : ∑ k ∈ Finset.range c, (f k).rv ^ 2 ≤ x.rv - 4 * g * x.rv) :
    IsFin (x - sumTo c fun k => f k * f k) ∧ 0 < (x - sumTo c fun k => f k * f k).rv ∧
      IsFin (NdFloat.sqrt (x - sumTo c fun k => f k * f k)) ∧
      √g * √x.rv ≤ (NdFloat.sqrt (x - sumTo c fun k => f k * f k)).rv ∧
      (NdFloat.sqrt (x - sumTo c fun k => f k * f k)).rv ≤ 2 * √x.rv ∧
      |∑ k ∈ Finset.range c, (f k).rv ^ 2 + (NdFloat.sqrt (x - sumTo c fun k => f k * f k)).rv ^ 2 - x.rv| ≤ 4 * g * x.rv := by
  have hη0 := P.acc.η_nonneg
  have hg0 := P.g0
  have hg1 := P.g1
  have hτ0 := P.τ0
  have hn1 : (1 : ℝ) ≤ n := by exact_mod_cast (by omega : 1 ≤ n)
  set w := x.rv with hw
  have hw0 : 0 < w := hτ0.trans_le hr
  have hgw : g * τ ≤ g * w := mul_le_mul_of_nonneg_left hr hg0.le
  have hgw0 : 0 < g * w := mul_pos hg0 hw0
  have hη1 : η ≤ g * w / 16 := by
    have := P.low
    nlinarith
  have sr : √τ ≤ √w := Real.sqrt_le_sqrt hr
  have sw : 0 < √w := Real.sqrt_pos.2 hw0
  have sww : √w * √w = w := Real.mul_self_sqrt hw0.le
  have hη3 : η ≤ g * √w / 16 := by
    have h1 := P.low'
    have h2 : g * √τ ≤ g * √w := mul_le_mul_of_nonneg_left sr hg0.le
    linarith
  have hη2 : η * √w ≤ g * w / 16 := by
    have h1 := mul_le_mul_of_nonneg_right hη3 sw.le
    have h2 : g * √w / 16 * √w = g * w / 16 := by linear_combination (g / 16) * sww
    linarith
  have hgw100 : g * w ≤ w / 100 := by nlinarith
  have hT0 : 0 ≤ ∑ k ∈ Finset.range c, (f k).rv ^ 2 := Finset.sum_nonneg fun _ _ => sq_nonneg _
  obtain ⟨fs, es⟩ := P.sum hc f f pf pf ff ff hr hr' (by
    have : ∑ k ∈ Finset.range c, |(f k).rv * (f k).rv| = ∑ k ∈ Finset.range c, (f k).rv ^ 2 :=
      Finset.sum_congr rfl fun k _ => by rw [abs_mul_self, sq]
    rw [this]; linarith)
  have eT : ∑ k ∈ Finset.range c, (f k).rv * (f k).rv = ∑ k ∈ Finset.range c, (f k).rv ^ 2 :=
    Finset.sum_congr rfl fun k _ => by rw [sq]
  rw [eT] at es
  set s := sumTo c fun k => f k * f k with hs
  set T := ∑ k ∈ Finset.range c, (f k).rv ^ 2 with hT
  obtain ⟨es1, es2⟩ := abs_le.1 es
  have lo : 11 / 4 * (g * w) ≤ w - s.rv := by linarith
  have hi : w - s.rv ≤ w + 5 / 4 * (g * w) := by linarith
  have hxs : |w - s.rv| ≤ 102 / 100 * w := by rw [abs_of_nonneg (by linarith)]; linarith
  have fD : IsFin (x - s) := sub_isFin P.below fx fs (by have := P.high; linarith)
  obtain ⟨-, -, t, e, ht, he, et⟩ := sub_err P.acc fD
  have ht' := P.near (by omega) ht
  obtain ⟨ht1, ht2⟩ := abs_le.1 ht'
  obtain ⟨he1, he2⟩ := abs_le.1 he
  have ws0 : 0 ≤ w - s.rv := by linarith
  have Dlo : 2 * (g * w) ≤ (x - s).rv := by
    rw [et]
    have : (w - s.rv) * (99 / 100) ≤ (w - s.rv) * t := mul_le_mul_of_nonneg_left (by linarith) ws0
    linarith
  have Dhi : (x - s).rv ≤ 121 / 100 * w := by
    rw [et]
    have : (w - s.rv) * t ≤ (w - s.rv) * (101 / 100) := mul_le_mul_of_nonneg_left (by linarith) ws0
    linarith
  have D0 : 0 < (x - s).rv := by linarith
  set D := (x - s).rv with hD
  have sDhi : √D ≤ 11 / 10 * √w := by
    have : √D ≤ √(121 / 100 * w) := Real.sqrt_le_sqrt Dhi
    rwa [Real.sqrt_mul (by norm_num), show (121 / 100 : ℝ) = (11 / 10) ^ 2 by norm_num, Real.sqrt_sq (by norm_num)] at this
  have sg : 0 < √g := Real.sqrt_pos.2 hg0
  have sg1 : √g ≤ 1 / 10 := by
    rw [show (1 / 10 : ℝ) = √(1 / 100) by rw [show (1 / 100 : ℝ) = (1 / 10) ^ 2 by norm_num, Real.sqrt_sq (by norm_num)]]
    exact Real.sqrt_le_sqrt hg1
  have sgg : √g * √g = g := Real.mul_self_sqrt hg0.le
  have sDlo : 14 / 10 * (√g * √w) ≤ √D := by
    have : √(196 / 100 * (g * w)) ≤ √D := Real.sqrt_le_sqrt (by linarith)
    rwa [Real.sqrt_mul (by norm_num), show (196 / 100 : ℝ) = (14 / 10) ^ 2 by norm_num, Real.sqrt_sq (by norm_num),
      Real.sqrt_mul hg0.le] at this
  have hΩ : 0 < Ω := by have := P.high; linarith
  have fQ : IsFin (NdFloat.sqrt (x - s)) := by
    refine sqrt_isFin P.below (proper_sub _ _) fD D0 ?_
    have h1 := P.high'
    have h2 : √w ≤ √M := Real.sqrt_le_sqrt hr'
    have h3 : Ω * √g ≤ Ω * (1 / 10) := mul_le_mul_of_nonneg_left sg1 hΩ.le
    change √D < Ω
    linarith
  obtain ⟨-, -, t', e', ht3, he', et'⟩ := sqrt_err P.acc (proper_sub _ _) fQ
  change _ = √D * t' + e' at et'
  have ht4 := P.near (by omega) ht3
  obtain ⟨ht5, ht6⟩ := abs_le.1 ht4
  obtain ⟨he3, he4⟩ := abs_le.1 he'
  have sD0 := Real.sqrt_nonneg D
  have gsw : g * √w ≤ √g * √w := by
    have : g ≤ √g := by
      have := mul_le_mul_of_nonneg_left sg1 sg.le
      linarith
    exact mul_le_mul_of_nonneg_right this sw.le
  have gsw0 : 0 < √g * √w := mul_pos sg sw
  have qlo : √g * √w ≤ (NdFloat.sqrt (x - s)).rv := by
    rw [et']
    have : √D * (99 / 100) ≤ √D * t' := mul_le_mul_of_nonneg_left (by linarith) sD0
    linarith
  have qhi : (NdFloat.sqrt (x - s)).rv ≤ 2 * √w := by
    rw [et']
    have h1 : √D * t' ≤ √D * (101 / 100) := mul_le_mul_of_nonneg_left (by linarith) sD0
    have h2 : g * √w ≤ 1 / 100 * √w := mul_le_mul_of_nonneg_right hg1 sw.le
    linarith
  refine ⟨fD, D0, fQ, qlo, qhi, ?_⟩
  have sDD : √D * √D = D := Real.mul_self_sqrt D0.le
  have key : T + (NdFloat.sqrt (x - s)).rv ^ 2 - w =
      (T - s.rv) + (w - s.rv) * (t * (t' * t') - 1) + e * (t' * t') + e' * (2 * (√D * t') + e') := by
    rw [et']
    have : (√D * t' + e') ^ 2 = D * (t' * t') + e' * (2 * (√D * t') + e') := by linear_combination (t' * t') * sDD
    rw [this, et]
    ring
  rw [key]
  have ht7 := P.near (by omega) (ht.mul P.acc.u_nonneg P.acc.u_lt_one (ht3.mul P.acc.u_nonneg P.acc.u_lt_one ht3))
  have k1 : |(w - s.rv) * (t * (t' * t') - 1)| ≤ 102 / 100 * w * g := by
    rw [abs_mul]; exact mul_le_mul hxs ht7 (abs_nonneg _) (by positivity)
  have t0 : 0 ≤ t' := by linarith
  have tt : t' * t' ≤ 103 / 100 :=
    (mul_le_mul (by linarith : t' ≤ 101 / 100) (by linarith : t' ≤ 101 / 100) t0 (by norm_num)).trans (by norm_num)
  have k2 : |e * (t' * t')| ≤ η * (103 / 100) := by
    rw [abs_mul, abs_of_nonneg (mul_nonneg t0 t0)]; exact mul_le_mul he tt (by positivity) hη0
  have k3 : |e' * (2 * (√D * t') + e')| ≤ η * (3 * √w) := by
    rw [abs_mul]
    refine mul_le_mul he' ?_ (abs_nonneg _) hη0
    have h1 : √D * t' ≤ √D * (101 / 100) := mul_le_mul_of_nonneg_left (by linarith) sD0
    have h2 : g * √w ≤ 1 / 100 * √w := mul_le_mul_of_nonneg_right hg1 sw.le
    have h3 : 0 ≤ √D * t' := mul_nonneg sD0 t0
    rw [abs_le]; constructor <;> linarith
  have k4 : |T - s.rv| ≤ 5 / 4 * (g * w) := by rw [abs_sub_comm]; exact es
  have := abs_add_le ((T - s.rv) + (w - s.rv) * (t * (t' * t') - 1) + e * (t' * t')) (e' * (2 * (√D * t') + e'))
  have := abs_add_three (T - s.rv) ((w - s.rv) * (t * (t' * t') - 1)) (e * (t' * t'))
  linarith

end LinfaLinalg
