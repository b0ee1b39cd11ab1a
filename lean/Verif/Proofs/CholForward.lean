import Verif.Proofs.CholRange

/-! # Steps that do not overflow -/

namespace LinfaLinalg

/-- Magnitudes below `Ω` do not overflow. -/
def Rounding.Below (R : Rounding) (Ω : ℝ) : Prop := ∀ y, 0 ≤ y → y < Ω → ∃ z, R.rnd y = some z

namespace Flt

variable {R : Rounding} {u η Ω : ℝ}

theorem round_isFin (hΩ : R.Below Ω) {s : Bool} {y : ℝ} (h0 : 0 ≤ y) (h : y < Ω) : IsFin (round s y : Flt R) := by
  obtain ⟨z, hz⟩ := hΩ y h0 h
  unfold round; rw [hz]; exact ⟨_, _, rfl⟩

theorem add_isFin (hΩ : R.Below Ω) {x y : Flt R} (hx : IsFin x) (hy : IsFin y) (h : |x.rv + y.rv| < Ω) : IsFin (x + y) := by
  obtain ⟨s, m, rfl⟩ := hx
  obtain ⟨t, n, rfl⟩ := hy
  rw [add_def]
  change IsFin (ofReal (s && t) (val s m + val t n))
  change |val s m + val t n| < Ω at h
  unfold ofReal
  split_ifs
  · exact ⟨_, _, rfl⟩
  · exact round_isFin hΩ (abs_nonneg _) h

theorem sub_isFin (hΩ : R.Below Ω) {x y : Flt R} (hx : IsFin x) (hy : IsFin y) (h : |x.rv - y.rv| < Ω) : IsFin (x - y) :=
  add_isFin (y := -y) hΩ hx (neg_fin.2 hy) (by rwa [neg_rv, ← sub_eq_add_neg])

theorem abs_val {s : Bool} {m : ℝ} (h : 0 ≤ m) : |val s m| = m := by
  unfold val; rw [abs_mul, sgn_abs, one_mul, abs_of_nonneg h]

theorem mul_isFin (hΩ : R.Below Ω) {x y : Flt R} (px : Proper x) (py : Proper y) (hx : IsFin x) (hy : IsFin y)
    (h : |x.rv * y.rv| < Ω) : IsFin (x * y) := by
  obtain ⟨s, m, rfl⟩ := hx
  obtain ⟨t, n, rfl⟩ := hy
  rw [mul_def]
  have hm := px s m rfl
  have hn := py t n rfl
  change |val s m * val t n| < Ω at h
  rw [abs_mul, abs_val hm, abs_val hn] at h
  exact round_isFin hΩ (mul_nonneg hm hn) h

theorem div_isFin (hΩ : R.Below Ω) {x y : Flt R} (px : Proper x) (py : Proper y) (hx : IsFin x) (hy : IsFin y) (h0 : y.rv ≠ 0)
    (h : |x.rv / y.rv| < Ω) : IsFin (x / y) := by
  obtain ⟨s, m, rfl⟩ := hx
  obtain ⟨t, n, rfl⟩ := hy
  rw [div_def]
  have hm := px s m rfl
  have hn := py t n rfl
  change |val s m / val t n| < Ω at h
  change val t n ≠ 0 at h0
  have hn0 : n ≠ 0 := fun h => h0 (by rw [h]; simp [val])
  rw [abs_div, abs_val hm, abs_val hn] at h
  have e : div (fin s m) (fin t n) = (round (s != t) (m / n) : Flt R) := if_neg hn0
  rw [e]
  exact round_isFin hΩ (div_nonneg hm hn) h

theorem sqrt_isFin (hΩ : R.Below Ω) {x : Flt R} (px : Proper x) (hx : IsFin x) (h0 : 0 < x.rv) (h : √x.rv < Ω) :
    IsFin (NdFloat.sqrt x) := by
  obtain ⟨s, m, rfl⟩ := hx
  have hm := px s m rfl
  have hm0 : m ≠ 0 := by rintro rfl; simp [rv, val] at h0
  cases s with
  | true => simp [rv, val, sgn] at h0; linarith
  | false =>
    have e3 : (fin false m : Flt R).rv = m := by simp [rv, val, sgn]
    rw [e3] at h
    change IsFin (sqrt (fin false m))
    have e : sqrt (fin false m) = (round false (Real.sqrt m) : Flt R) := by simp [sqrt, hm0]
    rw [e]
    exact round_isFin hΩ (Real.sqrt_nonneg m) h

theorem sumTo_isFin (hR : R.Accurate u η) (hΩ : R.Below Ω) (n : Nat) (f g : Nat → Flt R) (pf : ∀ k, k < n → Proper (f k))
    (pg : ∀ k, k < n → Proper (g k)) (ff : ∀ k, k < n → IsFin (f k)) (fg : ∀ k, k < n → IsFin (g k))
    (hK : ((1 - u) ^ (n + 1))⁻¹ ≤ 2) (hη : 4 * n * η ≤ 1) {S : ℝ} (hS : ∑ k ∈ Finset.range n, |(f k).rv * (g k).rv| ≤ S)
    (hΩS : 4 * S + 4 < Ω) : IsFin (sumTo n fun k => f k * g k) := by
  have h0 := hR.u_nonneg
  have h1 := hR.u_lt_one
  have hη0 := hR.η_nonneg
  induction n generalizing S with
  | zero => simpa using zero_fin
  | succ n ih =>
    rw [Finset.sum_range_succ] at hS
    have hT0 : 0 ≤ ∑ k ∈ Finset.range n, |(f k).rv * (g k).rv| := Finset.sum_nonneg fun _ _ => abs_nonneg _
    have hS0 : 0 ≤ S := by have := abs_nonneg ((f n).rv * (g n).rv); linarith
    have hKn : ((1 - u) ^ (n + 1))⁻¹ ≤ 2 := (inv_pow_mono h0 h1 (by omega)).trans hK
    have hn0 : (0 : ℝ) ≤ n := Nat.cast_nonneg n
    push_cast at hη
    have hη' : 4 * n * η ≤ 1 := by nlinarith
    have hη1 : η ≤ 1 := hR.η_le_one
    have a1 := ih (fun k hk => pf k (by omega)) (fun k hk => pg k (by omega)) (fun k hk => ff k (by omega))
      (fun k hk => fg k (by omega)) hKn hη' (S := S) (by have := abs_nonneg ((f n).rv * (g n).rv); linarith) hΩS
    have a2 : IsFin (f n * g n) := mul_isFin hΩ (pf n (by omega)) (pg n (by omega)) (ff n (by omega)) (fg n (by omega)) (by linarith)
    rw [sumTo_succ]
    refine add_isFin hΩ a1 a2 ?_
    obtain ⟨-, q, E, hq, hE, e⟩ := flt_sumTo_products hR n f g (fun k hk => pf k (by omega)) (fun k hk => pg k (by omega)) a1
    obtain ⟨-, -, t, e2, ht, he2, et⟩ := mul_err hR (pf n (by omega)) (pg n (by omega)) a2
    have hE1 : |E| ≤ 1 := hE.trans (by
      have : 0 ≤ η * (2 * n) := by positivity
      nlinarith)
    have ht2 : t ≤ 2 := (ht.le_inv h0 h1).trans ((inv_pow_mono h0 h1 (by omega)).trans hK)
    have ht0 := ht.pos h0 h1
    have hs : |∑ k ∈ Finset.range n, (f k).rv * (g k).rv * q k| ≤ 2 * ∑ k ∈ Finset.range n, |(f k).rv * (g k).rv| := by
      refine (Finset.abs_sum_le_sum_abs _ _).trans ?_
      rw [Finset.mul_sum]
      refine Finset.sum_le_sum fun k _ => ?_
      have hq2 : q k ≤ 2 := ((hq k).le_inv h0 h1).trans hKn
      rw [abs_mul _ (q k), abs_of_pos ((hq k).pos h0 h1), mul_comm 2]
      exact mul_le_mul_of_nonneg_left hq2 (abs_nonneg _)
    have hp : |(f n * g n).rv| ≤ 2 * |(f n).rv * (g n).rv| + 1 := by
      rw [et]
      refine (abs_add_le _ _).trans ?_
      rw [abs_mul _ t, abs_of_pos ht0]
      have := mul_le_mul_of_nonneg_left ht2 (abs_nonneg ((f n).rv * (g n).rv))
      linarith
    have hsum : |(sumTo n fun k => f k * g k).rv| ≤ 2 * ∑ k ∈ Finset.range n, |(f k).rv * (g k).rv| + 1 := by
      rw [e]
      exact (abs_add_le _ _).trans (by linarith)
    have := abs_add_le (sumTo n fun k => f k * g k).rv (f n * g n).rv
    linarith

end Flt

end LinfaLinalg
