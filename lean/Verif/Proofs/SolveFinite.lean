import Verif.Proofs.SolveRange

/-! # The two solves with a Cholesky factor in floats, without overflow -/

namespace LinfaLinalg

open Flt Matrix

set_option maxHeartbeats 1000000 in
/-- The two solves with a Cholesky factor stay in range. -/
theorem chol_solve_isFin {R : Rounding} {u η Ω g τ M δ H β : ℝ} {n : Nat} (P : CholRange R u η Ω g τ M n)
    {A : Matrix (Fin n) (Fin n) ℝ} {D : Arr2 (Flt R)} (h : NearChol (toMat n n (vals D)) A δ (4 * g) g)
    (hDf : ∀ r c, r < n → c < n → IsFin (D.get r c)) (hDp : ∀ r c, r < n → c < n → Proper (D.get r c))
    (hdlo : ∀ r : Fin n, √g * √(A r r) ≤ (D.get r r).rv) (hdhi : ∀ r : Fin n, (D.get r r).rv ≤ 2 * √(A r r))
    (hH : 1 ≤ H) (hβ : H ≤ β) (hτ : τ ≤ 1) (hlo : ∀ r : Fin n, 1 ≤ H * √(A r r)) (hhi : ∀ r : Fin n, √(A r r) ≤ H)
    (hΩ : 256 * (H ^ 3 * β) / g ^ 2 ≤ Ω) (x : Nat → Flt R) (hx : ∀ r, r < n → IsFin (x r)) (px : ∀ r, r < n → Proper (x r))
    (hb : ∀ r : Fin n, |(x r).rv| ≤ β * √(A r r)) (r : Nat) (hr : r < n) :
    IsFin ((elimOrder .upper n).foldl (elimStep D.t (fun i => D.get i i) (elimRows .upper) n)
      (fun r => (elimOrder .lower n).foldl (elimStep D (fun i => D.get i i) (elimRows .lower) n) x r) r) := by
  have hg0 := P.g0
  have hg1 := P.g1
  obtain ⟨s, hs⟩ : ∃ s, s = √g := ⟨_, rfl⟩
  have hs0 : 0 < s := by rw [hs]; exact Real.sqrt_pos.2 hg0
  have hsg : s ^ 2 = g := by rw [hs]; exact Real.sq_sqrt hg0.le
  have hs1 : s ≤ 1 / 10 := by nlinarith
  have hβ0 : 0 < β := by linarith
  have hH0 : 0 < H := by linarith
  have hn0 : (0 : ℝ) ≤ n := Nat.cast_nonneg n
  have hη0 := P.acc.η_nonneg
  have hu0 := P.acc.u_nonneg
  have hη1 : 4 * η ≤ 1 / 400 := by
    have h1 := P.low'
    have h2 : √τ ≤ 1 := Real.sqrt_le_one.2 hτ
    nlinarith [Real.sqrt_nonneg τ]
  have hη2 : 4 * n * η ≤ 1 / 400 := by
    have h1 := P.low
    nlinarith [P.τ0]
  have hdpos : ∀ r : Fin n, 0 ≤ (D.get r r).rv := fun r => le_trans (by positivity) (hdlo r)
  have hunder : ∀ r : Fin n, η * (2 * n + |(D.get r r).rv|) * 2 ≤ 1 / 400 + √(A r r) / 400 := by
    intro r
    rw [abs_of_nonneg (hdpos r)]
    have h1 := mul_le_mul_of_nonneg_left (hdhi r) hη0
    have h2 := mul_le_mul_of_nonneg_right hη1 (Real.sqrt_nonneg (A r r))
    linarith
  have hbs : ∀ r : Fin n, 1 ≤ β * √(A r r) := fun r =>
    (hlo r).trans (mul_le_mul_of_nonneg_right hβ (Real.sqrt_nonneg _))
  have N : SolveNums u η g β n (vals D) A := by
    refine ⟨hg1, hβ0.le, fun k hk t ht => P.near (by omega) ht, fun k hk => P.inv_le (by omega), hη0, fun r => ?_, fun r => ?_⟩
    · refine (hunder r).trans ?_
      have := mul_le_mul_of_nonneg_right (hH.trans hβ) (Real.sqrt_nonneg (A r r))
      linarith [hbs r]
    · refine (hunder r).trans ?_
      linarith [hhi r]
  have hinv1 : ((1 - u) ^ 1)⁻¹ ≤ 2 := P.inv_le (by omega)
  -- the bounds
  set W := 24 * H * β / s ^ 3 with hW
  have hW0 : 0 ≤ W := by positivity
  have hWs : W * s ^ 3 = 24 * H * β := by rw [hW]; field_simp
  set X := H ^ 3 * β / s ^ 4 with hX
  have hX0 : 0 < X := by positivity
  have hX1 : H ^ 3 * β ≤ X := by
    rw [hX, le_div_iff₀ (by positivity)]
    have : s ^ 4 ≤ 1 := pow_le_one₀ hs0.le (by linarith)
    have h1 : 0 ≤ H ^ 3 * β := by positivity
    nlinarith
  have hH3 : H ≤ H ^ 3 * β := by
    have h1 : 1 ≤ H ^ 2 := one_le_pow₀ hH
    have h2 : 1 ≤ H ^ 2 * β := by nlinarith
    nlinarith
  have hWX : W ≤ 3 * X := by
    rw [hW, hX, show 3 * (H ^ 3 * β / s ^ 4) = 3 * (H ^ 3 * β) / s ^ 4 by ring, div_le_div_iff₀ (by positivity) (by positivity)]
    have h1 : 24 * s ≤ 3 * H ^ 2 := by nlinarith [one_le_pow₀ hH (n := 2)]
    have h2 := mul_le_mul_of_nonneg_right h1 (by positivity : 0 ≤ H * β * s ^ 3)
    nlinarith
  have hXΩ : 256 * X ≤ Ω := by
    refine le_trans (le_of_eq ?_) hΩ
    rw [hX, ← hsg]; ring
  have hWd : W / (s / H) = 24 * (H ^ 2 * β / s ^ 4) := by rw [hW]; field_simp
  have hHX : H ^ 2 * β / s ^ 4 * H = X := by rw [hX]; ring
  have hH2X : H ^ 2 * β / s ^ 4 ≤ X := by
    have : 0 ≤ H ^ 2 * β / s ^ 4 := by positivity
    nlinarith
  have h1 : W / (s / H) < Ω := by rw [hWd]; linarith
  have h2 : W + 2 * ((2 * (W / (s / H)) + 1) * (2 * H)) + 1 < Ω := by
    have : W + 2 * ((2 * (W / (s / H)) + 1) * (2 * H)) + 1 = W + 192 * X + 4 * H + 1 := by
      rw [hWd, ← hHX]; ring
    rw [this]
    linarith
  have hd0 : 0 < s / H := by positivity
  have hd : ∀ i, i < n → s / H ≤ |(D.get i i).rv| := by
    intro i hi
    rw [abs_of_nonneg (hdpos ⟨i, hi⟩)]
    refine le_trans ?_ (hdlo ⟨i, hi⟩)
    rw [← hs, div_le_iff₀ hH0]
    have := mul_le_mul_of_nonneg_left (hlo ⟨i, hi⟩) hs0.le
    linarith
  have hAm : ∀ r c, r < n → c < n → |(D.get r c).rv| ≤ 2 * H := by
    intro r c h1 h2
    have h3 : |(D.get r c).rv| ≤ 2 * √(A ⟨r, h1⟩ ⟨r, h1⟩) := h.entry ⟨r, h1⟩ ⟨c, h2⟩
    have h4 := hhi ⟨r, h1⟩
    linarith
  have is1 : 1 ≤ 1 / s := by rw [le_div_iff₀ hs0]; linarith
  have bW : 20 * (H * β) / s ≤ W := by
    rw [hW, div_le_div_iff₀ hs0 (by positivity)]
    have e1 : s ^ 2 ≤ 1 := pow_le_one₀ hs0.le (by linarith)
    have e2 : 0 ≤ H * β * s := by positivity
    have e3 := mul_le_mul_of_nonneg_left e1 e2
    calc 20 * (H * β) * s ^ 3 = 20 * (H * β * s * s ^ 2) := by ring
      _ ≤ 20 * (H * β * s * 1) := by linarith
      _ ≤ 24 * (H * β * s) := by linarith
      _ = 24 * H * β * s := by ring
  have hβH : β ≤ H * β := by nlinarith
  have bY : 2 * β / s ≤ 20 * (H * β) / s := div_le_div_of_nonneg_right (by linarith) hs0.le
  -- forward
  have hfwd := elim_lower_isFin P.acc P.below (a := D) (d := fun i => D.get i i) x (W := W) (d0 := s / H) (Am := 2 * H)
    (fun i hi => hDf i i hi hi) (fun i hi => hDp i i hi hi) hd0 hd hx px hDf hDp hAm ?_ hinv1 h1 h2 n le_rfl
  swap
  · intro m hm y inv r hr
    obtain ⟨f1, f2⟩ := forward_values h N hb hm inv
    rw [← hs] at f1 f2
    rcases lt_or_ge r m with hrm | hrm
    · exact (f1 ⟨r, hr⟩ hrm).trans (bY.trans bW)
    · refine (f2 ⟨r, hr⟩ hrm).trans (le_trans ?_ bW)
      have e1 : 4 * β ≤ 4 * β / s := by rw [le_div_iff₀ hs0]; nlinarith
      have e2 : 4 * β + 8 * (2 * β / s) ≤ 20 * β / s := by
        have : 20 * β / s = 4 * β / s + 8 * (2 * β / s) := by ring
        linarith
      refine (mul_le_mul (hhi ⟨r, hr⟩) e2 (by positivity) hH0.le).trans (le_of_eq (by ring))
  have hY := fltElim_lower P.acc x (fun i hi => hDf i i hi hi) (fun i hi => hDp i i hi hi) px hDp n le_rfl hfwd
  have hY' := (forward_values h N hb le_rfl hY).1
  rw [← hs] at hY'
  have bΥ : β ≤ 2 * β / s := by rw [le_div_iff₀ hs0]; nlinarith
  have hns : √(n : ℝ) * s ≤ 1 / 2 := by
    have e1 := h.ng
    rw [hs, ← Real.sqrt_mul hn0]
    exact Real.sqrt_le_iff.2 ⟨by norm_num, by nlinarith⟩
  refine elim_upper_isFin P.acc P.below (a := D.t) (d := fun i => D.get i i)
    (fun r => (elimOrder .lower n).foldl (elimStep D (fun i => D.get i i) (elimRows .lower) n) x r) (W := W) (d0 := s / H)
    (Am := 2 * H) (fun i hi => hDf i i hi hi) (fun i hi => hDp i i hi hi) hd0 hd hfwd (elim_proper _ x px)
    (fun r c h1 h2 => hDf c r h2 h1) (fun r c h1 h2 => hDp c r h2 h1) (fun r c h1 h2 => hAm c r h2 h1) ?_ hinv1 h1 h2 n 0
    (by omega) r hr
  intro lo m hm y inv r hr
  obtain ⟨f1, f2⟩ := backward_values h N bΥ (fun r => hY' r r.2) hm inv
  rw [← hs] at f1 f2
  have e0 : 2 * (2 * β / s) / s = 4 * β / s ^ 2 := by field_simp; ring
  rw [e0] at f1 f2
  rcases lt_or_ge r lo with hrm | hrm
  · refine (f2 ⟨r, hr⟩ hrm).trans ?_
    rw [hW, le_div_iff₀ (by positivity)]
    have e1 : (4 * (2 * β / s) + 8 * (√n * (4 * β / s ^ 2))) * s ^ 3 = 8 * β * s ^ 2 + 32 * β * (√n * s) := by
      field_simp; ring
    rw [e1]
    have e2 := mul_le_mul_of_nonneg_left hns (by positivity : 0 ≤ 32 * β)
    have e3 : 8 * β * s ^ 2 ≤ 8 * β := by nlinarith
    linarith
  · have e1 := f1 ⟨r, hr⟩ hrm
    have e2 : |y r| ≤ H * (4 * β / s ^ 2) := by
      have := hlo ⟨r, hr⟩
      calc |y r| ≤ H * √(A ⟨r, hr⟩ ⟨r, hr⟩) * |y r| := by
            have := mul_le_mul_of_nonneg_right this (abs_nonneg (y r))
            linarith
        _ = H * (√(A ⟨r, hr⟩ ⟨r, hr⟩) * |y r|) := by ring
        _ ≤ _ := mul_le_mul_of_nonneg_left e1 hH0.le
    refine e2.trans ?_
    rw [hW, le_div_iff₀ (by positivity)]
    have e3 : H * (4 * β / s ^ 2) * s ^ 3 = 4 * (H * β) * s := by field_simp
    rw [e3]
    nlinarith [mul_pos hH0 hβ0]

end LinfaLinalg
