import Verif.Proofs.TriRange
import Verif.Props.SolveRange

/-! # C143: solving triangular systems without overflow

C95 bounds the error of `solve_triangular` if the answer is finite. Here it is shown that the answer is finite, for
triangles that are well conditioned and right-hand sides of moderate size, whatever the other triangle holds. -/

namespace LinfaLinalg

open Flt Matrix

/-- The given triangle, with zeros elsewhere. -/
noncomputable def cleanTri {R : Rounding} (uplo : UPLO) (a : Arr2 (Flt R)) : Arr2 (Flt R) :=
  ⟨a.nr, a.nc, fun i j => if InTri uplo i j then a.get i j else 0⟩

theorem cleanTri_part {R : Rounding} (uplo : UPLO) (a : Arr2 (Flt R)) (n : Nat) :
    triPart uplo (toMat n n (vals (cleanTri uplo a))) = triPart uplo (toMat n n (vals a)) := by
  ext i j
  simp only [triPart, of_apply, toMat_apply, vals, cleanTri]
  split_ifs <;> rfl

set_option maxHeartbeats 800000 in
/-- A triangular solve stays in range. -/
theorem tri_solve_isFin {R : Rounding} {u η Ω g τ M H β c : ℝ} {n : Nat} (P : CholRange R u η Ω g τ M n) {uplo : UPLO}
    {D : Arr2 (Flt R)} (hDf : ∀ r c, r < n → c < n → IsFin (D.get r c)) (hDp : ∀ r c, r < n → c < n → Proper (D.get r c))
    (hAm : ∀ r c, r < n → c < n → |(D.get r c).rv| ≤ H)
    (hc : 0 < c) (h : SvMin (triPart uplo (toMat n n (vals D))) c) (hgc : 2 * (g * frob (triPart uplo (toMat n n (vals D)))) ≤ c)
    (hT : frob (triPart uplo (toMat n n (vals D))) ≤ H) (hcH : 1 ≤ c * H) (hH : 1 ≤ H) (hβ : H ≤ β)
    (hΩ : 256 * (n * (β * H ^ 4)) ≤ Ω) (x : Nat → Flt R) (hx : ∀ r, r < n → IsFin (x r)) (px : ∀ r, r < n → Proper (x r))
    (hb : ∀ r, r < n → |(x r).rv| ≤ β) (r : Nat) (hr : r < n) :
    IsFin ((elimOrder uplo n).foldl (elimStep D (fun i => D.get i i) (elimRows uplo) n) x r) := by
  have hn1 : (1 : ℝ) ≤ n := by exact_mod_cast (by omega : 1 ≤ n)
  have hβ0 : 0 < β := by linarith
  have hH0 : 0 < H := by linarith
  have hη0 := P.acc.η_nonneg
  have hη1 := P.acc.η_le_one
  have hF0 := frob_nonneg (triPart uplo (toMat n n (vals D)))
  have hB : ∀ r : Fin n, |(x r).rv| + η * (2 * n + |(vals D).get r r|) * 2 ≤ 4 * β := by
    intro r
    have h1 := hb r r.2
    have h2 : |(vals D).get r r| ≤ H := hAm r r r.2 r.2
    have h3 := P.ηn
    have h4 : η * |(vals D).get r r| ≤ 1 * H := mul_le_mul hη1 h2 (abs_nonneg _) (by norm_num)
    linarith
  set W := 40 * (n * (β * H ^ 2)) with hW
  have hsn : √(n : ℝ) ≤ n := Real.sqrt_le_iff.2 ⟨by linarith, by nlinarith⟩
  have hY : 2 * (√n * (4 * β)) / c ≤ 8 * (n * (β * H)) := by
    rw [div_le_iff₀ hc]
    have h1 := mul_le_mul_of_nonneg_right hsn hβ0.le
    have h2 := mul_le_mul_of_nonneg_left hcH (by positivity : 0 ≤ (n : ℝ) * β)
    linarith
  have hH2 : H ≤ H ^ 2 := by nlinarith
  have hnb : 0 < (n : ℝ) * β := by positivity
  have hvals : ∀ {m : Nat}, m ≤ n → ∀ (S : Nat → Prop) [DecidablePred S], Closed (triPart uplo (toMat n n (vals D))) S → ∀ y : Nat → ℝ,
      FltElim u η n uplo (vals D) (fun i => (D.get i i).rv) (fun r => (x r).rv) m S y → ∀ r, r < n → |y r| ≤ W := by
    intro m hm S _ hS y inv r hr
    have hw1 : n * β * H ≤ n * β * H ^ 2 := mul_le_mul_of_nonneg_left hH2 hnb.le
    rcases tri_values hc h P.g1 hgc (by linarith : 0 ≤ 4 * β) (fun k hk t ht => P.near (by omega) ht) (fun k hk => P.inv_le (by omega))
      hη0 hB hm hS inv ⟨r, hr⟩ with h1 | h1
    · refine h1.trans (hY.trans ?_)
      rw [hW]; nlinarith
    · refine h1.trans ?_
      have h2 : frob (triPart uplo (toMat n n (vals D))) * (2 * (√n * (4 * β)) / c) ≤ H * (8 * (n * (β * H))) :=
        mul_le_mul hT hY (by positivity) hH0.le
      have h3 : β ≤ n * β * H ^ 2 := by
        have : 1 ≤ n * H ^ 2 := by nlinarith
        nlinarith
      rw [hW]
      nlinarith
  have hX1 : H ^ 2 ≤ H ^ 3 := by nlinarith [sq_nonneg H]
  have hX2 : H ^ 3 ≤ H ^ 4 := by nlinarith [pow_pos hH0 3]
  set X := n * (β * H ^ 4) with hX
  have hHX : H ≤ X := by
    have h1 : 1 ≤ H ^ 4 := one_le_pow₀ hH
    have h2 : β ≤ n * β := by nlinarith
    have h3 : n * β ≤ n * β * H ^ 4 := by nlinarith
    rw [hX]; linarith
  have hWX : W ≤ 40 * X := by
    have := mul_le_mul_of_nonneg_left (hX1.trans hX2) hnb.le
    rw [hW, hX]; linarith
  have hWd : W / H⁻¹ = 40 * (n * (β * H ^ 3)) := by rw [hW]; field_simp
  have hX3 : n * (β * H ^ 3) ≤ X := by
    have := mul_le_mul_of_nonneg_left hX2 hnb.le
    rw [hX]; linarith
  have h1 : W / H⁻¹ < Ω := by rw [hWd]; linarith
  have h2 : W + 2 * ((2 * (W / H⁻¹) + 1) * H) + 1 < Ω := by
    have : W + 2 * ((2 * (W / H⁻¹) + 1) * H) + 1 = W + 160 * X + 2 * H + 1 := by rw [hWd, hX]; ring
    rw [this]
    linarith
  have hd : ∀ i, i < n → H⁻¹ ≤ |(D.get i i).rv| := by
    intro i hi
    refine le_trans ?_ (tri_diag_ge hc h ⟨i, hi⟩)
    rwa [inv_le_iff_one_le_mul₀ hH0]
  have hu1 : ((1 - u) ^ 1)⁻¹ ≤ 2 := P.inv_le (by omega)
  cases uplo with
  | lower =>
    refine elim_lower_isFin P.acc P.below x (fun i hi => hDf i i hi hi) (fun i hi => hDp i i hi hi) (inv_pos.2 hH0) hd hx px hDf hDp hAm
      (fun m hm y inv => hvals hm _ (fun r c h1 h2 => ?_) y inv) hu1 h1 h2 n le_rfl r hr
    simp only [triPart, of_apply, inTri_lower]
    rw [if_neg (by omega)]
  | upper =>
    refine elim_upper_isFin P.acc P.below x (fun i hi => hDf i i hi hi) (fun i hi => hDp i i hi hi) (inv_pos.2 hH0) hd hx px hDf hDp hAm
      (fun lo m hm y inv => hvals (by omega) _ (fun r c h1 h2 => ?_) y inv) hu1 h1 h2 n 0 (by omega) r hr
    simp only [triPart, of_apply, inTri_upper]
    rw [if_neg (by omega)]

/-- C143: in every IEEE 754 format with at least the precision and range of single precision, for both triangles: if the
numbers in the triangle `T` are finite, its Frobenius norm is at most `2^t` and its smallest singular value is at least
`2^(-t)` and at least `2 γ_(n+2) ‖T‖`, the right-hand sides are at most `2^t` in absolute value, and `5 t` is at most
`emax - mant - 3`, then `solve_triangular` returns and every number in the answer is finite, whatever the other triangle
holds. Moreover each column `x` solves `(T + E) x = b + f` with `|E| ≤ γ_n |T|` and an `f` of the size of the smallest
positive numbers. -/
theorem C143_finite {F : Format} (hF : F.Wide) (P : DotPlans) {n m : Nat} (hn : n + 2 ≤ 2 ^ (F.mant - 6)) (t : ℕ)
    (ht : 5 * (t : ℤ) + F.mant + 3 ≤ F.emax) (uplo : UPLO)
    (a b : Arr2 (Flt { Rounding.ieee F with plans := P })) (ha : HasShape a n n) (hb : HasShape b n m)
    (hfin : ∀ r c, r < n → c < n → InTri uplo r c → IsFin (a.get r c) ∧ Proper (a.get r c))
    (hT : frob (triPart uplo (toMat n n (vals a))) ≤ 2 ^ t) (hmin : SvMin (triPart uplo (toMat n n (vals a))) (2 ^ t)⁻¹)
    (hcond : SvMin (triPart uplo (toMat n n (vals a)))
      (2 * (gam (2 ^ (-(F.mant : ℤ) - 1)) (n + 2) * frob (triPart uplo (toMat n n (vals a))))))
    (hbf : ∀ r c, r < n → c < m → IsFin (b.get r c) ∧ Proper (b.get r c) ∧ |(b.get r c).rv| ≤ 2 ^ t) :
    ∃ x, solveTriangular a b uplo = .ok x ∧ HasShape x n m ∧ (∀ r c, r < n → c < m → IsFin (x.get r c)) ∧
      ∀ j : Fin m, ∃ (E : Matrix (Fin n) (Fin n) ℝ) (f : Fin n → ℝ),
        (∀ r c, |E r c| ≤ gam (2 ^ (-(F.mant : ℤ) - 1)) n * |triPart uplo (toMat n n (vals a)) r c|) ∧
        (∀ r, |f r| ≤ (1 + gam (2 ^ (-(F.mant : ℤ) - 1)) n) * (2 * n + |(a.get r r).rv|) * 2 ^ (F.emin - 1)) ∧
        (triPart uplo (toMat n n (vals a)) + E).mulVec (fun r : Fin n => (x.get r j).rv) =
          fun r : Fin n => (b.get r j).rv + f r := by
  have C := ieee_cholRange hF P hn
  obtain ⟨rfl, ha2⟩ := ha
  set u : ℝ := 2 ^ (-(F.mant : ℤ) - 1) with hu
  set g := gam u (a.nr + 2) with hg
  have hu0 : 0 < u := by positivity
  set D := cleanTri uplo a with hD
  have hpart := cleanTri_part uplo a a.nr
  rw [← hD] at hpart
  have hDf : ∀ r c, r < a.nr → c < a.nr → IsFin (D.get r c) := by
    intro r c h1 h2
    simp only [hD, cleanTri]
    split_ifs with h3
    · exact (hfin r c h1 h2 h3).1
    · exact zero_fin
  have hDp : ∀ r c, r < a.nr → c < a.nr → Proper (D.get r c) := by
    intro r c h1 h2
    simp only [hD, cleanTri]
    split_ifs with h3
    · exact (hfin r c h1 h2 h3).2
    · exact proper_fin_zero _
  have hH : (1 : ℝ) ≤ 2 ^ t := one_le_pow₀ (by norm_num)
  have hAm : ∀ r c, r < a.nr → c < a.nr → |(D.get r c).rv| ≤ 2 ^ t := by
    intro r c h1 h2
    have h3 := abs_le_frob (triPart uplo (toMat a.nr a.nr (vals a))) ⟨r, h1⟩ ⟨c, h2⟩
    refine le_trans (le_of_eq ?_) (h3.trans hT)
    simp only [hD, cleanTri, triPart, of_apply, toMat_apply, vals]
    split_ifs
    · rfl
    · rw [zero_rv]
  have hΩ : 256 * ((a.nr : ℝ) * (2 ^ t * (2 ^ t) ^ 4)) ≤ 2 ^ (F.emax - 1) := by
    have e1 : (a.nr : ℝ) ≤ 2 ^ (F.mant - 6) := by
      have : ((a.nr + 2 : Nat) : ℝ) ≤ ((2 ^ (F.mant - 6) : Nat) : ℝ) := by exact_mod_cast hn
      push_cast at this
      linarith
    obtain ⟨w1, w2, w3⟩ := hF
    calc 256 * ((a.nr : ℝ) * (2 ^ t * (2 ^ t) ^ 4)) ≤ 256 * (2 ^ (F.mant - 6) * (2 ^ t * (2 ^ t) ^ 4)) := by gcongr
      _ = 2 ^ ((8 + (F.mant - 6) + 5 * t : Nat) : ℤ) := by
        rw [zpow_natCast, pow_add, pow_add, show 5 * t = t + t * 4 by ring, pow_add, pow_mul]; norm_num; ring
      _ ≤ _ := zpow_le_zpow_right₀ (by norm_num) (by push_cast; omega)
  have hc0 : (0 : ℝ) < (2 ^ t)⁻¹ := by positivity
  set c : ℝ := max (2 ^ t)⁻¹ (2 * (g * frob (triPart uplo (toMat a.nr a.nr (vals a))))) with hc
  have hsv : SvMin (triPart uplo (toMat a.nr a.nr (vals a))) c := by
    rcases max_choice ((2 : ℝ) ^ t)⁻¹ (2 * (g * frob (triPart uplo (toMat a.nr a.nr (vals a))))) with e | e <;> rw [hc, e]
    · exact hmin
    · exact hcond
  have hcH : 1 ≤ c * 2 ^ t := by
    have := mul_le_mul_of_nonneg_right (le_max_left ((2 : ℝ) ^ t)⁻¹ (2 * (g * frob (triPart uplo (toMat a.nr a.nr (vals a))))))
      (by positivity : (0 : ℝ) ≤ 2 ^ t)
    rwa [inv_mul_cancel₀ (by positivity)] at this
  have e1 : solveTriangular a b uplo = solveTriangular D b uplo :=
    C04_other_triangle_unused a D b uplo rfl rfl fun i j _ _ hij => by simp only [hD, cleanTri]; rw [if_pos hij]
  have hx := solveTriangular_eq D b uplo ha2.symm hb.1
  set x : Arr2 (Flt { Rounding.ieee F with plans := P }) := ⟨b.nr, b.nc, fun r c => if c < b.nc then
      (elimOrder uplo D.nr).foldl (elimStep D (fun i => D.get i i) (elimRows uplo) D.nr)
        (fun r => b.get r c) r else b.get r c⟩ with hxdef
  have hxf : ∀ r c, r < a.nr → c < m → IsFin (x.get r c) := by
    intro r k hr hk
    simp only [hxdef, hb.2, hk, if_true]
    exact tri_solve_isFin C hDf hDp hAm (hc0.trans_le (le_max_left _ _)) (by rw [hpart]; exact hsv)
      (by rw [hpart]; exact le_max_right _ _) (by rw [hpart]; exact hT) hcH hH le_rfl hΩ (fun r => b.get r k)
      (fun r hr => (hbf r k hr hk).1) (fun r hr => (hbf r k hr hk).2.1) (fun r hr => (hbf r k hr hk).2.2) r hr
  refine ⟨x, e1.trans hx, ⟨hb.1, hb.2⟩, hxf, fun j => ?_⟩
  have hnu : (a.nr : ℝ) * u < 1 := lt_of_le_of_lt (mul_le_mul_of_nonneg_right (by push_cast; linarith) hu0.le) C.nu
  obtain ⟨-, -, E, f, hE, hf, e⟩ := C95_backward_error C.acc (n := a.nr) D b x uplo ⟨rfl, ha2⟩ hb hDp (fun r c hr hc => (hbf r c hr hc).2.1)
    (fun i hi => hDf i i hi hi) hnu hx j (fun i hi => hxf i j hi j.2)
  have hdd : ∀ r, (D.get r r).rv = (a.get r r).rv := fun r => by
    simp only [hD, cleanTri]; rw [if_pos (by cases uplo <;> simp)]
  have hE' : ∀ r c : Fin a.nr, |E r c| ≤ gam u a.nr * |triPart uplo (toMat a.nr a.nr (vals D)) r c| := hE
  have e' : (triPart uplo (toMat a.nr a.nr (vals D)) + E).mulVec (fun r : Fin a.nr => (x.get r j).rv) =
      fun r : Fin a.nr => (b.get r j).rv + f r := e
  rw [hpart] at hE' e'
  exact ⟨E, f, hE', fun r => by rw [← hdd]; exact hf r, e'⟩

/-- C143 with the error of the answer: if moreover the smallest singular value of `T` is at least `c`, which is at least
`2^(-t)` and `2 γ_(n+2) ‖T‖`, each column is within `2 γ_n ‖T‖ / c` of the exact solution, relative to its length, up to
an absolute error of the size of the smallest positive numbers divided by `c`. -/
theorem C143_forward {F : Format} (hF : F.Wide) (P : DotPlans) {n m : Nat} (hn : n + 2 ≤ 2 ^ (F.mant - 6)) (t : ℕ)
    (ht : 5 * (t : ℤ) + F.mant + 3 ≤ F.emax) (uplo : UPLO)
    (a b : Arr2 (Flt { Rounding.ieee F with plans := P })) (ha : HasShape a n n) (hb : HasShape b n m)
    (hfin : ∀ r c, r < n → c < n → InTri uplo r c → IsFin (a.get r c) ∧ Proper (a.get r c))
    (hT : frob (triPart uplo (toMat n n (vals a))) ≤ 2 ^ t) (c : ℝ) (hct : (2 ^ t)⁻¹ ≤ c)
    (hcg : 2 * (gam (2 ^ (-(F.mant : ℤ) - 1)) (n + 2) * frob (triPart uplo (toMat n n (vals a)))) ≤ c)
    (hmin : SvMin (triPart uplo (toMat n n (vals a))) c)
    (hbf : ∀ r c, r < n → c < m → IsFin (b.get r c) ∧ Proper (b.get r c) ∧ |(b.get r c).rv| ≤ 2 ^ t) :
    ∃ x, solveTriangular a b uplo = .ok x ∧ HasShape x n m ∧ (∀ r c, r < n → c < m → IsFin (x.get r c)) ∧
      ∀ (j : Fin m) (ξ : Fin n → ℝ), triPart uplo (toMat n n (vals a)) *ᵥ ξ = (fun r : Fin n => (b.get r j).rv) →
        len ((fun r : Fin n => (x.get r j).rv) - ξ) ≤
          2 * gam (2 ^ (-(F.mant : ℤ) - 1)) n * (frob (triPart uplo (toMat n n (vals a))) / c) * len ξ +
            4 * √n * (2 * n + 2 ^ t) / c * 2 ^ (F.emin - 1) := by
  have C := ieee_cholRange hF P hn
  have hc0 : (0 : ℝ) < c := lt_of_lt_of_le (by positivity) hct
  set u : ℝ := 2 ^ (-(F.mant : ℤ) - 1) with hu
  have hu0 : 0 < u := by positivity
  set T := triPart uplo (toMat n n (vals a)) with hTd
  have hmono : ∀ d, d ≤ c → SvMin T d := fun d hd y => (mul_le_mul_of_nonneg_right hd (len_nonneg y)).trans (hmin y)
  obtain ⟨x, h1, h2, h3, h4⟩ := C143_finite hF P hn t ht uplo a b ha hb hfin hT (hmono _ hct) (hmono _ hcg) hbf
  refine ⟨x, h1, h2, h3, fun j ξ hξ => ?_⟩
  obtain ⟨E, f, hE, hf, e⟩ := h4 j
  have hnu : (n : ℝ) * u < 1 := lt_of_le_of_lt (mul_le_mul_of_nonneg_right (by push_cast; linarith) hu0.le) C.nu
  have hg0 := gam_nonneg hu0.le hnu
  have hgm : gam u n ≤ gam u (n + 2) := gam_mono hu0.le (by omega) C.nu
  have hF0 := frob_nonneg T
  have hEn := frob_le_of_entries (B := absMat T) hg0 hE
  rw [frob_absMat] at hEn
  have hsmall : 2 * (gam u n * frob T) ≤ c := le_trans (by gcongr) hcg
  have := fwd_square (f := f) (x' := fun r : Fin n => (x.get r j).rv) hc0 hmin hEn hsmall hξ e
  have hη0 := C.acc.η_nonneg
  have hg1 : gam u n ≤ 1 := hgm.trans (C.g1.trans (by norm_num))
  have hlf : len f ≤ √n * (2 * (2 * n + 2 ^ t) * 2 ^ (F.emin - 1)) := by
    have hn0 : (0 : ℝ) ≤ n := Nat.cast_nonneg n
    have hB0 : (0 : ℝ) ≤ 2 * (2 * n + 2 ^ t) * 2 ^ (F.emin - 1) := by positivity
    have h5 : ∀ r, f r ^ 2 ≤ (2 * (2 * n + 2 ^ t) * 2 ^ (F.emin - 1)) ^ 2 := by
      intro r
      rw [← sq_abs]
      refine pow_le_pow_left₀ (abs_nonneg _) ((hf r).trans ?_) 2
      have h6 : |(a.get r r).rv| ≤ 2 ^ t := by
        refine le_trans (le_of_eq ?_) ((abs_le_frob T r r).trans hT)
        simp only [hTd, triPart, of_apply, toMat_apply, vals]
        rw [if_pos (by cases uplo <;> simp)]
      gcongr
      linarith
    unfold len
    refine Real.sqrt_le_iff.2 ⟨by positivity, (Finset.sum_le_sum fun r _ => h5 r).trans (le_of_eq ?_)⟩
    rw [Finset.sum_const, Finset.card_univ, Fintype.card_fin, nsmul_eq_mul, mul_pow (√(n : ℝ)), Real.sq_sqrt hn0]
  have hk := mul_le_mul_of_nonneg_left hlf (by positivity : 0 ≤ 2 / c)
  refine this.trans ?_
  calc 2 / c * (gam u n * frob T * len ξ + len f) = 2 * gam u n * (frob T / c) * len ξ + 2 / c * len f := by ring
    _ ≤ 2 * gam u n * (frob T / c) * len ξ + 2 / c * (√n * (2 * (2 * n + 2 ^ t) * 2 ^ (F.emin - 1))) := by linarith
    _ = _ := by ring

/-- C143 in double precision: up to `2^46 - 2` rows, norm and right-hand sides up to `2^193`. -/
theorem C143_double (P : DotPlans) {n m : Nat} (hn : n + 2 ≤ 2 ^ 46) (uplo : UPLO)
    (a b : Arr2 (Flt { Rounding.ieee .double with plans := P })) (ha : HasShape a n n) (hb : HasShape b n m)
    (hfin : ∀ r c, r < n → c < n → InTri uplo r c → IsFin (a.get r c) ∧ Proper (a.get r c))
    (hT : frob (triPart uplo (toMat n n (vals a))) ≤ 2 ^ 193) (hmin : SvMin (triPart uplo (toMat n n (vals a))) (2 ^ 193)⁻¹)
    (hcond : SvMin (triPart uplo (toMat n n (vals a)))
      (2 * (gam (2 ^ (-53 : ℤ)) (n + 2) * frob (triPart uplo (toMat n n (vals a))))))
    (hbf : ∀ r c, r < n → c < m → IsFin (b.get r c) ∧ Proper (b.get r c) ∧ |(b.get r c).rv| ≤ 2 ^ 193) :
    ∃ x, solveTriangular a b uplo = .ok x ∧ HasShape x n m ∧ ∀ r c, r < n → c < m → IsFin (x.get r c) := by
  obtain ⟨x, h1, h2, h3, -⟩ := C143_finite Format.double_wide P hn 193 (by norm_num [Format.double]) uplo
    a b ha hb hfin hT hmin hcond hbf
  exact ⟨x, h1, h2, h3⟩

/-- C143 in single precision: up to `2^17 - 2` rows, norm and right-hand sides up to `2^20`. -/
theorem C143_single (P : DotPlans) {n m : Nat} (hn : n + 2 ≤ 2 ^ 17) (uplo : UPLO)
    (a b : Arr2 (Flt { Rounding.ieee .single with plans := P })) (ha : HasShape a n n) (hb : HasShape b n m)
    (hfin : ∀ r c, r < n → c < n → InTri uplo r c → IsFin (a.get r c) ∧ Proper (a.get r c))
    (hT : frob (triPart uplo (toMat n n (vals a))) ≤ 2 ^ 20) (hmin : SvMin (triPart uplo (toMat n n (vals a))) (2 ^ 20)⁻¹)
    (hcond : SvMin (triPart uplo (toMat n n (vals a)))
      (2 * (gam (2 ^ (-24 : ℤ)) (n + 2) * frob (triPart uplo (toMat n n (vals a))))))
    (hbf : ∀ r c, r < n → c < m → IsFin (b.get r c) ∧ Proper (b.get r c) ∧ |(b.get r c).rv| ≤ 2 ^ 20) :
    ∃ x, solveTriangular a b uplo = .ok x ∧ HasShape x n m ∧ ∀ r c, r < n → c < m → IsFin (x.get r c) := by
  obtain ⟨x, h1, h2, h3, -⟩ := C143_finite Format.single_wide P hn 20 (by norm_num [Format.single]) uplo
    a b ha hb hfin hT hmin hcond hbf
  exact ⟨x, h1, h2, h3⟩

/-- The triangle `[[2, ?], [1, 2]]`, with NaN in the place that is not used. -/
noncomputable def exTriA {R : Rounding} : Arr2 (Flt R) :=
  ⟨2, 2, fun i j => if i = j then .fin false 2 else if i = 0 then .nan else .fin false 1⟩

theorem exTriA_part {R : Rounding} : triPart .lower (toMat 2 2 (vals (exTriA : Arr2 (Flt R)))) = !![2, 0; 1, 2] := by
  ext i j
  fin_cases i <;> fin_cases j <;> simp [triPart, exTriA, vals, rv, val, sgn]

/-- The hypotheses of C143 are met by it. -/
theorem exTri_ok (P : DotPlans) : ∃ x, solveTriangular (exTriA : Arr2 (Flt { Rounding.ieee .single with plans := P })) exSolveB .lower = .ok x ∧
    HasShape x 2 1 ∧ ∀ r c, r < 2 → c < 1 → IsFin (x.get r c) := by
  have hfrob : frob !![(2 : ℝ), 0; 1, 2] = 3 := by
    simp only [frob, Fin.sum_univ_two]
    simp
    rw [show (2 : ℝ) ^ 2 + (1 + 2 ^ 2) = 3 ^ 2 by norm_num]
    exact Real.sqrt_sq (by norm_num)
  have hsv : ∀ c : ℝ, 0 ≤ c → c ≤ 1 → SvMin !![(2 : ℝ), 0; 1, 2] c := by
    intro c h0 h1 x
    have : len x ≤ len (!![(2 : ℝ), 0; 1, 2] *ᵥ x) := by
      refine Real.sqrt_le_sqrt ?_
      simp [Fin.sum_univ_two, mulVec, dotProduct]
      nlinarith [sq_nonneg (x 0 + x 1), sq_nonneg (x 0)]
    have := len_nonneg x
    nlinarith
  refine C143_single P (n := 2) (m := 1) (by norm_num) .lower exTriA exSolveB ⟨rfl, rfl⟩ ⟨rfl, rfl⟩ ?_ ?_ ?_ ?_ ?_
  · intro r c hr hc h
    rw [inTri_lower] at h
    interval_cases r <;> interval_cases c <;> simp_all [exTriA, Proper, IsFin]
  · rw [exTriA_part, hfrob]; norm_num
  · rw [exTriA_part]; exact hsv _ (by positivity) (by norm_num)
  · rw [exTriA_part, hfrob]; exact hsv _ (by norm_num [gam]) (by norm_num [gam])
  · intro r c hr hc
    interval_cases r <;> simp only [exSolveB, if_true, one_ne_zero, if_false] <;> refine ⟨⟨_, _, rfl⟩, ?_, ?_⟩ <;>
      simp [Proper, rv, val, sgn] <;> norm_num

/-- C141 with the error of the answer: if moreover the smallest singular value of `A` is at least `c`, and `c` is at least
`4 γ_(3n+2) tr A`, each column is within `4 γ_(3n+2) tr A / c` of the exact solution, relative to its length, up to an
absolute error of the size of the smallest positive numbers divided by `c`. -/
theorem C141_forward {F : Format} (hF : F.Wide) (P : DotPlans) {n m : Nat} (hn : n + 2 ≤ 2 ^ (F.mant - 6)) (t : ℕ)
    (ht : 5 * (t : ℤ) + 2 * F.mant + 9 ≤ F.emax) (ht' : F.emin + F.mant + 5 ≤ -(2 * (t : ℤ)))
    (a b : Arr2 (Flt { Rounding.ieee F with plans := P })) (ha : HasShape a n n) (hb : HasShape b n m)
    (hfin : ∀ r c, r < n → c ≤ r → IsFin (a.get r c)) (hs : (toMat n n (vals a)).IsSymm)
    (hlo : ∀ i, i < n → 2 ^ (-(2 * (t : ℤ))) ≤ (a.get i i).rv) (hhi : ∀ i, i < n → (a.get i i).rv ≤ 2 ^ (2 * (t : ℤ)))
    (hcond : ∀ x : Fin n → ℝ, 8 * (n + 1) * gam (2 ^ (-(F.mant : ℤ) - 1)) (n + 2) * ∑ i : Fin n, (a.get i i).rv * x i ^ 2 ≤
      x ⬝ᵥ toMat n n (vals a) *ᵥ x)
    (hbf : ∀ r c, r < n → c < m → IsFin (b.get r c) ∧ Proper (b.get r c) ∧ |(b.get r c).rv| ≤ 2 ^ t)
    (c : ℝ) (hc : 0 < c) (hmin : SvMin (toMat n n (vals a)) c)
    (hsmall : 4 * gam (2 ^ (-(F.mant : ℤ) - 1)) (3 * n + 2) * (toMat n n (vals a)).trace ≤ c) :
    ∃ x, solvec a b = .ok x ∧ HasShape x n m ∧ (∀ r c, r < n → c < m → IsFin (x.get r c)) ∧
      ∀ (j : Fin m) (ξ : Fin n → ℝ), toMat n n (vals a) *ᵥ ξ = (fun r : Fin n => (b.get r j).rv) →
        len ((fun r : Fin n => (x.get r j).rv) - ξ) ≤
          4 * gam (2 ^ (-(F.mant : ℤ) - 1)) (3 * n + 2) * ((toMat n n (vals a)).trace / c) * len ξ +
            2 * √n * ((2 * n + 2 * 2 ^ t) * (2 + 4 * n * 2 ^ t)) / c * 2 ^ (F.emin - 1) := by
  obtain ⟨x, h1, h2, h3, h4⟩ := C141_finite hF P hn t ht ht' a b ha hb hfin hs hlo hhi hcond hbf
  refine ⟨x, h1, h2, h3, fun j ξ hξ => ?_⟩
  obtain ⟨E, f, hE, hf, e⟩ := h4 j
  set u : ℝ := 2 ^ (-(F.mant : ℤ) - 1) with hu
  have hu0 : 0 < u := by positivity
  set g := gam u (3 * n + 2) with hg
  have hpos : ∀ i : Fin n, 0 ≤ (a.get i i).rv := fun i => le_trans (by positivity) (hlo i i.2)
  have hg0 : 0 ≤ g := by
    rcases Nat.eq_zero_or_pos n with h0 | h0
    · subst h0
      have C := ieee_cholRange hF P hn
      exact gam_nonneg hu0.le C.nu
    · by_contra hneg
      push Not at hneg
      have h5 := (abs_nonneg _).trans (hE ⟨0, h0⟩ ⟨0, h0⟩)
      have h6 : 0 < √((a.get 0 0).rv * (a.get 0 0).rv) := by
        have : 0 < (a.get 0 0).rv := lt_of_lt_of_le (by positivity) (hlo 0 h0)
        positivity
      have h7 : 2 * g * √((a.get 0 0).rv * (a.get 0 0).rv) < 0 := mul_neg_of_neg_of_pos (by linarith) h6
      exact absurd h5 (not_le.2 h7)
  have htr : (toMat n n (vals a)).trace = ∑ i : Fin n, (a.get i i).rv := rfl
  have htr0 : 0 ≤ (toMat n n (vals a)).trace := by rw [htr]; exact Finset.sum_nonneg fun i _ => hpos i
  have hEn : frob E ≤ 2 * g * (toMat n n (vals a)).trace := by
    unfold frob
    refine Real.sqrt_le_iff.2 ⟨by positivity, ?_⟩
    have h5 : ∀ r c : Fin n, E r c ^ 2 ≤ (2 * g) ^ 2 * ((a.get r r).rv * (a.get c c).rv) := by
      intro r c
      rw [← sq_abs]
      refine (pow_le_pow_left₀ (abs_nonneg _) (hE r c) 2).trans (le_of_eq ?_)
      rw [mul_pow, Real.sq_sqrt (mul_nonneg (hpos r) (hpos c))]
    refine (Finset.sum_le_sum fun r _ => Finset.sum_le_sum fun c _ => h5 r c).trans (le_of_eq ?_)
    rw [htr, mul_pow (2 * g), sq (∑ i : Fin n, (a.get i i).rv), Finset.sum_mul_sum, Finset.mul_sum]
    exact Finset.sum_congr rfl fun r _ => by rw [Finset.mul_sum]
  have := fwd_square (f := f) (x' := fun r : Fin n => (x.get r j).rv) hc hmin hEn (by linarith) hξ e
  have hlf : len f ≤ √n * ((2 * n + 2 * 2 ^ t) * (2 + 4 * n * 2 ^ t) * 2 ^ (F.emin - 1)) := by
    have hn0 : (0 : ℝ) ≤ n := Nat.cast_nonneg n
    have h5 : ∀ r, f r ^ 2 ≤ ((2 * n + 2 * 2 ^ t) * (2 + 4 * n * 2 ^ t) * 2 ^ (F.emin - 1)) ^ 2 := by
      intro r
      rw [← sq_abs]
      exact pow_le_pow_left₀ (abs_nonneg _) (hf r) 2
    unfold len
    refine Real.sqrt_le_iff.2 ⟨by positivity, (Finset.sum_le_sum fun r _ => h5 r).trans (le_of_eq ?_)⟩
    rw [Finset.sum_const, Finset.card_univ, Fintype.card_fin, nsmul_eq_mul, mul_pow (√(n : ℝ)), Real.sq_sqrt hn0]
  have hk := mul_le_mul_of_nonneg_left hlf (by positivity : 0 ≤ 2 / c)
  refine this.trans ?_
  calc 2 / c * (2 * g * (toMat n n (vals a)).trace * len ξ + len f)
      = 4 * g * ((toMat n n (vals a)).trace / c) * len ξ + 2 / c * len f := by ring
    _ ≤ 4 * g * ((toMat n n (vals a)).trace / c) * len ξ + 2 / c * (√n * ((2 * n + 2 * 2 ^ t) * (2 + 4 * n * 2 ^ t) * 2 ^ (F.emin - 1))) := by
      linarith
    _ = _ := by ring

end LinfaLinalg
