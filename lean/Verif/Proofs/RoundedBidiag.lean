import Verif.Proofs.RoundedQr
import Verif.Proofs.Bidiagonal

/-! # Rounding errors of the bidiagonal decomposition -/

set_option linter.unusedSectionVars false

namespace LinfaLinalg

open Matrix

theorem reflErr_mono {R : StdModel} {m n : Nat} (h : n ≤ m) (hu : ((5 * m + 31 : Nat) : ℝ) * R.u < 1) :
    reflErr R n ≤ reflErr R m :=
  mul_le_mul_of_nonneg_left (gam_mono R.u_nonneg (by omega) hu) (by norm_num)

/-- One more reflection from the left, in the Frobenius norm. -/
theorem accumulate_left {m n : Nat} {A Δ X Y : Matrix (Fin m) (Fin n) ℝ} {Q H : Matrix (Fin m) (Fin m) ℝ}
    {Z : Matrix (Fin n) (Fin n) ℝ} {c e : ℝ} (hc : 0 ≤ c) (hQ : Qᵀ * Q = 1) (hZ : Zᵀ * Z = 1) (hH : Hᵀ * H = 1)
    (hHH : H * H = 1) (h : A + Δ = Q * X * Zᵀ) (hΔ : frob Δ ≤ (e - 1) * frob A)
    (hY : frob (Y - H * X) ≤ c * frob X) :
    ∃ Δ', A + Δ' = Q * H * Y * Zᵀ ∧ frob Δ' ≤ (e * (1 + c) - 1) * frob A := by
  have hZ' : Zᵀ * Zᵀᵀ = 1 := by rw [Matrix.transpose_transpose]; exact hZ
  refine ⟨Δ + Q * H * (Y - H * X) * Zᵀ, ?_, ?_⟩
  · rw [← add_assoc, h, Matrix.mul_sub, Matrix.sub_mul, Matrix.mul_assoc Q H (H * X), ← Matrix.mul_assoc H H X, hHH,
      Matrix.one_mul]
    abel
  · have hQH : (Q * H)ᵀ * (Q * H) = 1 := by
      rw [Matrix.transpose_mul, Matrix.mul_assoc, ← Matrix.mul_assoc Qᵀ, hQ, Matrix.one_mul, hH]
    have hX : frob X ≤ e * frob A := by
      rw [← frob_orth_mul hQ X, ← frob_mul_orth hZ' (Q * X), ← h]
      have := frob_add_le A Δ
      linarith
    have h1 := frob_add_le Δ (Q * H * (Y - H * X) * Zᵀ)
    rw [frob_mul_orth hZ', frob_orth_mul hQH] at h1
    have h2 := mul_le_mul_of_nonneg_left hX hc
    calc _ ≤ (e - 1) * frob A + c * (e * frob A) := by linarith
      _ = _ := by ring

/-- One more reflection from the right, in the Frobenius norm. -/
theorem accumulate_right {m n : Nat} {A Δ X Y : Matrix (Fin m) (Fin n) ℝ} {Q : Matrix (Fin m) (Fin m) ℝ}
    {Z H : Matrix (Fin n) (Fin n) ℝ} {c e : ℝ} (hc : 0 ≤ c) (hQ : Qᵀ * Q = 1) (hZ : Zᵀ * Z = 1) (hH : Hᵀ * H = 1)
    (hHH : H * H = 1) (h : A + Δ = Q * X * Zᵀ) (hΔ : frob Δ ≤ (e - 1) * frob A)
    (hY : frob (Yᵀ - H * Xᵀ) ≤ c * frob X) :
    ∃ Δ', A + Δ' = Q * Y * (Z * H)ᵀ ∧ frob Δ' ≤ (e * (1 + c) - 1) * frob A := by
  have h' : Aᵀ + Δᵀ = Z * Xᵀ * Qᵀ := by
    rw [← Matrix.transpose_add, h, Matrix.transpose_mul, Matrix.transpose_mul, Matrix.transpose_transpose,
      Matrix.mul_assoc]
  obtain ⟨Δ', h1, h2⟩ := accumulate_left hc hZ hQ hH hHH h' (by rw [frob_transpose, frob_transpose]; exact hΔ)
    (by rw [frob_transpose]; exact hY)
  refine ⟨Δ'ᵀ, ?_, by rw [frob_transpose]; rwa [frob_transpose] at h2⟩
  rw [← Matrix.transpose_inj, Matrix.transpose_add, Matrix.transpose_transpose, h1, Matrix.transpose_mul (Q * Y),
    Matrix.transpose_mul Q, Matrix.transpose_transpose, Matrix.mul_assoc (Z * H)]

theorem bidPartial_in {i j r c : Nat} (a : Arr2 ℝ) (d e : Nat → ℝ) (h : i ≤ r ∧ j ≤ c) :
    bidPartial i j a d e r c = a.get r c := if_pos h

theorem bidPartial_out {i j r c : Nat} (a : Arr2 ℝ) (d e : Nat → ℝ) (h : ¬(i ≤ r ∧ j ≤ c)) :
    bidPartial i j a d e r c = if r = c then |d r| else if c = r + 1 then |e r| else 0 := if_neg h

theorem colNorm_zero_of {m n : Nat} {A : Matrix (Fin m) (Fin n) ℝ} {j : Fin n} (h : ∀ r, A r j = 0) :
    colNorm A j = 0 := by
  unfold colNorm
  simp only [h]
  simp

/-- The loop invariant of `bidiagonal` after `i` columns and `j` rows, with rounding errors. -/
structure BidNear {R : StdModel} (m n i j : Nat) (a : Arr2 (Rnd R)) (s : Arr2 (Rnd R) × Arr1 (Rnd R) × Arr1 (Rnd R))
    (WL WR : Nat → Nat → ℝ) : Prop extends BidiagShape m n s where
  left : ∀ k, k < i → StoredNear (2 * m + 12) m s.1 0 s.2.1.get k (WL k)
  right : ∀ k, k < j → StoredNear (2 * n + 12) n s.1.t 1 s.2.2.get k (WR k)
  back : ∃ Δ : Matrix (Fin m) (Fin n) ℝ, toMat m n (Rnd.vals a) + Δ = prodP (nearP m 0 s.2.1.get WL) i *
      bidMat m n j i (Rnd.vals s.1) (fun k => (s.2.1.get k).v) (fun k => (s.2.2.get k).v) *
        (prodP (nearP n 1 s.2.2.get WR) j)ᵀ ∧
    frob Δ ≤ ((1 + reflErr R m) ^ (i + j) - 1) * frob (toMat m n (Rnd.vals a))

section
variable {R : StdModel}

theorem BidNear.col {m n i : Nat} {a b : Arr2 (Rnd R)} {d o : Arr1 (Rnd R)} {WL WR : Nat → Nat → ℝ}
    (h : BidNear m n i i a (b, d, o) WL WR) (hn : i < n) (hm : i < m) (hu : ((5 * m + 31 : Nat) : ℝ) * R.u < 1) :
    ∃ b' x WL', clearColumn b i 0 = .ok (b', x) ∧ BidNear m n (i + 1) i a (b', d.upd i x, o) WL' WR := by
  obtain ⟨⟨h1, h2, h3, h4⟩, hl, hr, Δ, heq, hΔ⟩ := h
  simp only at h1 h2 h3 h4 hl hr heq
  obtain ⟨b', x, w, e, cs⟩ := clearColumn_rnd (m := m) (n := n) b ⟨h1, h2⟩ i 0 hn (by omega)
  rw [Nat.add_zero] at cs
  have hc0 := reflErr_nonneg hu
  have hdi : (d.upd i x).get i = x := by rw [Arr1.upd_get, if_pos rfl]
  have hdk : ∀ k, k ≠ i → (d.upd i x).get k = d.get k := by
    intro k hk; rw [Arr1.upd_get, if_neg hk]
  set W' : Nat → Nat → ℝ := fun k => if k = i then w else WL k with hW'
  have hWi : W' i = w := if_pos rfl
  have hWk : ∀ k, k < i → W' k = WL k := fun k hk => if_neg (by omega)
  have hsti : StoredNear (2 * m + 12) m b' 0 (d.upd i x).get i (W' i) := by
    rw [hWi]
    exact ⟨by rw [hdi, Nat.add_zero]; exact cs.ok, fun r h1 h2 => cs.near r (by omega) h2⟩
  have hl' : ∀ k, k < i + 1 → StoredNear (2 * m + 12) m b' 0 (d.upd i x).get k (W' k) := by
    intro k hk
    by_cases hki : k = i
    · subst hki; exact hsti
    · rw [hWk k (by omega)]
      exact (hl k (by omega)).congr (fun r => cs.left r k (by omega)) (hdk k (by omega))
  have hprod : prodP (nearP m 0 (d.upd i x).get W') i = prodP (nearP m 0 d.get WL) i :=
    prodP_congr fun k hk => by simp only [nearP, hdk k (by omega), hWk k hk]
  have hQ : (prodP (nearP m 0 d.get WL) i)ᵀ * prodP (nearP m 0 d.get WL) i = 1 :=
    prodP_orth fun k hk => (hl k hk).orth
  have hZ : (prodP (nearP n 1 o.get WR) i)ᵀ * prodP (nearP n 1 o.get WR) i = 1 :=
    prodP_orth fun k hk => (hr k hk).orth
  have hHeq : nearP m 0 (d.upd i x).get W' i = house m i (NdFloat.signum x : Rnd R).v w := by
    simp only [nearP, hdi, hWi, Nat.add_zero]
  set H := house m i (NdFloat.signum x : Rnd R).v w with hH
  set X := bidMat m n i i (Rnd.vals b) (fun k => (d.get k).v) (fun k => (o.get k).v) with hX
  set Y := bidMat m n i (i + 1) (Rnd.vals b') (fun k => ((d.upd i x).get k).v) (fun k => (o.get k).v) with hY
  have hstep : ∀ j : Fin n, colNorm (Y - H * X) j ≤ reflErr R m * colNorm X j := by
    intro j
    by_cases hj : (j : Nat) < i
    · rw [colNorm_zero_of]
      · exact mul_nonneg hc0 (colNorm_nonneg _ _)
      · intro r
        rw [Matrix.sub_apply, hH, house_mul_of_disjoint cs.ok]
        · simp only [hX, hY, bidMat, Matrix.of_apply]
          rw [bidPartial_out _ _ _ (by omega), bidPartial_out _ _ _ (by omega)]
          by_cases hrj : (r : Nat) = j
          · rw [if_pos hrj, if_pos hrj, hdk r (by omega), sub_self]
          · rw [if_neg hrj, if_neg hrj, sub_self]
        · intro r' hr'
          simp only [hX, bidMat, Matrix.of_apply]
          rw [bidPartial_out _ _ _ (by omega), if_neg (by omega), if_neg (by omega)]
    · refine cs.bound hu j (by omega) j.2 (fun r hr => ?_) (fun r => ?_)
      · simp only [hX, bidMat, Matrix.of_apply]
        rw [bidPartial_in _ _ _ (by omega)]
        rfl
      · simp only [hX, hY, bidMat, Matrix.of_apply]
        by_cases hri : (r : Nat) < i
        · rw [if_pos hri, bidPartial_out _ _ _ (by omega), bidPartial_out _ _ _ (by omega),
            hdk r (by omega)]
        · rw [if_neg hri]
          by_cases hji : (j : Nat) = i
          · rw [if_pos hji, bidPartial_out _ _ _ (by omega)]
            by_cases hre : (r : Nat) = i
            · rw [if_pos (by omega), if_pos hre, hre, hdi]
            · rw [if_neg (by omega), if_neg hre, if_neg (by omega)]
          · rw [if_neg hji, bidPartial_in _ _ _ (by omega)]
            rfl
  have hfr : frob (Y - H * X) ≤ reflErr R m * frob X := frob_le_of_colNorm hc0 hstep
  obtain ⟨Δ', hA, hΔ'⟩ := accumulate_left hc0 hQ hZ (house_orth cs.ok) (house_mul_self cs.ok) heq hΔ hfr
  refine ⟨b', x, W', e, ⟨⟨cs.shape.1, cs.shape.2, h3, h4⟩, hl', ?_, Δ', ?_, ?_⟩⟩
  · intro k hk
    exact (hr k hk).congr (fun r => cs.top k r (by omega)) rfl
  · simp only
    rw [prodP, hprod, hHeq]
    exact hA
  · rw [show i + 1 + i = i + i + 1 by omega, pow_succ]
    exact hΔ'

theorem BidNear.row {m n i : Nat} {a b : Arr2 (Rnd R)} {d o : Arr1 (Rnd R)} {WL WR : Nat → Nat → ℝ}
    (h : BidNear m n (i + 1) i a (b, d, o) WL WR) (hn : i + 1 < n) (hm : i < m) (hnm : n ≤ m)
    (hu : ((5 * m + 31 : Nat) : ℝ) * R.u < 1) :
    ∃ b' x WR', clearRow b i 1 = .ok (b', x) ∧ BidNear m n (i + 1) (i + 1) a (b', d, o.upd i x) WL WR' := by
  obtain ⟨⟨h1, h2, h3, h4⟩, hl, hr, Δ, heq, hΔ⟩ := h
  simp only at h1 h2 h3 h4 hl hr heq
  have hun : ((5 * n + 31 : Nat) : ℝ) * R.u < 1 := lt_of_le_of_lt
    (mul_le_mul_of_nonneg_right (by exact_mod_cast (by omega : 5 * n + 31 ≤ 5 * m + 31)) R.u_nonneg) hu
  obtain ⟨b', x, w, e, cs⟩ := clearColumn_rnd (m := n) (n := m) b.t ⟨h2, h1⟩ i 1 hm (by omega)
  have hc0 := reflErr_nonneg hu
  have hoi : (o.upd i x).get i = x := by rw [Arr1.upd_get, if_pos rfl]
  have hok : ∀ k, k ≠ i → (o.upd i x).get k = o.get k := by
    intro k hk; rw [Arr1.upd_get, if_neg hk]
  set W' : Nat → Nat → ℝ := fun k => if k = i then w else WR k with hW'
  have hWi : W' i = w := if_pos rfl
  have hWk : ∀ k, k < i → W' k = WR k := fun k hk => if_neg (by omega)
  have hsti : StoredNear (2 * n + 12) n b' 1 (o.upd i x).get i (W' i) := by
    rw [hWi]
    exact ⟨by rw [hoi]; exact cs.ok, fun r h1 h2 => cs.near r (by omega) h2⟩
  have hr' : ∀ k, k < i + 1 → StoredNear (2 * n + 12) n b' 1 (o.upd i x).get k (W' k) := by
    intro k hk
    by_cases hki : k = i
    · subst hki; exact hsti
    · rw [hWk k (by omega)]
      exact (hr k (by omega)).congr (fun r => cs.left r k (by omega)) (hok k (by omega))
  have hprod : prodP (nearP n 1 (o.upd i x).get W') i = prodP (nearP n 1 o.get WR) i :=
    prodP_congr fun k hk => by simp only [nearP, hok k (by omega), hWk k hk]
  have hQ : (prodP (nearP m 0 d.get WL) (i + 1))ᵀ * prodP (nearP m 0 d.get WL) (i + 1) = 1 :=
    prodP_orth fun k hk => (hl k hk).orth
  have hZ : (prodP (nearP n 1 o.get WR) i)ᵀ * prodP (nearP n 1 o.get WR) i = 1 :=
    prodP_orth fun k hk => (hr k hk).orth
  have hHeq : nearP n 1 (o.upd i x).get W' i = house n (i + 1) (NdFloat.signum x : Rnd R).v w := by
    simp only [nearP, hoi, hWi]
  set H := house n (i + 1) (NdFloat.signum x : Rnd R).v w with hH
  set X := bidMat m n i (i + 1) (Rnd.vals b) (fun k => (d.get k).v) (fun k => (o.get k).v) with hX
  set Y := bidMat m n (i + 1) (i + 1) (Rnd.vals b'.t) (fun k => (d.get k).v) (fun k => ((o.upd i x).get k).v) with hY
  have hstep : ∀ j : Fin m, colNorm (Yᵀ - H * Xᵀ) j ≤ reflErr R n * colNorm Xᵀ j := by
    intro j
    by_cases hj : (j : Nat) < i
    · rw [colNorm_zero_of]
      · exact mul_nonneg (reflErr_nonneg hun) (colNorm_nonneg _ _)
      · intro r
        rw [Matrix.sub_apply, hH, house_mul_of_disjoint cs.ok]
        · simp only [hX, hY, bidMat, Matrix.of_apply, Matrix.transpose_apply]
          rw [bidPartial_out _ _ _ (by omega), bidPartial_out _ _ _ (by omega), hok j (by omega), sub_self]
        · intro r' hr'
          simp only [hX, bidMat, Matrix.of_apply, Matrix.transpose_apply]
          rw [bidPartial_out _ _ _ (by omega), if_neg (by omega), if_neg (by omega)]
    · refine cs.bound hun j (by omega) j.2 (fun r hr => ?_) (fun r => ?_)
      · simp only [hX, bidMat, Matrix.of_apply, Matrix.transpose_apply]
        rw [bidPartial_in _ _ _ (by omega)]
        rfl
      · simp only [hX, hY, bidMat, Matrix.of_apply, Matrix.transpose_apply]
        by_cases hri : (r : Nat) < i + 1
        · rw [if_pos hri, bidPartial_out _ _ _ (by omega), bidPartial_out _ _ _ (by omega)]
          by_cases hjr : (j : Nat) = r
          · rw [if_pos hjr, if_pos hjr]
          · rw [if_neg hjr, if_neg hjr, if_neg (by omega), if_neg (by omega)]
        · rw [if_neg hri]
          by_cases hji : (j : Nat) = i
          · rw [if_pos hji, bidPartial_out _ _ _ (by omega), if_neg (by omega)]
            by_cases hre : (r : Nat) = i + 1
            · rw [if_pos (by omega), if_pos hre, hji, hoi]
            · rw [if_neg (by omega), if_neg hre]
          · rw [if_neg hji, bidPartial_in _ _ _ (by omega)]
            rfl
  have hfr : frob (Yᵀ - H * Xᵀ) ≤ reflErr R m * frob X := by
    have h1 := frob_le_of_colNorm (reflErr_nonneg hun) hstep
    rw [frob_transpose] at h1
    exact h1.trans (mul_le_mul_of_nonneg_right (reflErr_mono hnm hu) (frob_nonneg _))
  obtain ⟨Δ', hA, hΔ'⟩ := accumulate_right hc0 hQ hZ (house_orth cs.ok) (house_mul_self cs.ok) heq hΔ hfr
  refine ⟨b'.t, x, W', ?_, ⟨⟨cs.shape.2, cs.shape.1, h3, h4⟩, ?_, hr', Δ', ?_, ?_⟩⟩
  · unfold clearRow; rw [e]; rfl
  · intro k hk
    exact (hl k hk).congr (fun r => cs.top k r (by omega)) rfl
  · simp only
    rw [show prodP (nearP n 1 (o.upd i x).get W') (i + 1) =
      prodP (nearP n 1 (o.upd i x).get W') i * nearP n 1 (o.upd i x).get W' i from rfl, hprod, hHeq]
    exact hA
  · rw [show i + 1 + (i + 1) = i + 1 + i + 1 by omega, pow_succ]
    exact hΔ'

theorem bidiagTall_rnd {m n : Nat} (a : Arr2 (Rnd R)) (ha : HasShape a m n) (h0 : 1 ≤ n) (h : n ≤ m)
    (hu : ((5 * m + 31 : Nat) : ℝ) * R.u < 1) :
    ∃ s WL WR, bidiagTall a = .ok s ∧ BidNear m n n (n - 1) a s WL WR := by
  unfold bidiagTall
  rw [ha.2]
  have hw : Succeeds (forRange 0 (n - 1)
      (a, (Arr1.zeros n : Arr1 (Rnd R)), (Arr1.zeros (n - 1) : Arr1 (Rnd R))) bidiagStep)
      (fun s => ∃ WL WR, BidNear m n (n - 1) (n - 1) a s WL WR) := by
    refine wp_forRange (fun i s => ∃ WL WR, BidNear m n i i a s WL WR) (Nat.zero_le _) ?_ ?_
    · refine ⟨fun _ _ => 0, fun _ _ => 0, ⟨ha.1, ha.2, rfl, rfl⟩, by intro k hk; omega, by intro k hk; omega, 0, ?_, ?_⟩
      · simp only [prodP, Matrix.one_mul, Matrix.transpose_one, Matrix.mul_one, add_zero]
        ext r c
        simp [bidMat, bidPartial]
      · simp
    · rintro i ⟨b, d, o⟩ _ hi ⟨WL, WR, hinv⟩
      unfold bidiagStep
      obtain ⟨b', x, WL', e, hc⟩ := hinv.col (by omega) (by omega) hu
      simp only [e, ok_bind]
      rw [Arr1.idxSet_ok (by have := hinv.dlen; simp only at this; omega)]
      simp only [ok_bind]
      obtain ⟨b'', y, WR', e, hr⟩ := hc.row (by omega) (by omega) h hu
      simp only [e, ok_bind]
      rw [Arr1.idxSet_ok (by have := hinv.olen; simp only at this; omega)]
      exact ⟨WL', WR', hr⟩
  obtain ⟨⟨b, d, o⟩, e, WL, WR, hinv⟩ := succeeds_iff.1 hw
  rw [e]
  simp only [ok_bind]
  obtain ⟨b', x, WL', e, hc⟩ := hinv.col (by omega) (by omega) hu
  simp only [e, ok_bind]
  rw [Arr1.idxSet_ok (by have := hinv.dlen; simp only at this; omega)]
  refine ⟨_, WL', WR, rfl, ?_⟩
  rwa [Nat.sub_add_cancel h0] at hc

theorem bidMat_eq {m n : Nat} (a : Arr2 ℝ) (d e : Nat → ℝ) :
    bidMat m n (n - 1) n a d e = eyeMat m n * bidiag n (fun i => |d i|) (fun i => |e i|) := by
  ext r c
  rw [Matrix.mul_apply]
  simp only [eyeMat, bidiag, bidMat, Matrix.of_apply]
  unfold bidPartial
  rw [if_neg (by omega)]
  by_cases hrn : (r : Nat) < n
  · rw [Finset.sum_eq_single (⟨r, hrn⟩ : Fin n)]
    · simp
    · intro k _ hk
      rw [if_neg (fun h => hk (Fin.ext h.symm)), zero_mul]
    · intro h; exact absurd (Finset.mem_univ _) h
  · rw [if_neg (by omega), if_neg (by omega), Finset.sum_eq_zero]
    intro k _
    rw [if_neg (by omega), zero_mul]

theorem assembleQ_rnd' {m D : Nat} (a : Arr2 (Rnd R)) (shift : Nat) (diagFn : Nat → M (Rnd R)) (d : Nat → Rnd R)
    (W : Nat → Nat → ℝ) (hm : a.nr = m) (hD : min a.nr a.nc = D) (hs : shift ≤ D)
    (hd : ∀ i, i < D - shift → diagFn i = .ok (d i))
    (hok : ∀ i, i < D - shift → StoredNear (2 * m + 12) m a shift d i (W i))
    (hu : ((5 * m + 31 : Nat) : ℝ) * R.u < 1) :
    ∃ q, assembleQ a shift diagFn = .ok q ∧ HasShape q m D ∧
      ∀ j, colNorm (toMat m D (Rnd.vals q) - prodP (nearP m shift d W) (D - shift) * eyeMat m D) j ≤
        (1 + reflErr R m) ^ (D - shift) - 1 := by
  subst hm hD
  exact assembleQ_rnd a shift diagFn d W hs hd hok hu

theorem BidNear.final {m n : Nat} {a : Arr2 (Rnd R)} {s : Arr2 (Rnd R) × Arr1 (Rnd R) × Arr1 (Rnd R)}
    {WL WR : Nat → Nat → ℝ} (h0 : 1 ≤ n) (hmn : n ≤ m) (hu : ((5 * m + 31 : Nat) : ℝ) * R.u < 1)
    (h : BidNear m n n (n - 1) a s WL WR) :
    ∃ U V, assembleQ s.1 0 (fun i => s.2.1.idx i) = .ok U ∧
      assembleQ s.1.t 1 (fun i => s.2.2.idx i) = .ok V ∧ HasShape U m n ∧ HasShape V n n ∧
      ∃ (P Δ : Matrix (Fin m) (Fin n) ℝ) (Q : Matrix (Fin n) (Fin n) ℝ), Pᵀ * P = 1 ∧ Qᵀ * Q = 1 ∧
        toMat m n (Rnd.vals a) + Δ =
          P * bidiag n (fun i => |(s.2.1.get i).v|) (fun i => |(s.2.2.get i).v|) * Qᵀ ∧
        frob Δ ≤ reflErrs R m (2 * n - 1) * frob (toMat m n (Rnd.vals a)) ∧
        (∀ j, colNorm (toMat m n (Rnd.vals U) - P) j ≤ reflErrs R m n) ∧
        ∀ j, colNorm (toMat n n (Rnd.vals V) - Q) j ≤ reflErrs R m n := by
  obtain ⟨b, d, o⟩ := s
  obtain ⟨⟨h1, h2, h3, h4⟩, hl, hr, Δ, heq, hΔ⟩ := h
  simp only at h1 h2 h3 h4 hl hr heq
  have hun : ((5 * n + 31 : Nat) : ℝ) * R.u < 1 := lt_of_le_of_lt
    (mul_le_mul_of_nonneg_right (by exact_mod_cast (by omega : 5 * n + 31 ≤ 5 * m + 31)) R.u_nonneg) hu
  obtain ⟨U, e1, s1, t1⟩ := assembleQ_rnd' (m := m) (D := n) b 0 (fun i => d.idx i) d.get WL h1
    (by rw [h1, h2, min_eq_right hmn]) (Nat.zero_le _)
    (fun i hi => Arr1.idx_ok (by omega)) (fun i hi => hl i (by omega)) hu
  obtain ⟨V, e2, s2, t2⟩ := assembleQ_rnd' (m := n) (D := n) b.t 1 (fun i => o.idx i) o.get WR h2
    (show min b.nc b.nr = n by rw [h1, h2, min_eq_left hmn]) h0
    (fun i hi => Arr1.idx_ok (by omega)) (fun i hi => hr i hi) hun
  have eye1 : eyeMat n n = 1 := by
    ext i j; simp [eyeMat, Matrix.one_apply, Fin.ext_iff]
  rw [eye1, Matrix.mul_one] at t2
  have hP : (prodP (nearP m 0 d.get WL) n)ᵀ * prodP (nearP m 0 d.get WL) n = 1 := prodP_orth fun k hk => (hl k hk).orth
  have hQ : (prodP (nearP n 1 o.get WR) (n - 1))ᵀ * prodP (nearP n 1 o.get WR) (n - 1) = 1 :=
    prodP_orth fun k hk => (hr k hk).orth
  refine ⟨U, V, e1, e2, s1, s2, prodP (nearP m 0 d.get WL) n * eyeMat m n, Δ, prodP (nearP n 1 o.get WR) (n - 1),
    ?_, hQ, ?_, ?_, t1, fun j => (t2 j).trans ?_⟩
  · rw [Matrix.transpose_mul, Matrix.mul_assoc, ← Matrix.mul_assoc _ _ (eyeMat m n), hP, Matrix.one_mul,
      eyeMat_orth hmn]
  · rw [heq, bidMat_eq]
    simp only [Matrix.mul_assoc]
  · rw [show n + (n - 1) = 2 * n - 1 by omega] at hΔ
    exact hΔ
  · have hc0 := reflErr_nonneg hun
    have hle := reflErr_mono hmn hu
    have h1 : (1 + reflErr R n) ^ (n - 1) ≤ (1 + reflErr R m) ^ n :=
      (pow_le_pow_left₀ (by linarith) (by linarith) _).trans (pow_le_pow_right₀ (by linarith) (by omega))
    unfold reflErrs
    linarith

/-- The bidiagonal matrix a decomposition stands for. -/
noncomputable def BidiagonalDecomp.bMatV (b : BidiagonalDecomp (Rnd R)) (n : Nat) : Matrix (Fin n) (Fin n) ℝ :=
  if b.upperDiag then bidiag n (fun i => |(b.diagonal.get i).v|) (fun i => |(b.offDiagonal.get i).v|)
  else (bidiag n (fun i => |(b.diagonal.get i).v|) (fun i => |(b.offDiagonal.get i).v|))ᵀ

theorem bidiagonal_rnd {m n : Nat} (a : Arr2 (Rnd R)) (ha : HasShape a m n) (h0 : min m n ≠ 0)
    (hu : ((5 * max m n + 31 : Nat) : ℝ) * R.u < 1) :
    ∃ b U Vt, bidiagonal a = .ok b ∧ b.generateU = .ok U ∧ b.generateVt = .ok Vt ∧
      b.upperDiag = decide (n ≤ m) ∧
      b.diagonal.len = min m n ∧ b.offDiagonal.len = min m n - 1 ∧
      HasShape U m (min m n) ∧ HasShape Vt (min m n) n ∧
      ∃ (P : Matrix (Fin m) (Fin (min m n)) ℝ) (Qt : Matrix (Fin (min m n)) (Fin n) ℝ)
        (Δ : Matrix (Fin m) (Fin n) ℝ), Pᵀ * P = 1 ∧ Qt * Qtᵀ = 1 ∧
        toMat m n (Rnd.vals a) + Δ = P * b.bMatV (min m n) * Qt ∧
        frob Δ ≤ reflErrs R (max m n) (2 * min m n - 1) * frob (toMat m n (Rnd.vals a)) ∧
        (∀ j, colNorm (toMat m (min m n) (Rnd.vals U) - P) j ≤ reflErrs R (max m n) (min m n)) ∧
        ∀ j, colNorm ((toMat (min m n) n (Rnd.vals Vt))ᵀ - Qtᵀ) j ≤ reflErrs R (max m n) (min m n) := by
  by_cases h : n ≤ m
  · rw [min_eq_right h, max_eq_left h] at *
    obtain ⟨s, WL, WR, e, hs⟩ := bidiagTall_rnd a ha (by omega) h hu
    obtain ⟨b, e, rfl⟩ := relM_ok_left (bidiagonal_tall a (by rw [ha.1, ha.2]; omega)
      (by rw [ha.1, ha.2]; exact h)) e
    obtain ⟨U, V, e1, e2, s1, s2, P, Δ, Q, o1, o2, he, hΔ, hU, hV⟩ := hs.final (by omega) h hu
    refine ⟨_, U, V.t, e, e1, ?_, by simp [h], hs.dlen, hs.olen, s1, ⟨s2.2, s2.1⟩, P, Qᵀ, Δ, o1, ?_, ?_, hΔ, hU, ?_⟩
    · unfold BidiagonalDecomp.generateVt
      simp only [if_true, e2]; rfl
    · rw [Matrix.transpose_transpose, o2]
    · rw [BidiagonalDecomp.bMatV, if_pos rfl, he]
    · rw [Matrix.transpose_transpose]
      exact hV
  · have h' : m < n := by omega
    rw [min_eq_left h'.le, max_eq_right h'.le] at *
    obtain ⟨s, WL, WR, e, hs⟩ := bidiagTall_rnd a.t ⟨ha.2, ha.1⟩ (by omega) h'.le hu
    obtain ⟨b, e, rfl⟩ := relM_ok_left (bidiagonal_wide a (by rw [ha.1, ha.2]; omega)
      (by rw [ha.1, ha.2]; exact h')) e
    obtain ⟨U, V, e1, e2, s1, s2, P, Δ, Q, o1, o2, he, hΔ, hU, hV⟩ := hs.final (by omega) h'.le hu
    refine ⟨_, V, U.t, e, ?_, ?_, by simp [h'], hs.dlen, hs.olen, s2, ⟨s1.2, s1.1⟩, Q, Pᵀ, Δᵀ, o2, ?_, ?_, ?_, hV, ?_⟩
    · unfold BidiagonalDecomp.generateU
      simp only [Bool.false_eq_true, if_false]
      exact e2
    · unfold BidiagonalDecomp.generateVt
      simp only [Bool.false_eq_true, if_false]
      rw [show s.1.t.t = s.1 from rfl, e1]; rfl
    · rw [Matrix.transpose_transpose, o1]
    · rw [BidiagonalDecomp.bMatV, if_neg (by simp)]
      have h2 : toMat m n (Rnd.vals a) = (toMat n m (Rnd.vals a.t))ᵀ := rfl
      rw [h2, ← Matrix.transpose_add, he, Matrix.transpose_mul, Matrix.transpose_mul, Matrix.transpose_transpose,
        Matrix.mul_assoc]
    · rw [frob_transpose, show toMat m n (Rnd.vals a) = (toMat n m (Rnd.vals a.t))ᵀ from rfl, frob_transpose]
      exact hΔ
    · rw [Matrix.transpose_transpose]
      exact hU

end

end LinfaLinalg
