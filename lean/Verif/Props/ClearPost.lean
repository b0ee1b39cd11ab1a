import Verif.Props.ClearNorm

/-! # C152: the norm that a Householder step returns shows that the column was in range -/

namespace LinfaLinalg

open Flt

variable {R : Rounding} {u η : ℝ}

theorem Flt.sqrt_nonpos {x : Flt R} (px : Proper x) (fx : IsFin x) (h : x.rv ≤ 0) :
    NdFloat.sqrt x = nan ∨ IsFin (NdFloat.sqrt x) ∧ (NdFloat.sqrt x).rv = 0 := by
  obtain ⟨s, m, rfl⟩ := fx
  have hm := px s m rfl
  change (if m = 0 then fin s m else if s then nan else round false (Real.sqrt m)) = nan ∨
    IsFin (if m = 0 then fin s m else if s then nan else round false (Real.sqrt m)) ∧
    (if m = 0 then fin s m else if s then nan else round false (Real.sqrt m) : Flt R).rv = 0
  by_cases h0 : m = 0
  · rw [if_pos h0]
    exact Or.inr ⟨⟨_, _, rfl⟩, by simp [rv, val, h0]⟩
  · rw [if_neg h0]
    cases s
    · exfalso
      have h1 : val false m ≤ 0 := h
      simp [val, sgn] at h1
      exact h0 (le_antisymm h1 hm)
    · exact Or.inl rfl

/-- The size of the norm that `reflection_axis_mut` returns. -/
theorem axis_size (hR : R.Accurate u η) {B : ℝ} (hΩ : R.Below (16 * B)) (hB : 1 ≤ B) (hv : (1 - u)⁻¹ - 1 ≤ 1 / 250) (hη1 : η ≤ 1)
    {col w : Arr1 (Flt R)} {d : Flt R} (h : reflectionAxisMut col = .ok (w, some d)) (h0 : 0 < col.len)
    (hf : IsFin (col.get 0) ∧ Proper (col.get 0)) (dfin : IsFin (dotTo col.len col.get col.get))
    (hD : (dotTo col.len col.get col.get).rv ≤ 2 * B) :
    |d.rv| ≤ 101 / 100 * √(dotTo col.len col.get col.get).rv + 3 * η := by
  have hη := hR.η_nonneg
  have hu1 := hR.u_lt_one
  have hu0 := hR.u_nonneg
  have hv0 : 0 ≤ (1 - u)⁻¹ - 1 := by
    have : 1 ≤ (1 - u)⁻¹ := by rw [one_le_inv₀ (by linarith)]; linarith
    linarith
  unfold reflectionAxisMut at h
  simp only [Arr1.dot, if_true, ok_bind] at h
  rw [Arr1.idx_ok h0, ok_bind, Arr1.idxSet_ok h0, ok_bind] at h
  split_ifs at h
  · injection h with h
    injection h with h1 h2
    injection h2 with h2
    have pD : Proper (dotTo col.len col.get col.get) := proper_dotTo _ _ _
    rw [← h2]
    set D := dotTo col.len col.get col.get with hDd
    obtain ⟨s, hss, -, fs, ps, es⟩ := signum_rv hf.1 hf.2
    have hs1 : |s| = 1 := by
      have : |s| * |s| = 1 := by rw [← abs_mul, hss, abs_one]
      exact (mul_self_eq_one_iff.1 this).resolve_right (by linarith [abs_nonneg s])
    have hsq := Real.sqrt_nonneg D.rv
    rw [neg_rv, abs_neg]
    -- a finite root
    have key : IsFin (NdFloat.sqrt D) → |(NdFloat.sqrt D).rv| ≤ 251 / 250 * √D.rv + η → √D.rv ≤ 2 * B →
        |(NdFloat.signum (col.get 0) * NdFloat.sqrt D).rv| ≤ 101 / 100 * √D.rv + 3 * η := by
      intro fN hN hb
      have hsN : |s * (NdFloat.sqrt D).rv| = |(NdFloat.sqrt D).rv| := by rw [abs_mul, hs1, one_mul]
      obtain ⟨fM, eM⟩ := mul_step hR hΩ ps (proper_sqrt D) fs fN (by rw [es, hsN]; linarith)
      rw [es, hsN] at eM
      have h3 := abs_sub_abs_le_abs_sub (NdFloat.signum (col.get 0) * NdFloat.sqrt D).rv (s * (NdFloat.sqrt D).rv)
      rw [hsN] at h3
      have h4 : ((1 - u)⁻¹ - 1) * |(NdFloat.sqrt D).rv| ≤ 1 / 250 * (251 / 250 * √D.rv + η) :=
        mul_le_mul hv hN (abs_nonneg _) (by norm_num)
      linarith
    by_cases hD0 : 0 < D.rv
    · have hb : √D.rv ≤ 2 * B := by
        rw [Real.sqrt_le_left (by linarith)]
        nlinarith
      obtain ⟨fN, eN⟩ := sqrt_step hR hΩ pD dfin hD0 (by linarith)
      refine key fN ?_ hb
      have h3 := abs_sub_abs_le_abs_sub (NdFloat.sqrt D).rv (√D.rv)
      rw [abs_of_nonneg hsq] at h3
      have h4 := mul_le_mul_of_nonneg_right hv hsq
      linarith
    · have hz : √D.rv = 0 := Real.sqrt_eq_zero_of_nonpos (not_lt.1 hD0)
      rcases sqrt_nonpos pD dfin (not_lt.1 hD0) with hn | ⟨fN, hN⟩
      · rw [hn]
        obtain ⟨b, m, hbm⟩ := fs
        have : (NdFloat.signum (col.get 0) * nan : Flt R).rv = 0 := by rw [hbm]; rfl
        rw [this, abs_zero, hz]
        linarith
      · exact key fN (by rw [hN, abs_zero, hz]; linarith) (by rw [hz]; linarith)
  · injection h with h
    injection h with h1 h2
    cases h2

/-- C152: if the lower part of column `icol` is finite with squares adding up to at most `2^(emax - 5)` and `clear_column` returns
a norm whose square is at least `4 * 2^(emin + 2 mant + 2)`, then the squares add up to at least `2^(emin + 2 mant + 2)`. -/
theorem C152_in_range {F : Format} (hF : F.Wide) (P : DotPlans) (a b : Arr2 (Flt { Rounding.ieee F with plans := P }))
    (d : Flt { Rounding.ieee F with plans := P }) (icol shift n : Nat) (hc : icol < a.nc) (hr : icol + shift < a.nr)
    (hn : n = a.nr - (icol + shift)) (hn2 : n + 2 ≤ 2 ^ (F.mant - 6))
    (hf : ∀ k, k < n → IsFin (a.get (icol + shift + k) icol) ∧ Proper (a.get (icol + shift + k) icol))
    (hhi : ∑ k ∈ Finset.range n, (a.get (icol + shift + k) icol).rv * (a.get (icol + shift + k) icol).rv ≤ 2 ^ (F.emax - 5))
    (h : clearColumn a icol shift = .ok (b, d)) (hd : 4 * 2 ^ (F.emin + 2 * F.mant + 2) ≤ d.rv ^ 2) :
    2 ^ (F.emin + 2 * F.mant + 2) ≤
      ∑ k ∈ Finset.range n, (a.get (icol + shift + k) icol).rv * (a.get (icol + shift + k) icol).rv := by
  have hn0 : 0 < n := by omega
  have C := ieee_cholRange hF P hn2
  have hg0 := C.g0
  have hg1 := C.g1
  have hu1 := C.acc.u_lt_one
  have hnu := C.nu
  have hu0 : (0 : ℝ) < 2 ^ (-(F.mant : ℤ) - 1) := by positivity
  have hL0 : (0 : ℝ) < 2 ^ (F.emin + 2 * F.mant + 2) := by positivity
  -- the norm comes from `reflection_axis_mut`
  obtain ⟨w, hax⟩ : ∃ w, reflectionAxisMut ⟨n, fun k => a.get (icol + shift + k) icol⟩ = .ok (w, some d) := by
    unfold clearColumn at h
    rw [Arr2.colSlice_ok hr.le le_rfl hc] at h
    simp only [ok_bind] at h
    rw [← hn] at h
    obtain ⟨w, o, hw, hl⟩ := reflectionAxisMut_ok (⟨n, fun k => a.get (icol + shift + k) icol⟩ :
      Arr1 (Flt { Rounding.ieee F with plans := P })) hn0
    rw [hw] at h
    simp only [ok_bind] at h
    cases o with
    | none =>
      exfalso
      injection h with h
      injection h with _ h
      rw [← h] at hd
      rw [show (0 : Flt { Rounding.ieee F with plans := P }).rv = 0 from zero_rv] at hd
      norm_num at hd
      linarith
    | some ν =>
      simp only at h
      rw [Arr2.slice_ok (by exact hr.le) le_rfl (by exact hc) le_rfl] at h
      simp only [ok_bind] at h
      rw [reflectCols_eq _ _ _ (by rw [hl]; exact hn)] at h
      simp only [ok_bind] at h
      injection h with h
      injection h with _ h
      exact ⟨w, by rw [hw, h]⟩
  have e4 : (2 : ℝ) ^ (F.emax - 1) = 16 * 2 ^ (F.emax - 5) := by
    rw [show F.emax - 1 = 4 + (F.emax - 5) by ring, zpow_add₀ (by norm_num)]; norm_num
  have e5 : (2 : ℝ) ^ (F.emax - 3) = 4 * 2 ^ (F.emax - 5) := by
    rw [show F.emax - 3 = 2 + (F.emax - 5) by ring, zpow_add₀ (by norm_num)]; norm_num
  have hB : (1 : ℝ) ≤ 2 ^ (F.emax - 5) := one_le_zpow₀ (by norm_num) (by obtain ⟨w1, w2, w3⟩ := hF; have := F.one; omega)
  have hηu : (2 : ℝ) ^ (F.emin - 1) = (2 ^ (-(F.mant : ℤ) - 1)) ^ 2 * 2 ^ (F.emin + 2 * F.mant + 2) / 2 := by
    rw [sq, ← zpow_add₀ (by norm_num), ← zpow_add₀ (by norm_num), eq_div_iff (by norm_num), ← zpow_add_one₀ (by norm_num)]
    congr 1; ring
  have hη1 : (2 : ℝ) ^ (F.emin - 1) ≤ 2 ^ (-(F.mant : ℤ) - 1) / 2 := by
    rw [le_div_iff₀ (by norm_num), ← zpow_add_one₀ (by norm_num)]
    exact zpow_le_zpow_right₀ (by norm_num) (by have := F.half; omega)
  have hgm : gam (2 ^ (-(F.mant : ℤ) - 1)) (n + 1) ≤ gam (2 ^ (-(F.mant : ℤ) - 1)) (n + 2) := gam_mono hu0.le (by omega) hnu
  have hgu : ((n + 2 : Nat) : ℝ) * 2 ^ (-(F.mant : ℤ) - 1) ≤ gam (2 ^ (-(F.mant : ℤ) - 1)) (n + 2) := le_gam hu0.le hnu
  have hn1 : (1 : ℝ) ≤ n := by exact_mod_cast hn0
  push_cast at hgu
  have hu300 : (2 : ℝ) ^ (-(F.mant : ℤ) - 1) ≤ 1 / 300 := by
    have : 3 * (2 : ℝ) ^ (-(F.mant : ℤ) - 1) ≤ (n + 2) * (2 : ℝ) ^ (-(F.mant : ℤ) - 1) :=
      mul_le_mul_of_nonneg_right (by linarith) hu0.le
    linarith
  obtain ⟨dfin, derr⟩ := C145_sum hF P n hn2 (fun k => a.get (icol + shift + k) icol) (fun k => a.get (icol + shift + k) icol) hf hf (by
    rw [e5]
    refine (Finset.sum_congr rfl fun k _ => abs_of_nonneg (mul_self_nonneg _)).trans_le ?_
    linarith)
  rw [Finset.sum_congr rfl fun k _ => abs_of_nonneg (mul_self_nonneg (a.get (icol + shift + k) icol).rv)] at derr
  have hS0 : 0 ≤ ∑ k ∈ Finset.range n, (a.get (icol + shift + k) icol).rv * (a.get (icol + shift + k) icol).rv :=
    Finset.sum_nonneg fun _ _ => mul_self_nonneg _
  have hun : 2 * (n : ℝ) * (n + 1) * 2 ^ (F.emin - 1) ≤ 1 / 100 * 2 ^ (F.emin + 2 * F.mant + 2) := by
    have h1 : ((n : ℝ) * 2 ^ (-(F.mant : ℤ) - 1)) * ((n + 1) * 2 ^ (-(F.mant : ℤ) - 1)) ≤ 1 / 100 * 1 :=
      mul_le_mul (by linarith) (by linarith) (by positivity) (by norm_num)
    have h2 := mul_le_mul_of_nonneg_right h1 hL0.le
    rw [hηu]
    linarith
  have hL1 : (2 : ℝ) ^ (F.emin + 2 * F.mant + 2) ≤ 2 ^ (F.emax - 5) :=
    zpow_le_zpow_right₀ (by norm_num) (by obtain ⟨w1, w2, w3⟩ := hF; have := F.half; omega)
  have hΩ := C.below
  rw [e4] at hΩ
  have hv : (1 - (2 : ℝ) ^ (-(F.mant : ℤ) - 1))⁻¹ - 1 ≤ 1 / 250 := by
    have h1 : (1 - (2 : ℝ) ^ (-(F.mant : ℤ) - 1))⁻¹ ≤ 1 + 1 / 250 := by
      rw [inv_le_iff_one_le_mul₀ (by linarith)]
      linarith
    linarith
  have hgS := mul_le_mul_of_nonneg_right (hgm.trans hg1) hS0
  have hD2 := (abs_le.1 derr).2
  have hsz := axis_size C.acc hΩ hB hv (by linarith) hax hn0 (hf 0 hn0) dfin (by
    change (dotTo n (fun k => a.get (icol + shift + k) icol) (fun k => a.get (icol + shift + k) icol)).rv ≤ _
    linarith)
  change |d.rv| ≤ 101 / 100 * √(dotTo n (fun k => a.get (icol + shift + k) icol) (fun k => a.get (icol + shift + k) icol)).rv +
    3 * 2 ^ (F.emin - 1) at hsz
  by_contra hlt
  rw [not_le] at hlt
  clear h hax hΩ C derr dfin e4 e5 hhi hgm
  generalize (dotTo n (fun k => a.get (icol + shift + k) icol) (fun k => a.get (icol + shift + k) icol)).rv = D at *
  generalize ∑ k ∈ Finset.range n, (a.get (icol + shift + k) icol).rv * (a.get (icol + shift + k) icol).rv = S at *
  generalize (2 : ℝ) ^ (F.emin + 2 * F.mant + 2) = L at *
  have hsD : √D ≤ 11 / 10 * √L := by
    rw [Real.sqrt_le_left (by positivity), mul_pow, Real.sq_sqrt hL0.le]
    linarith
  have hηL : (2 : ℝ) ^ (F.emin - 1) ≤ 1 / 100 * √L := by
    refine abs_le_of_sq_le_sq' ?_ (by positivity) |>.2
    rw [mul_pow, Real.sq_sqrt hL0.le]
    have h1 : ((2 : ℝ) ^ (F.emin - 1)) ^ 2 ≤ 2 ^ (-(F.mant : ℤ) - 1) / 2 * ((2 ^ (-(F.mant : ℤ) - 1)) ^ 2 * L / 2) := by
      rw [sq]; exact mul_le_mul hη1 hηu.le (by positivity) (by positivity)
    generalize (2 : ℝ) ^ (-(F.mant : ℤ) - 1) = u at *
    have h2 : u ^ 2 ≤ (1 / 300) ^ 2 := pow_le_pow_left₀ hu0.le hu300 2
    have h3 : u ^ 2 * L ≤ (1 / 300) ^ 2 * L := mul_le_mul_of_nonneg_right h2 hL0.le
    have h4 : u / 4 * (u ^ 2 * L) ≤ 1 * ((1 / 300) ^ 2 * L) := mul_le_mul (by linarith) h3 (by positivity) (by norm_num)
    linarith
  have hsL := Real.sqrt_pos.2 hL0
  have hfin : |d.rv| ≤ 3 / 2 * √L := by linarith
  have := pow_le_pow_left₀ (abs_nonneg _) hfin 2
  rw [sq_abs, mul_pow, Real.sq_sqrt hL0.le] at this
  linarith

/-- C152, the consequences: what `clear_column` wrote is finite, the norm is the length of the column up to a relative error of
`3 γ_(n+2)`. -/
theorem C152_finite {F : Format} (hF : F.Wide) (P : DotPlans) (a b : Arr2 (Flt { Rounding.ieee F with plans := P }))
    (d : Flt { Rounding.ieee F with plans := P }) (icol shift n : Nat) (hc : icol < a.nc) (hr : icol + shift < a.nr)
    (hn : n = a.nr - (icol + shift)) (hn2 : n + 2 ≤ 2 ^ (F.mant - 6))
    (hf : ∀ k j, k < n → icol ≤ j → j < a.nc → IsFin (a.get (icol + shift + k) j) ∧ Proper (a.get (icol + shift + k) j))
    (hhi : ∑ k ∈ Finset.range n, (a.get (icol + shift + k) icol).rv * (a.get (icol + shift + k) icol).rv ≤ 2 ^ (F.emax - 5))
    (hS : ∀ j, icol < j → j < a.nc → ∑ k ∈ Finset.range n, |(a.get (icol + shift + k) j).rv| ≤ 2 ^ (F.emax - 8))
    (h : clearColumn a icol shift = .ok (b, d)) (hd : 4 * 2 ^ (F.emin + 2 * F.mant + 2) ≤ d.rv ^ 2) :
    IsFin d ∧ (∀ k j, k < n → icol ≤ j → j < a.nc → IsFin (b.get (icol + shift + k) j)) ∧
      |(|d.rv|) - √(∑ k ∈ Finset.range n, (a.get (icol + shift + k) icol).rv ^ 2)| ≤
        3 * gam (2 ^ (-(F.mant : ℤ) - 1)) (n + 2) * √(∑ k ∈ Finset.range n, (a.get (icol + shift + k) icol).rv ^ 2) := by
  have hlo := C152_in_range hF P a b d icol shift n hc hr hn hn2 (fun k hk => hf k icol hk le_rfl hc) hhi h hd
  obtain ⟨b1, d1, h1, -, -, f1, -, w, d', -, -, f2, f3⟩ := C149_clear hF P a icol shift n hc hr hn hn2 hf hlo hhi hS
  obtain ⟨b2, d2, h2, e, -⟩ := C151_lengths hF P a icol shift n hc hr hn hn2 hf hlo hhi hS
  rw [h] at h1 h2
  injection h1 with h1
  injection h1 with hb1 hd1
  injection h2 with h2
  injection h2 with hb2 hd2
  subst hb1 hd1 hb2 hd2
  refine ⟨f1, fun k j hk hj hj2 => ?_, e⟩
  rcases hj.eq_or_lt with rfl | hj
  · exact (f2 k hk).1
  · exact (f3 k j hk hj hj2).1

/-- The norm returned for `exClear` is large enough. -/
example (P : DotPlans) : ∃ b d, clearColumn (exClear : Arr2 (Flt { Rounding.ieee .single with plans := P })) 1 0 = .ok (b, d) ∧
    4 * 2 ^ (Format.single.emin + 2 * Format.single.mant + 2) ≤ d.rv ^ 2 := by
  obtain ⟨b, d, h, e, -⟩ := C151_lengths Format.single_wide P exClear 1 0 3 (by norm_num [exClear])
    (by norm_num [exClear]) rfl (by norm_num [Format.single])
    (fun k j _ _ _ => ⟨⟨_, _, rfl⟩, by intro s m h; cases h; positivity⟩)
    (by simp [exClear, Finset.sum_range_succ, rv, val, sgn, Format.single]; norm_num)
    (by simp [exClear, Finset.sum_range_succ, rv, val, sgn, Format.single]; norm_num)
    (fun j h1 h2 => by
      obtain rfl : j = 2 := by simp only [exClear] at h2; omega
      simp [exClear, Finset.sum_range_succ, rv, val, sgn, Format.single]
      norm_num)
  refine ⟨b, d, h, ?_⟩
  have hg := (ieee_cholRange Format.single_wide P (n := 3) (by norm_num [Format.single])).g1
  have h1 : 1 ≤ √(∑ k ∈ Finset.range 3, ((exClear : Arr2 (Flt { Rounding.ieee .single with plans := P })).get (1 + 0 + k) 1).rv ^ 2) := by
    rw [Real.one_le_sqrt]
    simp [exClear, Finset.sum_range_succ, rv, val, sgn]
    norm_num
  generalize √(∑ k ∈ Finset.range 3, ((exClear : Arr2 (Flt { Rounding.ieee .single with plans := P })).get (1 + 0 + k) 1).rv ^ 2) = N at *
  have h2 := (abs_le.1 e).1
  have h3 : 3 * gam (2 ^ (-(Format.single.mant : ℤ) - 1)) (3 + 2) * N ≤ 3 / 100 * N :=
    mul_le_mul_of_nonneg_right (by linarith) (by linarith)
  have h4 : 1 / 2 ≤ |d.rv| := by linarith
  have h5 := pow_le_pow_left₀ (by norm_num) h4 2
  rw [sq_abs] at h5
  refine le_trans ?_ h5
  norm_num [Format.single]

end LinfaLinalg
