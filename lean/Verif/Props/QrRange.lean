import Verif.Props.ClearPost
import Verif.Model.Qr

/-! # C153: the QR factorisation within the range of the float format -/

namespace LinfaLinalg

open Flt

theorem Arr2.put_all {β : Type} (p : β → Prop) (a r : Arr2 β) (x y : Nat) (hr : ∀ i j, p (r.get i j)) (ha : ∀ i j, p (a.get i j))
    (i j : Nat) : p ((a.put x y r).get i j) := by
  simp only [Arr2.put]
  split_ifs
  · exact hr _ _
  · exact ha _ _

theorem Arr2.putCol_all {β : Type} (p : β → Prop) (a : Arr2 β) (w : Arr1 β) (x y : Nat) (hw : ∀ k, p (w.get k)) (ha : ∀ i j, p (a.get i j))
    (i j : Nat) : p ((a.putCol x y w).get i j) := by
  simp only [Arr2.putCol]
  split_ifs
  · exact hw _
  · exact ha _ _

theorem Flt.proper_clearColumn {R : Rounding} {a b : Arr2 (Flt R)} {d : Flt R} {icol shift : Nat} (hc : icol < a.nc)
    (hr : icol + shift < a.nr) (ha : ∀ i j, Proper (a.get i j)) (h : clearColumn a icol shift = .ok (b, d)) (hd : d.rv ≠ 0)
    (i j : Nat) : Proper (b.get i j) := by
  unfold clearColumn at h
  rw [Arr2.colSlice_ok hr.le le_rfl hc] at h
  simp only [ok_bind] at h
  obtain ⟨w, o, hw, hl⟩ := reflectionAxisMut_ok (⟨a.nr - (icol + shift), fun k => a.get (icol + shift + k) icol⟩ :
    Arr1 (Flt R)) (by simp only; omega)
  rw [hw] at h
  simp only [ok_bind] at h
  cases o with
  | none =>
    injection h with h
    injection h with _ h
    exact absurd (by rw [← h]; exact zero_rv) hd
  | some ν =>
    have pw := (proper_axis hw).1
    simp only at h
    rw [Arr2.slice_ok (by exact hr.le) le_rfl (by exact hc) le_rfl] at h
    simp only [ok_bind] at h
    rw [reflectCols_eq _ _ _ (by rw [hl]; rfl)] at h
    simp only [ok_bind] at h
    injection h with h
    injection h with h _
    rw [← h]
    exact Arr2.put_all Proper _ _ _ _ (fun _ _ => proper_mul _ _) (Arr2.putCol_all Proper _ _ _ _ pw ha) i j

/-- What the loop of `qr_into` keeps: finite entries, and columns whose remaining parts are not longer than `B`. -/
structure QrGood {R : Rounding} (m n i : Nat) (b : Arr2 (Flt R)) (B : ℝ) : Prop where
  fin : ∀ r j, r < m → j < n → IsFin (b.get r j)
  proper : ∀ r j, Proper (b.get r j)
  len : ∀ j, i ≤ j → j < n → √(∑ k ∈ Finset.range (m - i), (b.get (i + k) j).rv ^ 2) ≤ B

theorem qr_step_range {F : Format} (hF : F.Wide) (P : DotPlans) {m n i : Nat} (hi : i < n) (hmn : n ≤ m) (hm : m + 2 ≤ 2 ^ (F.mant - 6))
    {a b : Arr2 (Flt { Rounding.ieee F with plans := P })} {d : Flt { Rounding.ieee F with plans := P }} {B X : ℝ}
    (h1 : a.nr = m) (h2 : a.nc = n) (ha : QrGood m n i a B) (hB0 : 0 ≤ B) (hBX : B ≤ X) (hX1 : √m * X ≤ 2 ^ (F.emax - 8)) (hX2 : X ^ 2 ≤ 2 ^ (F.emax - 5))
    (h : clearColumn a i 0 = .ok (b, d)) (hd : 4 * 2 ^ (F.emin + 2 * F.mant + 2) ≤ d.rv ^ 2) :
    IsFin d ∧ QrGood m n (i + 1) b ((1 + 65 * m * √m * gam (2 ^ (-(F.mant : ℤ) - 1)) (m + 2)) * B +
      12 * m * ((m : ℝ) + 1) ^ 2 * 2 ^ (F.emin - 1)) := by
  have hL0 : (0 : ℝ) < 2 ^ (F.emin + 2 * F.mant + 2) := by positivity
  have hd0 : d.rv ≠ 0 := by intro h; rw [h] at hd; norm_num at hd; linarith
  have hX0 := hB0.trans hBX
  have hle : (((m - i : Nat) : ℝ)) ≤ m := by exact_mod_cast Nat.sub_le m i
  have hsq : ∀ j, i ≤ j → j < n → ∑ k ∈ Finset.range (m - i), |(a.get (i + 0 + k) j).rv| ≤ 2 ^ (F.emax - 8) := by
    intro j hj hj2
    refine (sum_abs_le_sqrt (m - i) fun k => (a.get (i + k) j).rv).trans (le_trans ?_ hX1)
    exact mul_le_mul (Real.sqrt_le_sqrt hle) ((ha.len j hj hj2).trans hBX) (Real.sqrt_nonneg _) (Real.sqrt_nonneg _)
  have hhi : ∑ k ∈ Finset.range (m - i), (a.get (i + 0 + k) i).rv * (a.get (i + 0 + k) i).rv ≤ 2 ^ (F.emax - 5) := by
    have h3 := pow_le_pow_left₀ (Real.sqrt_nonneg _) ((ha.len i le_rfl hi).trans hBX) 2
    rw [Real.sq_sqrt (Finset.sum_nonneg fun _ _ => sq_nonneg _)] at h3
    simp only [sq] at h3 hX2
    exact h3.trans hX2
  have hn2 : m - i + 2 ≤ 2 ^ (F.mant - 6) := by omega
  have hf : ∀ k j, k < m - i → i ≤ j → j < a.nc → IsFin (a.get (i + 0 + k) j) ∧ Proper (a.get (i + 0 + k) j) :=
    fun k j hk hj hj2 => ⟨ha.fin _ _ (by omega) (by omega), ha.proper _ _⟩
  have hn : m - i = a.nr - (i + 0) := by rw [h1, Nat.add_zero]
  have hlo := C152_in_range hF P a b d i 0 (m - i) (by omega) (by omega) hn hn2 (fun k hk => hf k i hk le_rfl (by omega)) hhi h hd
  obtain ⟨b1, d1, e1, -, -, f1, g1, w, d', -, -, f2, f3⟩ := C149_clear hF P a i 0 (m - i) (by omega) (by omega) hn hn2 hf hlo hhi
    (fun j hj hj2 => hsq j hj.le (by omega))
  obtain ⟨b2, d2, e2, -, f4⟩ := C151_lengths hF P a i 0 (m - i) (by omega) (by omega) hn hn2 hf hlo hhi
    (fun j hj hj2 => hsq j hj.le (by omega))
  rw [h] at e1 e2
  injection e1 with e1
  injection e1 with hb1 hd1
  injection e2 with e2
  injection e2 with hb2 hd2
  subst hb1 hd1 hb2 hd2
  refine ⟨f1, fun r j hr hj => ?_, proper_clearColumn (by omega) (by omega) ha.proper h hd0, fun j hj hj2 => ?_⟩
  · by_cases hc : r < i + 0 ∨ j < i
    · rw [g1 r j hc]; exact ha.fin r j hr hj
    · obtain ⟨k, rfl⟩ : ∃ k, r = i + 0 + k := ⟨r - i, by omega⟩
      rcases (by omega : j = i ∨ i < j) with rfl | hij
      · exact (f2 k (by omega)).1
      · exact (f3 k j (by omega) hij (by omega)).1
  · have k1 := (abs_le.1 (f4 j (by omega) (by omega))).2
    have k2 : √(∑ k ∈ Finset.range (m - (i + 1)), (b.get (i + 1 + k) j).rv ^ 2) ≤
        √(∑ k ∈ Finset.range (m - i), (b.get (i + 0 + k) j).rv ^ 2) := by
      refine Real.sqrt_le_sqrt ?_
      rw [show m - i = m - (i + 1) + 1 by omega, Finset.sum_range_succ' (fun k => (b.get (i + 0 + k) j).rv ^ 2)]
      refine le_add_of_le_of_nonneg (Finset.sum_le_sum fun k _ => ?_) (sq_nonneg _)
      rw [show i + 0 + (k + 1) = i + 1 + k by omega]
    have k3 : √(∑ k ∈ Finset.range (m - i), (a.get (i + 0 + k) j).rv ^ 2) ≤ B := ha.len j (by omega) hj2
    have C := ieee_cholRange hF P hm
    have hg := C.g0
    have hg' := (ieee_cholRange hF P hn2).g0
    have hgm : gam (2 ^ (-(F.mant : ℤ) - 1)) (m - i + 2) ≤ gam (2 ^ (-(F.mant : ℤ) - 1)) (m + 2) :=
      gam_mono (by positivity) (by omega) C.nu
    have k4 : 65 * ((m - i : Nat) : ℝ) * √((m - i : Nat) : ℝ) * gam (2 ^ (-(F.mant : ℤ) - 1)) (m - i + 2) *
        √(∑ k ∈ Finset.range (m - i), (a.get (i + 0 + k) j).rv ^ 2) ≤
        65 * m * √m * gam (2 ^ (-(F.mant : ℤ) - 1)) (m + 2) * B := by
      have := Real.sqrt_le_sqrt hle
      gcongr
    have k5 : 12 * ((m - i : Nat) : ℝ) * (((m - i : Nat) : ℝ) + 1) ^ 2 * 2 ^ (F.emin - 1) ≤
        12 * m * ((m : ℝ) + 1) ^ 2 * 2 ^ (F.emin - 1) := by
      gcongr
    linarith

/-- C153: in every IEEE 754 format with at least the precision and range of single precision, if the entries of a matrix with at
least as many rows as columns are finite and its columns are of length at most `X₀`, where `X₀` with the growth of all steps
stays below `2^(emax - 8) / √m` and `2^((emax - 5) / 2)`, and the squares of all entries of the diagonal that `qr_into` returns are at
least `4 * 2^(emin + 2 mant + 2)`, then all numbers in the factorisation are finite. -/
theorem C153_qr {F : Format} (hF : F.Wide) (P : DotPlans) (a : Arr2 (Flt { Rounding.ieee F with plans := P })) (hmn : a.nc ≤ a.nr)
    (hm : a.nr + 2 ≤ 2 ^ (F.mant - 6)) (hf : ∀ i j, i < a.nr → j < a.nc → IsFin (a.get i j)) (hp : ∀ i j, Proper (a.get i j))
    {X₀ X ρ τ : ℝ} (hρ : ρ = 65 * a.nr * √a.nr * gam (2 ^ (-(F.mant : ℤ) - 1)) (a.nr + 2))
    (hτ : τ = 12 * a.nr * ((a.nr : ℝ) + 1) ^ 2 * 2 ^ (F.emin - 1)) (h0 : 0 ≤ X₀)
    (hlen : ∀ j, j < a.nc → √(∑ k ∈ Finset.range a.nr, (a.get k j).rv ^ 2) ≤ X₀) (hX : (1 + ρ) ^ a.nc * (X₀ + a.nc * τ) ≤ X)
    (hX1 : √a.nr * X ≤ 2 ^ (F.emax - 8)) (hX2 : X ^ 2 ≤ 2 ^ (F.emax - 5)) :
    ∃ q, qrInto a = .ok q ∧ ((∀ k, k < a.nc → 4 * 2 ^ (F.emin + 2 * F.mant + 2) ≤ (q.diag.get k).rv ^ 2) →
      (∀ i j, i < a.nr → j < a.nc → IsFin (q.qr.get i j)) ∧ ∀ k, k < a.nc → IsFin (q.diag.get k)) := by
  have hg := (ieee_cholRange hF P hm).g0
  have hρ0 : 0 ≤ ρ := by rw [hρ]; positivity
  have hτ0 : 0 ≤ τ := by rw [hτ]; positivity
  have main : ∀ i, i ≤ a.nc → ∃ b diag, forRange 0 i (a, (Arr1.zeros a.nc : Arr1 (Flt { Rounding.ieee F with plans := P }))) (fun i (a, diag) => do
      let (a, d) ← clearColumn a i 0
      let diag ← diag.idxSet i d
      .ok (a, diag)) = .ok (b, diag) ∧ b.nr = a.nr ∧ b.nc = a.nc ∧ diag.len = a.nc ∧
      ((∀ k, k < i → 4 * 2 ^ (F.emin + 2 * F.mant + 2) ≤ (diag.get k).rv ^ 2) →
        QrGood a.nr a.nc i b ((1 + ρ) ^ i * (X₀ + i * τ)) ∧ ∀ k, k < i → IsFin (diag.get k)) := by
    intro i
    induction i with
    | zero =>
      intro _
      refine ⟨a, Arr1.zeros a.nc, by rw [forRange_self], rfl, rfl, rfl, fun _ => ⟨⟨hf, hp, fun j _ hj => ?_⟩, fun k hk => by omega⟩⟩
      simpa using hlen j hj
    | succ i ih =>
      intro hi
      obtain ⟨b, diag, e, e1, e2, e3, e4⟩ := ih (by omega)
      obtain ⟨b', d, e5, e6, e7⟩ := clearColumn_ok b i 0 (by omega) (by omega)
      refine ⟨b', ⟨diag.len, fun k => if k = i then d else diag.get k⟩, ?_, e6.trans e1, e7.trans e2, e3, fun h => ?_⟩
      · rw [forRange_succ (Nat.zero_le i), e, ok_bind]
        simp only
        rw [e5, ok_bind]
        simp only
        rw [Arr1.idxSet_ok (by omega), ok_bind]
        rfl
      · obtain ⟨hG, hD⟩ := e4 (fun k hk => by
          have := h k (by omega)
          simp only at this
          rwa [if_neg (by omega)] at this)
        have hdi := h i (by omega)
        simp only at hdi
        rw [if_pos trivial] at hdi
        have hpow : (1 + ρ) ^ i * (X₀ + i * τ) ≤ X := by
          refine le_trans ?_ hX
          have h1 : (1 : ℝ) + ρ ≥ 1 := by linarith
          have h2 : (i : ℝ) ≤ a.nc := by exact_mod_cast (by omega : i ≤ a.nc)
          have h3 : (1 + ρ) ^ i ≤ (1 + ρ) ^ a.nc := pow_le_pow_right₀ h1 (by omega)
          gcongr
        obtain ⟨fd, hG'⟩ := qr_step_range hF P (by omega) hmn hm e1 e2 hG (by positivity) hpow hX1 hX2 e5 hdi
        refine ⟨⟨hG'.fin, hG'.proper, fun j hj hj2 => (hG'.len j hj hj2).trans ?_⟩, fun k hk => ?_⟩
        · rw [← hρ, ← hτ]
          have h1 : 1 ≤ (1 + ρ) ^ (i + 1) := one_le_pow₀ (by linarith)
          have h2 : τ ≤ (1 + ρ) ^ (i + 1) * τ := le_mul_of_one_le_left hτ0 h1
          push_cast
          rw [pow_succ] at h2 ⊢
          linarith
        · simp only
          split_ifs with hki
          · exact fd
          · exact hD k (by omega)
  obtain ⟨b, diag, e, e1, e2, e3, e4⟩ := main a.nc le_rfl
  refine ⟨⟨b, diag⟩, ?_, fun h => ?_⟩
  · unfold qrInto
    rw [if_neg (by omega), e]
    rfl
  · obtain ⟨hG, hD⟩ := e4 h
    exact ⟨hG.fin, hD⟩

/-- A column `3, -4, 2^40`. -/
noncomputable def exQr {R : Rounding} : Arr2 (Flt R) :=
  ⟨3, 1, fun i _ => if i = 0 then .fin false 3 else if i = 1 then .fin true 4 else .fin false (2 ^ 40)⟩

/-- `exQr` meets all conditions, those on the result included. -/
theorem exQr_ok (P : DotPlans) : ∃ q, qrInto (exQr : Arr2 (Flt { Rounding.ieee .single with plans := P })) = .ok q ∧
    (∀ i j, i < 3 → j < 1 → IsFin (q.qr.get i j)) ∧ IsFin (q.diag.get 0) := by
  have hfp : ∀ i j, IsFin ((exQr : Arr2 (Flt { Rounding.ieee .single with plans := P })).get i j) ∧
      Proper ((exQr : Arr2 (Flt { Rounding.ieee .single with plans := P })).get i j) := fun i _ => exDot_ok i
  have hg := (ieee_cholRange Format.single_wide P (n := 3) (by norm_num [Format.single])).g1
  have hg0 := (ieee_cholRange Format.single_wide P (n := 3) (by norm_num [Format.single])).g0
  have hsq3 : √((3 : Nat) : ℝ) ≤ 2 := by rw [Real.sqrt_le_left (by norm_num)]; norm_num
  have hS : ∑ k ∈ Finset.range 3, ((exQr : Arr2 (Flt { Rounding.ieee .single with plans := P })).get k 0).rv ^ 2 = 9 + 16 + (2 ^ 40) ^ 2 := by
    simp [exQr, Finset.sum_range_succ, rv, val, sgn]; norm_num
  have hS' : ∑ k ∈ Finset.range 3, ((exQr : Arr2 (Flt { Rounding.ieee .single with plans := P })).get (0 + 0 + k) 0).rv *
      ((exQr : Arr2 (Flt { Rounding.ieee .single with plans := P })).get (0 + 0 + k) 0).rv = 9 + 16 + (2 ^ 40) ^ 2 := by
    rw [← hS]
    refine Finset.sum_congr rfl fun k _ => ?_
    rw [sq, show 0 + 0 + k = k by omega]
  obtain ⟨q, hq, h⟩ := C153_qr Format.single_wide P exQr (by norm_num [exQr]) (by norm_num [exQr, Format.single])
    (fun i j _ _ => (hfp i j).1) (fun i j => (hfp i j).2) (X₀ := 2 ^ 41) (X := 2 ^ 45) rfl rfl (by norm_num)
    (fun j hj => by
      obtain rfl : j = 0 := by simp only [exQr] at hj; omega
      change √(∑ k ∈ Finset.range 3, ((exQr : Arr2 (Flt { Rounding.ieee .single with plans := P })).get k 0).rv ^ 2) ≤ _
      rw [hS, Real.sqrt_le_left (by norm_num)]
      norm_num)
    (by
      change (1 + 65 * ((3 : Nat) : ℝ) * √((3 : Nat) : ℝ) * gam (2 ^ (-(Format.single.mant : ℤ) - 1)) (3 + 2)) ^ 1 *
        (2 ^ 41 + ((1 : Nat) : ℝ) * (12 * ((3 : Nat) : ℝ) * (((3 : Nat) : ℝ) + 1) ^ 2 * 2 ^ (Format.single.emin - 1))) ≤ 2 ^ 45
      have h1 : 65 * ((3 : Nat) : ℝ) * √((3 : Nat) : ℝ) * gam (2 ^ (-(Format.single.mant : ℤ) - 1)) (3 + 2) ≤ 65 * 3 * 2 * (1 / 100) := by
        push_cast at hsq3 ⊢
        gcongr
      have h2 : ((1 : Nat) : ℝ) * (12 * ((3 : Nat) : ℝ) * (((3 : Nat) : ℝ) + 1) ^ 2 * 2 ^ (Format.single.emin - 1)) ≤ 1 := by
        norm_num [Format.single]
      have h3 : (0 : ℝ) ≤ ((1 : Nat) : ℝ) * (12 * ((3 : Nat) : ℝ) * (((3 : Nat) : ℝ) + 1) ^ 2 * 2 ^ (Format.single.emin - 1)) := by positivity
      rw [pow_one]
      refine (mul_le_mul (b := 65 * 3 * 2 * (1 / 100) + 1) (d := 2 ^ 41 + 1) (by linarith) (by linarith) (by linarith) (by norm_num)).trans ?_
      norm_num)
    (by
      refine (mul_le_mul_of_nonneg_right hsq3 (by norm_num)).trans ?_
      norm_num [Format.single])
    (by norm_num [Format.single])
  obtain ⟨b, d, hb, e, -⟩ := C151_lengths Format.single_wide P exQr 0 0 3 (by norm_num [exQr]) (by norm_num [exQr]) rfl
    (by norm_num [Format.single]) (fun k j _ _ _ => hfp _ _) (by rw [hS']; norm_num [Format.single]) (by rw [hS']; norm_num [Format.single])
    (fun j h1 h2 => by simp only [exQr] at h2; omega)
  have hd : q.diag.get 0 = d := by
    unfold qrInto at hq
    rw [if_neg (by norm_num [exQr])] at hq
    rw [show (exQr : Arr2 (Flt { Rounding.ieee .single with plans := P })).nc = 0 + 1 from rfl, forRange_succ le_rfl, forRange_self, ok_bind] at hq
    simp only at hq
    rw [hb, ok_bind] at hq
    simp only at hq
    rw [Arr1.idxSet_ok (by norm_num [Arr1.zeros])] at hq
    injection hq with hq
    rw [← hq]
    rfl
  have hN : 1 ≤ √(∑ k ∈ Finset.range 3, ((exQr : Arr2 (Flt { Rounding.ieee .single with plans := P })).get (0 + 0 + k) 0).rv ^ 2) := by
    rw [Real.one_le_sqrt]
    simp only [sq]
    rw [hS']
    norm_num
  have h4 : 4 * 2 ^ (Format.single.emin + 2 * Format.single.mant + 2) ≤ d.rv ^ 2 := by
    generalize √(∑ k ∈ Finset.range 3, ((exQr : Arr2 (Flt { Rounding.ieee .single with plans := P })).get (0 + 0 + k) 0).rv ^ 2) = N at *
    have h2 := (abs_le.1 e).1
    have h3 : 3 * gam (2 ^ (-(Format.single.mant : ℤ) - 1)) (3 + 2) * N ≤ 3 / 100 * N :=
      mul_le_mul_of_nonneg_right (by linarith) (by linarith)
    have h4 : 1 / 2 ≤ |d.rv| := by linarith
    have h5 := pow_le_pow_left₀ (by norm_num) h4 2
    rw [sq_abs] at h5
    refine le_trans ?_ h5
    norm_num [Format.single]
  obtain ⟨r1, r2⟩ := h (fun k hk => by
    obtain rfl : k = 0 := by simp only [exQr] at hk; omega
    rw [hd]; exact h4)
  exact ⟨q, hq, r1, r2 0 (by norm_num [exQr])⟩

end LinfaLinalg
