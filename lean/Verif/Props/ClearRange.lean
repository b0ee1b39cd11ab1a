import Verif.Props.ReflRange

/-! # C149: one Householder step within the range of the float format -/

namespace LinfaLinalg

open Flt

theorem Flt.proper_axis {R : Rounding} {col w : Arr1 (Flt R)} {d : Flt R} (h : reflectionAxisMut col = .ok (w, some d)) :
    (∀ k, Proper (w.get k)) ∧ Proper d := by
  unfold reflectionAxisMut at h
  simp only [Arr1.dot, if_true, ok_bind] at h
  by_cases h0 : 0 < col.len
  · rw [Arr1.idx_ok h0, ok_bind, Arr1.idxSet_ok h0, ok_bind] at h
    split_ifs at h
    · injection h with h
      injection h with h1 h2
      injection h2 with h2
      subst h1 h2
      exact ⟨fun k => proper_div _ _, proper_neg (proper_mul _ _)⟩
    · injection h with h
      injection h with h1 h2
      cases h2
  · unfold Arr1.idx at h
    rw [if_neg h0] at h
    cases h

theorem Arr2.put_in {β : Type} (a r : Arr2 β) (p c : Nat) {k l : Nat} (hk : k < r.nr) (hl : l < r.nc) :
    (a.put p c r).get (p + k) (c + l) = r.get k l := by
  simp only [Arr2.put]
  rw [if_pos (by omega), Nat.add_sub_cancel_left, Nat.add_sub_cancel_left]

/-- An entry reflected along a nearby axis, then multiplied by a sign. -/
theorem clear_entry {g η L m c t t' w w' x y z v s : ℝ} (hg0 : 0 < g) (hg1 : g ≤ 1 / 100) (hη : 0 ≤ η)
    (hm : 1 ≤ m) (hL : 0 ≤ L) (hv : v ≤ 2 / 5 * g) (hs : |s| = 1) (hc : |c| ≤ L) (hw' : |w'| ≤ 1)
    (hw : |w - w'| ≤ 61 / 5 * g) (ht' : |t'| ≤ L) (htt : |t - t'| ≤ 61 / 5 * g * L) (hA : x ≤ 113 / 100 * L)
    (hy : |y - (c - 2 * w * t)| ≤ g * (|c| + 7 * |w| * x) + (6 * |w| * m + 3) * η)
    (hz : |z - y * s| ≤ v * |y * s| + η) (hx : 0 ≤ x) :
    |y| ≤ 4 * L + 10 * (m * η) ∧ |z - s * (c - 2 * w' * t')| ≤ 65 * g * L + 12 * m * η := by
  obtain ⟨q, hq⟩ : ∃ q, q = m * η := ⟨_, rfl⟩
  have hηq : η ≤ q := by rw [hq]; nlinarith
  have hq0 := hη.trans hηq
  have hgL : 0 ≤ g * L := by positivity
  have hgL1 : g * L ≤ 1 / 100 * L := mul_le_mul_of_nonneg_right hg1 hL
  have hwa : |w| ≤ 113 / 100 := by have := abs_sub_abs_le_abs_sub w w'; linarith
  have hwx : |w| * x ≤ 113 / 100 * (113 / 100 * L) := mul_le_mul hwa hA hx (by norm_num)
  have hy' : |y - (c - 2 * w * t)| ≤ 10 * (g * L) + 10 * q := by
    have h1 : g * (|c| + 7 * |w| * x) ≤ g * (10 * L) := mul_le_mul_of_nonneg_left (by nlinarith) hg0.le
    have h2 : |w| * q ≤ 113 / 100 * q := mul_le_mul_of_nonneg_right hwa hq0
    have h3 : (6 * |w| * m + 3) * η = 6 * (|w| * q) + 3 * η := by rw [hq]; ring
    linarith
  have hd : |w * t - w' * t'| ≤ 26 * (g * L) := by
    have h1 := abs_add_le (w * (t - t')) ((w - w') * t')
    rw [show w * (t - t') + (w - w') * t' = w * t - w' * t' by ring, abs_mul, abs_mul] at h1
    have h2 : |w| * |t - t'| ≤ 113 / 100 * (61 / 5 * g * L) := mul_le_mul hwa htt (abs_nonneg _) (by norm_num)
    have h3 : |w - w'| * |t'| ≤ 61 / 5 * g * L := mul_le_mul hw ht' (abs_nonneg _) (by positivity)
    linarith
  have hE : |y - (c - 2 * w' * t')| ≤ 62 * (g * L) + 10 * q := by
    have h1 := abs_add_le (y - (c - 2 * w * t)) (-(2 * (w * t - w' * t')))
    rw [show y - (c - 2 * w * t) + -(2 * (w * t - w' * t')) = y - (c - 2 * w' * t') by ring, abs_neg,
      abs_mul (2 : ℝ), abs_of_pos (by norm_num : (0 : ℝ) < 2)] at h1
    linarith
  have hw't : |w' * t'| ≤ L := by
    rw [abs_mul]
    calc |w'| * |t'| ≤ 1 * L := mul_le_mul hw' ht' (abs_nonneg _) (by norm_num)
      _ = L := one_mul L
  have hex : |c - 2 * w' * t'| ≤ 3 * L := by
    have h1 := abs_sub c (2 * (w' * t'))
    rw [abs_mul (2 : ℝ), abs_of_pos (by norm_num : (0 : ℝ) < 2), ← mul_assoc] at h1
    linarith
  have hyb : |y| ≤ 4 * L + 10 * q := by
    have := abs_sub_abs_le_abs_sub y (c - 2 * w' * t')
    linarith
  rw [mul_assoc 12, ← hq]
  refine ⟨hyb, ?_⟩
  have h1 := abs_sub_le z (y * s) (s * (c - 2 * w' * t'))
  rw [show y * s - s * (c - 2 * w' * t') = s * (y - (c - 2 * w' * t')) by ring, abs_mul s, hs, one_mul] at h1
  rw [abs_mul, hs, mul_one] at hz
  have h2 : v * |y| ≤ 2 / 5 * g * (4 * L + 10 * q) := mul_le_mul hv hyb (abs_nonneg _) (by positivity)
  have h3 : g * q ≤ 1 / 100 * q := mul_le_mul_of_nonneg_right hg1 hq0
  linarith

/-- C149: in every IEEE 754 format with at least the precision and range of single precision, if the entries of the lower
part of column `icol` are finite with squares adding up to between `2^(emin + 2 mant + 2)` and `2^(emax - 5)`, and the lower
parts of the columns to the right are finite with absolute values adding up to at most `2^(emax - 8)`, then `clear_column`
returns and everything it writes is finite: the norm, the axis and the reflected columns. The reflected columns differ from the
exact reflection times the sign of the norm by at most `65 γ_(n+2)` times the sum of the absolute values of the column plus an
underflow error. The exact reflection has an axis of length 1 and clears the column. Nothing else is written. -/
theorem C149_clear {F : Format} (hF : F.Wide) (P : DotPlans) (a : Arr2 (Flt { Rounding.ieee F with plans := P }))
    (icol shift n : Nat) (hc : icol < a.nc) (hr : icol + shift < a.nr) (hn : n = a.nr - (icol + shift))
    (hn2 : n + 2 ≤ 2 ^ (F.mant - 6))
    (hf : ∀ k j, k < n → icol ≤ j → j < a.nc → IsFin (a.get (icol + shift + k) j) ∧ Proper (a.get (icol + shift + k) j))
    (hlo : 2 ^ (F.emin + 2 * F.mant + 2) ≤
      ∑ k ∈ Finset.range n, (a.get (icol + shift + k) icol).rv * (a.get (icol + shift + k) icol).rv)
    (hhi : ∑ k ∈ Finset.range n, (a.get (icol + shift + k) icol).rv * (a.get (icol + shift + k) icol).rv ≤ 2 ^ (F.emax - 5))
    (hS : ∀ j, icol < j → j < a.nc → ∑ k ∈ Finset.range n, |(a.get (icol + shift + k) j).rv| ≤ 2 ^ (F.emax - 8)) :
    ∃ b d, clearColumn a icol shift = .ok (b, d) ∧ b.nr = a.nr ∧ b.nc = a.nc ∧ IsFin d ∧
      (∀ i j, i < icol + shift ∨ j < icol → b.get i j = a.get i j) ∧
      ∃ (w : Nat → ℝ) (d' : ℝ), ReflSpec n (fun k => (a.get (icol + shift + k) icol).rv) w d' ∧
        |d.rv - d'| ≤ 3 * gam (2 ^ (-(F.mant : ℤ) - 1)) (n + 2) * |d'| ∧
        (∀ k, k < n → IsFin (b.get (icol + shift + k) icol) ∧ |(b.get (icol + shift + k) icol).rv - w k| ≤
          12 * gam (2 ^ (-(F.mant : ℤ) - 1)) (n + 2) * |w k| + 2 ^ (F.emin - 1)) ∧
        ∀ k j, k < n → icol < j → j < a.nc → IsFin (b.get (icol + shift + k) j) ∧
          |(b.get (icol + shift + k) j).rv - (if d' < 0 then -1 else 1) * ((a.get (icol + shift + k) j).rv -
            2 * w k * ∑ l ∈ Finset.range n, w l * (a.get (icol + shift + l) j).rv)| ≤
          65 * gam (2 ^ (-(F.mant : ℤ) - 1)) (n + 2) * ∑ l ∈ Finset.range n, |(a.get (icol + shift + l) j).rv| +
            12 * ((n : ℝ) + 1) ^ 2 * 2 ^ (F.emin - 1) := by
  have hn0 : 0 < n := by omega
  have C := ieee_cholRange hF P hn2
  have hg0 := C.g0
  have hg1 := C.g1
  have hη0 := C.acc.η_nonneg
  have hu1 := C.acc.u_lt_one
  have hu0 : (0 : ℝ) < 2 ^ (-(F.mant : ℤ) - 1) := by positivity
  have hn1 : (1 : ℝ) ≤ n := by exact_mod_cast hn0
  have hgu : ((n + 2 : Nat) : ℝ) * 2 ^ (-(F.mant : ℤ) - 1) ≤ gam (2 ^ (-(F.mant : ℤ) - 1)) (n + 2) := le_gam hu0.le C.nu
  push_cast at hgu
  have hug : 3 * (2 : ℝ) ^ (-(F.mant : ℤ) - 1) ≤ gam (2 ^ (-(F.mant : ℤ) - 1)) (n + 2) := by
    have : 3 * (2 : ℝ) ^ (-(F.mant : ℤ) - 1) ≤ (n + 2) * (2 : ℝ) ^ (-(F.mant : ℤ) - 1) :=
      mul_le_mul_of_nonneg_right (by linarith) hu0.le
    linarith
  have hη1 : (2 : ℝ) ^ (F.emin - 1) ≤ 2 ^ (-(F.mant : ℤ) - 1) / 2 := by
    rw [le_div_iff₀ (by norm_num), ← zpow_add_one₀ (by norm_num)]
    exact zpow_le_zpow_right₀ (by norm_num) (by have := F.half; omega)
  have hηg : (2 : ℝ) ^ (F.emin - 1) ≤ gam (2 ^ (-(F.mant : ℤ) - 1)) (n + 2) / 6 := by linarith
  have hv0 : 0 ≤ (1 - (2 : ℝ) ^ (-(F.mant : ℤ) - 1))⁻¹ - 1 := by
    have : 1 ≤ (1 - (2 : ℝ) ^ (-(F.mant : ℤ) - 1))⁻¹ := by rw [one_le_inv₀ (by linarith)]; linarith
    linarith
  have hv : (1 - (2 : ℝ) ^ (-(F.mant : ℤ) - 1))⁻¹ - 1 ≤ 2 / 5 * gam (2 ^ (-(F.mant : ℤ) - 1)) (n + 2) := by
    have h1 : (1 - (2 : ℝ) ^ (-(F.mant : ℤ) - 1))⁻¹ ≤ 1 + 2 / 5 * gam (2 ^ (-(F.mant : ℤ) - 1)) (n + 2) := by
      rw [inv_le_iff_one_le_mul₀ (by linarith)]
      nlinarith
    linarith
  have e1 : (2 : ℝ) ^ (F.emax - 1) = 128 * 2 ^ (F.emax - 8) := by
    rw [show F.emax - 1 = 7 + (F.emax - 8) by ring, zpow_add₀ (by norm_num)]; norm_num
  have e2 : (2 : ℝ) ^ (F.emax - 7) = 2 * 2 ^ (F.emax - 8) := by
    rw [show F.emax - 7 = 1 + (F.emax - 8) by ring, zpow_add₀ (by norm_num)]; norm_num
  have hB : (1 : ℝ) ≤ 2 ^ (F.emax - 8) := one_le_zpow₀ (by norm_num) (by obtain ⟨w1, w2, w3⟩ := hF; have := F.one; omega)
  have hΩ := C.below
  rw [e1] at hΩ
  have hmη : ((n : ℝ) + 1) ^ 2 * 2 ^ (F.emin - 1) ≤ 2 ^ (F.emax - 8) := by
    have b1 : ((n + 2 : Nat) : ℝ) ≤ ((2 ^ (F.mant - 6) : Nat) : ℝ) := by exact_mod_cast hn2
    have b2 : (((2 ^ (F.mant - 6) : Nat) : ℝ)) ≤ 2 ^ (F.emax - 8) := by
      push_cast
      rw [← zpow_natCast]
      refine zpow_le_zpow_right₀ (by norm_num) ?_
      obtain ⟨w1, w2, w3⟩ := hF
      omega
    push_cast at b1 b2
    have h1 := C.ηn
    have h2 : ((n : ℝ) + 1) * 2 ^ (F.emin - 1) ≤ 1 := by nlinarith
    calc ((n : ℝ) + 1) ^ 2 * 2 ^ (F.emin - 1) = (n + 1) * ((n + 1) * 2 ^ (F.emin - 1)) := by ring
      _ ≤ 2 ^ (F.emax - 8) * 1 := mul_le_mul (by linarith) h2 (by positivity) (by positivity)
      _ = _ := mul_one _
  -- the axis
  obtain ⟨w, d, hax, hl, dfin, wfin, w', d', hspec, derr, werr⟩ := C146_axis hF P
    ⟨n, fun k => a.get (icol + shift + k) icol⟩ hn0 hn2 (fun k hk => hf k icol hk le_rfl hc) hlo hhi
  simp only at hl wfin hspec derr werr
  obtain ⟨pw, pd⟩ := proper_axis hax
  have hd0 : d' ≠ 0 := by
    intro h
    have h1 := hspec.norm
    rw [h, zero_mul] at h1
    have h2 : (0 : ℝ) < 2 ^ (F.emin + 2 * F.mant + 2) := by positivity
    rw [← h1] at hlo
    linarith
  have hunit := hspec.nonzero hd0
  have hw'1 : ∀ k, k < n → |w' k| ≤ 1 := by
    intro k hk
    have := Finset.single_le_sum (f := fun k => w' k * w' k) (fun k _ => mul_self_nonneg _) (Finset.mem_range.2 hk)
    rw [hunit] at this
    exact abs_le_one_iff_mul_self_le_one.2 this
  have hwd : ∀ k, k < n → |(w.get k).rv - w' k| ≤ 61 / 5 * gam (2 ^ (-(F.mant : ℤ) - 1)) (n + 2) := by
    intro k hk
    have h1 := werr k hk
    have h2 : 12 * gam (2 ^ (-(F.mant : ℤ) - 1)) (n + 2) * |w' k| ≤ 12 * gam (2 ^ (-(F.mant : ℤ) - 1)) (n + 2) * 1 :=
      mul_le_mul_of_nonneg_left (hw'1 k hk) (by linarith)
    linarith
  have hwa : ∀ k, k < n → |(w.get k).rv| ≤ 113 / 100 := by
    intro k hk
    have h1 := abs_sub_abs_le_abs_sub (w.get k).rv (w' k)
    have h2 := hwd k hk
    have h3 := hw'1 k hk
    linarith
  -- the sign
  obtain ⟨s, hss, hsd, fs, ps, es⟩ := signum_rv dfin pd
  have hs1 : |s| = 1 := by
    have : |s| * |s| = 1 := by rw [← abs_mul, hss, abs_one]
    exact (mul_self_eq_one_iff.1 this).resolve_right (by linarith [abs_nonneg s])
  have hsgn : s = if d' < 0 then -1 else 1 := by
    have hd1 : |d.rv - d'| ≤ 3 / 100 * |d'| := derr.trans (mul_le_mul_of_nonneg_right (by linarith) (abs_nonneg _))
    have hs' := abs_nonneg d.rv
    rw [← hsd] at hs'
    have hss' := mul_self_eq_one_iff.1 hss
    have hb := abs_le.1 hd1
    split_ifs with h
    · rw [abs_of_neg h] at hb
      rcases hss' with rfl | rfl
      · linarith
      · rfl
    · have h' : 0 < d' := lt_of_le_of_ne (not_lt.1 h) (Ne.symm hd0)
      rw [abs_of_pos h'] at hb
      rcases hss' with rfl | rfl
      · rfl
      · linarith
  -- the other columns
  set p := icol + shift with hp
  set a1 := a.putCol p icol w with ha1
  have hother : ∀ i j, i < p ∨ j ≠ icol → a1.get i j = a.get i j := by
    intro i j h
    simp only [ha1, Arr2.putCol]
    rw [if_neg (by omega)]
  have hcol : ∀ k, k < n → a1.get (p + k) icol = w.get k := by
    intro k hk
    simp only [ha1, Arr2.putCol, hl]
    rw [if_pos ⟨trivial, by omega, by omega⟩, Nat.add_sub_cancel_left]
  obtain ⟨r, hr1, hr2, hr3, hr4⟩ := C147_reflect hF P w
    (⟨n, a.nc - (icol + 1), fun i j => a1.get (p + i) (icol + 1 + j)⟩ : Arr2 (Flt { Rounding.ieee F with plans := P })) hl hn2
    (fun k hk => ⟨wfin k hk, pw k, (hwa k hk).trans (by norm_num)⟩)
    (fun i j hi hj => by
      simp only at hi hj ⊢
      rw [hother _ _ (Or.inr (by omega))]
      obtain ⟨h1, h2⟩ := hf i (icol + 1 + j) hi (by omega) (by omega)
      refine ⟨h1, h2, le_trans ?_ (hS (icol + 1 + j) (by omega) (by omega))⟩
      exact Finset.single_le_sum (f := fun k => |(a.get (p + k) (icol + 1 + j)).rv|) (fun k _ => abs_nonneg _) (Finset.mem_range.2 hi))
    (fun j hj => by
      simp only at hj ⊢
      rw [e2]
      refine le_trans ?_ (mul_le_mul_of_nonneg_left (hS (icol + 1 + j) (by omega) (by omega)) (by norm_num))
      rw [Finset.mul_sum]
      refine Finset.sum_le_sum fun k hk => ?_
      rw [hother _ _ (Or.inr (by omega)), abs_mul]
      exact mul_le_mul_of_nonneg_right ((hwa k (Finset.mem_range.1 hk)).trans (by norm_num)) (abs_nonneg _))
  simp only at hr2 hr3 hr4
  refine ⟨a1.put p (icol + 1) (r.map fun x => x * NdFloat.signum d), d, ?_, rfl, rfl, dfin, ?_, w', d', hspec, derr, ?_, ?_⟩
  · unfold clearColumn
    rw [Arr2.colSlice_ok hr.le le_rfl hc]
    simp only [ok_bind]
    rw [← hp, ← hn, hax]
    simp only [ok_bind]
    rw [Arr2.slice_ok (by exact hr.le) le_rfl (by exact hc) le_rfl]
    simp only [ok_bind]
    rw [show (a.putCol p icol w).nr - p = n from hn.symm, show (a.putCol p icol w).nc = a.nc from rfl, ← ha1, hr1]
    rfl
  · intro i j h
    simp only [Arr2.put]
    rw [if_neg (by omega)]
    exact hother i j (by omega)
  · intro k hk
    have e : (a1.put p (icol + 1) (r.map fun x => x * NdFloat.signum d)).get (p + k) icol = w.get k := by
      simp only [Arr2.put]
      rw [if_neg (by omega)]
      exact hcol k hk
    rw [e]
    exact ⟨wfin k hk, werr k hk⟩
  · intro k j hk hj hj2
    obtain ⟨l, rfl⟩ : ∃ l, j = icol + 1 + l := ⟨j - (icol + 1), by omega⟩
    have e : (a1.put p (icol + 1) (r.map fun x => x * NdFloat.signum d)).get (p + k) (icol + 1 + l) =
        r.get k l * NdFloat.signum d := by
      exact Arr2.put_in a1 _ p (icol + 1) (by rw [← hr2] at hk; exact hk) (by have h := hr3; simp only [Arr2.map]; omega)
    rw [e, ← hsgn]
    obtain ⟨rfin, rerr⟩ := hr4 k l hk (by omega)
    have ho : ∀ i, a1.get (p + i) (icol + 1 + l) = a.get (p + i) (icol + 1 + l) := fun i => hother _ _ (Or.inr (by omega))
    simp only [ho] at rerr
    have pr : Proper (r.get k l) := by
      have := reflectCols_eq w 0 (⟨n, a.nc - (icol + 1), fun i j => a1.get (p + i) (icol + 1 + j)⟩ :
        Arr2 (Flt { Rounding.ieee F with plans := P })) hl
      rw [this] at hr1
      injection hr1 with hr1
      rw [← hr1]
      dsimp only
      rw [if_pos ⟨hk, by omega⟩]
      exact proper_add _ _
    have hLj := hS (icol + 1 + l) hj hj2
    have hL0 : 0 ≤ ∑ i ∈ Finset.range n, |(a.get (p + i) (icol + 1 + l)).rv| := Finset.sum_nonneg fun _ _ => abs_nonneg _
    have hcL : |(a.get (p + k) (icol + 1 + l)).rv| ≤ ∑ i ∈ Finset.range n, |(a.get (p + i) (icol + 1 + l)).rv| :=
      Finset.single_le_sum (f := fun k => |(a.get (p + k) (icol + 1 + l)).rv|) (fun k _ => abs_nonneg _) (Finset.mem_range.2 hk)
    have hx0 : 0 ≤ ∑ i ∈ Finset.range n, |(w.get i).rv * (a.get (p + i) (icol + 1 + l)).rv| :=
      Finset.sum_nonneg fun _ _ => abs_nonneg _
    have hxL : ∑ i ∈ Finset.range n, |(w.get i).rv * (a.get (p + i) (icol + 1 + l)).rv| ≤
        113 / 100 * ∑ i ∈ Finset.range n, |(a.get (p + i) (icol + 1 + l)).rv| := by
      rw [Finset.mul_sum]
      refine Finset.sum_le_sum fun i hi => ?_
      rw [abs_mul]
      exact mul_le_mul_of_nonneg_right (hwa i (Finset.mem_range.1 hi)) (abs_nonneg _)
    have ht' : |∑ i ∈ Finset.range n, w' i * (a.get (p + i) (icol + 1 + l)).rv| ≤
        ∑ i ∈ Finset.range n, |(a.get (p + i) (icol + 1 + l)).rv| := by
      refine (Finset.abs_sum_le_sum_abs _ _).trans (Finset.sum_le_sum fun i hi => ?_)
      rw [abs_mul]
      exact mul_le_of_le_one_left (abs_nonneg _) (hw'1 i (Finset.mem_range.1 hi))
    have htt : |∑ i ∈ Finset.range n, (w.get i).rv * (a.get (p + i) (icol + 1 + l)).rv -
        ∑ i ∈ Finset.range n, w' i * (a.get (p + i) (icol + 1 + l)).rv| ≤
        61 / 5 * gam (2 ^ (-(F.mant : ℤ) - 1)) (n + 2) * ∑ i ∈ Finset.range n, |(a.get (p + i) (icol + 1 + l)).rv| := by
      rw [← Finset.sum_sub_distrib, Finset.mul_sum]
      refine (Finset.abs_sum_le_sum_abs _ _).trans (Finset.sum_le_sum fun i hi => ?_)
      rw [← sub_mul, abs_mul]
      exact mul_le_mul_of_nonneg_right (hwd i (Finset.mem_range.1 hi)) (abs_nonneg _)
    have hm1 : (1 : ℝ) ≤ ((n : ℝ) + 1) ^ 2 := by nlinarith
    have key := fun z hz => clear_entry (z := z) hg0 hg1 hη0 hm1 hL0 hv hs1 hcL (hw'1 k hk) (hwd k hk) ht' htt hxL rerr hz hx0
    have hb := (key ((r.get k l).rv * s) (by
      rw [sub_self, abs_zero]
      exact add_nonneg (mul_nonneg hv0 (abs_nonneg _)) hη0)).1
    obtain ⟨zf, ze⟩ := mul_step C.acc hΩ pr ps rfin fs (by rw [es, abs_mul, hs1]; linarith)
    rw [es] at ze
    exact ⟨zf, (key _ ze).2⟩

/-- C149, `clear_row`. -/
theorem C149_clear_row {F : Format} (hF : F.Wide) (P : DotPlans) (a : Arr2 (Flt { Rounding.ieee F with plans := P }))
    (irow shift n : Nat) (hc : irow < a.nr) (hr : irow + shift < a.nc) (hn : n = a.nc - (irow + shift))
    (hn2 : n + 2 ≤ 2 ^ (F.mant - 6))
    (hf : ∀ i k, irow ≤ i → i < a.nr → k < n → IsFin (a.get i (irow + shift + k)) ∧ Proper (a.get i (irow + shift + k)))
    (hlo : 2 ^ (F.emin + 2 * F.mant + 2) ≤
      ∑ k ∈ Finset.range n, (a.get irow (irow + shift + k)).rv * (a.get irow (irow + shift + k)).rv)
    (hhi : ∑ k ∈ Finset.range n, (a.get irow (irow + shift + k)).rv * (a.get irow (irow + shift + k)).rv ≤ 2 ^ (F.emax - 5))
    (hS : ∀ i, irow < i → i < a.nr → ∑ k ∈ Finset.range n, |(a.get i (irow + shift + k)).rv| ≤ 2 ^ (F.emax - 8)) :
    ∃ b d, clearRow a irow shift = .ok (b, d) ∧ b.nr = a.nr ∧ b.nc = a.nc ∧ IsFin d ∧
      (∀ i j, j < irow + shift ∨ i < irow → b.get i j = a.get i j) ∧
      ∃ (w : Nat → ℝ) (d' : ℝ), ReflSpec n (fun k => (a.get irow (irow + shift + k)).rv) w d' ∧
        |d.rv - d'| ≤ 3 * gam (2 ^ (-(F.mant : ℤ) - 1)) (n + 2) * |d'| ∧
        (∀ k, k < n → IsFin (b.get irow (irow + shift + k)) ∧ |(b.get irow (irow + shift + k)).rv - w k| ≤
          12 * gam (2 ^ (-(F.mant : ℤ) - 1)) (n + 2) * |w k| + 2 ^ (F.emin - 1)) ∧
        ∀ i k, irow < i → i < a.nr → k < n → IsFin (b.get i (irow + shift + k)) ∧
          |(b.get i (irow + shift + k)).rv - (if d' < 0 then -1 else 1) * ((a.get i (irow + shift + k)).rv -
            2 * w k * ∑ l ∈ Finset.range n, w l * (a.get i (irow + shift + l)).rv)| ≤
          65 * gam (2 ^ (-(F.mant : ℤ) - 1)) (n + 2) * ∑ l ∈ Finset.range n, |(a.get i (irow + shift + l)).rv| +
            12 * ((n : ℝ) + 1) ^ 2 * 2 ^ (F.emin - 1) := by
  obtain ⟨b, d, h1, h2, h3, h4, h5, w, d', h6, h7, h8, h9⟩ := C149_clear hF P a.t irow shift n hc hr hn hn2
    (fun k j hk hj hj2 => hf j k hj hj2 hk) hlo hhi hS
  refine ⟨b.t, d, ?_, h3, h2, h4, fun i j h => h5 j i h, w, d', h6, h7, h8, fun i k hi hi2 hk => h9 k i hk hi hi2⟩
  unfold clearRow
  rw [h1]
  rfl

/-- Three columns with numbers of different sizes. -/
noncomputable def exClear {R : Rounding} : Arr2 (Flt R) := ⟨4, 3, fun i j => .fin (i == j) (2 ^ (10 * i + j))⟩

theorem exClear_ok (P : DotPlans) : ∃ b d, clearColumn (exClear : Arr2 (Flt { Rounding.ieee .single with plans := P })) 1 0 = .ok (b, d) ∧
    IsFin d ∧ IsFin (b.get 3 2) := by
  obtain ⟨b, d, h1, -, -, h2, -, w, d', -, -, -, h3⟩ := C149_clear Format.single_wide P exClear 1 0 3 (by norm_num [exClear])
    (by norm_num [exClear]) rfl (by norm_num [Format.single])
    (fun k j _ _ _ => ⟨⟨_, _, rfl⟩, by intro s m h; cases h; positivity⟩)
    (by simp [exClear, Finset.sum_range_succ, rv, val, sgn, Format.single]; norm_num)
    (by simp [exClear, Finset.sum_range_succ, rv, val, sgn, Format.single]; norm_num)
    (fun j h1 h2 => by
      obtain rfl : j = 2 := by simp only [exClear] at h2; omega
      simp [exClear, Finset.sum_range_succ, rv, val, sgn, Format.single]
      norm_num)
  exact ⟨b, d, h1, h2, (h3 2 2 (by norm_num) (by norm_num) (by norm_num [exClear])).1⟩

end LinfaLinalg
