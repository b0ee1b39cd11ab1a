import Verif.Props.QrRange

/-! # C154: the backward error of the QR factorisation within the range of the float format -/

namespace LinfaLinalg

open Flt Matrix

/-- The length of column `j`. -/
noncomputable def colLen {m n : Nat} (X : Matrix (Fin m) (Fin n) ℝ) (j : Fin n) : ℝ := √(∑ r, X r j ^ 2)

theorem colLen_orth {m n : Nat} {H : Matrix (Fin m) (Fin m) ℝ} (hH : Hᵀ * H = 1) (X : Matrix (Fin m) (Fin n) ℝ) (j : Fin n) :
    colLen (H * X) j = colLen X j := by
  have h : ∀ Y : Matrix (Fin m) (Fin n) ℝ, ∑ r, Y r j ^ 2 = (Yᵀ * Y) j j := fun Y => by
    rw [Matrix.mul_apply]
    exact Finset.sum_congr rfl fun r _ => by rw [sq, Matrix.transpose_apply]
  unfold colLen
  rw [h, h, Matrix.transpose_mul, Matrix.mul_assoc, ← Matrix.mul_assoc Hᵀ, hH, Matrix.one_mul]

theorem colLen_add_le {m n : Nat} (X Y : Matrix (Fin m) (Fin n) ℝ) (j : Fin n) :
    colLen (X + Y) j ≤ colLen X j + ∑ r, |Y r j| := by
  have h := abs_norm_shift m (fun k => if h : k < m then (X + Y) ⟨k, h⟩ j else 0) (fun k => if h : k < m then X ⟨k, h⟩ j else 0)
  rw [Finset.sum_range, Finset.sum_range, Finset.sum_range] at h
  simp only [Fin.is_lt, dite_true, Fin.eta, Matrix.add_apply, add_sub_cancel_left] at h
  have := (abs_le.1 h).2
  unfold colLen
  simp only [Matrix.add_apply]
  linarith

/-- The triangular factor after `i` steps: the finished columns have the absolute value of the norm on the diagonal and zeros
below, the others are as stored. -/
noncomputable def partR {R : Rounding} (m n i : Nat) (b : Arr2 (Flt R)) (diag : Nat → Flt R) : Matrix (Fin m) (Fin n) ℝ :=
  fun r j => if (j : Nat) < i then (if (r : Nat) < j then (b.get r j).rv else if (r : Nat) = j then |(diag j).rv| else 0)
    else (b.get r j).rv

/-- One step: the exact reflection applied to the triangular factor so far gives the next one up to `ε` per column. -/
theorem qr_step_backward {F : Format} (hF : F.Wide) (P : DotPlans) {m n i : Nat} (hi : i < n) (hmn : n ≤ m) (hm : m + 2 ≤ 2 ^ (F.mant - 6))
    {a b : Arr2 (Flt { Rounding.ieee F with plans := P })} {d : Flt { Rounding.ieee F with plans := P }} {B X : ℝ}
    (h1 : a.nr = m) (h2 : a.nc = n) (ha : QrGood m n i a B) (hB0 : 0 ≤ B) (hBX : B ≤ X) (hX1 : √m * X ≤ 2 ^ (F.emax - 8)) (hX2 : X ^ 2 ≤ 2 ^ (F.emax - 5))
    (h : clearColumn a i 0 = .ok (b, d)) (hd : 4 * 2 ^ (F.emin + 2 * F.mant + 2) ≤ d.rv ^ 2)
    (diag diag' : Nat → Flt { Rounding.ieee F with plans := P }) (hdi : diag' i = d) (hdk : ∀ k, k < i → diag' k = diag k) :
    ∃ H : Matrix (Fin m) (Fin m) ℝ, Hᵀ * H = 1 ∧ ∀ j : Fin n,
      ∑ r, |(partR m n (i + 1) b diag' - H * partR m n i a diag) r j| ≤
        65 * m * √m * gam (2 ^ (-(F.mant : ℤ) - 1)) (m + 2) * B + 12 * m * ((m : ℝ) + 1) ^ 2 * 2 ^ (F.emin - 1) := by
  have hL0 : (0 : ℝ) < 2 ^ (F.emin + 2 * F.mant + 2) := by positivity
  have hle : (((m - i : Nat) : ℝ)) ≤ m := by exact_mod_cast Nat.sub_le m i
  have hsq : ∀ j, i ≤ j → j < n → ∑ k ∈ Finset.range (m - i), |(a.get (i + 0 + k) j).rv| ≤ √m * B := by
    intro j hj hj2
    refine (sum_abs_le_sqrt (m - i) fun k => (a.get (i + k) j).rv).trans ?_
    exact mul_le_mul (Real.sqrt_le_sqrt hle) (ha.len j hj hj2) (Real.sqrt_nonneg _) (Real.sqrt_nonneg _)
  have hsX : √m * B ≤ 2 ^ (F.emax - 8) := (mul_le_mul_of_nonneg_left hBX (Real.sqrt_nonneg _)).trans hX1
  have hhi : ∑ k ∈ Finset.range (m - i), (a.get (i + 0 + k) i).rv * (a.get (i + 0 + k) i).rv ≤ 2 ^ (F.emax - 5) := by
    have h3 := pow_le_pow_left₀ (Real.sqrt_nonneg _) ((ha.len i le_rfl hi).trans hBX) 2
    rw [Real.sq_sqrt (Finset.sum_nonneg fun _ _ => sq_nonneg _)] at h3
    simp only [sq] at h3 hX2
    exact h3.trans hX2
  have hn2 : m - i + 2 ≤ 2 ^ (F.mant - 6) := by omega
  have hf : ∀ k j, k < m - i → i ≤ j → j < a.nc → IsFin (a.get (i + 0 + k) j) ∧ Proper (a.get (i + 0 + k) j) :=
    fun k j hk hj hj2 => ⟨ha.fin _ _ (by omega) (by omega), ha.proper _ _⟩
  have hn : m - i = a.nr - (i + 0) := by rw [h1, Nat.add_zero]
  have hlo := C152_in_range hF P a b d i 0 (m - i) (by omega) (by omega) hn hn2 (fun k hk => hf k i hk le_rfl (by omega)) hhi h hd
  obtain ⟨b1, d1, e1, -, -, -, g1, w, d', hs, hdd, -, f3⟩ := C149_clear hF P a i 0 (m - i) (by omega) (by omega) hn hn2 hf hlo hhi
    (fun j hj hj2 => (hsq j hj.le (by omega)).trans hsX)
  rw [h] at e1
  injection e1 with e1
  injection e1 with hb1 hd1
  subst hb1 hd1
  simp only [Nat.add_zero] at g1 hs f3 hlo hsq hhi
  have hd0 : d' ≠ 0 := by
    intro h
    have h2 := hs.norm
    rw [h, zero_mul] at h2
    rw [← h2] at hlo
    linarith
  have hunit := hs.nonzero hd0
  have C := ieee_cholRange hF P hm
  have hg := C.g0
  have hg' := (ieee_cholRange hF P hn2).g0
  have hgm : gam (2 ^ (-(F.mant : ℤ) - 1)) (m - i + 2) ≤ gam (2 ^ (-(F.mant : ℤ) - 1)) (m + 2) :=
    gam_mono (by positivity) (by omega) C.nu
  obtain ⟨σ, hσ⟩ : ∃ σ : ℝ, σ = if d' < 0 then -1 else 1 := ⟨_, rfl⟩
  have hσσ : σ * σ = 1 := by rw [hσ]; split_ifs <;> norm_num
  have hσd : σ * d' = |d'| := by
    rw [hσ]; split_ifs with hneg
    · rw [abs_of_neg hneg]; ring
    · rw [abs_of_nonneg (not_lt.1 hneg), one_mul]
  -- sums with the axis
  have hsum : ∀ f : Nat → ℝ, ∑ k ∈ Finset.range m, shiftVec i w k * f k = ∑ k ∈ Finset.range (m - i), w k * f (i + k) := by
    intro f
    rw [sum_range_supp (by omega : i ≤ m) _ (fun k hk => by rw [shiftVec_lt _ hk, zero_mul])]
    exact Finset.sum_congr rfl fun k _ => by rw [shiftVec_add]
  have hok : HouseOk m i σ (shiftVec i w) := by
    refine ⟨fun r h => shiftVec_lt _ h, hσσ, fun r _ => ?_⟩
    rw [hsum, Finset.sum_congr rfl fun k _ => by rw [shiftVec_add], hunit, sub_self, mul_zero]
  have hB1 : (0 : ℝ) ≤ 65 * m * √m * gam (2 ^ (-(F.mant : ℤ) - 1)) (m + 2) * B := by positivity
  have hτ1 : (0 : ℝ) ≤ 12 * m * ((m : ℝ) + 1) ^ 2 * 2 ^ (F.emin - 1) := by positivity
  have hm1 : (1 : ℝ) ≤ m := by exact_mod_cast (by omega : 1 ≤ m)
  refine ⟨house m i σ (shiftVec i w), house_orth hok, fun j => ?_⟩
  have happ : ∀ f : Nat → ℝ, (∀ k : Fin m, f k = partR m n i a diag k j) → ∀ r : Fin m,
      (house m i σ (shiftVec i w) * partR m n i a diag) r j = if (r : Nat) < i then f r else
        σ * (f r - 2 * shiftVec i w r * ∑ k ∈ Finset.range (m - i), w k * f (i + k)) := by
    intro f hf r
    rw [house_mul_hApp _ f r j hf, hApp, hsum]
  rcases lt_trichotomy (j : Nat) i with hj | hj | hj
  · -- a finished column
    refine (Finset.sum_eq_zero fun r _ => ?_).trans_le (by linarith)
    rw [Matrix.sub_apply, happ (fun k => if k < j then (a.get k j).rv else if k = j then |(diag j).rv| else 0)
      (fun k => by unfold partR; rw [if_pos hj])]
    have hz : ∑ k ∈ Finset.range (m - i), w k * (if i + k < j then (a.get (i + k) j).rv else if i + k = j then |(diag j).rv| else 0) = 0 :=
      Finset.sum_eq_zero fun k _ => by rw [if_neg (by omega), if_neg (by omega), mul_zero]
    simp only [hz, mul_zero, sub_zero]
    unfold partR
    rw [if_pos (by omega), g1 r j (Or.inr hj), hdk j hj]
    by_cases hr : (r : Nat) < i
    · rw [if_pos hr, sub_self, abs_zero]
    · rw [if_neg hr, if_neg (by omega), if_neg (by omega), mul_zero, sub_self, abs_zero]
  · -- the cleared column
    have hrow : ∀ r : Fin m, (partR m n (i + 1) b diag' - house m i σ (shiftVec i w) * partR m n i a diag) r j =
        if (r : Nat) = i then |d.rv| - |d'| else 0 := by
      intro r
      rw [Matrix.sub_apply, happ (fun k => (a.get k i).rv) (fun k => by unfold partR; rw [if_neg (by omega), hj])]
      unfold partR
      rw [if_pos (by omega), hj, hdi]
      by_cases hr : (r : Nat) < i
      · rw [if_pos hr, if_pos hr, if_neg (by omega), g1 r i (Or.inl hr), sub_self]
      · obtain ⟨k, hk⟩ : ∃ k, (r : Nat) = i + k := ⟨r - i, by omega⟩
        have := hs.refl k (by omega)
        rw [if_neg hr, if_neg hr, hk, shiftVec_add]
        simp only at this ⊢
        rw [this]
        by_cases hk0 : k = 0
        · rw [if_pos (by omega), if_pos hk0, if_pos (by omega), hσd]
        · rw [if_neg (by omega), if_neg hk0, if_neg (by omega), mul_zero, sub_zero]
    have hone : ∑ r : Fin m, |(if (r : Nat) = i then |d.rv| - |d'| else 0)| = |(|d.rv| - |d'|)| := by
      rw [Finset.sum_eq_single (⟨i, by omega⟩ : Fin m)]
      · simp
      · intro r _ hr
        rw [if_neg (fun h => hr (Fin.ext h)), abs_zero]
      · intro h; exact absurd (Finset.mem_univ _) h
    simp only [hrow]
    rw [hone]
    have hnorm : |d'| ≤ B := by
      have h3 := ha.len i le_rfl hi
      simp only [sq] at h3
      rwa [← hs.norm, Real.sqrt_mul_self_eq_abs] at h3
    have k1 : 3 * gam (2 ^ (-(F.mant : ℤ) - 1)) (m - i + 2) * |d'| ≤ 3 * gam (2 ^ (-(F.mant : ℤ) - 1)) (m + 2) * B := by gcongr
    have k2 : 1 ≤ √(m : ℝ) := Real.one_le_sqrt.2 hm1
    have k3 : 3 * gam (2 ^ (-(F.mant : ℤ) - 1)) (m + 2) * B ≤ 65 * m * √m * gam (2 ^ (-(F.mant : ℤ) - 1)) (m + 2) * B := by
      have : (3 : ℝ) ≤ 65 * m * √m := by nlinarith
      gcongr
    have k4 := abs_abs_sub_abs_le d.rv d'
    linarith
  · -- a reflected column
    have hrow : ∀ r : Fin m, |(partR m n (i + 1) b diag' - house m i σ (shiftVec i w) * partR m n i a diag) r j| ≤
        65 * gam (2 ^ (-(F.mant : ℤ) - 1)) (m + 2) * (√m * B) + 12 * ((m : ℝ) + 1) ^ 2 * 2 ^ (F.emin - 1) := by
      intro r
      rw [Matrix.sub_apply, happ (fun k => (a.get k j).rv) (fun k => by unfold partR; rw [if_neg (by omega)])]
      unfold partR
      rw [if_neg (by omega)]
      by_cases hr : (r : Nat) < i
      · rw [if_pos hr, g1 r j (Or.inl hr), sub_self, abs_zero]
        positivity
      · obtain ⟨k, hk⟩ : ∃ k, (r : Nat) = i + k := ⟨r - i, by omega⟩
        rw [if_neg hr, hk, shiftVec_add]
        have k1 := (f3 k j (by omega) hj (by omega)).2
        rw [← hσ] at k1
        refine k1.trans (add_le_add ?_ ?_)
        · have := hsq j hj.le (by omega)
          gcongr
        · gcongr
    refine (Finset.sum_le_sum fun r _ => hrow r).trans_eq ?_
    rw [Finset.sum_const, Finset.card_univ, Fintype.card_fin, nsmul_eq_mul]
    ring

theorem Flt.proper_clearNorm {R : Rounding} {a b : Arr2 (Flt R)} {d : Flt R} {icol shift : Nat} (hc : icol < a.nc)
    (hr : icol + shift < a.nr) (h : clearColumn a icol shift = .ok (b, d)) (hd : d.rv ≠ 0) : Proper d := by
  unfold clearColumn at h
  rw [Arr2.colSlice_ok hr.le le_rfl hc] at h
  simp only [ok_bind] at h
  obtain ⟨w, o, hw, hl⟩ := reflectionAxisMut_ok (⟨a.nr - (icol + shift), fun k => a.get (icol + shift + k) icol⟩ :
    Arr1 (Flt R)) (by simp only; omega)
  rw [hw] at h
  simp only [ok_bind] at h
  cases o with
  | none =>
    injection h with h
    injection h with _ h
    exact absurd (by rw [← h]; exact zero_rv) hd
  | some ν =>
    have pw := (proper_axis hw).2
    simp only at h
    rw [Arr2.slice_ok (by exact hr.le) le_rfl (by exact hc) le_rfl] at h
    simp only [ok_bind] at h
    rw [reflectCols_eq _ _ _ (by rw [hl]; rfl)] at h
    simp only [ok_bind] at h
    injection h with h
    injection h with _ h
    rw [← h]
    exact pw

/-- C154: under the conditions of C153, the triangular factor that `into_r` returns, with rows of zeros below, is an orthogonal
matrix times the given matrix, up to an error of length at most `n * (ρ * X + τ)` in every column. -/
theorem C154_backward {F : Format} (hF : F.Wide) (P : DotPlans) (a : Arr2 (Flt { Rounding.ieee F with plans := P })) (hmn : a.nc ≤ a.nr)
    (hm : a.nr + 2 ≤ 2 ^ (F.mant - 6)) (hf : ∀ i j, i < a.nr → j < a.nc → IsFin (a.get i j)) (hp : ∀ i j, Proper (a.get i j))
    {X₀ X ρ τ : ℝ} (hρ : ρ = 65 * a.nr * √a.nr * gam (2 ^ (-(F.mant : ℤ) - 1)) (a.nr + 2))
    (hτ : τ = 12 * a.nr * ((a.nr : ℝ) + 1) ^ 2 * 2 ^ (F.emin - 1)) (h0 : 0 ≤ X₀)
    (hlen : ∀ j, j < a.nc → √(∑ k ∈ Finset.range a.nr, (a.get k j).rv ^ 2) ≤ X₀) (hX : (1 + ρ) ^ a.nc * (X₀ + a.nc * τ) ≤ X)
    (hX1 : √a.nr * X ≤ 2 ^ (F.emax - 8)) (hX2 : X ^ 2 ≤ 2 ^ (F.emax - 5)) :
    ∃ q r, qrInto a = .ok q ∧ q.intoR = .ok r ∧ r.nr = a.nc ∧ r.nc = a.nc ∧
      ((∀ k, k < a.nc → 4 * 2 ^ (F.emin + 2 * F.mant + 2) ≤ (q.diag.get k).rv ^ 2) →
      ∃ Q : Matrix (Fin a.nr) (Fin a.nr) ℝ, Qᵀ * Q = 1 ∧ ∀ j : Fin a.nc,
        √(∑ i : Fin a.nr, ((if (i : Nat) < a.nc then (r.get i j).rv else 0) - ∑ k : Fin a.nr, Q i k * (a.get k j).rv) ^ 2) ≤
          a.nc * (ρ * X + τ)) := by
  have hg := (ieee_cholRange hF P hm).g0
  have hρ0 : 0 ≤ ρ := by rw [hρ]; positivity
  have hτ0 : 0 ≤ τ := by rw [hτ]; positivity
  have hL0 : (0 : ℝ) < 2 ^ (F.emin + 2 * F.mant + 2) := by positivity
  have main : ∀ i, i ≤ a.nc → ∃ b diag, forRange 0 i (a, (Arr1.zeros a.nc : Arr1 (Flt { Rounding.ieee F with plans := P }))) (fun i (a, diag) => do
      let (a, d) ← clearColumn a i 0
      let diag ← diag.idxSet i d
      .ok (a, diag)) = .ok (b, diag) ∧ b.nr = a.nr ∧ b.nc = a.nc ∧ diag.len = a.nc ∧
      ((∀ k, k < i → 4 * 2 ^ (F.emin + 2 * F.mant + 2) ≤ (diag.get k).rv ^ 2) →
        QrGood a.nr a.nc i b ((1 + ρ) ^ i * (X₀ + i * τ)) ∧ (∀ k, k < i → Proper (diag.get k)) ∧
        ∃ Q : Matrix (Fin a.nr) (Fin a.nr) ℝ, Qᵀ * Q = 1 ∧ ∀ j : Fin a.nc,
          colLen (partR a.nr a.nc i b diag.get - Q * partR a.nr a.nc 0 a diag.get) j ≤ i * (ρ * X + τ)) := by
    intro i
    induction i with
    | zero =>
      intro _
      refine ⟨a, Arr1.zeros a.nc, by rw [forRange_self], rfl, rfl, rfl, fun _ => ⟨⟨hf, hp, fun j _ hj => ?_⟩, fun k hk => by omega, 1, ?_, fun j => ?_⟩⟩
      · simpa using hlen j hj
      · rw [Matrix.transpose_one, Matrix.one_mul]
      · rw [Matrix.one_mul, sub_self]
        simp [colLen]
    | succ i ih =>
      intro hi
      obtain ⟨b, diag, e, e1, e2, e3, e4⟩ := ih (by omega)
      obtain ⟨b', d, e5, e6, e7⟩ := clearColumn_ok b i 0 (by omega) (by omega)
      refine ⟨b', ⟨diag.len, fun k => if k = i then d else diag.get k⟩, ?_, e6.trans e1, e7.trans e2, e3, fun h => ?_⟩
      · rw [forRange_succ (Nat.zero_le i), e, ok_bind]
        simp only
        rw [e5, ok_bind]
        simp only
        rw [Arr1.idxSet_ok (by omega), ok_bind]
        rfl
      · obtain ⟨hG, hD, Q, hQ, hE⟩ := e4 (fun k hk => by
          have := h k (by omega)
          simp only at this
          rwa [if_neg (by omega)] at this)
        have hdi := h i (by omega)
        simp only at hdi
        rw [if_pos trivial] at hdi
        have hd0 : d.rv ≠ 0 := by intro h; rw [h] at hdi; norm_num at hdi; linarith
        have hpow : (1 + ρ) ^ i * (X₀ + i * τ) ≤ X := by
          refine le_trans ?_ hX
          have h1 : (1 : ℝ) + ρ ≥ 1 := by linarith
          have h2 : (i : ℝ) ≤ a.nc := by exact_mod_cast (by omega : i ≤ a.nc)
          have h3 : (1 + ρ) ^ i ≤ (1 + ρ) ^ a.nc := pow_le_pow_right₀ h1 (by omega)
          gcongr
        obtain ⟨fd, hG'⟩ := qr_step_range hF P (by omega) hmn hm e1 e2 hG (by positivity) hpow hX1 hX2 e5 hdi
        obtain ⟨H, hH, hS⟩ := qr_step_backward hF P (by omega) hmn hm e1 e2 hG (by positivity) hpow hX1 hX2 e5 hdi diag.get
          (fun k => if k = i then d else diag.get k) (if_pos rfl) (fun k hk => if_neg (by omega))
        refine ⟨⟨hG'.fin, hG'.proper, fun j hj hj2 => (hG'.len j hj hj2).trans ?_⟩, fun k hk => ?_, H * Q, ?_, fun j => ?_⟩
        · rw [← hρ, ← hτ]
          have h1 : 1 ≤ (1 + ρ) ^ (i + 1) := one_le_pow₀ (by linarith)
          have h2 : τ ≤ (1 + ρ) ^ (i + 1) * τ := le_mul_of_one_le_left hτ0 h1
          push_cast
          rw [pow_succ] at h2 ⊢
          linarith
        · simp only
          split_ifs with hki
          · exact proper_clearNorm (by omega) (by omega) e5 hd0
          · exact hD k (by omega)
        · rw [Matrix.transpose_mul, Matrix.mul_assoc, ← Matrix.mul_assoc Hᵀ, hH, Matrix.one_mul, hQ]
        · have hsplit : partR a.nr a.nc (i + 1) b' (fun k => if k = i then d else diag.get k) - H * Q * partR a.nr a.nc 0 a diag.get =
              H * (partR a.nr a.nc i b diag.get - Q * partR a.nr a.nc 0 a diag.get) +
              (partR a.nr a.nc (i + 1) b' (fun k => if k = i then d else diag.get k) - H * partR a.nr a.nc i b diag.get) := by
            rw [Matrix.mul_sub, Matrix.mul_assoc]; abel
          have h0' : partR a.nr a.nc 0 a (fun k => if k = i then d else diag.get k) = partR a.nr a.nc 0 a diag.get := by
            funext r j; simp [partR]
          simp only
          rw [h0', hsplit]
          refine (colLen_add_le _ _ j).trans ?_
          rw [colLen_orth hH]
          have k1 := hS j
          rw [← hρ, ← hτ] at k1
          have k2 := mul_le_mul_of_nonneg_left hpow hρ0
          have k3 := hE j
          push_cast
          linarith
  obtain ⟨b, diag, e, e1, e2, e3, e4⟩ := main a.nc le_rfl
  have hsh : QRShape a.nr a.nc (⟨b, diag⟩ : QRDecomp (Flt { Rounding.ieee F with plans := P })) := ⟨e1, e2, e3⟩
  refine ⟨⟨b, diag⟩, _, ?_, hsh.intoR_eq hmn, rfl, rfl, fun h => ?_⟩
  · unfold qrInto
    rw [if_neg (by omega), e]
    rfl
  · obtain ⟨hG, hD, Q, hQ, hE⟩ := e4 h
    refine ⟨Q, hQ, fun j => le_of_eq_of_le (congrArg Real.sqrt (Finset.sum_congr rfl fun i _ => ?_)) (hE j)⟩
    congr 1
    rw [Matrix.sub_apply, Matrix.mul_apply]
    congr 1
    · unfold partR
      have hj := j.2
      simp only
      rw [if_pos hj]
      rcases lt_trichotomy (i : Nat) j with hij | hij | hij
      · rw [if_pos (by omega), if_neg (by omega), if_neg (by omega), if_pos hij]
      · rw [if_pos (by omega), if_pos (by omega), if_neg (by omega), if_pos hij, abs_rv (hD _ (by omega)), hij]
      · rw [if_neg (by omega : ¬ (i : Nat) < j), if_neg (by omega : ¬ (i : Nat) = j)]
        by_cases hin : (i : Nat) < a.nc
        · rw [if_pos hin, if_neg (by omega), if_pos (by omega)]; exact zero_rv
        · rw [if_neg hin]

/-- `exQr` meets all conditions, those on the result included. -/
theorem exQrBackward_ok (P : DotPlans) : ∃ q r, qrInto (exQr : Arr2 (Flt { Rounding.ieee .single with plans := P })) = .ok q ∧
    q.intoR = .ok r ∧ ∃ Q : Matrix (Fin 3) (Fin 3) ℝ, Qᵀ * Q = 1 ∧
      √(∑ i : Fin 3, ((if (i : Nat) < 1 then (r.get i 0).rv else 0) -
        ∑ k : Fin 3, Q i k * ((exQr : Arr2 (Flt { Rounding.ieee .single with plans := P })).get k 0).rv) ^ 2) ≤
        (1 : Nat) * (65 * (3 : Nat) * √(3 : Nat) * gam (2 ^ (-(Format.single.mant : ℤ) - 1)) (3 + 2) * 2 ^ 45 +
          12 * (3 : Nat) * (((3 : Nat) : ℝ) + 1) ^ 2 * 2 ^ (Format.single.emin - 1)) := by
  have hfp : ∀ i j, IsFin ((exQr : Arr2 (Flt { Rounding.ieee .single with plans := P })).get i j) ∧
      Proper ((exQr : Arr2 (Flt { Rounding.ieee .single with plans := P })).get i j) := fun i _ => exDot_ok i
  have hg := (ieee_cholRange Format.single_wide P (n := 3) (by norm_num [Format.single])).g1
  have hg0 := (ieee_cholRange Format.single_wide P (n := 3) (by norm_num [Format.single])).g0
  have hsq3 : √((3 : Nat) : ℝ) ≤ 2 := by rw [Real.sqrt_le_left (by norm_num)]; norm_num
  have hS : ∑ k ∈ Finset.range 3, ((exQr : Arr2 (Flt { Rounding.ieee .single with plans := P })).get k 0).rv ^ 2 = 9 + 16 + (2 ^ 40) ^ 2 := by
    simp [exQr, Finset.sum_range_succ, rv, val, sgn]; norm_num
  have hS' : ∑ k ∈ Finset.range 3, ((exQr : Arr2 (Flt { Rounding.ieee .single with plans := P })).get (0 + 0 + k) 0).rv *
      ((exQr : Arr2 (Flt { Rounding.ieee .single with plans := P })).get (0 + 0 + k) 0).rv = 9 + 16 + (2 ^ 40) ^ 2 := by
    rw [← hS]
    refine Finset.sum_congr rfl fun k _ => ?_
    rw [sq, show 0 + 0 + k = k by omega]
  obtain ⟨q, r, hq, hr, -, -, h⟩ := C154_backward Format.single_wide P exQr (by norm_num [exQr]) (by norm_num [exQr, Format.single])
    (fun i j _ _ => (hfp i j).1) (fun i j => (hfp i j).2) (X₀ := 2 ^ 41) (X := 2 ^ 45) rfl rfl (by norm_num)
    (fun j hj => by
      obtain rfl : j = 0 := by simp only [exQr] at hj; omega
      change √(∑ k ∈ Finset.range 3, ((exQr : Arr2 (Flt { Rounding.ieee .single with plans := P })).get k 0).rv ^ 2) ≤ _
      rw [hS, Real.sqrt_le_left (by norm_num)]
      norm_num)
    (by
      change (1 + 65 * ((3 : Nat) : ℝ) * √((3 : Nat) : ℝ) * gam (2 ^ (-(Format.single.mant : ℤ) - 1)) (3 + 2)) ^ 1 *
        (2 ^ 41 + ((1 : Nat) : ℝ) * (12 * ((3 : Nat) : ℝ) * (((3 : Nat) : ℝ) + 1) ^ 2 * 2 ^ (Format.single.emin - 1))) ≤ 2 ^ 45
      have h1 : 65 * ((3 : Nat) : ℝ) * √((3 : Nat) : ℝ) * gam (2 ^ (-(Format.single.mant : ℤ) - 1)) (3 + 2) ≤ 65 * 3 * 2 * (1 / 100) := by
        push_cast at hsq3 ⊢
        gcongr
      have h2 : ((1 : Nat) : ℝ) * (12 * ((3 : Nat) : ℝ) * (((3 : Nat) : ℝ) + 1) ^ 2 * 2 ^ (Format.single.emin - 1)) ≤ 1 := by
        norm_num [Format.single]
      have h3 : (0 : ℝ) ≤ ((1 : Nat) : ℝ) * (12 * ((3 : Nat) : ℝ) * (((3 : Nat) : ℝ) + 1) ^ 2 * 2 ^ (Format.single.emin - 1)) := by positivity
      rw [pow_one]
      refine (mul_le_mul (b := 65 * 3 * 2 * (1 / 100) + 1) (d := 2 ^ 41 + 1) (by linarith) (by linarith) (by linarith) (by norm_num)).trans ?_
      norm_num)
    (by
      refine (mul_le_mul_of_nonneg_right hsq3 (by norm_num)).trans ?_
      norm_num [Format.single])
    (by norm_num [Format.single])
  obtain ⟨b, d, hb, e, -⟩ := C151_lengths Format.single_wide P exQr 0 0 3 (by norm_num [exQr]) (by norm_num [exQr]) rfl
    (by norm_num [Format.single]) (fun k j _ _ _ => hfp _ _) (by rw [hS']; norm_num [Format.single]) (by rw [hS']; norm_num [Format.single])
    (fun j h1 h2 => by simp only [exQr] at h2; omega)
  have hd : q.diag.get 0 = d := by
    unfold qrInto at hq
    rw [if_neg (by norm_num [exQr])] at hq
    rw [show (exQr : Arr2 (Flt { Rounding.ieee .single with plans := P })).nc = 0 + 1 from rfl, forRange_succ le_rfl, forRange_self, ok_bind] at hq
    simp only at hq
    rw [hb, ok_bind] at hq
    simp only at hq
    rw [Arr1.idxSet_ok (by norm_num [Arr1.zeros])] at hq
    injection hq with hq
    rw [← hq]
    rfl
  have hN : 1 ≤ √(∑ k ∈ Finset.range 3, ((exQr : Arr2 (Flt { Rounding.ieee .single with plans := P })).get (0 + 0 + k) 0).rv ^ 2) := by
    rw [Real.one_le_sqrt]
    simp only [sq]
    rw [hS']
    norm_num
  have h4 : 4 * 2 ^ (Format.single.emin + 2 * Format.single.mant + 2) ≤ d.rv ^ 2 := by
    generalize √(∑ k ∈ Finset.range 3, ((exQr : Arr2 (Flt { Rounding.ieee .single with plans := P })).get (0 + 0 + k) 0).rv ^ 2) = N at *
    have h2 := (abs_le.1 e).1
    have h3 : 3 * gam (2 ^ (-(Format.single.mant : ℤ) - 1)) (3 + 2) * N ≤ 3 / 100 * N :=
      mul_le_mul_of_nonneg_right (by linarith) (by linarith)
    have h4 : 1 / 2 ≤ |d.rv| := by linarith
    have h5 := pow_le_pow_left₀ (by norm_num) h4 2
    rw [sq_abs] at h5
    refine le_trans ?_ h5
    norm_num [Format.single]
  obtain ⟨Q, hQ, hE⟩ := h (fun k hk => by
    obtain rfl : k = 0 := by simp only [exQr] at hk; omega
    rw [hd]; exact h4)
  exact ⟨q, r, hq, hr, Q, hQ, hE ⟨0, Nat.one_pos⟩⟩

end LinfaLinalg
