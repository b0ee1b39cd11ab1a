import Verif.Proofs.RoundedHouse
import Verif.Proofs.Qr

/-! # Rounding errors of the QR decomposition -/

set_option linter.unusedSectionVars false

namespace LinfaLinalg

open Matrix

/-- One more reflection: backward errors accumulate like `(1 + c)^i - 1`. -/
theorem accumulate_back {m n : Nat} {A Δ X Y : Matrix (Fin m) (Fin n) ℝ} {Q H : Matrix (Fin m) (Fin m) ℝ}
    {c e : ℝ} (hc : 0 ≤ c) (hQ : Qᵀ * Q = 1) (hH : Hᵀ * H = 1) (hHH : H * H = 1) (h : A + Δ = Q * X) (j : Fin n)
    (hΔ : colNorm Δ j ≤ (e - 1) * colNorm A j) (hY : colNorm (Y - H * X) j ≤ c * colNorm X j) :
    A + (Δ + Q * H * (Y - H * X)) = Q * H * Y ∧
      colNorm (Δ + Q * H * (Y - H * X)) j ≤ (e * (1 + c) - 1) * colNorm A j := by
  constructor
  · rw [← add_assoc, h, Matrix.mul_sub, Matrix.mul_assoc Q H (H * X), ← Matrix.mul_assoc H H X, hHH, Matrix.one_mul]
    abel
  · have hQH : (Q * H)ᵀ * (Q * H) = 1 := by
      rw [Matrix.transpose_mul, Matrix.mul_assoc, ← Matrix.mul_assoc Qᵀ, hQ, Matrix.one_mul, hH]
    have hX : colNorm X j ≤ e * colNorm A j := by
      rw [← colNorm_orth_mul hQ X j, ← h]
      have := colNorm_add_le A Δ j
      linarith
    have h1 := colNorm_add_le Δ (Q * H * (Y - H * X)) j
    rw [colNorm_orth_mul hQH] at h1
    have h2 := mul_le_mul_of_nonneg_left hX hc
    calc _ ≤ (e - 1) * colNorm A j + c * (e * colNorm A j) := by linarith
      _ = _ := by ring

/-- The exact reflections behind the stored axes. -/
noncomputable def nearP {R : StdModel} (m shift : Nat) (d : Nat → Rnd R) (W : Nat → Nat → ℝ) (k : Nat) :
    Matrix (Fin m) (Fin m) ℝ :=
  house m (k + shift) (NdFloat.signum (d k) : Rnd R).v (W k)

theorem StoredNear.orth {R : StdModel} {K m shift k : Nat} {a : Arr2 (Rnd R)} {d : Nat → Rnd R}
    {W : Nat → Nat → ℝ} (h : StoredNear K m a shift d k (W k)) :
    (nearP m shift d W k)ᵀ * nearP m shift d W k = 1 := house_orth h.ok

theorem StoredNear.congr {R : StdModel} {K m shift k : Nat} {a a' : Arr2 (Rnd R)} {d d' : Nat → Rnd R}
    {w : Nat → ℝ} (h : StoredNear K m a shift d k w) (ha : ∀ r, a'.get r k = a.get r k) (hd : d' k = d k) :
    StoredNear K m a' shift d' k w := by
  refine ⟨by rw [hd]; exact h.ok, fun r h1 h2 => ?_⟩
  rw [ha]
  exact h.near r h1 h2

theorem reflErr_nonneg {R : StdModel} {m : Nat} (hu : ((5 * m + 31 : Nat) : ℝ) * R.u < 1) : 0 ≤ reflErr R m :=
  mul_nonneg (by norm_num) (gam_nonneg R.u_nonneg hu)

/-- `clear_column` as an approximate multiplication by a reflection, including the column cleared. The rows above
`p` do not take part. -/
theorem ClearNear.bound {R : StdModel} {m n icol p : Nat} {a b : Arr2 (Rnd R)} {d : Rnd R} {w : Nat → ℝ}
    (h : ClearNear m n a b icol p d w) (hu : ((5 * m + 31 : Nat) : ℝ) * R.u < 1) {k : Nat}
    {X Y : Matrix (Fin m) (Fin k) ℝ} (j : Fin k) (hj : icol ≤ (j : Nat)) (hjn : (j : Nat) < n)
    (hX : ∀ r : Fin m, p ≤ (r : Nat) → X r j = (a.get r j).v)
    (hY : ∀ r : Fin m, Y r j = if (r : Nat) < p then X r j else if (j : Nat) = icol then
      (if (r : Nat) = p then |d.v| else 0) else (b.get r j).v) :
    colNorm (Y - house m p (NdFloat.signum d : Rnd R).v w * X) j ≤ reflErr R m * colNorm X j := by
  have h0 := R.u_nonneg
  have h1 := R.u_lt_one
  unfold reflErr
  by_cases hji : (j : Nat) = icol
  · obtain ⟨e, t, ht, ed, hcol⟩ := h.col
    set s := (NdFloat.signum d : Rnd R).v with hs
    have hg := ht.abs_sub_one h0 h1 (lt_of_le_of_lt
      (mul_le_mul_of_nonneg_right (by exact_mod_cast (by omega : 2 * m + 12 ≤ 5 * m + 31)) h0) hu)
    have hg2 : gam R.u (2 * m + 12) ≤ gam R.u (5 * m + 31) := gam_mono h0 (by omega) hu
    have hg0 : 0 ≤ gam R.u (5 * m + 31) := gam_nonneg h0 hu
    have hH : ∀ r : Fin m, (house m p s w * X) r j =
        if (r : Nat) < p then X r j else if (r : Nat) = p then e else 0 := by
      intro r
      rw [house_mul_apply]
      by_cases hrp : (r : Nat) < p
      · rw [if_pos hrp, if_pos hrp]
      · have := hcol r r.2
        rw [if_neg hrp] at this
        rw [if_neg hrp, if_neg hrp, ← this, hApp, if_neg hrp]
        rw [hX r (by omega), hji]
        congr 3
        rw [Finset.sum_range]
        refine Finset.sum_congr rfl fun c _ => ?_
        by_cases hc : (c : Nat) < p
        · rw [h.ok.supp c hc, zero_mul, zero_mul]
        · rw [hX c (by omega), hji]
    have hD : ∀ r : Fin m, (Y - house m p s w * X) r j = if (r : Nat) = p then e * (t - 1) else 0 := by
      intro r
      rw [Matrix.sub_apply, hH, hY, if_pos hji]
      by_cases h1 : (r : Nat) < p
      · rw [if_pos h1, if_pos h1, if_neg (by omega), sub_self]
      · rw [if_neg h1, if_neg h1]
        by_cases h2 : (r : Nat) = p
        · rw [if_pos h2, if_pos h2, if_pos h2, ed]; ring
        · rw [if_neg h2, if_neg h2, if_neg h2, sub_zero]
    have hle : ∀ r : Fin m, (Y - house m p s w * X) r j ^ 2 ≤
        (gam R.u (5 * m + 31)) ^ 2 * (house m p s w * X) r j ^ 2 := by
      intro r
      rw [hD]
      split_ifs with h2
      · rw [hH, if_neg (by omega), if_pos h2, ← mul_pow, sq_le_sq, abs_mul, abs_mul, abs_of_nonneg hg0, mul_comm]
        exact mul_le_mul_of_nonneg_right (hg.trans hg2) (abs_nonneg _)
      · have := mul_nonneg (sq_nonneg (gam R.u (5 * m + 31))) (sq_nonneg ((house m p s w * X) r j))
        linarith [this]
    have hsum := Finset.sum_le_sum fun r (_ : r ∈ (Finset.univ : Finset (Fin m))) => hle r
    rw [← Finset.mul_sum, ← colNorm_sq (house m p s w * X), colNorm_orth_mul (house_orth h.ok)] at hsum
    refine colNorm_le_of_sq (mul_nonneg (mul_nonneg (by norm_num) hg0) (colNorm_nonneg _ _)) (hsum.trans ?_)
    nlinarith [mul_nonneg (sq_nonneg (gam R.u (5 * m + 31))) (sq_nonneg (colNorm X j))]
  · have hr := h.right ⟨j, hjn⟩ (by show icol < (j : Nat); omega)
    refine HouseNear.bound h0 h1 hu h.ok ?_
    intro r
    have := hr r
    simp only [toMat_apply, Rnd.vals] at this
    by_cases hrp : (r : Nat) < p
    · rw [if_pos hrp, hY, if_pos hrp]
    · rw [if_neg hrp] at this ⊢
      obtain ⟨τ, ρ, h1, h2, h3⟩ := this
      refine ⟨τ, ρ, h1, h2, ?_⟩
      rw [hY, if_neg hrp, if_neg hji, h3, hX r (by omega)]
      congr 3
      refine Finset.sum_congr rfl fun c _ => ?_
      by_cases hc : (c : Nat) < p
      · rw [h.ok.supp c hc, zero_mul, zero_mul, zero_mul, zero_mul]
      · rw [hX c (by omega)]

/-- The decomposition computed, and the exact reflections it stands for. -/
structure QRNear {R : StdModel} (m n : Nat) (a : Arr2 (Rnd R)) (q : QRDecomp (Rnd R)) (W : Nat → Nat → ℝ) : Prop
    extends QRShape m n q where
  stored : ∀ k, k < n → StoredNear (2 * m + 12) m q.qr 0 q.diag.get k (W k)
  back : ∃ Δ : Matrix (Fin m) (Fin n) ℝ, toMat m n (Rnd.vals a) + Δ = prodP (nearP m 0 q.diag.get W) n *
      (eyeMat m n * triMat n .upper (Rnd.vals q.qr) fun i => |(q.diag.get i).v|) ∧
    ∀ j, colNorm Δ j ≤ ((1 + reflErr R m) ^ n - 1) * colNorm (toMat m n (Rnd.vals a)) j

theorem qrPart_eq {m n : Nat} (a : Arr2 ℝ) (d : Nat → ℝ) :
    qrPart m n n a d = eyeMat m n * triMat n .upper a fun i => |d i| := by
  ext r c
  rw [Matrix.mul_apply]
  simp only [qrPart, eyeMat, triMat, Matrix.of_apply, c.2, if_true, ite_mul, one_mul, zero_mul]
  by_cases hr : (r : Nat) < n
  · rw [Finset.sum_eq_single (⟨r, hr⟩ : Fin n)]
    · simp only [if_true, inTri_upper, Fin.ext_iff]
      by_cases h1 : (r : Nat) = c
      · rw [if_neg (by omega), if_pos h1, if_pos h1, h1]
      · rw [if_neg h1, if_neg h1]
        by_cases h2 : (r : Nat) < c
        · rw [if_pos h2, if_pos h2.le]
        · rw [if_neg h2, if_neg (by omega)]
    · intro b _ hb
      rw [if_neg (fun h => hb (Fin.ext h.symm))]
    · intro h; exact absurd (Finset.mem_univ _) h
  · rw [Finset.sum_eq_zero, if_neg (by omega), if_neg (by omega)]
    intro x _
    rw [if_neg (by omega)]

theorem qrInto_rnd {R : StdModel} {m n : Nat} (a : Arr2 (Rnd R)) (ha : HasShape a m n) (h : n ≤ m)
    (hu : ((5 * m + 31 : Nat) : ℝ) * R.u < 1) : ∃ q W, qrInto a = .ok q ∧ QRNear m n a q W := by
  have hc0 := reflErr_nonneg hu
  set A := toMat m n (Rnd.vals a) with hA
  have hw : Succeeds (forRange 0 n (a, (Arr1.zeros n : Arr1 (Rnd R))) fun i (a, diag) => do
      let (a, d) ← clearColumn a i 0
      let diag ← diag.idxSet i d
      .ok (a, diag))
      (fun p : Arr2 (Rnd R) × Arr1 (Rnd R) => (HasShape p.1 m n ∧ p.2.len = n) ∧ ∃ W : Nat → Nat → ℝ,
        (∀ k, k < n → StoredNear (2 * m + 12) m p.1 0 p.2.get k (W k)) ∧
        ∃ Δ : Matrix (Fin m) (Fin n) ℝ, A + Δ = prodP (nearP m 0 p.2.get W) n *
          qrPart m n n (Rnd.vals p.1) (fun k => (p.2.get k).v) ∧
        ∀ j, colNorm Δ j ≤ ((1 + reflErr R m) ^ n - 1) * colNorm A j) := by
    refine wp_forRange (fun i (p : Arr2 (Rnd R) × Arr1 (Rnd R)) => (HasShape p.1 m n ∧ p.2.len = n) ∧
        ∃ W : Nat → Nat → ℝ, (∀ k, k < i → StoredNear (2 * m + 12) m p.1 0 p.2.get k (W k)) ∧
        ∃ Δ : Matrix (Fin m) (Fin n) ℝ, A + Δ = prodP (nearP m 0 p.2.get W) i *
          qrPart m n i (Rnd.vals p.1) (fun k => (p.2.get k).v) ∧
        ∀ j, colNorm Δ j ≤ ((1 + reflErr R m) ^ i - 1) * colNorm A j)
      (Nat.zero_le _) ⟨⟨ha, rfl⟩, fun _ _ => 0, by intro k hk; omega, 0, ?_, ?_⟩ ?_
    · rw [prodP, Matrix.one_mul, add_zero]
      ext r c
      simp [qrPart, hA]
    · intro j
      simp [colNorm]
    · rintro i ⟨b, diag⟩ _ hi ⟨⟨hb, hl⟩, W, hst, Δ, heq, hΔ⟩
      simp only at hb hl hst heq
      obtain ⟨c, d, w, hc, cs⟩ := clearColumn_rnd b hb i 0 hi (by omega)
      simp only [hc, ok_bind]
      rw [Arr1.idxSet_ok (by omega)]
      simp only [ok_bind, wp_ok]
      rw [Nat.add_zero] at cs
      have hdi : (diag.upd i d).get i = d := by rw [Arr1.upd_get, if_pos rfl]
      have hdk : ∀ k, k < i → (diag.upd i d).get k = diag.get k := by
        intro k hk; rw [Arr1.upd_get, if_neg (by omega)]
      set W' : Nat → Nat → ℝ := fun k => if k = i then w else W k with hW'
      have hWi : W' i = w := if_pos rfl
      have hWk : ∀ k, k < i → W' k = W k := fun k hk => if_neg (by omega)
      have hsti : StoredNear (2 * m + 12) m c 0 (diag.upd i d).get i (W' i) := by
        rw [hWi]
        exact ⟨by rw [hdi, Nat.add_zero]; exact cs.ok, fun r h1 h2 => cs.near r (by omega) h2⟩
      have hst' : ∀ k, k < i + 1 → StoredNear (2 * m + 12) m c 0 (diag.upd i d).get k (W' k) := by
        intro k hk
        by_cases hki : k = i
        · subst hki; exact hsti
        · rw [hWk k (by omega)]
          exact (hst k (by omega)).congr (fun r => cs.left r k (by omega)) (hdk k (by omega))
      have hprod : prodP (nearP m 0 (diag.upd i d).get W') i = prodP (nearP m 0 diag.get W) i :=
        prodP_congr fun k hk => by simp only [nearP, hdk k hk, hWk k hk]
      have hQ : (prodP (nearP m 0 diag.get W) i)ᵀ * prodP (nearP m 0 diag.get W) i = 1 :=
        prodP_orth fun k hk => (hst k hk).orth
      have hHeq : nearP m 0 (diag.upd i d).get W' i = house m i (NdFloat.signum d : Rnd R).v w := by
        simp only [nearP, hdi, hWi, Nat.add_zero]
      set H := house m i (NdFloat.signum d : Rnd R).v w with hH
      set X := qrPart m n i (Rnd.vals b) (fun k => (diag.get k).v) with hX
      set Y := qrPart m n (i + 1) (Rnd.vals c) (fun k => ((diag.upd i d).get k).v) with hY
      have hstep : ∀ j : Fin n, colNorm (Y - H * X) j ≤ reflErr R m * colNorm X j := by
        intro j
        by_cases hj : (j : Nat) < i
        · have hz : colNorm (Y - H * X) j = 0 := by
            have : ∀ r, (Y - H * X) r j = 0 := by
              intro r
              rw [Matrix.sub_apply, hH, house_mul_of_disjoint cs.ok]
              · simp only [hX, hY, qrPart, Matrix.of_apply, Rnd.vals]
                rw [if_pos hj, if_pos (Nat.lt_succ_of_lt hj), cs.left r j hj, hdk j hj, sub_self]
              · intro r' hr'
                simp only [hX, qrPart, Matrix.of_apply]
                rw [if_pos hj, if_neg (by omega), if_neg (by omega)]
            simp [colNorm, this]
          rw [hz]
          exact mul_nonneg hc0 (colNorm_nonneg _ _)
        · refine cs.bound hu j (by omega) j.2 (fun r _ => ?_) (fun r => ?_)
          · simp only [hX, qrPart, Matrix.of_apply, Rnd.vals]
            rw [if_neg hj]
          · simp only [hX, hY, qrPart, Matrix.of_apply, Rnd.vals]
            rw [if_neg hj]
            by_cases hji : (j : Nat) = i
            · rw [if_pos (by omega), if_pos hji, hji, hdi]
              by_cases h1 : (r : Nat) < i
              · rw [if_pos h1, if_pos h1, cs.top r i h1]
              · rw [if_neg h1, if_neg h1]
            · rw [if_neg (by omega), if_neg hji]
              by_cases h1 : (r : Nat) < i
              · rw [if_pos h1, cs.top r j h1]
              · rw [if_neg h1]
      refine ⟨⟨cs.shape, hl⟩, W', hst', Δ + prodP (nearP m 0 diag.get W) i * H * (Y - H * X), ?_, fun j => ?_⟩
      · rw [prodP, hprod, hHeq]
        by_cases hn : 0 < n
        · exact (accumulate_back hc0 hQ (house_orth cs.ok) (house_mul_self cs.ok) heq ⟨0, hn⟩ (hΔ _) (hstep _)).1
        · omega
      · rw [pow_succ]
        exact (accumulate_back hc0 hQ (house_orth cs.ok) (house_mul_self cs.ok) heq j (hΔ j) (hstep j)).2
  obtain ⟨p, hp, ⟨h1, h2⟩, W, h3, Δ, h4, h5⟩ := succeeds_iff.1 hw
  refine ⟨⟨p.1, p.2⟩, W, ?_, ⟨⟨h1.1, h1.2, h2⟩, h3, Δ, ?_, h5⟩⟩
  · unfold qrInto
    rw [if_neg (by rw [ha.1, ha.2]; omega), ha.2, hp]
    rfl
  · rw [← hA, h4, qrPart_eq]

/-- The same when reflections are taken off the product instead. -/
theorem accumulate_fwd {m n : Nat} {T Δ X Y : Matrix (Fin m) (Fin n) ℝ} {Q H : Matrix (Fin m) (Fin m) ℝ}
    {c e : ℝ} (hc : 0 ≤ c) (hQ : Qᵀ * Q = 1) (hH : Hᵀ * H = 1) (h : T + Δ = Q * H * X) (j : Fin n)
    (hΔ : colNorm Δ j ≤ (e - 1) * colNorm T j) (hY : colNorm (Y - H * X) j ≤ c * colNorm X j) :
    T + (Δ + Q * (Y - H * X)) = Q * Y ∧
      colNorm (Δ + Q * (Y - H * X)) j ≤ (e * (1 + c) - 1) * colNorm T j := by
  constructor
  · rw [← add_assoc, h, Matrix.mul_sub, Matrix.mul_assoc Q H X]
    abel
  · have hQH : (Q * H)ᵀ * (Q * H) = 1 := by
      rw [Matrix.transpose_mul, Matrix.mul_assoc, ← Matrix.mul_assoc Qᵀ, hQ, Matrix.one_mul, hH]
    have hX : colNorm X j ≤ e * colNorm T j := by
      rw [← colNorm_orth_mul hQH X j, ← h]
      have := colNorm_add_le T Δ j
      linarith
    have h1 := colNorm_add_le Δ (Q * (Y - H * X)) j
    rw [colNorm_orth_mul hQ] at h1
    have h2 := mul_le_mul_of_nonneg_left hX hc
    calc _ ≤ (e - 1) * colNorm T j + c * (e * colNorm T j) := by linarith
      _ = _ := by ring

theorem colNorm_of_orth {m n : Nat} {Q : Matrix (Fin m) (Fin n) ℝ} (h : Qᵀ * Q = 1) (j : Fin n) :
    colNorm Q j = 1 := by
  have h1 := congrFun (congrFun h j) j
  rw [Matrix.mul_apply, Matrix.one_apply_eq] at h1
  have h2 := colNorm_sq Q j
  simp only [Matrix.transpose_apply, ← sq] at h1
  rw [h1] at h2
  nlinarith [colNorm_nonneg Q j]

/-- One stored reflection, applied to columns `c0..` of a matrix. -/
theorem applyStored_rnd {R : StdModel} {m n k i c0 shift : Nat} {a : Arr2 (Rnd R)} {d : Nat → Rnd R} {w : Nat → ℝ}
    (ha : HasShape a m n) (h : StoredNear (2 * m + 12) m a shift d i w) (hi : i + shift ≤ m) (hin : i < n)
    (hu : ((5 * m + 31 : Nat) : ℝ) * R.u < 1) (c : Arr2 (Rnd R)) (hc : HasShape c m k) (hc0 : c0 ≤ k)
    (hz : ∀ r j, r < m → j < c0 → i + shift ≤ r → (c.get r j).v = 0) :
    ∃ axis rows rows', a.colSlice (i + shift) a.nr i = .ok axis ∧ c.slice (i + shift) c.nr c0 c.nc = .ok rows ∧
      reflectCols axis 0 rows = .ok rows' ∧
      HasShape (c.put (i + shift) c0 (rows'.map fun x => x * NdFloat.signum (d i))) m k ∧
      (∀ r j, j < c0 → (c.put (i + shift) c0 (rows'.map fun x => x * NdFloat.signum (d i))).get r j = c.get r j) ∧
      ∀ j, colNorm (toMat m k (Rnd.vals (c.put (i + shift) c0 (rows'.map fun x => x * NdFloat.signum (d i)))) -
        house m (i + shift) (NdFloat.signum (d i) : Rnd R).v w * toMat m k (Rnd.vals c)) j ≤
          reflErr R m * colNorm (toMat m k (Rnd.vals c)) j := by
  have h0 := R.u_nonneg
  have h1 := R.u_lt_one
  obtain ⟨rows, rows', e1, e2, e3, e4, e5, e6⟩ := blockReflect_rnd
    (⟨a.nr - (i + shift), fun r => a.get (i + shift + r) i⟩ : Arr1 (Rnd R)) c (i + shift) c0
    (NdFloat.signum (d i)) (by rw [hc.1]; omega) (by rw [hc.2]; exact hc0) (by simp [hc.1, ha.1])
    w (fun r hr => h.ok.supp r hr) (K := 2 * m + 12)
    (fun k hk => h.near (i + shift + k) (by omega) (by simp only [ha.1] at hk; omega)) hc
  refine ⟨_, rows, rows', Arr2.colSlice_ok (by rw [ha.1]; exact hi) le_rfl (by rw [ha.2]; exact hin), e1, e2, e3,
    e4, fun j => ?_⟩
  by_cases hj : c0 ≤ (j : Nat)
  · have := e6 j hj
    rw [show 2 * (2 * m + 12) + m + 7 = 5 * m + 31 by omega] at this
    exact this.bound h0 h1 hu h.ok
  · have hz' : ∀ r, (toMat m k (Rnd.vals (c.put (i + shift) c0 (rows'.map fun x => x * NdFloat.signum (d i)))) -
        house m (i + shift) (NdFloat.signum (d i) : Rnd R).v w * toMat m k (Rnd.vals c)) r j = 0 := by
      intro r
      rw [Matrix.sub_apply, house_mul_of_disjoint h.ok]
      · simp only [toMat_apply, Rnd.vals]
        rw [e4 r j (by omega), sub_self]
      · intro r' hr'
        simp only [toMat_apply, Rnd.vals]
        exact hz r' j r'.2 (by omega) hr'
    have : colNorm (toMat m k (Rnd.vals (c.put (i + shift) c0 (rows'.map fun x => x * NdFloat.signum (d i)))) -
        house m (i + shift) (NdFloat.signum (d i) : Rnd R).v w * toMat m k (Rnd.vals c)) j = 0 := by
      unfold colNorm
      simp only [hz']
      simp
    rw [this]
    exact mul_nonneg (reflErr_nonneg hu) (colNorm_nonneg _ _)

theorem assembleQ_rnd {R : StdModel} (a : Arr2 (Rnd R)) (shift : Nat) (diagFn : Nat → M (Rnd R)) (d : Nat → Rnd R)
    (W : Nat → Nat → ℝ) (hs : shift ≤ min a.nr a.nc)
    (hd : ∀ i, i < min a.nr a.nc - shift → diagFn i = .ok (d i))
    (hok : ∀ i, i < min a.nr a.nc - shift → StoredNear (2 * a.nr + 12) a.nr a shift d i (W i))
    (hu : ((5 * a.nr + 31 : Nat) : ℝ) * R.u < 1) :
    ∃ q, assembleQ a shift diagFn = .ok q ∧ HasShape q a.nr (min a.nr a.nc) ∧
      ∀ j, colNorm (toMat a.nr (min a.nr a.nc) (Rnd.vals q) -
        prodP (nearP a.nr shift d W) (min a.nr a.nc - shift) * eyeMat a.nr (min a.nr a.nc)) j ≤
          (1 + reflErr R a.nr) ^ (min a.nr a.nc - shift) - 1 := by
  set m := a.nr with hm
  set D := min m a.nc with hD
  have hDm : D ≤ m := min_le_left _ _
  have hDn : D ≤ a.nc := min_le_right _ _
  have hc0 := reflErr_nonneg hu
  set T := prodP (nearP m shift d W) (D - shift) * eyeMat m D with hT
  have hPo : ∀ i, i ≤ D - shift → (prodP (nearP m shift d W) i)ᵀ * prodP (nearP m shift d W) i = 1 :=
    fun i hi => prodP_orth fun k hk => (hok k (by omega)).orth
  have hTn : ∀ j, colNorm T j = 1 := by
    intro j
    rw [hT, colNorm_orth_mul (hPo _ le_rfl), colNorm_of_orth (eyeMat_orth hDm)]
  unfold assembleQ
  simp only
  rw [if_neg (by omega)]
  have := wp_forRev (lo := 0) (hi := D - shift) (s := (Arr2.eye m D : Arr2 (Rnd R)))
    (f := fun i (res : Arr2 (Rnd R)) => do
      let axis ← a.colSlice (i + shift) a.nr i
      let rows ← res.slice (i + shift) res.nr i res.nc
      let rows ← reflectCols axis 0 rows
      let d ← diagFn i
      let rows := rows.map fun x => x * NdFloat.signum d
      Except.ok (res.put (i + shift) i rows))
    (E := fun _ => False)
    (fun i (q : Arr2 (Rnd R)) => HasShape q m D ∧ i ≤ D - shift ∧
      (∃ Δ : Matrix (Fin m) (Fin D) ℝ, T + Δ = prodP (nearP m shift d W) i * toMat m D (Rnd.vals q) ∧
        ∀ j, colNorm Δ j ≤ ((1 + reflErr R m) ^ (D - shift - i) - 1) * colNorm T j) ∧
      ∀ r j, r < m → j < i → (q.get r j).v = if r = j then 1 else 0)
    (Nat.zero_le _)
    ⟨⟨rfl, rfl⟩, le_rfl, ⟨0, by
      rw [add_zero, hT]
      congr 1
      ext r c
      simp only [eyeMat, Matrix.of_apply, toMat_apply, Rnd.vals, Arr2.eye]
      split_ifs <;> rfl, fun j => by simp [colNorm]⟩, by
      intro r j _ _
      simp only [Arr2.eye]
      split_ifs <;> rfl⟩
    (by
      rintro i q _ hi ⟨hq, -, ⟨Δ, heq, hΔ⟩, hcols⟩
      obtain ⟨axis, rows, rows', e1, e2, e3, e4, e5, e6⟩ := applyStored_rnd (m := m) (n := a.nc) (c0 := i)
        ⟨hm.symm, rfl⟩ (hok i hi) (by omega) (by omega) hu q hq (by omega)
        (by intro r j hr hj hir; rw [hcols r j hr (by omega), if_neg (by omega)])
      rw [e1]
      simp only [ok_bind]
      rw [e2]
      simp only [ok_bind]
      rw [e3, hd i hi]
      simp only [ok_bind, wp_ok]
      set H := nearP m shift d W i with hH
      have hacc := fun j => accumulate_fwd hc0 (hPo i (by omega)) (hok i hi).orth
        (Q := prodP (nearP m shift d W) i) (H := H) (X := toMat m D (Rnd.vals q)) heq j (hΔ j) (e6 j)
      refine ⟨e4, by omega, ⟨Δ + prodP (nearP m shift d W) i * (toMat m D (Rnd.vals (q.put (i + shift) i
          (rows'.map fun x => x * NdFloat.signum (d i)))) - H * toMat m D (Rnd.vals q)), ?_, fun j => ?_⟩, ?_⟩
      · exact (hacc ⟨i, by omega⟩).1
      · have := (hacc j).2
        rw [show D - shift - i = (D - shift - (i + 1)) + 1 by omega, pow_succ]
        exact this
      · intro r j hr hj
        rw [e5 r j hj, hcols r j hr (by omega)])
  obtain ⟨q, hq, h1, -, ⟨Δ, h2, h3⟩, -⟩ := succeeds_iff.1 this
  refine ⟨q, hq, h1, fun j => ?_⟩
  rw [prodP, Matrix.one_mul] at h2
  have h4 := h3 j
  rw [hTn, mul_one, Nat.sub_zero] at h4
  rw [← h2, add_sub_cancel_left]
  exact h4

theorem QRNear.qtMul {R : StdModel} {m n k : Nat} {a : Arr2 (Rnd R)} {q : QRDecomp (Rnd R)} {W : Nat → Nat → ℝ}
    (h : QRNear m n a q W) (hnm : n ≤ m) (hu : ((5 * m + 31 : Nat) : ℝ) * R.u < 1) (b : Arr2 (Rnd R))
    (hb : HasShape b m k) : ∃ c, q.qtMul b = .ok c ∧ HasShape c m k ∧
      ∃ Δ : Matrix (Fin m) (Fin k) ℝ, toMat m k (Rnd.vals b) + Δ =
        prodP (nearP m 0 q.diag.get W) n * toMat m k (Rnd.vals c) ∧
      ∀ j, colNorm Δ j ≤ ((1 + reflErr R m) ^ n - 1) * colNorm (toMat m k (Rnd.vals b)) j := by
  have hc0 := reflErr_nonneg hu
  set B := toMat m k (Rnd.vals b) with hB
  unfold QRDecomp.qtMul
  rw [h.nc]
  refine succeeds_iff.1 (wp_forRange (fun i (c : Arr2 (Rnd R)) => HasShape c m k ∧
    ∃ Δ : Matrix (Fin m) (Fin k) ℝ, B + Δ = prodP (nearP m 0 q.diag.get W) i * toMat m k (Rnd.vals c) ∧
      ∀ j, colNorm Δ j ≤ ((1 + reflErr R m) ^ i - 1) * colNorm B j)
    (Nat.zero_le _) ⟨hb, 0, by simp [prodP, hB], fun j => by simp [colNorm]⟩ ?_)
  rintro i c _ hi ⟨hc, Δ, heq, hΔ⟩
  obtain ⟨axis, rows, rows', e1, e2, e3, e4, e5, e6⟩ := applyStored_rnd (m := m) (n := n) (c0 := 0)
    ⟨h.nr, h.nc⟩ (h.stored i hi) (by omega) hi hu c hc (Nat.zero_le _) (by intro r j _ hj; omega)
  rw [Nat.add_zero] at e1 e2 e4 e6
  rw [e1]
  simp only [ok_bind]
  rw [e2]
  simp only [ok_bind]
  rw [e3, Arr1.idx_ok (by rw [h.len]; exact hi)]
  simp only [ok_bind, wp_ok]
  have hQ : (prodP (nearP m 0 q.diag.get W) i)ᵀ * prodP (nearP m 0 q.diag.get W) i = 1 :=
    prodP_orth fun l hl => (h.stored l (by omega)).orth
  have hacc := fun j => accumulate_back hc0 hQ (h.stored i hi).orth (house_mul_self (h.stored i hi).ok) heq j (hΔ j)
    (e6 j)
  refine ⟨e4, Δ + prodP (nearP m 0 q.diag.get W) i * nearP m 0 q.diag.get W i * (toMat m k (Rnd.vals (c.put i 0
          (rows'.map fun x => x * NdFloat.signum (q.diag.get i)))) -
        nearP m 0 q.diag.get W i * toMat m k (Rnd.vals c)), ?_, fun j => ?_⟩
  · by_cases hk : 0 < k
    · exact (hacc ⟨0, hk⟩).1
    · have : k = 0 := by omega
      subst this
      ext r c
      exact c.elim0
  · rw [pow_succ]
    exact (hacc j).2

end LinfaLinalg
