import Verif.Proofs.Rounded
import Verif.Proofs.HouseholderReal
import Verif.Spec.Frob

/-! # Rounding errors of the Householder routines -/

set_option linter.unusedSectionVars false

namespace LinfaLinalg

open Matrix

/-! ## Sums of numbers of one sign -/

section near
variable {u : ℝ} (hu0 : 0 ≤ u) (hu1 : u < 1)
include hu0 hu1

theorem Near.convex {n : Nat} {a b s t : ℝ} (ha : 0 ≤ a) (hb : 0 ≤ b) (hs : Near u n s) (ht : Near u n t) :
    ∃ r, Near u n r ∧ a * s + b * t = (a + b) * r := by
  by_cases h : a + b = 0
  · have h1 : a = 0 := by linarith
    have h2 : b = 0 := by linarith
    exact ⟨1, near_one hu0 hu1 n, by rw [h1, h2]; ring⟩
  · have hp : 0 < a + b := lt_of_le_of_ne (by linarith) (Ne.symm h)
    refine ⟨(a * s + b * t) / (a + b), ⟨?_, ?_⟩, by field_simp⟩
    · rw [le_div_iff₀ hp]
      nlinarith [hs.1, ht.1]
    · rw [div_mul_eq_mul_div, div_le_one hp]
      nlinarith [hs.2, ht.2]

theorem Near.sum {n : Nat} (l : Nat) {f q : Nat → ℝ} (hf : ∀ k, 0 ≤ f k) (hq : ∀ k, Near u n (q k)) :
    ∃ r, Near u n r ∧ ∑ k ∈ Finset.range l, f k * q k = (∑ k ∈ Finset.range l, f k) * r := by
  induction l with
  | zero => exact ⟨1, near_one hu0 hu1 n, by simp⟩
  | succ l ih =>
    obtain ⟨r, hr, e⟩ := ih
    obtain ⟨r', hr', e'⟩ := Near.convex hu0 hu1 (Finset.sum_nonneg fun k _ => hf k) (hf l) hr (hq l)
    exact ⟨r', hr', by rw [Finset.sum_range_succ, Finset.sum_range_succ, e, e']⟩

end near

/-! ## The axis of a reflection -/

theorem reflectionAxisMut_eq_real (n : Nat) (x : Nat → ℝ) (h : 0 < n) :
    ∀ N Z s, N = Real.sqrt (∑ k ∈ Finset.range n, x k * x k) →
      Z = (∑ k ∈ Finset.range n, x k * x k + |x 0| * N) * 2 → s = (if x 0 < 0 then -1 else 1) →
    ∃ w : Nat → ℝ, ∃ d, ReflSpec n x w d ∧ (Z = 0 → d = 0) ∧ (Z ≠ 0 → d = -(s * N) ∧ d ≠ 0 ∧
      ∀ k, w k = (if k = 0 then x 0 + s * N else x k) / Real.sqrt Z) := by
  rintro N Z s rfl hZ rfl
  obtain ⟨w, o, h1, h2, h3, h4⟩ := reflectionAxisMut_real ⟨n, x⟩ h
  refine ⟨w.get, o.getD 0, h3, ?_⟩
  unfold reflectionAxisMut at h1
  simp only [Arr1.dot, if_true, ok_bind] at h1
  rw [Arr1.idx_ok h] at h1
  simp only [ok_bind] at h1
  rw [Arr1.idxSet_ok h] at h1
  simp only [ok_bind, dotTo_eq, real_sqrt, real_abs, real_ofRat, real_isZero] at h1
  have hz : (∑ k ∈ Finset.range n, x k * x k + |x 0| * √(∑ k ∈ Finset.range n, x k * x k)) * ((2 : ℚ) : ℝ) =
      Z := by rw [hZ]; norm_num
  rw [hz] at h1
  by_cases hZz : Z = 0
  · simp only [hZz, decide_true, Bool.not_true, Bool.false_eq_true, if_false, Except.ok.injEq,
      Prod.mk.injEq] at h1
    exact ⟨fun _ => h4.1 h1.2.symm, fun h0 => absurd hZz h0⟩
  · simp only [hZz, decide_false, Bool.not_false, if_true, Except.ok.injEq, Prod.mk.injEq] at h1
    obtain ⟨rfl, rfl⟩ := h1
    refine ⟨fun h0 => absurd h0 hZz, fun _ => ⟨?_, fun h0 => by simpa using h4.2 h0, fun k => ?_⟩⟩
    · simp only [Option.getD_some, real_signum]
    · simp only [Arr1.map, Arr1.upd_get, real_signum]

/-- The rounded axis and norm agree with those of exact arithmetic, entry by entry, up to `2 n + 12`
roundings. -/
theorem reflectionAxisMut_rnd {R : StdModel} (col : Arr1 (Rnd R)) (h : 0 < col.len) :
    ∃ w o, reflectionAxisMut col = .ok (w, o) ∧ w.len = col.len ∧
      ∃ (w' : Nat → ℝ) (d : ℝ), ReflSpec col.len (fun k => (col.get k).v) w' d ∧ (o = none ↔ d = 0) ∧
        (∀ k, k < col.len → ∃ t, Near R.u (2 * col.len + 12) t ∧ (w.get k).v = w' k * t) ∧
        ∃ t, Near R.u (2 * col.len + 12) t ∧ (o.getD 0).v = d * t := by
  have h0 := R.u_nonneg
  have h1 := R.u_lt_one
  set n := col.len with hn
  set x : Nat → ℝ := fun k => (col.get k).v with hx
  set q : ℝ := ∑ k ∈ Finset.range n, x k * x k with hq
  have hq0 : 0 ≤ q := Finset.sum_nonneg fun k _ => mul_self_nonneg _
  set N := Real.sqrt q with hN
  have hN0 : 0 ≤ N := Real.sqrt_nonneg _
  set s : ℝ := if x 0 < 0 then -1 else 1 with hs
  have hss : s * s = 1 := by rw [hs]; split_ifs <;> norm_num
  have hsx : x 0 = s * |x 0| := by
    rw [hs]
    split_ifs with hc
    · rw [abs_of_neg hc]; ring
    · rw [abs_of_nonneg (not_lt.1 hc)]; ring
  set Z : ℝ := (q + |x 0| * N) * 2 with hZ
  have hZ0 : 0 ≤ Z := by
    have := mul_nonneg (abs_nonneg (x 0)) hN0
    rw [hZ]; linarith
  -- the sum of squares
  obtain ⟨p, hp, ep⟩ := dotTo_products n col.get col.get
  obtain ⟨tq, htq, eq⟩ := Near.sum h0 h1 n (f := fun k => x k * x k) (fun k => mul_self_nonneg _) hp
  have eS : (dotTo n col.get col.get).v = q * tq := by rw [ep, ← eq]
  set S : Rnd R := dotTo n col.get col.get with hSdef
  have htq0 := htq.pos h0 h1
  -- its root
  obtain ⟨t1, ht1, e1⟩ := R.rnd_near (Real.sqrt (q * tq))
  have eN : (NdFloat.sqrt S).v = N * (Real.sqrt tq * t1) := by
    rw [Rnd.sqrt_v, eS, e1, Real.sqrt_mul hq0, mul_assoc]
  have nN : Near R.u (n + 2) (Real.sqrt tq * t1) := (htq.sqrt h0 h1).mul h0 h1 ht1
  set tN := Real.sqrt tq * t1
  -- the signed norm
  set σ : Rnd R := NdFloat.signum (col.get 0) with hσ
  have eσ : σ.v = s := rfl
  obtain ⟨t2, ht2, e2⟩ := R.rnd_near (s * (N * tN))
  have eSN : (σ * NdFloat.sqrt S).v = s * N * (tN * t2) := by
    rw [Rnd.mul_v, eσ, eN, e2]; ring
  have nSN : Near R.u (n + 3) (tN * t2) := nN.mul h0 h1 ht2
  set tS := tN * t2
  -- the new first entry
  obtain ⟨t3, ht3, e3⟩ := R.rnd_near (x 0 + s * N * tS)
  obtain ⟨r3, hr3, er3⟩ := Near.convex h0 h1 (abs_nonneg (x 0)) hN0 (near_one h0 h1 (n + 3)) nSN
  have eF : (col.get 0 + σ * NdFloat.sqrt S).v = (x 0 + s * N) * (r3 * t3) := by
    have hx0 : (col.get 0).v = x 0 := rfl
    rw [Rnd.add_v, eSN, hx0, e3]
    have : x 0 + s * N * tS = (x 0 + s * N) * r3 := by
      calc x 0 + s * N * tS = s * (|x 0| * 1 + N * tS) := by rw [hsx]; rw [← hsx]; linear_combination hsx
        _ = s * ((|x 0| + N) * r3) := by rw [er3]
        _ = (x 0 + s * N) * r3 := by linear_combination -r3 * hsx
    rw [this]; ring
  have nF : Near R.u (n + 4) (r3 * t3) := hr3.mul h0 h1 ht3
  set tF := r3 * t3
  -- the new norm
  obtain ⟨t4, ht4, e4⟩ := R.rnd_near (|x 0| * (N * tN))
  obtain ⟨r5, hr5, er5⟩ := Near.convex h0 h1 hq0 (mul_nonneg (abs_nonneg (x 0)) hN0)
    (htq.mono h0 h1 (show n + 1 ≤ n + 3 by omega)) (nN.mul h0 h1 ht4)
  obtain ⟨t5, ht5, e5⟩ := R.rnd_near (q * tq + |x 0| * N * (tN * t4))
  obtain ⟨t6, ht6, e6⟩ := R.rnd_near (((2 : ℚ) : ℝ))
  obtain ⟨t7, ht7, e7⟩ := R.rnd_near ((q + |x 0| * N) * (r5 * t5) * (((2 : ℚ) : ℝ) * t6))
  set Zr : Rnd R := (S + NdFloat.abs (col.get 0) * NdFloat.sqrt S) * NdFloat.ofRat 2 with hZr
  have eZ : Zr.v = Z * (r5 * t5 * (t6 * t7)) := by
    have ea : (S + NdFloat.abs (col.get 0) * NdFloat.sqrt S).v = (q + |x 0| * N) * (r5 * t5) := by
      have hx0 : (NdFloat.abs (col.get 0)).v = |x 0| := rfl
      rw [Rnd.add_v, Rnd.mul_v, eS, eN, hx0, e4]
      rw [show |x 0| * (N * tN) * t4 = |x 0| * N * (tN * t4) by ring, e5, er5]; ring
    have eb : (NdFloat.ofRat 2 : Rnd R).v = ((2 : ℚ) : ℝ) * t6 := e6
    rw [hZr, Rnd.mul_v, ea, eb, e7, hZ]
    push_cast
    ring
  have nZ : Near R.u (n + 6) (r5 * t5 * (t6 * t7)) :=
    ((hr5.mul h0 h1 ht5).mul h0 h1 (ht6.mul h0 h1 ht7)).mono h0 h1 (by omega)
  set tZ := r5 * t5 * (t6 * t7)
  have tZ0 := nZ.pos h0 h1
  obtain ⟨w', d, hspec, hz, hnz⟩ := reflectionAxisMut_eq_real n x h N Z s hN hZ hs
  have hres : reflectionAxisMut col = if Z = 0 then .ok (col.upd 0 (col.get 0 + σ * NdFloat.sqrt S), none)
      else .ok ((col.upd 0 (col.get 0 + σ * NdFloat.sqrt S)).map fun y => y / NdFloat.sqrt Zr,
        some (-(σ * NdFloat.sqrt S))) := by
    unfold reflectionAxisMut
    simp only [Arr1.dot, if_true, ok_bind]
    rw [Arr1.idx_ok h]
    simp only [ok_bind]
    rw [Arr1.idxSet_ok h]
    simp only [ok_bind, Rnd.isZero_v]
    by_cases hZz : Z = 0
    · rw [if_pos hZz, if_neg]
      change ¬ ((!decide (Zr.v = 0)) = true)
      rw [eZ, hZz]; simp
    · rw [if_neg hZz, if_pos]
      change (!decide (Zr.v = 0)) = true
      rw [eZ]
      simp [hZz, tZ0.ne']
  rw [hres]
  by_cases hZz : Z = 0
  · have hd := hz hZz
    have hqz : q = 0 := by
      have := mul_nonneg (abs_nonneg (x 0)) hN0
      rw [hZ] at hZz; linarith
    have hNz : N = 0 := by rw [hN, hqz, Real.sqrt_zero]
    have hxz : ∀ r, r < n → x r = 0 := by
      intro r hr
      have := (Finset.sum_eq_zero_iff_of_nonneg (fun k _ => mul_self_nonneg (x k))).1 hqz r
        (Finset.mem_range.2 hr)
      exact mul_self_eq_zero.1 this
    rw [if_pos hZz]
    refine ⟨_, _, rfl, rfl, w', d, hspec, by simp [hd], fun k hk => ⟨1, near_one h0 h1 _, ?_⟩,
      1, near_one h0 h1 _, ?_⟩
    · rw [hspec.zero hd k hk, zero_mul, Arr1.upd_get]
      split_ifs with hk0
      · rw [eF, hxz 0 h, hNz]; ring
      · exact hxz k hk
    · rw [hd]; simp
  · obtain ⟨hd, hd0, hw⟩ := hnz hZz
    rw [if_neg hZz]
    obtain ⟨t8, ht8, e8⟩ := R.rnd_near (Real.sqrt (Z * tZ))
    have eR : (NdFloat.sqrt Zr).v = Real.sqrt Z * (Real.sqrt tZ * t8) := by
      rw [Rnd.sqrt_v, eZ, e8, Real.sqrt_mul hZ0, mul_assoc]
    have nR : Near R.u (n + 7) (Real.sqrt tZ * t8) := (nZ.sqrt h0 h1).mul h0 h1 ht8
    set tR := Real.sqrt tZ * t8
    have tR0 := (nR.pos h0 h1).ne'
    have hZs : Real.sqrt Z ≠ 0 := (Real.sqrt_pos.2 (lt_of_le_of_ne hZ0 (Ne.symm hZz))).ne'
    refine ⟨_, _, rfl, rfl, w', d, hspec, by simp [hd0], fun k hk => ?_, tS, nSN.mono h0 h1 (by omega), ?_⟩
    · simp only [Arr1.map, Arr1.upd_get]
      rw [hw k]
      by_cases hk0 : k = 0
      · rw [if_pos hk0, if_pos hk0, Rnd.div_v, eF, eR]
        obtain ⟨t9, ht9, e9⟩ := R.rnd_near ((x 0 + s * N) * tF / (Real.sqrt Z * tR))
        refine ⟨tF * tR⁻¹ * t9, ((nF.mul h0 h1 (nR.inv h0 h1)).mul h0 h1 ht9).mono h0 h1 (by omega), ?_⟩
        rw [e9]
        field_simp
      · rw [if_neg hk0, if_neg hk0, Rnd.div_v, eR]
        obtain ⟨t9, ht9, e9⟩ := R.rnd_near (x k / (Real.sqrt Z * tR))
        refine ⟨tR⁻¹ * t9, ((nR.inv h0 h1).mul h0 h1 ht9).mono h0 h1 (by omega), ?_⟩
        have : (col.get k).v = x k := rfl
        rw [this, e9]
        field_simp
    · rw [Option.getD_some, Rnd.neg_v, eSN, hd]; ring

/-! ## The length of a column -/

theorem colNorm_nonneg {m n : Nat} (A : Matrix (Fin m) (Fin n) ℝ) (j : Fin n) : 0 ≤ colNorm A j :=
  Real.sqrt_nonneg _

theorem colNorm_sq {m n : Nat} (A : Matrix (Fin m) (Fin n) ℝ) (j : Fin n) :
    colNorm A j ^ 2 = ∑ i, A i j ^ 2 :=
  Real.sq_sqrt (Finset.sum_nonneg fun _ _ => sq_nonneg _)

theorem colNorm_eq_frob {m n : Nat} (A : Matrix (Fin m) (Fin n) ℝ) (j : Fin n) :
    colNorm A j = frob (A.submatrix id (fun _ : Fin 1 => j)) := by
  simp [colNorm, frob]

theorem colNorm_add_le {m n : Nat} (A B : Matrix (Fin m) (Fin n) ℝ) (j : Fin n) :
    colNorm (A + B) j ≤ colNorm A j + colNorm B j := by
  simp only [colNorm_eq_frob]
  exact frob_add_le _ _

theorem colNorm_orth_mul {k m n : Nat} {Q : Matrix (Fin k) (Fin m) ℝ} (hQ : Qᵀ * Q = 1)
    (A : Matrix (Fin m) (Fin n) ℝ) (j : Fin n) : colNorm (Q * A) j = colNorm A j := by
  rw [colNorm_eq_frob, colNorm_eq_frob, ← frob_orth_mul hQ]
  rfl

theorem colNorm_le_of_sq {m n : Nat} {A : Matrix (Fin m) (Fin n) ℝ} {j : Fin n} {c : ℝ} (hc : 0 ≤ c)
    (h : ∑ i, A i j ^ 2 ≤ c ^ 2) : colNorm A j ≤ c :=
  (Real.sqrt_le_left hc).2 h

theorem frob_sq_colNorm {m n : Nat} (A : Matrix (Fin m) (Fin n) ℝ) : frob A ^ 2 = ∑ j, colNorm A j ^ 2 := by
  rw [frob_sq, Finset.sum_comm]
  simp only [colNorm_sq]

/-- A bound for every column is a bound for the matrix. -/
theorem frob_le_of_colNorm {m n k : Nat} {E : Matrix (Fin k) (Fin n) ℝ} {A : Matrix (Fin m) (Fin n) ℝ} {c : ℝ}
    (hc : 0 ≤ c) (h : ∀ j, colNorm E j ≤ c * colNorm A j) : frob E ≤ c * frob A := by
  refine abs_le_of_sq_le_sq' ?_ (mul_nonneg hc (frob_nonneg A)) |>.2
  rw [mul_pow, frob_sq_colNorm, frob_sq_colNorm, Finset.mul_sum]
  refine Finset.sum_le_sum fun j _ => ?_
  rw [← mul_pow]
  exact pow_le_pow_left₀ (colNorm_nonneg _ _) (h j) 2

/-! ## Applying a reflection -/

theorem HouseOk.sum_le_one {m p : Nat} {s : ℝ} {w : Nat → ℝ} (h : HouseOk m p s w) :
    ∑ k : Fin m, w k ^ 2 ≤ 1 := by
  have e : ∑ k ∈ Finset.range m, w k * w k = ∑ k : Fin m, w k ^ 2 := by
    rw [Finset.sum_range]
    exact Finset.sum_congr rfl fun k _ => (sq _).symm
  have h1 : (∑ k : Fin m, w k ^ 2) * (1 - ∑ k : Fin m, w k ^ 2) = 0 := by
    rw [Finset.sum_mul]
    refine Finset.sum_eq_zero fun k _ => ?_
    have := h.unit k k.2
    rw [e] at this
    rw [sq, mul_assoc, this, mul_zero]
  nlinarith [sq_nonneg (1 - ∑ k : Fin m, w k ^ 2)]

/-- What a rounded reflection does to column `j`: up to `L` roundings in every term it is the exact one. -/
def HouseNear (u : ℝ) (L : Nat) {m n : Nat} (p : Nat) (s : ℝ) (w : Nat → ℝ) (X Y : Matrix (Fin m) (Fin n) ℝ)
    (j : Fin n) : Prop :=
  ∀ r : Fin m, if (r : Nat) < p then Y r j = X r j else
    ∃ (τ : ℝ) (ρ : Fin m → ℝ), Near u L τ ∧ (∀ k, Near u L (ρ k)) ∧
      Y r j = s * (X r j * τ - 2 * w r * ∑ k : Fin m, w k * X k j * ρ k)

theorem HouseNear.bound {u : ℝ} (hu0 : 0 ≤ u) (hu1 : u < 1) {L : Nat} (hL : L * u < 1) {m n p : Nat} {s : ℝ}
    {w : Nat → ℝ} (hw : HouseOk m p s w) {X Y : Matrix (Fin m) (Fin n) ℝ} {j : Fin n}
    (h : HouseNear u L p s w X Y j) :
    colNorm (Y - house m p s w * X) j ≤ 3 * gam u L * colNorm X j := by
  set g := gam u L with hg
  have hg0 : 0 ≤ g := gam_nonneg hu0 hL
  have hX0 := colNorm_nonneg X j
  set β : ℝ := ∑ k : Fin m, |w k| * |X k j| with hβ
  have hβ0 : 0 ≤ β := Finset.sum_nonneg fun k _ => mul_nonneg (abs_nonneg _) (abs_nonneg _)
  have hw1 := hw.sum_le_one
  have hβX : β ≤ colNorm X j := by
    refine abs_le_of_sq_le_sq' ?_ hX0 |>.2
    have cs := Finset.sum_mul_sq_le_sq_mul_sq Finset.univ (fun k : Fin m => |w k|) (fun k => |X k j|)
    simp only [sq_abs] at cs
    rw [← colNorm_sq X j] at cs
    nlinarith [sq_nonneg (colNorm X j)]
  have hs : |s| = 1 := by
    have := hw.sign
    rcases mul_self_eq_one_iff.1 this with h | h <;> rw [h] <;> norm_num
  have key : ∀ r : Fin m, |(Y - house m p s w * X) r j| ≤ g * (|X r j| + 2 * |w r| * β) := by
    intro r
    have hr := h r
    rw [Matrix.sub_apply, house_mul_apply]
    by_cases hrp : (r : Nat) < p
    · rw [if_pos hrp] at hr ⊢
      rw [hr, sub_self, abs_zero]
      exact mul_nonneg hg0 (add_nonneg (abs_nonneg _) (by positivity))
    · rw [if_neg hrp] at hr ⊢
      obtain ⟨τ, ρ, hτ, hρ, e⟩ := hr
      rw [e]
      have e1 : s * (X r j * τ - 2 * w r * ∑ k : Fin m, w k * X k j * ρ k) -
          s * (X r j - 2 * w r * ∑ c : Fin m, w c * X c j) =
          s * (X r j * (τ - 1) - 2 * w r * ∑ k : Fin m, w k * X k j * (ρ k - 1)) := by
        have : ∑ k : Fin m, w k * X k j * (ρ k - 1) =
            ∑ k : Fin m, w k * X k j * ρ k - ∑ c : Fin m, w c * X c j := by
          rw [← Finset.sum_sub_distrib]
          exact Finset.sum_congr rfl fun k _ => by ring
        rw [this]; ring
      rw [e1, abs_mul, hs, one_mul]
      have h1 : |X r j * (τ - 1)| ≤ g * |X r j| := by
        rw [abs_mul, mul_comm]
        exact mul_le_mul_of_nonneg_right (hτ.abs_sub_one hu0 hu1 hL) (abs_nonneg _)
      have h2 : |∑ k : Fin m, w k * X k j * (ρ k - 1)| ≤ g * β := by
        refine (Finset.abs_sum_le_sum_abs _ _).trans ?_
        rw [hβ, Finset.mul_sum]
        refine Finset.sum_le_sum fun k _ => ?_
        rw [abs_mul, abs_mul, mul_comm]
        exact mul_le_mul_of_nonneg_right ((hρ k).abs_sub_one hu0 hu1 hL)
          (mul_nonneg (abs_nonneg _) (abs_nonneg _))
      have h3 : |2 * w r * ∑ k : Fin m, w k * X k j * (ρ k - 1)| ≤ 2 * |w r| * (g * β) := by
        rw [abs_mul, abs_mul, abs_two]
        exact mul_le_mul_of_nonneg_left h2 (by positivity)
      have := abs_sub (X r j * (τ - 1)) (2 * w r * ∑ k : Fin m, w k * X k j * (ρ k - 1))
      calc _ ≤ g * |X r j| + 2 * |w r| * (g * β) := this.trans (add_le_add h1 h3)
        _ = _ := by ring
  refine colNorm_le_of_sq (by positivity) ?_
  have step : ∑ r : Fin m, (Y - house m p s w * X) r j ^ 2 ≤
      ∑ r : Fin m, g ^ 2 * (X r j ^ 2 + 4 * β * (|w r| * |X r j|) + 4 * β ^ 2 * w r ^ 2) := by
    refine Finset.sum_le_sum fun r _ => ?_
    have := pow_le_pow_left₀ (abs_nonneg _) (key r) 2
    rw [sq_abs] at this
    refine this.trans (le_of_eq ?_)
    rw [← sq_abs (X r j), ← sq_abs (w r)]
    ring
  refine step.trans ?_
  rw [← Finset.mul_sum, Finset.sum_add_distrib, Finset.sum_add_distrib, ← Finset.mul_sum, ← Finset.mul_sum,
    ← colNorm_sq, ← hβ]
  have hβ2 : β ^ 2 ≤ colNorm X j ^ 2 := pow_le_pow_left₀ hβ0 hβX 2
  have hb : 4 * β ^ 2 * ∑ r : Fin m, w r ^ 2 ≤ 4 * β ^ 2 := by nlinarith [sq_nonneg β]
  calc g ^ 2 * (colNorm X j ^ 2 + 4 * β * β + 4 * β ^ 2 * ∑ r : Fin m, w r ^ 2)
      ≤ g ^ 2 * (9 * colNorm X j ^ 2) := mul_le_mul_of_nonneg_left (by nlinarith) (sq_nonneg g)
    _ = (3 * g * colNorm X j) ^ 2 := by ring

/-- Reflecting and rescaling the block of rows `≥ p` and columns `≥ c0`, rounded: every column is
`HouseNear`. -/
theorem blockReflect_rnd {R : StdModel} (axis : Arr1 (Rnd R)) (a : Arr2 (Rnd R)) (p c0 : Nat) (sg : Rnd R)
    (hp : p ≤ a.nr) (hc : c0 ≤ a.nc) (hl : axis.len = a.nr - p) (w : Nat → ℝ) (hw0 : ∀ r, r < p → w r = 0)
    {K : Nat} (hw : ∀ k, k < axis.len → ∃ t, Near R.u K t ∧ (axis.get k).v = w (p + k) * t) {m n : Nat}
    (ha : HasShape a m n) :
    ∃ rows rows', a.slice p a.nr c0 a.nc = .ok rows ∧ reflectCols axis 0 rows = .ok rows' ∧
      HasShape (a.put p c0 (rows'.map fun x => x * sg)) m n ∧
      (∀ i j, j < c0 → (a.put p c0 (rows'.map fun x => x * sg)).get i j = a.get i j) ∧
      (∀ i j, i < p → (a.put p c0 (rows'.map fun x => x * sg)).get i j = a.get i j) ∧
      ∀ j : Fin n, c0 ≤ (j : Nat) → HouseNear R.u (2 * K + m + 7) p sg.v w (toMat m n (Rnd.vals a))
        (toMat m n (Rnd.vals (a.put p c0 (rows'.map fun x => x * sg)))) j := by
  have h0 := R.u_nonneg
  have h1 := R.u_lt_one
  obtain ⟨rfl, rfl⟩ := ha
  refine ⟨_, _, Arr2.slice_ok hp le_rfl hc le_rfl, reflectCols_eq _ _ _ (by simpa using hl),
    ⟨rfl, rfl⟩, ?_, ?_, ?_⟩
  · intro i j hj
    simp only [Arr2.put]
    rw [if_neg (by omega)]
  · intro i j hi
    simp only [Arr2.put]
    rw [if_neg (by omega)]
  intro j hj r
  by_cases hrp : (r : Nat) < p
  · rw [if_pos hrp]
    simp only [toMat_apply, Rnd.vals, Arr2.put]
    rw [if_neg (by omega)]
  rw [if_neg hrp]
  have hr := r.2
  have hjn := j.2
  simp only [toMat_apply, Rnd.vals, Arr2.put, Arr2.map]
  rw [if_pos (by omega), if_pos (by omega), reflEntry]
  simp only
  rw [show p + ((r : Nat) - p) = r by omega, show c0 + ((j : Nat) - c0) = j by omega]
  choose! t ht et using hw
  obtain ⟨q, hq, eq⟩ := dotTo_products axis.len axis.get (fun k => a.get (p + k) j)
  obtain ⟨t1, ht1, e1⟩ := R.rnd_near ((dotTo axis.len axis.get fun k => a.get (p + k) j).v - (0 : Rnd R).v)
  obtain ⟨t2, ht2, e2⟩ := R.rnd_near (((-2 : ℚ) : ℝ))
  have e2' : (NdFloat.ofRat (-2) : Rnd R).v = ((-2 : ℚ) : ℝ) * t2 := e2
  obtain ⟨t3, ht3, e3⟩ := R.rnd_near (((dotTo axis.len axis.get fun k => a.get (p + k) j) - (0 : Rnd R)).v *
    (NdFloat.ofRat (-2) : Rnd R).v)
  obtain ⟨t4, ht4, e4⟩ := R.rnd_near ((((dotTo axis.len axis.get fun k => a.get (p + k) j) - (0 : Rnd R)) *
    (NdFloat.ofRat (-2) : Rnd R)).v * (axis.get (r - p)).v)
  obtain ⟨t5, ht5, e5⟩ := R.rnd_near ((a.get r j).v + (((dotTo axis.len axis.get fun k => a.get (p + k) j) -
    (0 : Rnd R)) * (NdFloat.ofRat (-2) : Rnd R) * axis.get (r - p)).v)
  obtain ⟨t6, ht6, e6⟩ := R.rnd_near ((a.get r j + ((dotTo axis.len axis.get fun k => a.get (p + k) j) -
    (0 : Rnd R)) * (NdFloat.ofRat (-2) : Rnd R) * axis.get (r - p)).v * sg.v)
  have hrl : (r : Nat) - p < axis.len := by omega
  refine ⟨t5 * t6, fun k => if p ≤ (k : Nat) then
      t (k - p) * q (k - p) * t1 * t2 * t3 * (t (r - p) * t4) * (t5 * t6) else 1, ?_, ?_, ?_⟩
  · exact (ht5.mul h0 h1 ht6).mono h0 h1 (by omega)
  · intro k
    dsimp only
    split_ifs with hk
    · have hkl : (k : Nat) - p < axis.len := by have := k.2; omega
      exact ((((((((ht _ hkl).mul h0 h1 (hq (k - p))).mul h0 h1 ht1).mul h0 h1 ht2).mul h0 h1 ht3).mul h0 h1
        ((ht _ hrl).mul h0 h1 ht4)).mul h0 h1 (ht5.mul h0 h1 ht6))).mono h0 h1 (by omega)
    · exact near_one h0 h1 _
  · rw [Rnd.mul_v, e6, Rnd.add_v, e5, Rnd.mul_v, e4, Rnd.mul_v, e3, Rnd.sub_v, e1, e2', Rnd.zero_v, eq,
      et _ hrl, show p + ((r : Nat) - p) = r by omega]
    have hsum : ∑ k : Fin a.nr, w k * (a.get k j).v * (if p ≤ (k : Nat) then
        t (k - p) * q (k - p) * t1 * t2 * t3 * (t (r - p) * t4) * (t5 * t6) else 1) =
        (∑ k ∈ Finset.range axis.len, (axis.get k).v * (a.get (p + k) j).v * q k) *
          (t1 * t2 * t3 * (t (r - p) * t4) * (t5 * t6)) := by
      rw [← Finset.sum_range (fun k => w k * (a.get k j).v * (if p ≤ k then
        t (k - p) * q (k - p) * t1 * t2 * t3 * (t (r - p) * t4) * (t5 * t6) else 1)),
        sum_range_supp hp _ (fun k hk => by rw [hw0 k hk]; ring), ← hl, Finset.sum_mul]
      refine Finset.sum_congr rfl fun k hk => ?_
      rw [if_pos (by omega), Nat.add_sub_cancel_left, et k (Finset.mem_range.1 hk)]
      ring
    rw [hsum]
    push_cast
    ring

/-- The axis of an exact reflection, stored with rounding errors in column `k` of `a`. -/
structure StoredNear {R : StdModel} (K m : Nat) (a : Arr2 (Rnd R)) (shift : Nat) (d : Nat → Rnd R) (k : Nat)
    (w : Nat → ℝ) : Prop where
  ok : HouseOk m (k + shift) (NdFloat.signum (d k) : Rnd R).v w
  near : ∀ r, k + shift ≤ r → r < m → ∃ t, Near R.u K t ∧ (a.get r k).v = w r * t

/-- What `clear_column` does, with rounding errors: an exact reflection is applied approximately to the
columns from `icol` on, and its axis stored approximately in column `icol`. -/
structure ClearNear {R : StdModel} (m n : Nat) (a b : Arr2 (Rnd R)) (icol p : Nat) (d : Rnd R) (w : Nat → ℝ) :
    Prop where
  shape : HasShape b m n
  ok : HouseOk m p (NdFloat.signum d : Rnd R).v w
  near : ∀ r, p ≤ r → r < m → ∃ t, Near R.u (2 * m + 12) t ∧ (b.get r icol).v = w r * t
  left : ∀ i j, j < icol → b.get i j = a.get i j
  top : ∀ i j, i < p → b.get i j = a.get i j
  right : ∀ j : Fin n, icol < (j : Nat) → HouseNear R.u (5 * m + 31) p (NdFloat.signum d : Rnd R).v w
    (toMat m n (Rnd.vals a)) (toMat m n (Rnd.vals b)) j
  col : ∃ e t, Near R.u (2 * m + 12) t ∧ |d.v| = e * t ∧ ∀ i, i < m →
    hApp m p (NdFloat.signum d : Rnd R).v w (fun k => (a.get k icol).v) i =
      if i < p then (a.get i icol).v else if i = p then e else 0

theorem signum_rnd_near {R : StdModel} {n : Nat} {x : Rnd R} {d t : ℝ} (ht : Near R.u n t) (h : x.v = d * t) :
    (NdFloat.signum x : Rnd R).v = NdFloat.signum d := by
  have h0 := ht.pos R.u_nonneg R.u_lt_one
  rw [Rnd.signum_v, real_signum, h]
  have : d * t < 0 ↔ d < 0 := by
    constructor
    · intro h; by_contra hc; push Not at hc; linarith [mul_nonneg hc h0.le]
    · intro h; exact mul_neg_of_neg_of_pos h h0
  simp only [this]

theorem clearColumn_rnd {R : StdModel} {m n : Nat} (a : Arr2 (Rnd R)) (ha : HasShape a m n) (icol shift : Nat)
    (hc : icol < n) (hr : icol + shift < m) :
    ∃ b d w, clearColumn a icol shift = .ok (b, d) ∧ ClearNear m n a b icol (icol + shift) d w := by
  have h0 := R.u_nonneg
  have h1 := R.u_lt_one
  set p := icol + shift with hp
  unfold clearColumn
  rw [Arr2.colSlice_ok (by rw [ha.1]; exact hr.le) le_rfl (by rw [ha.2]; exact hc)]
  simp only [ok_bind]
  obtain ⟨w, o, hw, hl, w', d, hs, ho, hwn, td, htd, ed⟩ := reflectionAxisMut_rnd
    (⟨a.nr - p, fun i => a.get (p + i) icol⟩ : Arr1 (Rnd R)) (by simp [ha.1]; omega)
  rw [← hp, hw]
  simp only at hl hs hwn htd
  rw [ha.1] at hl hs hwn htd
  simp only [ok_bind]
  set a1 := a.putCol p icol w with ha1
  have sa1 : HasShape a1 m n := ha
  have hcol : ∀ r, p ≤ r → r < m → a1.get r icol = w.get (r - p) := by
    intro r h1 h2
    simp only [ha1, Arr2.putCol, hl]
    rw [if_pos ⟨trivial, h1, by omega⟩]
  have hother : ∀ i j, i < p ∨ j ≠ icol → a1.get i j = a.get i j := by
    intro i j h
    simp only [ha1, Arr2.putCol]
    rw [if_neg (by omega)]
  have hW : ∀ k, k < w.len → ∃ t, Near R.u (2 * m + 12) t ∧ (w.get k).v = shiftVec p w' (p + k) * t := by
    intro k hk
    obtain ⟨t, ht, e⟩ := hwn k (by omega)
    exact ⟨t, ht.mono h0 h1 (by omega), by rw [shiftVec_add, e]⟩
  have hnear : ∀ (b : Arr2 (Rnd R)), (∀ r, b.get r icol = a1.get r icol) → ∀ r, p ≤ r → r < m →
      ∃ t, Near R.u (2 * m + 12) t ∧ (b.get r icol).v = shiftVec p w' r * t := by
    intro b hb r hr1 hr2
    obtain ⟨t, ht, e⟩ := hW (r - p) (by omega)
    rw [show p + (r - p) = r by omega] at e
    exact ⟨t, ht, by rw [hb, hcol r hr1 hr2, e]⟩
  have hsig := signum_rnd_near htd ed
  have hok : HouseOk m p (NdFloat.signum (o.getD 0) : Rnd R).v (shiftVec p w') := by
    rw [hsig]
    refine ⟨fun r h => shiftVec_lt _ h, real_signum_sq _, fun r h => ?_⟩
    by_cases hrp : r < p
    · rw [shiftVec_lt _ hrp, zero_mul]
    · have := hs.unit (r - p) (by omega)
      rw [sum_range_supp hr.le _ (fun k hk => by rw [shiftVec_lt _ hk, zero_mul])]
      simp only [shiftVec_add]
      rw [shiftVec, if_pos (by omega)]
      exact this
  have hcolr : ∃ e t, Near R.u (2 * m + 12) t ∧ |(o.getD 0).v| = e * t ∧ ∀ i, i < m →
      hApp m p (NdFloat.signum (o.getD 0) : Rnd R).v (shiftVec p w') (fun k => (a.get k icol).v) i =
        if i < p then (a.get i icol).v else if i = p then e else 0 := by
    refine ⟨|d|, td, htd.mono h0 h1 (by omega), ?_, fun i hi => ?_⟩
    · rw [ed, abs_mul, abs_of_pos (htd.pos h0 h1)]
    rw [hsig]
    unfold hApp
    by_cases hip : i < p
    · rw [if_pos hip, if_pos hip]
    · rw [if_neg hip, if_neg hip, sum_range_supp hr.le _
        (fun k hk => by rw [shiftVec_lt _ hk, zero_mul])]
      simp only [shiftVec_add]
      have := hs.refl (i - p) (by omega)
      rw [show p + (i - p) = i by omega] at this
      rw [shiftVec, if_pos (by omega), this]
      by_cases hipe : i = p
      · rw [if_pos (by omega), if_pos hipe, real_signum_mul_self]
      · rw [if_neg (by omega), if_neg hipe, mul_zero]
  cases o with
  | none =>
    have hd0 : d = 0 := ho.1 rfl
    refine ⟨a1, 0, shiftVec p w', rfl, sa1, hok, hnear a1 (fun _ => rfl), ?_, ?_, ?_, hcolr⟩
    · intro i j hj; exact hother i j (Or.inr (by omega))
    · intro i j hi; exact hother i j (Or.inl hi)
    · intro j hj r
      have e : toMat m n (Rnd.vals a1) r j = toMat m n (Rnd.vals a) r j := by
        simp only [toMat_apply, Rnd.vals]
        rw [hother r j (Or.inr (by omega))]
      by_cases hrp : (r : Nat) < p
      · rw [if_pos hrp, e]
      · rw [if_neg hrp]
        refine ⟨1, fun _ => 1, near_one h0 h1 _, fun _ => near_one h0 h1 _, ?_⟩
        have hwr : shiftVec p w' r = 0 := by
          rw [shiftVec, if_pos (by omega)]
          exact hs.zero hd0 _ (by have := r.2; omega)
        rw [e, hwr, Rnd.signum_v, Rnd.zero_v, if_neg (lt_irrefl _)]
        ring
  | some ν =>
    simp only
    obtain ⟨rows, rows', e1, e2, e3, e4, e5, e6⟩ := blockReflect_rnd w a1 p (icol + 1)
      (NdFloat.signum ν) (by rw [sa1.1]; exact hr.le) (by rw [sa1.2]; exact hc) (by rw [sa1.1]; exact hl)
      (shiftVec p w') (fun r hr => shiftVec_lt _ hr) hW sa1
    rw [e1]
    simp only [ok_bind]
    rw [e2]
    simp only [ok_bind]
    refine ⟨_, _, shiftVec p w', rfl, e3, hok, hnear _ (fun r => e4 r icol (by omega)), ?_, ?_, ?_, hcolr⟩
    · intro i j hj
      rw [e4 i j (by omega), hother i j (Or.inr (by omega))]
    · intro i j hi
      rw [e5 i j hi, hother i j (Or.inl hi)]
    · intro j hj
      have e : ∀ r : Fin m, toMat m n (Rnd.vals a1) r j = toMat m n (Rnd.vals a) r j := by
        intro r
        simp only [toMat_apply, Rnd.vals]
        rw [hother r j (Or.inr (by omega))]
      have := e6 j hj
      unfold HouseNear at this ⊢
      simp only [e] at this
      rw [show 2 * (2 * m + 12) + m + 7 = 5 * m + 31 by omega] at this
      exact this

end LinfaLinalg
