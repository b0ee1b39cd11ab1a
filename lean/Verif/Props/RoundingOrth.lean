import Verif.Proofs.RoundedOrth
import Verif.Props.Cholesky
import Verif.Proofs.EighFloat

/-! # C119: `orthonormalize` in floating point

The scalar type is `Rnd R`, the standard model of floating-point arithmetic. `orthonormalize` forms the Gram matrix, so
the loss of orthogonality grows with the square of the condition number of the block. -/

namespace LinfaLinalg

open Matrix

variable {R : StdModel}

/-- The Gram matrix as `cholesky` reads it: the lower triangle, mirrored. -/
def lowSym (g : Arr2 (Rnd R)) : Arr2 (Rnd R) := ⟨g.nr, g.nc, fun i j => if j ≤ i then g.get i j else g.get j i⟩

/-- The computed Gram matrix, entry by entry. -/
theorem gram_rnd {n m : Nat} (v g : Arr2 (Rnd R)) (hv : HasShape v n m) (hn : ((n + 1 : Nat) : ℝ) * R.u < 1)
    (h : v.t.dot v = .ok g) : HasShape g m m ∧ (toMat m m (Rnd.vals (lowSym g))).IsSymm ∧
      (∀ i j : Fin m, |(toMat m m (Rnd.vals (lowSym g)) - (toMat n m (Rnd.vals v))ᵀ * toMat n m (Rnd.vals v)) i j| ≤
        gam R.u (n + 1) * ((absMat (toMat n m (Rnd.vals v)))ᵀ * absMat (toMat n m (Rnd.vals v))) i j) ∧
      ∀ i j : Fin m, ∃ q : Nat → ℝ, (∀ k, Near R.u (n + 1) (q k)) ∧
        ((lowSym g).get i j).v = ∑ k ∈ Finset.range n, (v.get k i).v * (v.get k j).v * q k := by
  obtain ⟨rfl, rfl⟩ := hv
  unfold Arr2.dot at h
  rw [if_pos (show v.t.nc = v.nr from rfl)] at h
  cases h
  have hent : ∀ i j : Fin v.nc, ∃ q : Nat → ℝ, (∀ k, Near R.u (v.nr + 1) (q k)) ∧
      ((lowSym (⟨v.t.nr, v.nc, fun i j => dotTo v.t.nc (v.t.get i) fun k => v.get k j⟩ : Arr2 (Rnd R))).get i j).v =
        ∑ k ∈ Finset.range v.nr, (v.get k i).v * (v.get k j).v * q k := fun i j => by
    simp only [lowSym]
    split
    · exact dotTo_products v.nr (fun k => v.get k i) (fun k => v.get k j)
    · obtain ⟨q, hq, e⟩ := dotTo_products v.nr (fun k => v.get k j) (fun k => v.get k i)
      exact ⟨q, hq, e.trans (Finset.sum_congr rfl fun k _ => by ring)⟩
  refine ⟨⟨rfl, rfl⟩, ?_, fun i j => ?_, hent⟩
  · ext i j
    simp only [Matrix.transpose_apply, toMat_apply, Rnd.vals, lowSym]
    split <;> split
    · have : (i : Nat) = j := by omega
      rw [this]
    · rfl
    · rfl
    · omega
  · obtain ⟨q, hq, e⟩ := hent i j
    have e1 : (toMat v.nc v.nc (Rnd.vals (lowSym (⟨v.t.nr, v.nc, fun i j => dotTo v.t.nc (v.t.get i) fun k => v.get k j⟩ :
        Arr2 (Rnd R)))) - (toMat v.nr v.nc (Rnd.vals v))ᵀ * toMat v.nr v.nc (Rnd.vals v)) i j =
        ∑ k : Fin v.nr, (v.get k i).v * (v.get k j).v * (q k - 1) := by
      rw [Matrix.sub_apply, Matrix.mul_apply, toMat_apply]
      simp only [Rnd.vals] at e ⊢
      rw [e, Finset.sum_range (fun k => (v.get k i).v * (v.get k j).v * q k), ← Finset.sum_sub_distrib]
      refine Finset.sum_congr rfl fun k _ => ?_
      simp only [Matrix.transpose_apply, toMat_apply]
      ring
    rw [e1, Matrix.mul_apply, Finset.mul_sum]
    refine (Finset.abs_sum_le_sum_abs _ _).trans (Finset.sum_le_sum fun k _ => ?_)
    rw [abs_mul, abs_mul, mul_comm]
    refine mul_le_mul_of_nonneg_right ((hq k).abs_sub_one R.u_nonneg R.u_lt_one hn) (by positivity)

/-- **C119, backward errors**: whatever the block, if `orthonormalize` returns `(Q, L)` then `L` is lower triangular with a
positive diagonal, `L Lᵀ` is the Gram matrix and `Q Lᵀ` the block up to rounding errors, entry by entry. -/
theorem C119_backward {n m : Nat} (v q l : Arr2 (Rnd R)) (hv : HasShape v n m) (hu : ((n + m + 2 : Nat) : ℝ) * R.u < 1)
    (h : orthonormalize v = .ok (q, l)) :
    HasShape q n m ∧ HasShape l m m ∧ LowerPos (toMat m m (Rnd.vals l)) ∧
    (∀ i j, |(toMat m m (Rnd.vals l) * (toMat m m (Rnd.vals l))ᵀ -
        (toMat n m (Rnd.vals v))ᵀ * toMat n m (Rnd.vals v)) i j| ≤
      gam R.u (n + m + 2) * (((absMat (toMat n m (Rnd.vals v)))ᵀ * absMat (toMat n m (Rnd.vals v))) i j +
        (absMat (toMat m m (Rnd.vals l)) * (absMat (toMat m m (Rnd.vals l)))ᵀ) i j)) ∧
    ∀ i j, |(toMat n m (Rnd.vals v) - toMat n m (Rnd.vals q) * (toMat m m (Rnd.vals l))ᵀ) i j| ≤
      gam R.u (n + m + 2) * (absMat (toMat n m (Rnd.vals q)) * (absMat (toMat m m (Rnd.vals l)))ᵀ) i j := by
  have h0 := R.u_nonneg
  have hle : ∀ k, k ≤ n + m + 2 → (k : ℝ) * R.u < 1 := fun k hk =>
    lt_of_le_of_lt (mul_le_mul_of_nonneg_right (by exact_mod_cast hk) h0) hu
  obtain ⟨g, u0, hg, hl, hx, rfl, sq⟩ := orthonormalize_inv h
  rw [hv.1, hv.2] at sq
  obtain ⟨sg, hsym, hgb, -⟩ := gram_rnd v g hv (hle _ (by omega)) hg
  have hag : LowAgree g (lowSym g) := ⟨rfl, rfl, fun r c _ _ hcr => (if_pos hcr).symm⟩
  have hrel := (C10_upper_ignored g (lowSym g) hag).2.2
  rw [hl] at hrel
  obtain ⟨l', hl', e1, e2, e3⟩ : ∃ l', cholesky (lowSym g) = .ok l' ∧ SameArr l l' := by
    cases hc : cholesky (lowSym g) with
    | error e => rw [hc] at hrel; simp [RelM] at hrel
    | ok l' => rw [hc] at hrel; exact ⟨l', rfl, hrel⟩
  obtain ⟨sl', hpos, hcb, -⟩ := C66_backward_error (lowSym g) l' sg hsym (hle _ (by omega)) hl'
  have sl : HasShape l m m := ⟨e1.trans sl'.1, e2.trans sl'.2⟩
  have hLL : toMat m m (Rnd.vals l') = toMat m m (Rnd.vals l) := by
    ext i j
    simp only [toMat_apply, Rnd.vals]
    rw [e3 i j (by rw [sl.1]; exact i.2) (by rw [sl.2]; exact j.2)]
  rw [hLL] at hpos hcb
  have hd : ∀ i, i < m → (l.get i i).v ≠ 0 := fun i hi => (hpos.2 ⟨i, hi⟩).ne'
  have hvt : HasShape v.t m n := ⟨hv.2, hv.1⟩
  have hres := C65_residual l v.t u0 .lower sl hvt hd (hle _ (by omega)) hx
  rw [triPart_lower_of_lowerPos hpos] at hres
  refine ⟨sq, sl, hpos, fun i j => ?_, fun i j => ?_⟩
  · have hA := hcb i j
    have hB := hgb i j
    have e : (toMat m m (Rnd.vals l) * (toMat m m (Rnd.vals l))ᵀ - (toMat n m (Rnd.vals v))ᵀ * toMat n m (Rnd.vals v)) i j =
        (toMat m m (Rnd.vals l) * (toMat m m (Rnd.vals l))ᵀ - toMat m m (Rnd.vals (lowSym g))) i j +
        (toMat m m (Rnd.vals (lowSym g)) - (toMat n m (Rnd.vals v))ᵀ * toMat n m (Rnd.vals v)) i j := by
      simp only [Matrix.sub_apply]; ring
    have g1 := gam_mono h0 (by omega : m + 2 ≤ n + m + 2) hu
    have g2 := gam_mono h0 (by omega : n + 1 ≤ n + m + 2) hu
    have p1 : 0 ≤ (absMat (toMat m m (Rnd.vals l)) * (absMat (toMat m m (Rnd.vals l)))ᵀ) i j := by
      rw [Matrix.mul_apply]; exact Finset.sum_nonneg fun k _ => mul_nonneg (abs_nonneg _) (abs_nonneg _)
    have p2 : 0 ≤ ((absMat (toMat n m (Rnd.vals v)))ᵀ * absMat (toMat n m (Rnd.vals v))) i j := by
      rw [Matrix.mul_apply]; exact Finset.sum_nonneg fun k _ => mul_nonneg (abs_nonneg _) (abs_nonneg _)
    rw [e, mul_add, add_comm (gam _ _ * _)]
    exact (abs_add_le _ _).trans (add_le_add (hA.trans (mul_le_mul_of_nonneg_right g1 p1))
      (hB.trans (mul_le_mul_of_nonneg_right g2 p2)))
  · have hA := hres j i
    have e : (toMat n m (Rnd.vals v) - toMat n m (Rnd.vals u0.t) * (toMat m m (Rnd.vals l))ᵀ) i j =
        (toMat m n (Rnd.vals v.t) - toMat m m (Rnd.vals l) * toMat m n (Rnd.vals u0)) j i := by
      rw [Matrix.sub_apply, Matrix.sub_apply, Matrix.mul_apply, Matrix.mul_apply]
      refine congrArg₂ _ rfl (Finset.sum_congr rfl fun k _ => mul_comm _ _)
    have e' : (absMat (toMat n m (Rnd.vals u0.t)) * (absMat (toMat m m (Rnd.vals l)))ᵀ) i j =
        (absMat (toMat m m (Rnd.vals l)) * absMat (toMat m n (Rnd.vals u0))) j i := by
      rw [Matrix.mul_apply, Matrix.mul_apply]
      exact Finset.sum_congr rfl fun k _ => mul_comm _ _
    have p1 : 0 ≤ (absMat (toMat m m (Rnd.vals l)) * absMat (toMat m n (Rnd.vals u0))) j i := by
      rw [Matrix.mul_apply]; exact Finset.sum_nonneg fun k _ => mul_nonneg (abs_nonneg _) (abs_nonneg _)
    rw [e, e']
    exact hA.trans (mul_le_mul_of_nonneg_right (gam_mono h0 (by omega : m ≤ n + m + 2) hu) p1)

theorem frob_le_of_entries {n m : Nat} {A B : Matrix (Fin n) (Fin m) ℝ} {γ : ℝ} (hγ : 0 ≤ γ)
    (h : ∀ i j, |A i j| ≤ γ * B i j) : frob A ≤ γ * frob B := by
  rw [← abs_of_nonneg hγ, ← frob_smul]
  exact frob_mono fun i j => (h i j).trans (le_abs_self _)

/-- The errors of the factor in norms. -/
theorem orth_norms {n m : Nat} (v q l : Arr2 (Rnd R)) (hv : HasShape v n m) (hu : ((n + m + 2 : Nat) : ℝ) * R.u < 1)
    (h : orthonormalize v = .ok (q, l)) :
    frob (toMat m m (Rnd.vals l) * (toMat m m (Rnd.vals l))ᵀ - (toMat n m (Rnd.vals v))ᵀ * toMat n m (Rnd.vals v)) ≤
      gam R.u (n + m + 2) * (frob (toMat n m (Rnd.vals v)) ^ 2 + frob (toMat m m (Rnd.vals l)) ^ 2) ∧
    frob (toMat m m (Rnd.vals l)) ^ 2 - frob (toMat n m (Rnd.vals v)) ^ 2 ≤
      gam R.u (n + m + 2) * (frob (toMat n m (Rnd.vals v)) ^ 2 + frob (toMat m m (Rnd.vals l)) ^ 2) := by
  have hγ0 := gam_nonneg R.u_nonneg hu
  obtain ⟨b1, b2, b3, b4, b5⟩ := C119_backward v q l hv hu h
  constructor
  · refine (frob_le_of_entries (B := (absMat (toMat n m (Rnd.vals v)))ᵀ * absMat (toMat n m (Rnd.vals v)) +
      absMat (toMat m m (Rnd.vals l)) * (absMat (toMat m m (Rnd.vals l)))ᵀ) hγ0 b4).trans
      (mul_le_mul_of_nonneg_left ?_ hγ0)
    have f1 := frob_mul_le (absMat (toMat n m (Rnd.vals v)))ᵀ (absMat (toMat n m (Rnd.vals v)))
    have f2 := frob_mul_le (absMat (toMat m m (Rnd.vals l))) (absMat (toMat m m (Rnd.vals l)))ᵀ
    rw [frob_transpose, frob_absMat] at f1 f2
    refine (frob_add_le _ _).trans ?_
    rw [sq, sq]
    exact add_le_add f1 f2
  · have t1 : frob (toMat m m (Rnd.vals l)) ^ 2 = (toMat m m (Rnd.vals l) * (toMat m m (Rnd.vals l))ᵀ).trace := by
      rw [← frob_transpose, frob_sq_trace, Matrix.transpose_transpose]
    have t2 : frob (toMat m m (Rnd.vals l)) ^ 2 =
        (absMat (toMat m m (Rnd.vals l)) * (absMat (toMat m m (Rnd.vals l)))ᵀ).trace := by
      rw [← frob_absMat, ← frob_transpose, frob_sq_trace, Matrix.transpose_transpose]
    have t3 : frob (toMat n m (Rnd.vals v)) ^ 2 =
        ((absMat (toMat n m (Rnd.vals v)))ᵀ * absMat (toMat n m (Rnd.vals v))).trace := by
      rw [← frob_absMat, frob_sq_trace]
    have hsum : (toMat m m (Rnd.vals l) * (toMat m m (Rnd.vals l))ᵀ -
        (toMat n m (Rnd.vals v))ᵀ * toMat n m (Rnd.vals v)).trace ≤ gam R.u (n + m + 2) *
        (((absMat (toMat n m (Rnd.vals v)))ᵀ * absMat (toMat n m (Rnd.vals v))).trace +
          (absMat (toMat m m (Rnd.vals l)) * (absMat (toMat m m (Rnd.vals l)))ᵀ).trace) := by
      simp only [Matrix.trace, Matrix.diag_apply]
      rw [← Finset.sum_add_distrib, Finset.mul_sum]
      exact Finset.sum_le_sum fun i _ => (le_abs_self _).trans (b4 i i)
    rw [Matrix.trace_sub, ← t1, ← t2, ← t3, ← frob_sq_trace] at hsum
    exact hsum

/-- **C119**: on a block whose columns are independent enough (`c` bounds `‖V x‖² / ‖x‖²` from below, so `‖V‖² / c` bounds
the square of the condition number) `orthonormalize` succeeds, its result is orthonormal up to rounding errors times that
square, and `Q Lᵀ` is the block up to rounding errors. -/
theorem C119_orthonormal {n m : Nat} (v : Arr2 (Rnd R)) (hv : HasShape v n m) (hm : 1 ≤ m)
    (hu : ((n + m + 2 : Nat) : ℝ) * R.u < 1) (c : ℝ) (hc : 0 < c)
    (hcond : ∀ x : Fin m → ℝ, c * ∑ i, x i ^ 2 ≤ ∑ r, (toMat n m (Rnd.vals v)).mulVec x r ^ 2)
    (hsmall : 16 * m ^ 2 * gam R.u (n + m + 2) * frob (toMat n m (Rnd.vals v)) ^ 2 ≤ c) :
    ∃ q l, orthonormalize v = .ok (q, l) ∧ HasShape q n m ∧ HasShape l m m ∧ LowerPos (toMat m m (Rnd.vals l)) ∧
      frob ((toMat n m (Rnd.vals q))ᵀ * toMat n m (Rnd.vals q) - 1) ≤
        24 * m ^ 2 * gam R.u (n + m + 2) * frob (toMat n m (Rnd.vals v)) ^ 2 / c ∧
      frob (toMat n m (Rnd.vals v) - toMat n m (Rnd.vals q) * (toMat m m (Rnd.vals l))ᵀ) ≤
        2 * gam R.u (n + m + 2) * √m * frob (toMat n m (Rnd.vals v)) := by
  have h0 := R.u_nonneg
  have h1 := R.u_lt_one
  have hle : ∀ k, k ≤ n + m + 2 → (k : ℝ) * R.u < 1 := fun k hk =>
    lt_of_le_of_lt (mul_le_mul_of_nonneg_right (by exact_mod_cast hk) h0) hu
  have hγ0 := gam_nonneg h0 hu
  have hm1 : (1 : ℝ) ≤ m := by exact_mod_cast hm
  -- `orthonormalize` succeeds
  obtain ⟨g, hg⟩ : ∃ g, v.t.dot v = .ok g := by
    unfold Arr2.dot
    rw [if_pos (show v.t.nc = v.nr from rfl)]
    exact ⟨_, rfl⟩
  obtain ⟨sg, hsym, hgb, hgent⟩ := gram_rnd v g hv (hle _ (by omega)) hg
  have hag : LowAgree g (lowSym g) := ⟨rfl, rfl, fun r c _ _ hcr => (if_pos hcr).symm⟩
  have hchol : ∃ l, cholesky (lowSym g) = .ok l := by
    set N := frob (toMat n m (Rnd.vals v)) with hN
    set γ := gam R.u (n + m + 2) with hγdef
    have g1 := gam_mono h0 (by omega : m + 2 ≤ n + m + 2) hu
    have g2 := gam_mono h0 (by omega : n + 1 ≤ n + m + 2) hu
    have hcol : ∀ i : Fin m, c ≤ ∑ k : Fin n, (v.get k i).v ^ 2 := fun i => by
      have := hcond (Pi.single i 1)
      have e : ∑ j, (Pi.single i (1 : ℝ) : Fin m → ℝ) j ^ 2 = 1 := by
        rw [Finset.sum_eq_single i]
        · simp
        · intro j _ hj; simp [Pi.single_eq_of_ne hj]
        · intro h; exact absurd (Finset.mem_univ _) h
      rw [e, mul_one] at this
      refine this.trans (le_of_eq (Finset.sum_congr rfl fun k _ => ?_))
      rw [Matrix.mulVec_single_one]; rfl
    have hcolN : ∀ i : Fin m, ∑ k : Fin n, (v.get k i).v ^ 2 ≤ N ^ 2 := fun i => by
      rw [hN, frob_sq, Finset.sum_comm]
      exact Finset.single_le_sum (f := fun j : Fin m => ∑ k : Fin n, (toMat n m (Rnd.vals v)) k j ^ 2)
        (fun j _ => Finset.sum_nonneg fun k _ => sq_nonneg _) (Finset.mem_univ i)
    have hcN : c ≤ N ^ 2 := (hcol ⟨0, hm⟩).trans (hcolN _)
    have hNp : 0 < N ^ 2 := lt_of_lt_of_le hc hcN
    have hNne : N ≠ 0 := fun h => by rw [h] at hNp; norm_num at hNp
    have hm2 : (1 : ℝ) ≤ m ^ 2 := by nlinarith
    have hγN : 16 * γ * N ^ 2 ≤ c := by
      have : γ * N ^ 2 ≤ m ^ 2 * (γ * N ^ 2) := le_mul_of_one_le_left (mul_nonneg hγ0 hNp.le) hm2
      nlinarith
    have hγ : γ ≤ 1 / 16 := by
      have h1 : 16 * γ * N ^ 2 ≤ 1 * N ^ 2 := by linarith
      have h2 := le_of_mul_le_mul_right h1 hNp
      linarith
    have hEn : frob (toMat m m (Rnd.vals (lowSym g)) - (toMat n m (Rnd.vals v))ᵀ * toMat n m (Rnd.vals v)) ≤ γ * N ^ 2 := by
      refine (frob_le_of_entries (gam_nonneg h0 (hle _ (by omega : n + 1 ≤ _))) hgb).trans ?_
      refine mul_le_mul g2 ?_ (frob_nonneg _) hγ0
      have := frob_mul_le (absMat (toMat n m (Rnd.vals v)))ᵀ (absMat (toMat n m (Rnd.vals v)))
      rw [frob_transpose, frob_absMat] at this
      linarith [sq N]
    have hdiag : ∀ i : Fin m, 0 < ((lowSym g).get i i).v ∧ ((lowSym g).get i i).v ≤ 17 / 16 * N ^ 2 := fun i => by
      obtain ⟨q, hq, e⟩ := hgent i i
      obtain ⟨r, hr, e'⟩ := Near.sum h0 h1 n (f := fun k => (v.get k i).v * (v.get k i).v) (fun k => mul_self_nonneg _) hq
      have e2 : ∑ k ∈ Finset.range n, (v.get k i).v * (v.get k i).v = ∑ k : Fin n, (v.get k i).v ^ 2 := by
        rw [Finset.sum_range (fun k => (v.get k i).v * (v.get k i).v)]
        exact Finset.sum_congr rfl fun k _ => (sq _).symm
      rw [e, e', e2]
      have hr1 := (abs_le.1 (hr.abs_sub_one h0 h1 (hle _ (by omega : n + 1 ≤ _)))).2
      have hrp := hr.pos h0 h1
      refine ⟨mul_pos (lt_of_lt_of_le hc (hcol i)) hrp, ?_⟩
      have : (∑ k : Fin n, (v.get k i).v ^ 2) * r ≤ N ^ 2 * (17 / 16) :=
        mul_le_mul (hcolN i) (by linarith) hrp.le hNp.le
      linarith
    refine (C69_succeeds (lowSym g) (lowSym g) sg sg hsym (hle _ (by omega)) (15 / 17 * (c / N ^ 2)) (by positivity)
      (fun i hi => (hdiag ⟨i, hi⟩).1) (fun x => ?_) ?_).1
    · have hx0 : 0 ≤ ∑ i, x i ^ 2 := Finset.sum_nonneg fun i _ => sq_nonneg _
      have hA : 15 / 17 * (c / N ^ 2) * ∑ i : Fin m, ((lowSym g).get i i).v * x i ^ 2 ≤ 15 / 16 * c * ∑ i, x i ^ 2 := by
        have : ∑ i : Fin m, ((lowSym g).get i i).v * x i ^ 2 ≤ 17 / 16 * N ^ 2 * ∑ i, x i ^ 2 := by
          rw [Finset.mul_sum]
          exact Finset.sum_le_sum fun i _ => mul_le_mul_of_nonneg_right (hdiag i).2 (sq_nonneg _)
        calc _ ≤ 15 / 17 * (c / N ^ 2) * (17 / 16 * N ^ 2 * ∑ i, x i ^ 2) :=
              mul_le_mul_of_nonneg_left this (by positivity)
          _ = 15 / 16 * c * ∑ i, x i ^ 2 := by field_simp
      refine hA.trans ?_
      set X : Matrix (Fin m) (Fin 1) ℝ := Matrix.of fun i _ => x i with hX
      have hXs : frob X ^ 2 = ∑ i, x i ^ 2 := by rw [frob_sq]; simp [hX]
      set D := toMat m m (Rnd.vals (lowSym g)) - (toMat n m (Rnd.vals v))ᵀ * toMat n m (Rnd.vals v) with hD
      have e1 : x ⬝ᵥ (toMat m m (Rnd.vals (lowSym g))).mulVec x = (Xᵀ * (toMat m m (Rnd.vals (lowSym g)) * X)).trace := by
        simp only [dotProduct, Matrix.trace_fin_one, Matrix.mul_apply, Matrix.transpose_apply, hX, Matrix.of_apply,
          Matrix.mulVec]
      have e2 : (Xᵀ * (toMat m m (Rnd.vals (lowSym g)) * X)).trace =
          frob (toMat n m (Rnd.vals v) * X) ^ 2 + (Xᵀ * (D * X)).trace := by
        rw [frob_sq_trace, Matrix.transpose_mul, ← Matrix.trace_add]
        congr 1
        rw [hD, Matrix.sub_mul, Matrix.mul_sub]
        simp only [Matrix.mul_assoc]
        abel
      have h3 : |(Xᵀ * (D * X)).trace| ≤ frob X * (frob D * frob X) :=
        (abs_trace_le_frob X (D * X)).trans (mul_le_mul_of_nonneg_left (frob_mul_le _ _) (frob_nonneg _))
      have h4 := (abs_le.1 h3).1
      have h5 := cond_mat hcond X
      have h6 : frob D * frob X ^ 2 ≤ 1 / 16 * c * frob X ^ 2 :=
        mul_le_mul_of_nonneg_right (hEn.trans (by linarith)) (sq_nonneg _)
      rw [e1, e2, ← hXs]
      have h7 : frob X * (frob D * frob X) = frob D * frob X ^ 2 := by ring
      linarith
    · have hk : 16 * (m * γ) ≤ c / N ^ 2 := by
        rw [le_div_iff₀ hNp]
        have : m * (γ * N ^ 2) ≤ m ^ 2 * (γ * N ^ 2) :=
          mul_le_mul_of_nonneg_right (by nlinarith) (mul_nonneg hγ0 hNp.le)
        nlinarith
      have hcp : 0 < c / N ^ 2 := div_pos hc hNp
      have h2 : 2 * (m : ℝ) * gam R.u (m + 2) ≤ 2 * m * γ := mul_le_mul_of_nonneg_left g1 (by positivity)
      have h3 : 15 / 17 * (c / N ^ 2) * (15 / 16) ≤ 15 / 17 * (c / N ^ 2) * (1 - gam R.u (m + 2)) :=
        mul_le_mul_of_nonneg_left (by linarith) (by positivity)
      linarith
  obtain ⟨l', hl'⟩ := hchol
  have hrel := (C10_upper_ignored g (lowSym g) hag).2.2
  rw [hl'] at hrel
  obtain ⟨l, hl, hsame⟩ : ∃ l, cholesky g = .ok l ∧ SameArr l l' := by
    cases hc : cholesky g with
    | error e => rw [hc] at hrel; simp [RelM] at hrel
    | ok l => rw [hc] at hrel; exact ⟨l, rfl, hrel⟩
  obtain ⟨sl', hpos, -, -⟩ := C66_backward_error (lowSym g) l' sg hsym (hle _ (by omega)) hl'
  have sl : HasShape l m m := ⟨hsame.1.trans sl'.1, hsame.2.1.trans sl'.2⟩
  have hd : ∀ i, i < m → (l.get i i).v ≠ 0 := fun i hi => by
    rw [hsame.2.2 i i (by rw [sl.1]; exact hi) (by rw [sl.2]; exact hi)]
    exact (hpos.2 ⟨i, hi⟩).ne'
  obtain ⟨u0, hu0, su0, -⟩ := C65_backward_error l v.t .lower sl ⟨hv.2, hv.1⟩ hd (hle _ (by omega))
  have hok : orthonormalize v = .ok (u0.t, l) := by
    unfold orthonormalize
    rw [hg]; simp only [ok_bind]
    rw [hl]; simp only [ok_bind]
    rw [hu0]; rfl
  -- the error analysis
  obtain ⟨b1, b2, b3, b4, b5⟩ := C119_backward v u0.t l hv hu hok
  refine ⟨u0.t, l, hok, b1, b2, b3, ?_⟩
  refine cholQr_orth (toMat n m (Rnd.vals v)) (toMat n m (Rnd.vals u0.t)) (toMat m m (Rnd.vals l)) _ c hγ0 hm b3.isUnit hc
    hcond hsmall ?_ ?_ ?_
  · refine (frob_le_of_entries hγ0 b5).trans (mul_le_mul_of_nonneg_left ?_ hγ0)
    have := frob_mul_le (absMat (toMat n m (Rnd.vals u0.t))) (absMat (toMat m m (Rnd.vals l)))ᵀ
    rwa [frob_transpose, frob_absMat, frob_absMat] at this
  · exact (orth_norms v u0.t l hv hu hok).1
  · exact (orth_norms v u0.t l hv hu hok).2

/-! ## A block that meets the conditions, and one that shows that a condition is needed -/

/-- The block `[[1, 1], [e, 0]]`. -/
noncomputable def exBlock (R : StdModel) (e : ℝ) : Arr2 (Rnd R) := ⟨2, 2, fun i j => ⟨(ofRows 2 2 [[1, 1], [e, 0]]).get i j⟩⟩

theorem exBlock_vals (e : ℝ) : toMat 2 2 (Rnd.vals (exBlock R e)) = !![1, 1; e, 0] := by
  ext i j
  fin_cases i <;> fin_cases j <;> simp [exBlock, ofRows, Rnd.vals]

/-- With `e = 1` the conditions of C119 hold in double precision, with `c = 1/4`. -/
example : ∃ q l, orthonormalize (exBlock .double 1) = .ok (q, l) ∧
    frob ((toMat 2 2 (Rnd.vals q))ᵀ * toMat 2 2 (Rnd.vals q) - 1) ≤ 1 / 10 ^ 11 := by
  have hf : frob (toMat 2 2 (Rnd.vals (exBlock StdModel.double 1))) ^ 2 = 3 := by
    rw [exBlock_vals, frob_sq]
    simp [Fin.sum_univ_two]
    norm_num
  obtain ⟨q, l, h, -, -, -, ho, -⟩ := C119_orthonormal (n := 2) (m := 2) (exBlock .double 1) ⟨rfl, rfl⟩ (by norm_num)
    (by norm_num [StdModel.double]) (1 / 4) (by norm_num) (fun x => by
      rw [exBlock_vals]
      simp [Fin.sum_univ_two, Matrix.mulVec, dotProduct]
      nlinarith [sq_nonneg (3 * x 0 + 2 * x 1), sq_nonneg (x 0 + x 1)]) (by
      rw [hf]
      norm_num [gam, StdModel.double])
  refine ⟨q, l, h, ho.trans ?_⟩
  rw [hf]
  norm_num [gam, StdModel.double]

/-- **C119, the condition is needed**: the columns of `[[1, 1], [2⁻²⁷, 0]]` are independent, but in double precision
`orthonormalize` reports that they are not: the Gram matrix has lost the second row. -/
theorem C119_independent_rejected : LinearIndependent ℝ (toMat 2 2 (Rnd.vals (exBlock .double (1 / 2 ^ 27)))).col ∧
    orthonormalize (exBlock .double (1 / 2 ^ 27)) = .error (.err .notPositiveDefinite) := by
  constructor
  · rw [exBlock_vals, ← Matrix.mulVec_injective_iff]
    intro x y hxy
    have h0 := congrFun hxy 0
    have h1 := congrFun hxy 1
    simp [Matrix.mulVec, dotProduct, Fin.sum_univ_two] at h0 h1
    ext i
    fin_cases i
    · exact h1
    · simp only [Fin.mk_one]; rw [h1] at h0; linarith
  · obtain ⟨g, hg⟩ : ∃ g, (exBlock .double (1 / 2 ^ 27)).t.dot (exBlock .double (1 / 2 ^ 27)) = .ok g := by
      unfold Arr2.dot
      rw [if_pos (show (exBlock .double (1 / 2 ^ 27)).t.nc = (exBlock .double (1 / 2 ^ 27)).nr from rfl)]
      exact ⟨_, rfl⟩
    have hgg := hg
    unfold Arr2.dot at hgg
    rw [if_pos (show (exBlock .double (1 / 2 ^ 27)).t.nc = (exBlock .double (1 / 2 ^ 27)).nr from rfl)] at hgg
    injection hgg with hgg
    have r1 : StdModel.double.rnd 1 = 1 := binRound_exact 1 0 (by norm_num) (by norm_num) rfl
    have r0 : StdModel.double.rnd 0 = 0 := StdModel.double.rnd_zero
    have re : StdModel.double.rnd (1 + 1 / 2 ^ 54) = 1 := binRound_near (2 ^ 52) 0 (by norm_num [abs_of_pos])
      (by norm_num [abs_of_pos]) (Or.inl (by norm_num [abs_of_pos])) (by norm_num)
    have rs : StdModel.double.rnd (1 / 2 ^ 27 * (1 / 2 ^ 27)) = 1 / 2 ^ 54 :=
      binRound_exact 1 (-54) (by norm_num) (by norm_num) (by norm_num)
    have hdot : ∀ i j, (g.get i j) = dotTo 2 (fun k => (exBlock .double (1 / 2 ^ 27)).get k i)
        fun k => (exBlock .double (1 / 2 ^ 27)).get k j := fun i j => by rw [← hgg]; rfl
    have e00 : ((exBlock .double (1 / 2 ^ 27)).get 0 0).v = 1 := by simp [exBlock, ofRows]
    have e01 : ((exBlock .double (1 / 2 ^ 27)).get 0 1).v = 1 := by simp [exBlock, ofRows]
    have e10 : ((exBlock .double (1 / 2 ^ 27)).get 1 0).v = 1 / 2 ^ 27 := by simp [exBlock, ofRows]
    have e11 : ((exBlock .double (1 / 2 ^ 27)).get 1 1).v = 0 := by simp [exBlock, ofRows]
    have h00 : (g.get 0 0).v = 1 := by
      rw [hdot, dblDots.two]
      simp only [Rnd.add_v, Rnd.mul_v, Rnd.zero_v, e00, e10, rs, mul_one, zero_add, r1, re]
    have h10 : (g.get 1 0).v = 1 := by
      rw [hdot, dblDots.two]
      simp only [Rnd.add_v, Rnd.mul_v, Rnd.zero_v, e00, e01, e10, e11, mul_one, zero_mul, zero_add, add_zero, r1, r0]
    have h11 : (g.get 1 1).v = 1 := by
      rw [hdot, dblDots.two]
      simp only [Rnd.add_v, Rnd.mul_v, Rnd.zero_v, e01, e11, mul_one, zero_add, add_zero, mul_zero, r1, r0]
    have sg : HasShape g 2 2 := by rw [← hgg]; exact ⟨rfl, rfl⟩
    unfold orthonormalize
    rw [hg]; simp only [ok_bind]
    rcases cholesky_cases g (sg.1.trans sg.2.symm) with ⟨b, -, hb, -, -⟩ | ⟨e, -⟩
    · exfalso
      rw [sg.1] at hb
      have p0 : (pivot g b 0).v = 1 := by
        simp [pivot, h00, r1]
      have b00 : (b.get 0 0).v = 1 := by
        rw [hb.diag 0 (by norm_num), Rnd.sqrt_v, p0, Real.sqrt_one, r1]
      have b10 : (b.get 1 0).v = 1 := by
        rw [hb.off 1 (by norm_num) 0 (by norm_num)]
        simp [h10, b00, r1]
      have p1 : (pivot g b 1).v = 0 := by
        have : (sumTo 1 fun c => b.get 1 c * b.get 1 c) = 0 + b.get 1 0 * b.get 1 0 := rfl
        simp [pivot, this, h11, b10, r1, r0]
      have := hb.piv 1 (by norm_num)
      rw [Rnd.le_v, p1] at this
      simp at this
    · rw [e]; rfl

end LinfaLinalg
