import Verif.Proofs.ConstrErr
import Verif.Props.RoundingOrth
import Verif.Proofs.LobpcgTotal
import Verif.Proofs.LobpcgReal

/-! # C121: `apply_constraints` when the constraints are nearly orthonormal

`apply_constraints` solves with the Cholesky factor `L` of `YᵀY` instead of with `YᵀY` itself (C46 shows that this is
wrong for every `Y` which is not orthonormal). Here: how wrong it is when `Y` is orthonormal up to `δ`, as the result of
any algorithm run in floating point is, and with rounding errors in `apply_constraints` as well. -/

namespace LinfaLinalg

open Matrix

/-- A block which is orthonormal up to `δ` has singular values above `1 - δ`. -/
theorem near_orth_cond {n s : Nat} {Y : Matrix (Fin n) (Fin s) ℝ} {δ : ℝ} (h : frob (Yᵀ * Y - 1) ≤ δ) (x : Fin s → ℝ) :
    (1 - δ) * ∑ i, x i ^ 2 ≤ ∑ r, Y.mulVec x r ^ 2 := by
  set X : Matrix (Fin s) (Fin 1) ℝ := Matrix.of fun i _ => x i with hX
  have hXs : frob X ^ 2 = ∑ i, x i ^ 2 := by rw [frob_sq]; simp [hX]
  have hYX : frob (Y * X) ^ 2 = ∑ r, Y.mulVec x r ^ 2 := by
    rw [frob_sq]; simp [hX, Matrix.mul_apply, Matrix.mulVec, dotProduct]
  have e : (Xᵀ * ((Yᵀ * Y - 1) * X)).trace = frob (Y * X) ^ 2 - frob X ^ 2 := by
    rw [frob_sq_trace, frob_sq_trace, Matrix.transpose_mul, ← Matrix.trace_sub]
    congr 1
    rw [Matrix.sub_mul, Matrix.one_mul, Matrix.mul_sub]
    simp only [Matrix.mul_assoc]
  have h1 := (abs_le.1 ((abs_trace_le_frob X ((Yᵀ * Y - 1) * X)).trans
    (mul_le_mul_of_nonneg_left (frob_mul_le _ _) (frob_nonneg _)))).1
  have h2 := mul_le_mul_of_nonneg_right h (sq_nonneg (frob X))
  have h3 : frob X * (frob (Yᵀ * Y - 1) * frob X) = frob (Yᵀ * Y - 1) * frob X ^ 2 := by ring
  rw [← hXs, ← hYX]
  rw [e] at h1
  linarith

/-- The square of its norm is at most `s + s δ`. -/
theorem near_orth_norm {n s : Nat} {Y : Matrix (Fin n) (Fin s) ℝ} {δ : ℝ} (h : frob (Yᵀ * Y - 1) ≤ δ) :
    frob Y ^ 2 ≤ s + s * δ := by
  have hNsq : frob Y ^ 2 = s + (Yᵀ * Y - 1).trace := by
    rw [Matrix.trace_sub, Matrix.trace_one, Fintype.card_fin, frob_sq_trace]; ring
  have htr := (abs_le.1 (abs_trace_le_frob (1 : Matrix (Fin s) (Fin s) ℝ) (Yᵀ * Y - 1))).2
  rw [Matrix.transpose_one, Matrix.one_mul] at htr
  have hb : frob (1 : Matrix (Fin s) (Fin s) ℝ) * frob (Yᵀ * Y - 1) ≤ s * δ :=
    mul_le_mul frob_one_le h (frob_nonneg _) (by positivity)
  linarith

/-- **C121, exact arithmetic**: if `Y` is orthonormal up to `δ`, `apply_constraints` leaves at most `6 δ` of the component
of the block along `Y`, and differs from the orthogonal projection by as little. -/
theorem C121_exact {n s : Nat} (y : Arr2 ℝ) (sy : HasShape y n s) (hs : 1 ≤ s) (δ : ℝ)
    (hδ : frob ((toMat n s y)ᵀ * toMat n s y - 1) ≤ δ) (hsδ : 32 * s * δ ≤ 1) :
    ∃ g l, y.t.dot y = .ok g ∧ cholesky g = .ok l ∧ HasShape l s s ∧ ∀ m v, HasShape v n m →
      ∃ w, applyConstraints v l y = .ok w ∧ HasShape w n m ∧
        frob ((toMat n s y)ᵀ * toMat n m w) ≤ 6 * δ * frob ((toMat n s y)ᵀ * toMat n m v) ∧
        frob (toMat n m w - (toMat n m v - toMat n s y * ((toMat n s y)ᵀ * toMat n m v))) ≤
          4 * δ * frob (toMat n s y) * frob ((toMat n s y)ᵀ * toMat n m v) := by
  have hs1 : (1 : ℝ) ≤ s := by exact_mod_cast hs
  have hδ0 : 0 ≤ δ := (frob_nonneg _).trans hδ
  have hδ1 : δ ≤ 1 / 32 := by nlinarith
  have hinj : ∀ x, (toMat n s y).mulVec x = 0 → x = 0 := fun x hx => by
    have h := near_orth_cond hδ x
    rw [hx] at h
    simp only [Pi.zero_apply, ne_eq, OfNat.ofNat_ne_zero, not_false_eq_true, zero_pow, Finset.sum_const_zero] at h
    have h0 : ∑ i, x i ^ 2 = 0 := le_antisymm (by
      by_contra hc; push Not at hc
      have := mul_pos (by linarith : 0 < 1 - δ) hc; linarith) (Finset.sum_nonneg fun i _ => sq_nonneg _)
    funext i
    have := (Finset.sum_eq_zero_iff_of_nonneg (fun i _ => sq_nonneg (x i))).1 h0 i (Finset.mem_univ i)
    exact pow_eq_zero_iff (by norm_num) |>.1 this
  obtain ⟨g, hg, sg⟩ := dot_shape (shape_t sy) sy
  obtain ⟨-, eg⟩ := tdot_mat hg sy sy
  have hgs : (toMat s s g).IsSymm := by rw [eg]; exact gram_isSymm _
  obtain ⟨l, hl⟩ := (C09_cholesky_iff_posDef g sg hgs).1.2 (by rw [eg]; exact gram_posDef.2 hinj)
  obtain ⟨sl, pl, el⟩ := C08_cholesky_factor g l sg hgs hl
  refine ⟨g, l, hg, hl, sl, fun m v sv => ?_⟩
  obtain ⟨w, hw, sw⟩ := applyConstraints_shape sv sl sy
  obtain ⟨X, eX, -, ew⟩ := applyConstraints_mat hw sv sy sl pl
  have hL : frob (toMat s s l - 1) ≤ 2 * δ := chol_near_one pl hδ0 (by nlinarith) (by rw [el, eg]; exact hδ)
  obtain ⟨c1, c2⟩ := constr_core (toMat n s y) (toMat n m v) (toMat n m w) (toMat s s l) ((toMat n s y)ᵀ * toMat n m v) X
    0 (2 * δ) δ le_rfl (by norm_num) hs hδ hL (by linarith) (by norm_num) (by rw [sub_self, frob_zero]; simp)
    (by rw [eX, sub_self, frob_zero]; simp) (by rw [ew, sub_self, frob_zero]; simp)
  exact ⟨w, hw, sw, by linarith, by linarith⟩

variable {R : StdModel}

theorem tdot_rnd {n s m : Nat} {y v g : Arr2 (Rnd R)} (hy : HasShape y n s) (hv : HasShape v n m)
    (hn : ((n + 1 : Nat) : ℝ) * R.u < 1) (h : y.t.dot v = .ok g) : HasShape g s m ∧
    ∀ (i : Fin s) (j : Fin m), |(toMat s m (Rnd.vals g) - (toMat n s (Rnd.vals y))ᵀ * toMat n m (Rnd.vals v)) i j| ≤
      gam R.u (n + 1) * ((absMat (toMat n s (Rnd.vals y)))ᵀ * absMat (toMat n m (Rnd.vals v))) i j := by
  obtain ⟨h1, rfl⟩ := Arr2.dot_inv h
  refine ⟨⟨hy.2, hv.2⟩, fun i j => ?_⟩
  obtain ⟨q, hq, e⟩ := dotTo_products (R := R) n (fun k => y.get k i) (fun k => v.get k j)
  have e1 : (toMat s m (Rnd.vals (⟨y.t.nr, v.nc, fun i j => dotTo y.t.nc (y.t.get i) fun k => v.get k j⟩ : Arr2 (Rnd R))) -
      (toMat n s (Rnd.vals y))ᵀ * toMat n m (Rnd.vals v)) i j = ∑ k : Fin n, (y.get k i).v * (v.get k j).v * (q k - 1) := by
    have e0 : (dotTo y.t.nc (y.t.get i) fun k => v.get k j).v = ∑ k : Fin n, (y.get k i).v * (v.get k j).v * q k := by
      rw [show y.t.nc = n from hy.1, ← Finset.sum_range (fun k => (y.get k i).v * (v.get k j).v * q k)]
      exact e
    rw [Matrix.sub_apply, Matrix.mul_apply, toMat_apply]
    simp only [Rnd.vals]
    rw [e0, ← Finset.sum_sub_distrib]
    refine Finset.sum_congr rfl fun k _ => ?_
    simp only [Matrix.transpose_apply, toMat_apply]
    ring
  rw [e1, Matrix.mul_apply, Finset.mul_sum]
  refine (Finset.abs_sum_le_sum_abs _ _).trans (Finset.sum_le_sum fun k _ => ?_)
  rw [abs_mul, abs_mul, mul_comm]
  exact mul_le_mul_of_nonneg_right ((hq k).abs_sub_one R.u_nonneg R.u_lt_one hn) (by positivity)

theorem genMatMul_rnd {n s m : Nat} {y x v w : Arr2 (Rnd R)} (hy : HasShape y n s) (_hv : HasShape v n m)
    (hn : ((s + 3 : Nat) : ℝ) * R.u < 1) (h : genMatMul (-1) y x 1 v = .ok w) (i : Fin n) (j : Fin m) :
    |(toMat n m (Rnd.vals w) - (toMat n m (Rnd.vals v) - toMat n s (Rnd.vals y) * toMat s m (Rnd.vals x))) i j| ≤
      gam R.u (s + 3) * (absMat (toMat n m (Rnd.vals v)) +
        absMat (toMat n s (Rnd.vals y)) * absMat (toMat s m (Rnd.vals x))) i j := by
  have h0 := R.u_nonneg
  have h1 := R.u_lt_one
  obtain ⟨-, -, -, rfl⟩ := genMatMul_inv h
  obtain ⟨q, hq, e⟩ := dotTo_products (R := R) s (fun k => y.get i k) (fun k => x.get k j)
  obtain ⟨t1, ht1, e1⟩ := R.rnd_near (-(dotTo s (y.get i) fun k => x.get k j).v)
  obtain ⟨t2, ht2, e2⟩ := R.rnd_near (v.get i j).v
  obtain ⟨t3, ht3, e3⟩ := R.rnd_near (-(dotTo s (y.get i) fun k => x.get k j).v * t1 + (v.get i j).v * t2)
  have ew : (-1 * (dotTo y.nc (y.get i) fun k => x.get k j) + 1 * v.get i j : Rnd R).v =
      (v.get i j).v * (t2 * t3) - ∑ k : Fin s, (y.get i k).v * (x.get k j).v * (q k * t1 * t3) := by
    rw [Rnd.add_v, Rnd.mul_v, Rnd.mul_v, Rnd.neg_v, Rnd.one_v, neg_one_mul, one_mul, hy.2, e1, e2, e3, e,
      Finset.sum_range (fun k => (y.get i k).v * (x.get k j).v * q k), add_mul, neg_mul, neg_mul, mul_assoc, Finset.sum_mul,
      mul_assoc (v.get i j).v, neg_add_eq_sub]
    congr 1
    exact Finset.sum_congr rfl fun k _ => by ring
  have hd : (toMat n m (Rnd.vals (⟨v.nr, v.nc, fun i j =>
      -1 * (dotTo y.nc (y.get i) fun k => x.get k j) + 1 * v.get i j⟩ : Arr2 (Rnd R))) -
      (toMat n m (Rnd.vals v) - toMat n s (Rnd.vals y) * toMat s m (Rnd.vals x))) i j =
      (v.get i j).v * (t2 * t3 - 1) + ∑ k : Fin s, -((y.get i k).v * (x.get k j).v * (q k * t1 * t3 - 1)) := by
    rw [Matrix.sub_apply, Matrix.sub_apply, Matrix.mul_apply, toMat_apply]
    simp only [Rnd.vals]
    rw [ew, Finset.sum_neg_distrib]
    simp only [toMat_apply, mul_sub, mul_one, Finset.sum_sub_distrib]
    ring
  have hr : (absMat (toMat n m (Rnd.vals v)) + absMat (toMat n s (Rnd.vals y)) * absMat (toMat s m (Rnd.vals x))) i j =
      |(v.get i j).v| + ∑ k : Fin s, |(y.get i k).v| * |(x.get k j).v| := by
    rw [Matrix.add_apply, Matrix.mul_apply]; rfl
  rw [hd, hr, mul_add, Finset.mul_sum]
  have g1 : |t2 * t3 - 1| ≤ gam R.u (s + 3) :=
    ((ht2.mul h0 h1 ht3).abs_sub_one h0 h1 (lt_of_le_of_lt (mul_le_mul_of_nonneg_right (by
      exact_mod_cast (by omega : 1 + 1 ≤ s + 3)) h0) hn)).trans (gam_mono h0 (by omega) hn)
  refine (abs_add_le _ _).trans (add_le_add ?_ ((Finset.abs_sum_le_sum_abs _ _).trans (Finset.sum_le_sum fun k _ => ?_)))
  · rw [abs_mul, mul_comm]
    exact mul_le_mul_of_nonneg_right g1 (abs_nonneg _)
  · rw [abs_neg, abs_mul, abs_mul, mul_comm]
    exact mul_le_mul_of_nonneg_right ((((hq k).mul h0 h1 ht1).mul h0 h1 ht3).abs_sub_one h0 h1 hn) (by positivity)

theorem constr_arith3 {s γ δ N v g : ℝ} (hN : 0 ≤ N) (hg : g ≤ N * v) (hsγ : 0 ≤ s * γ) :
    2 * (2 * δ + 6 * (s * γ) + δ) * g + 12 * s * γ * (N * v) ≤ 6 * δ * g + 24 * s * γ * (N * v) ∧
    2 * (2 * δ + 6 * (s * γ)) * N * g + 11 * s * γ * (N ^ 2 * v) ≤ 4 * δ * N * g + 23 * s * γ * (N ^ 2 * v) := by
  have h1 : s * γ * g ≤ s * γ * (N * v) := mul_le_mul_of_nonneg_left hg hsγ
  have h2 : s * γ * N * g ≤ s * γ * N * (N * v) := mul_le_mul_of_nonneg_left hg (mul_nonneg hsγ hN)
  constructor <;> nlinarith

theorem constr_arith4 {s γ δ N l : ℝ} (hs : 1 ≤ s) (hγ0 : 0 ≤ γ) (hδ0 : 0 ≤ δ) (hsδ : 32 * s * δ ≤ 1)
    (hγ : 256 * s ^ 3 * γ ≤ 1) (hN : N ^ 2 ≤ s + s * δ) (hl : l ^ 2 - N ^ 2 ≤ γ * (N ^ 2 + l ^ 2)) :
    γ ≤ 1 / 256 ∧ s * γ ≤ 1 / 256 ∧ s ^ 2 * γ ≤ 1 / 256 ∧ δ ≤ 1 / 32 ∧ γ * (N ^ 2 + l ^ 2) ≤ 3 * (s * γ) := by
  have hsγ : 0 ≤ s * γ := by positivity
  have a1 : γ ≤ s * γ := le_mul_of_one_le_left hγ0 hs
  have a2 : s * γ ≤ s ^ 2 * γ := by
    have := le_mul_of_one_le_left hsγ hs; nlinarith
  have a3 : s ^ 2 * γ ≤ s ^ 3 * γ := by
    have := le_mul_of_one_le_left (by positivity : 0 ≤ s ^ 2 * γ) hs; nlinarith
  have a4 : δ ≤ s * δ := le_mul_of_one_le_left hδ0 hs
  have hγ1 : γ ≤ 1 / 256 := by linarith
  refine ⟨hγ1, by linarith, by linarith, by linarith, ?_⟩
  have b1 : N ^ 2 + l ^ 2 ≤ 3 * s := by
    have : γ * (N ^ 2 + l ^ 2) ≤ 1 / 256 * (N ^ 2 + l ^ 2) := mul_le_mul_of_nonneg_right hγ1 (by positivity)
    linarith
  calc γ * (N ^ 2 + l ^ 2) ≤ γ * (3 * s) := mul_le_mul_of_nonneg_left b1 hγ0
    _ = 3 * (s * γ) := by ring

/-- **C121**: with rounding errors, if `Y` is orthonormal up to `δ` the factor of its Gram matrix exists, and
`apply_constraints` leaves at most `6 δ` of the component of the block along `Y`, plus rounding errors. -/
theorem C121_rounded {n s : Nat} (y : Arr2 (Rnd R)) (sy : HasShape y n s) (hs : 1 ≤ s)
    (hu : ((n + s + 3 : Nat) : ℝ) * R.u < 1) (δ : ℝ)
    (hδ : frob ((toMat n s (Rnd.vals y))ᵀ * toMat n s (Rnd.vals y) - 1) ≤ δ) (hsδ : 32 * s * δ ≤ 1)
    (hγ : 256 * s ^ 3 * gam R.u (n + s + 3) ≤ 1) :
    ∃ g l, y.t.dot y = .ok g ∧ cholesky g = .ok l ∧ HasShape l s s ∧ ∀ m v, HasShape v n m →
      ∃ w, applyConstraints v l y = .ok w ∧ HasShape w n m ∧
        frob ((toMat n s (Rnd.vals y))ᵀ * toMat n m (Rnd.vals w)) ≤
          6 * δ * frob ((toMat n s (Rnd.vals y))ᵀ * toMat n m (Rnd.vals v)) +
          24 * s * gam R.u (n + s + 3) * (frob (toMat n s (Rnd.vals y)) * frob (toMat n m (Rnd.vals v))) ∧
        frob (toMat n m (Rnd.vals w) - (toMat n m (Rnd.vals v) -
            toMat n s (Rnd.vals y) * ((toMat n s (Rnd.vals y))ᵀ * toMat n m (Rnd.vals v)))) ≤
          4 * δ * frob (toMat n s (Rnd.vals y)) * frob ((toMat n s (Rnd.vals y))ᵀ * toMat n m (Rnd.vals v)) +
          23 * s * gam R.u (n + s + 3) * (frob (toMat n s (Rnd.vals y)) ^ 2 * frob (toMat n m (Rnd.vals v))) := by
  have h0 := R.u_nonneg
  have hle : ∀ k, k ≤ n + s + 3 → (k : ℝ) * R.u < 1 := fun k hk =>
    lt_of_le_of_lt (mul_le_mul_of_nonneg_right (by exact_mod_cast hk) h0) hu
  have hs1 : (1 : ℝ) ≤ s := by exact_mod_cast hs
  have hδ0 : 0 ≤ δ := (frob_nonneg _).trans hδ
  set γ := gam R.u (n + s + 3) with hγd
  have hγ0 : 0 ≤ γ := gam_nonneg h0 hu
  have hgm : ∀ k, k ≤ n + s + 3 → gam R.u k ≤ γ := fun k hk => gam_mono h0 hk hu
  have hN := near_orth_norm hδ
  have hsδ1 : s * δ ≤ 1 / 32 := by linarith
  have hδ1 : δ ≤ 1 / 32 := (le_mul_of_one_le_left hδ0 hs1).trans hsδ1
  obtain ⟨q, l, ho, -, sl, pl, -, -⟩ := C119_orthonormal y sy hs (hle _ (by omega)) (1 - δ) (by linarith)
    (near_orth_cond hδ) (by
      have b1 : gam R.u (n + s + 2) * frob (toMat n s (Rnd.vals y)) ^ 2 ≤ γ * (2 * s) :=
        mul_le_mul (hgm _ (by omega)) (by linarith) (sq_nonneg _) hγ0
      have b2 : (16 : ℝ) * s ^ 2 * (gam R.u (n + s + 2) * frob (toMat n s (Rnd.vals y)) ^ 2) ≤ 16 * s ^ 2 * (γ * (2 * s)) :=
        mul_le_mul_of_nonneg_left b1 (by positivity)
      have b3 : (16 : ℝ) * s ^ 2 * (γ * (2 * s)) = 1 / 8 * (256 * s ^ 3 * γ) := by ring
      rw [mul_assoc]
      linarith)
  obtain ⟨g, u0, hg, hl, -⟩ := orthonormalize_inv ho
  obtain ⟨n1, n2⟩ := orth_norms y q l sy (hle _ (by omega)) ho
  have hNl : 0 ≤ frob (toMat n s (Rnd.vals y)) ^ 2 + frob (toMat s s (Rnd.vals l)) ^ 2 := by positivity
  have n3 := mul_le_mul_of_nonneg_right (hgm (n + s + 2) (by omega)) hNl
  obtain ⟨a1, a2, a3, a4, a5⟩ := constr_arith4 hs1 hγ0 hδ0 hsδ hγ hN (n2.trans n3)
  have hLL : frob (toMat s s (Rnd.vals l) * (toMat s s (Rnd.vals l))ᵀ - 1) ≤ δ + 3 * (s * γ) := by
    have e : toMat s s (Rnd.vals l) * (toMat s s (Rnd.vals l))ᵀ - 1 =
        (toMat s s (Rnd.vals l) * (toMat s s (Rnd.vals l))ᵀ - (toMat n s (Rnd.vals y))ᵀ * toMat n s (Rnd.vals y)) +
        ((toMat n s (Rnd.vals y))ᵀ * toMat n s (Rnd.vals y) - 1) := by abel
    rw [e]
    exact (frob_add_le _ _).trans (by linarith)
  have hL := chol_near_one pl (by positivity) (by
    have : 16 * s * (δ + 3 * (s * γ)) = 16 * (s * δ) + 48 * (s ^ 2 * γ) := by ring
    rw [this]; linarith) hLL
  refine ⟨g, l, hg, hl, sl, fun m v sv => ?_⟩
  obtain ⟨w, hw, sw⟩ := applyConstraints_shape sv sl sy
  refine ⟨w, hw, sw, ?_⟩
  unfold applyConstraints at hw
  simp only [bind_eq_ok, unwrapM_eq_ok] at hw
  obtain ⟨gv, w1, x, w2, w3⟩ := hw
  obtain ⟨sgv, egv⟩ := tdot_rnd sy sv (hle _ (by omega)) w1
  have hres := C65_residual l gv x .lower sl sgv (fun i hi => (pl.2 ⟨i, hi⟩).ne') (hle _ (by omega)) w2
  rw [triPart_lower_of_lowerPos pl] at hres
  have hG : frob (toMat s m (Rnd.vals gv) - (toMat n s (Rnd.vals y))ᵀ * toMat n m (Rnd.vals v)) ≤
      γ * (frob (toMat n s (Rnd.vals y)) * frob (toMat n m (Rnd.vals v))) := by
    refine (frob_le_of_entries (gam_nonneg h0 (hle _ (by omega : n + 1 ≤ _))) egv).trans
      (mul_le_mul (hgm _ (by omega)) ?_ (frob_nonneg _) hγ0)
    have := frob_mul_le (absMat (toMat n s (Rnd.vals y)))ᵀ (absMat (toMat n m (Rnd.vals v)))
    rwa [frob_transpose, frob_absMat, frob_absMat] at this
  have hU : frob (toMat s m (Rnd.vals gv) - toMat s s (Rnd.vals l) * toMat s m (Rnd.vals x)) ≤
      γ * (frob (toMat s s (Rnd.vals l)) * frob (toMat s m (Rnd.vals x))) := by
    refine (frob_le_of_entries (gam_nonneg h0 (hle _ (by omega : s ≤ _))) hres).trans
      (mul_le_mul (hgm _ (by omega)) ?_ (frob_nonneg _) hγ0)
    have := frob_mul_le (absMat (toMat s s (Rnd.vals l))) (absMat (toMat s m (Rnd.vals x)))
    rwa [frob_absMat, frob_absMat] at this
  have hW : frob (toMat n m (Rnd.vals w) - (toMat n m (Rnd.vals v) - toMat n s (Rnd.vals y) * toMat s m (Rnd.vals x))) ≤
      γ * (frob (toMat n m (Rnd.vals v)) + frob (toMat n s (Rnd.vals y)) * frob (toMat s m (Rnd.vals x))) := by
    refine (frob_le_of_entries (gam_nonneg h0 (hle _ (by omega : s + 3 ≤ _)))
      (genMatMul_rnd sy sv (hle _ (by omega)) w3)).trans (mul_le_mul (hgm _ (by omega)) ?_ (frob_nonneg _) hγ0)
    have h1 := frob_add_le (absMat (toMat n m (Rnd.vals v)))
      (absMat (toMat n s (Rnd.vals y)) * absMat (toMat s m (Rnd.vals x)))
    have := frob_mul_le (absMat (toMat n s (Rnd.vals y))) (absMat (toMat s m (Rnd.vals x)))
    rw [frob_absMat, frob_absMat] at this
    rw [frob_absMat] at h1
    linarith
  obtain ⟨c1, c2⟩ := constr_core (toMat n s (Rnd.vals y)) (toMat n m (Rnd.vals v)) (toMat n m (Rnd.vals w))
    (toMat s s (Rnd.vals l)) (toMat s m (Rnd.vals gv)) (toMat s m (Rnd.vals x)) γ (2 * δ + 6 * (s * γ)) δ hγ0 (by linarith)
    hs hδ (by linarith) (by linarith) (by linarith) hG hU hW
  have hg : frob ((toMat n s (Rnd.vals y))ᵀ * toMat n m (Rnd.vals v)) ≤
      frob (toMat n s (Rnd.vals y)) * frob (toMat n m (Rnd.vals v)) := by
    have := frob_mul_le (toMat n s (Rnd.vals y))ᵀ (toMat n m (Rnd.vals v)); rwa [frob_transpose] at this
  obtain ⟨d1, d2⟩ := constr_arith3 (s := s) (γ := γ) (δ := δ) (frob_nonneg (toMat n s (Rnd.vals y))) hg (by positivity)
  exact ⟨c1.trans d1, c2.trans d2⟩

/-! ## A case which meets the conditions, and one which shows that the bound has the right order -/

/-- The constraints `[[1, 1/1024], [0, 1], [0, 0]]`. -/
noncomputable def exConstr (R : StdModel) : Arr2 (Rnd R) :=
  ⟨3, 2, fun i j => ⟨(ofRows 3 2 [[1, 1 / 1024], [0, 1], [0, 0]]).get i j⟩⟩

/-- The conditions of C121 hold in double precision with `δ = 1/512`. -/
example (v : Arr2 (Rnd .double)) (hv : HasShape v 3 4) : ∃ g l w, (exConstr .double).t.dot (exConstr .double) = .ok g ∧
    cholesky g = .ok l ∧ applyConstraints v l (exConstr .double) = .ok w ∧
    frob ((toMat 3 2 (Rnd.vals (exConstr .double)))ᵀ * toMat 3 4 (Rnd.vals w)) ≤
      6 * (1 / 512) * frob ((toMat 3 2 (Rnd.vals (exConstr .double)))ᵀ * toMat 3 4 (Rnd.vals v)) +
      24 * (2 : Nat) * gam StdModel.double.u (3 + 2 + 3) *
        (frob (toMat 3 2 (Rnd.vals (exConstr .double))) * frob (toMat 3 4 (Rnd.vals v))) := by
  have e : toMat 3 2 (Rnd.vals (exConstr .double)) = !![1, 1 / 1024; 0, 1; 0, 0] := by
    ext i j
    fin_cases i <;> fin_cases j <;> simp [exConstr, ofRows, Rnd.vals]
  obtain ⟨g, l, h1, h2, -, h3⟩ := C121_rounded (n := 3) (s := 2) (exConstr .double) ⟨rfl, rfl⟩ (by norm_num)
    (by norm_num [StdModel.double]) (1 / 512) (by
      rw [e]
      refine Real.sqrt_le_iff.2 ⟨by norm_num, ?_⟩
      simp [Fin.sum_univ_two, Matrix.mul_apply, Fin.sum_univ_three]
      norm_num) (by norm_num) (by norm_num [gam, StdModel.double])
  obtain ⟨w, h4, -, h5, -⟩ := h3 4 v hv
  exact ⟨g, l, w, h1, h2, h4, h5⟩

/-- **C121, the order of the bound**: however small `δ`, a third of `δ` of the component can remain, even in exact
arithmetic; for instance with one constraint of length `√(1 + δ)`. -/
theorem C121_sharp (δ : ℝ) (hδ0 : 0 < δ) (hδ1 : δ ≤ 1) : ∃ y g l v w : Arr2 ℝ, HasShape y 1 1 ∧ HasShape v 1 1 ∧
    frob ((toMat 1 1 y)ᵀ * toMat 1 1 y - 1) = δ ∧ y.t.dot y = .ok g ∧ cholesky g = .ok l ∧
    applyConstraints v l y = .ok w ∧ 0 < frob ((toMat 1 1 y)ᵀ * toMat 1 1 v) ∧
    δ / 3 * frob ((toMat 1 1 y)ᵀ * toMat 1 1 v) ≤ frob ((toMat 1 1 y)ᵀ * toMat 1 1 w) := by
  have fr : ∀ A : Matrix (Fin 1) (Fin 1) ℝ, frob A = |A 0 0| := fun A => by
    rw [frob]; simp [Real.sqrt_sq_eq_abs]
  set t := √(1 + δ) with ht
  have ht2 : t * t = 1 + δ := Real.mul_self_sqrt (by linarith)
  have htp : 0 < t := Real.sqrt_pos.2 (by linarith)
  have ht1 : 1 ≤ t := by nlinarith
  have ht3 : t ≤ 2 := by nlinarith
  set y : Arr2 ℝ := ⟨1, 1, fun _ _ => t⟩ with hy
  set v : Arr2 ℝ := ⟨1, 1, fun _ _ => 1⟩ with hv
  have sy : HasShape y 1 1 := ⟨rfl, rfl⟩
  have sv : HasShape v 1 1 := ⟨rfl, rfl⟩
  obtain ⟨g, hg, sg⟩ := dot_shape (shape_t sy) sy
  obtain ⟨-, eg⟩ := tdot_mat hg sy sy
  have hgs : (toMat 1 1 g).IsSymm := by rw [eg]; exact gram_isSymm _
  obtain ⟨l, hl⟩ := (C09_cholesky_iff_posDef g sg hgs).1.2 (by
    rw [eg]
    refine gram_posDef.2 fun x hx => ?_
    have := congrFun hx 0
    simp [Matrix.mulVec, dotProduct, hy] at this
    funext i
    rw [Subsingleton.elim i 0]
    exact this.resolve_left htp.ne')
  obtain ⟨sl, pl, el⟩ := C08_cholesky_factor g l sg hgs hl
  obtain ⟨w, hw, sw⟩ := applyConstraints_shape sv sl sy
  obtain ⟨X, eX, -, ew⟩ := applyConstraints_mat hw sv sy sl pl
  have l00 : l.get 0 0 = t := by
    have h1 := congrFun (congrFun (el.trans eg) 0) 0
    simp [Matrix.mul_apply, hy] at h1
    have h2 := pl.2 0
    simp at h2
    nlinarith
  have x00 : X 0 0 = 1 := by
    have h1 := congrFun (congrFun eX 0) 0
    simp [Matrix.mul_apply, hy, hv, l00] at h1
    nlinarith
  have w00 : w.get 0 0 = 1 - t := by
    have h1 := congrFun (congrFun ew 0) 0
    simpa [Matrix.mul_apply, hy, hv, x00] using h1
  refine ⟨y, g, l, v, w, sy, sv, ?_, hg, hl, hw, ?_, ?_⟩
  · rw [fr]; simp [Matrix.mul_apply, hy, ht2, abs_of_pos hδ0]
  · rw [fr]; simp [Matrix.mul_apply, hy, hv, htp.ne']
  · rw [fr, fr]
    simp only [Matrix.mul_apply, Matrix.transpose_apply, toMat_apply, Finset.univ_unique, Finset.sum_singleton,
      Fin.default_eq_zero, Fin.val_zero, hy, hv, w00, mul_one]
    rw [abs_of_pos htp, abs_mul, abs_of_pos htp, abs_of_nonpos (by linarith)]
    nlinarith

end LinfaLinalg
