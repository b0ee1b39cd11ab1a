import Verif.Proofs.RoundedQr
import Verif.Props.Rounding
import Mathlib.LinearAlgebra.Matrix.Block
import Mathlib.LinearAlgebra.Matrix.ToLinearEquiv

/-! # C79, C80: rounding errors of the QR decomposition and of the solvers built on it

The scalar type is `Rnd R`, the standard model of floating-point arithmetic: every operation has a
relative error of at most `R.u`. The errors of a product of `n` reflections of vectors of length `m` are
bounded by `reflErrs R m n = (1 + 3 γ_(5 m + 31))^n - 1`. -/

namespace LinfaLinalg

open Matrix

variable {R : StdModel}

/-! ## The error constant -/

theorem reflErrs_nonneg {m n : Nat} (hu : ((5 * m + 31 : Nat) : ℝ) * R.u < 1) : 0 ≤ reflErrs R m n := by
  have := one_le_pow₀ (n := n) (by linarith [reflErr_nonneg hu] : 1 ≤ 1 + reflErr R m)
  unfold reflErrs
  linarith

theorem one_add_pow_sub_one_le {c : ℝ} (hc : 0 ≤ c) (n : Nat) (h : n * c < 1) :
    (1 + c) ^ n - 1 ≤ n * c / (1 - n * c) := by
  have key : (1 + c) ^ n * (1 - n * c) ≤ 1 := by
    induction n with
    | zero => simp
    | succ n ih =>
      have hn : (n : ℝ) * c < 1 := by
        refine lt_of_le_of_lt (mul_le_mul_of_nonneg_right ?_ hc) h
        exact_mod_cast Nat.le_succ n
      have h1 := ih hn
      have h2 : (1 + c) * (1 - ((n + 1 : Nat) : ℝ) * c) ≤ 1 - n * c := by
        push_cast
        nlinarith [mul_nonneg hc hc, (Nat.cast_nonneg n : (0 : ℝ) ≤ n), mul_nonneg (Nat.cast_nonneg n : (0 : ℝ) ≤ n)
          (mul_nonneg hc hc)]
      have h3 : 0 ≤ (1 + c) ^ n := pow_nonneg (by linarith) n
      calc (1 + c) ^ (n + 1) * (1 - ((n + 1 : Nat) : ℝ) * c) =
          (1 + c) ^ n * ((1 + c) * (1 - ((n + 1 : Nat) : ℝ) * c)) := by ring
        _ ≤ (1 + c) ^ n * (1 - n * c) := mul_le_mul_of_nonneg_left h2 h3
        _ ≤ 1 := h1
  have hpos : 0 < 1 - n * c := by linarith
  rw [le_div_iff₀ hpos]
  nlinarith

/-! ## C79 -/

theorem colNorm_mul_le {m n k : Nat} (X : Matrix (Fin m) (Fin n) ℝ) (Y : Matrix (Fin n) (Fin k) ℝ) (j : Fin k) :
    colNorm (X * Y) j ≤ frob X * colNorm Y j := by
  refine colNorm_le_of_sq (mul_nonneg (frob_nonneg _) (colNorm_nonneg _ _)) ?_
  rw [mul_pow, frob_sq, colNorm_sq, Finset.sum_mul]
  refine Finset.sum_le_sum fun i _ => ?_
  rw [Matrix.mul_apply]
  exact Finset.sum_mul_sq_le_sq_mul_sq _ _ _

theorem abs_dot_le_colNorm {m n k : Nat} (X : Matrix (Fin m) (Fin n) ℝ) (Y : Matrix (Fin m) (Fin k) ℝ) (i : Fin n)
    (j : Fin k) : |(Xᵀ * Y) i j| ≤ colNorm X i * colNorm Y j := by
  refine abs_le_of_sq_le_sq ?_ (mul_nonneg (colNorm_nonneg _ _) (colNorm_nonneg _ _))
  rw [mul_pow, colNorm_sq, colNorm_sq, Matrix.mul_apply]
  exact Finset.sum_mul_sq_le_sq_mul_sq _ _ _

/-- C79: `qr` is backward stable. In floating point the `R` returned is upper triangular with nonnegative
diagonal, and is the exact factor of a matrix whose columns differ from those of `A` by a relative error of
at most `reflErrs`, with an exactly orthonormal `Q`; every column of the `Q` returned is as close to that
`Q`. -/
theorem C79_qr {m n : Nat} (a : Arr2 (Rnd R)) (ha : HasShape a m n) (hnm : n ≤ m)
    (hu : ((5 * m + 31 : Nat) : ℝ) * R.u < 1) :
    ∃ q Qc Rc, qrInto a = .ok q ∧ q.generateQ = .ok Qc ∧ q.intoR = .ok Rc ∧ HasShape Qc m n ∧ HasShape Rc n n ∧
      (∀ i j : Fin n, j < i → (Rc.get i j).v = 0) ∧ (∀ i : Fin n, 0 ≤ (Rc.get i i).v) ∧
      ∃ (Q : Matrix (Fin m) (Fin n) ℝ) (Δ : Matrix (Fin m) (Fin n) ℝ), Qᵀ * Q = 1 ∧
        toMat m n (Rnd.vals a) + Δ = Q * toMat n n (Rnd.vals Rc) ∧
        (∀ j, colNorm Δ j ≤ reflErrs R m n * colNorm (toMat m n (Rnd.vals a)) j) ∧
        ∀ j, colNorm (toMat m n (Rnd.vals Qc) - Q) j ≤ reflErrs R m n := by
  obtain ⟨q, W, hq, h⟩ := qrInto_rnd a ha hnm hu
  obtain ⟨Δ, hΔ, hb⟩ := h.back
  have hnr := h.nr
  have hnc := h.nc
  have hmin : min q.qr.nr q.qr.nc = n := by omega
  obtain ⟨Qc, hQ, sQ, eQ⟩ := assembleQ_rnd q.qr 0 (fun i => q.diag.idx i) q.diag.get W (Nat.zero_le _)
    (fun i hi => Arr1.idx_ok (by rw [h.len]; omega)) (fun i hi => by rw [hnr]; exact h.stored i (by omega))
    (by rw [hnr]; exact hu)
  rw [hmin, hnr] at sQ eQ
  have hPo : (prodP (nearP m 0 q.diag.get W) n)ᵀ * prodP (nearP m 0 q.diag.get W) n = 1 :=
    prodP_orth fun k hk => (h.stored k hk).orth
  refine ⟨q, Qc, _, hq, hQ, h.toQRShape.intoR_eq hnm, sQ, ⟨rfl, rfl⟩, ?_, ?_,
    prodP (nearP m 0 q.diag.get W) n * eyeMat m n, Δ, ?_, ?_, hb, ?_⟩
  · intro i j hij
    have hij' : (j : Nat) < i := hij
    have hi := i.2
    dsimp only
    rw [if_neg (by omega), if_pos (by omega)]
    rfl
  · intro i
    dsimp only
    rw [if_pos ⟨rfl, i.2⟩]
    exact abs_nonneg _
  · rw [Matrix.transpose_mul, Matrix.mul_assoc, ← Matrix.mul_assoc _ _ (eyeMat m n), hPo, Matrix.one_mul,
      eyeMat_orth hnm]
  · rw [hΔ, Matrix.mul_assoc]
    congr 2
    ext i j
    have hi := i.2
    simp only [triMat, Matrix.of_apply, inTri_upper, toMat_apply, Rnd.vals]
    by_cases hij : i = j
    · subst hij
      rw [if_pos rfl, if_pos ⟨rfl, i.2⟩]
      rfl
    · have hij' : (i : Nat) ≠ j := fun h => hij (Fin.ext h)
      rw [if_neg hij]
      by_cases h2 : (j : Nat) < i
      · rw [if_neg (by omega), if_neg (by omega), if_pos (by omega)]
        rfl
      · rw [if_pos (by omega), if_neg (by omega), if_neg (by omega)]
  · exact eQ

/-- C79: hence the computed factors reproduce `A`: column by column `Q R` differs from `A` by a relative error of
at most `δ (1 + √n (1 + δ))`. -/
theorem C79_residual {m n : Nat} (a : Arr2 (Rnd R)) (ha : HasShape a m n) (hnm : n ≤ m)
    (hu : ((5 * m + 31 : Nat) : ℝ) * R.u < 1) (Qc Rc : Arr2 (Rnd R)) (q : QRDecomp (Rnd R))
    (hq : qrInto a = .ok q) (hd : q.intoDecomp = .ok (Qc, Rc)) (j : Fin n) :
    colNorm (toMat m n (Rnd.vals a) - toMat m n (Rnd.vals Qc) * toMat n n (Rnd.vals Rc)) j ≤
      reflErrs R m n * (1 + Real.sqrt n * (1 + reflErrs R m n)) * colNorm (toMat m n (Rnd.vals a)) j := by
  obtain ⟨q', Q', R', h1, h2, h3, -, -, -, -, Q, Δ, hQ, hA, hΔ, hE⟩ := C79_qr a ha hnm hu
  rw [hq] at h1
  cases h1
  unfold QRDecomp.intoDecomp at hd
  rw [h2] at hd
  simp only [ok_bind] at hd
  rw [h3] at hd
  cases hd
  set A := toMat m n (Rnd.vals a)
  set S := toMat n n (Rnd.vals Rc)
  set P := toMat m n (Rnd.vals Qc)
  set δ := reflErrs R m n
  have hδ : 0 ≤ δ := reflErrs_nonneg hu
  have e : A - P * S = (-1 : ℝ) • Δ + (-1 : ℝ) • ((P - Q) * S) := by
    rw [Matrix.sub_mul, ← hA]
    ext i j
    simp only [Matrix.sub_apply, Matrix.add_apply, Matrix.smul_apply, smul_eq_mul]
    ring
  have hneg : ∀ X : Matrix (Fin m) (Fin n) ℝ, colNorm ((-1 : ℝ) • X) j = colNorm X j := by
    intro X
    unfold colNorm
    congr 1
    refine Finset.sum_congr rfl fun i _ => ?_
    rw [Matrix.smul_apply, smul_eq_mul]
    ring
  have hS : colNorm S j ≤ (1 + δ) * colNorm A j := by
    rw [← colNorm_orth_mul hQ S j, ← hA]
    have := colNorm_add_le A Δ j
    linarith [hΔ j]
  have hF : frob (P - Q) ≤ Real.sqrt n * δ := by
    refine frob_le_of_sq (mul_nonneg (Real.sqrt_nonneg _) hδ) ?_
    rw [← frob_sq, frob_sq_colNorm, mul_pow, Real.sq_sqrt (Nat.cast_nonneg n)]
    calc ∑ j, colNorm (P - Q) j ^ 2 ≤ ∑ _j : Fin n, δ ^ 2 :=
          Finset.sum_le_sum fun j _ => pow_le_pow_left₀ (colNorm_nonneg _ _) (hE j) 2
      _ = n * δ ^ 2 := by simp
  calc colNorm (A - P * S) j ≤ colNorm Δ j + colNorm ((P - Q) * S) j := by
        rw [e]
        refine (colNorm_add_le _ _ j).trans ?_
        rw [hneg, hneg]
    _ ≤ δ * colNorm A j + (Real.sqrt n * δ) * ((1 + δ) * colNorm A j) := by
        refine add_le_add (hΔ j) ((colNorm_mul_le _ _ j).trans ?_)
        exact mul_le_mul hF hS (colNorm_nonneg _ _) (mul_nonneg (Real.sqrt_nonneg _) hδ)
    _ = _ := by ring

/-- C79: the columns of the computed `Q` are orthonormal up to `δ (2 + δ)`, however `A` is conditioned. -/
theorem C79_orthonormal {m n : Nat} (a : Arr2 (Rnd R)) (ha : HasShape a m n) (hnm : n ≤ m)
    (hu : ((5 * m + 31 : Nat) : ℝ) * R.u < 1) (Qc : Arr2 (Rnd R)) (q : QRDecomp (Rnd R))
    (hq : qrInto a = .ok q) (hQc : q.generateQ = .ok Qc) (i j : Fin n) :
    |((toMat m n (Rnd.vals Qc))ᵀ * toMat m n (Rnd.vals Qc) - (1 : Matrix (Fin n) (Fin n) ℝ)) i j| ≤
      reflErrs R m n * (2 + reflErrs R m n) := by
  obtain ⟨q', Q', R', h1, h2, h3, -, -, -, -, Q, Δ, hQ, hA, hΔ, hE⟩ := C79_qr a ha hnm hu
  rw [hq] at h1
  cases h1
  rw [hQc] at h2
  cases h2
  set P := toMat m n (Rnd.vals Qc)
  set δ := reflErrs R m n
  have hδ : 0 ≤ δ := reflErrs_nonneg hu
  have e : Pᵀ * P - 1 = Qᵀ * (P - Q) + ((P - Q)ᵀ * Q + (P - Q)ᵀ * (P - Q)) := by
    rw [← hQ, Matrix.transpose_sub]
    simp only [Matrix.mul_sub, Matrix.sub_mul]
    abel
  rw [e, Matrix.add_apply, Matrix.add_apply]
  have b1 := abs_dot_le_colNorm Q (P - Q) i j
  have b2 := abs_dot_le_colNorm (P - Q) Q i j
  have b3 := abs_dot_le_colNorm (P - Q) (P - Q) i j
  rw [colNorm_of_orth hQ] at b1 b2
  have b4 := mul_le_mul (hE i) (hE j) (colNorm_nonneg _ _) hδ
  have t1 := abs_add_le ((Qᵀ * (P - Q)) i j) (((P - Q)ᵀ * Q) i j + ((P - Q)ᵀ * (P - Q)) i j)
  have t2 := abs_add_le (((P - Q)ᵀ * Q) i j) (((P - Q)ᵀ * (P - Q)) i j)
  have := hE i
  have := hE j
  calc _ ≤ δ + (δ + δ * δ) := by linarith
    _ = _ := by ring

/-- C79: the size of the error constant: a modest multiple of `n (5 m + 31) u`. -/
theorem C79_constant {m n : Nat} (hu : ((5 * m + 31 : Nat) : ℝ) * R.u < 1) (hn : n * reflErr R m < 1) :
    reflErrs R m n ≤ n * reflErr R m / (1 - n * reflErr R m) :=
  one_add_pow_sub_one_le (reflErr_nonneg hu) n hn

/-- The hypotheses of C79 are met by a concrete array in double precision. -/
example : HasShape (exRnd .double) 2 2 ∧ ((5 * 2 + 31 : Nat) : ℝ) * StdModel.double.u < 1 :=
  ⟨⟨rfl, rfl⟩, by norm_num [StdModel.double]⟩

/-- In double precision, for 100 by 100 matrices, the constant is below `2e-11`. -/
example : reflErrs .double 100 100 ≤ 2e-11 := by
  have h : ((5 * 100 + 31 : Nat) : ℝ) * StdModel.double.u < 1 := by norm_num [StdModel.double]
  have h1 : reflErr .double 100 = 3 * (531 * (2 : ℝ)⁻¹ ^ 53 / (1 - 531 * (2 : ℝ)⁻¹ ^ 53)) := by
    norm_num [reflErr, gam, StdModel.double]
  refine (C79_constant h ?_).trans ?_ <;> rw [h1] <;> norm_num

/-! ## C80 -/

theorem colNorm_mono {m n : Nat} {E X : Matrix (Fin m) (Fin n) ℝ} {c : ℝ} (hc : 0 ≤ c) (j : Fin n)
    (h : ∀ r, |E r j| ≤ c * |X r j|) : colNorm E j ≤ c * colNorm X j := by
  refine colNorm_le_of_sq (mul_nonneg hc (colNorm_nonneg _ _)) ?_
  rw [mul_pow, colNorm_sq, Finset.mul_sum]
  refine Finset.sum_le_sum fun r _ => ?_
  rw [← mul_pow, sq_le_sq, abs_mul, abs_of_nonneg hc]
  exact h r

theorem eyeMat_transpose_mul {m n k : Nat} (hnm : n ≤ m) (X : Matrix (Fin m) (Fin k) ℝ) (i : Fin n) (j : Fin k) :
    ((eyeMat m n)ᵀ * X) i j = X ⟨i, by omega⟩ j := by
  rw [Matrix.mul_apply, Finset.sum_eq_single (⟨i, by omega⟩ : Fin m)]
  · simp [eyeMat]
  · intro r _ hr
    have : (r : Nat) ≠ i := fun h => hr (Fin.ext h)
    simp [eyeMat, this]
  · intro h; exact absurd (Finset.mem_univ _) h

/-- The relative backward error of the solvers: the errors of the decomposition and those of the triangular
solve. -/
noncomputable def solveErr (R : StdModel) (m n : Nat) : ℝ :=
  reflErrs R m n + gam R.u n * (1 + reflErrs R m n)

/-- What the proofs of C80 share: with `P` orthonormal, `A + ΔA = P T` and `T x = Pᵀ (b + Δb)`. -/
theorem solveInto_rnd {m n k : Nat} (a b : Arr2 (Rnd R)) (ha : HasShape a m n) (hb : HasShape b m k) (hnm : n ≤ m)
    (hu : ((5 * m + 31 : Nat) : ℝ) * R.u < 1) (q : QRDecomp (Rnd R)) (hq : qrInto a = .ok q)
    (hi : q.isInvertible = true) :
    ∃ x, q.solveInto b = .ok x ∧ HasShape x n k ∧ ∀ j : Fin k, ∃ (P ΔA : Matrix (Fin m) (Fin n) ℝ)
      (T : Matrix (Fin n) (Fin n) ℝ) (Δb : Fin m → ℝ), Pᵀ * P = 1 ∧
      toMat m n (Rnd.vals a) + ΔA = P * T ∧
      T.mulVec (fun r : Fin n => (x.get r j).v) = Pᵀ.mulVec ((fun r : Fin m => (b.get r j).v) + Δb) ∧
      (∀ c, colNorm ΔA c ≤ solveErr R m n * colNorm (toMat m n (Rnd.vals a)) c) ∧
      Real.sqrt (∑ r, Δb r ^ 2) ≤ reflErrs R m n * Real.sqrt (∑ r : Fin m, (b.get r j).v ^ 2) := by
  have h0 := R.u_nonneg
  have hδ : 0 ≤ reflErrs R m n := reflErrs_nonneg hu
  have hnu : (n : ℝ) * R.u < 1 := lt_of_le_of_lt
    (mul_le_mul_of_nonneg_right (by exact_mod_cast (by omega : n ≤ 5 * m + 31)) h0) hu
  have hg0 : 0 ≤ gam R.u n := gam_nonneg h0 hnu
  obtain ⟨q', W, hq', h⟩ := qrInto_rnd a ha hnm hu
  rw [hq] at hq'
  cases hq'
  obtain ⟨c, hc, sc, Δb, ec, hΔb⟩ := h.qtMul hnm hu b hb
  obtain ⟨c', x, hc', -, -, hx, hsx, s1, s2⟩ := (h.toQRShape.solveInto_cases hnm b).2.2 hb.1 hi
  rw [hc] at hc'
  injection hc' with hc'
  subst hc'
  rw [hb.2] at hx s2
  have hdne : ∀ i, i < n → q.diag.get i ≠ ⟨0⟩ ∧ (NdFloat.abs (q.diag.get i) : Rnd R).v ≠ 0 := by
    intro i hin
    have : (q.diag.get i).v ≠ 0 := by
      have h2 := hi
      simp only [QRDecomp.isInvertible, Arr1.toList, h.len, List.all_map, List.all_eq_true, List.mem_range] at h2
      have h3 := h2 i hin
      simpa using h3
    exact ⟨fun h => this (by rw [h]), by simpa using this⟩
  obtain ⟨x', hx', -, hE⟩ := solveTriangularSystem_rounded (n := n) (m := k) ⟨n, n, q.qr.get⟩ ⟨n, k, c.get⟩ .upper
    q.absDiag (fun i => NdFloat.abs (q.diag.get i)) ⟨rfl, rfl⟩ ⟨rfl, rfl⟩
    (fun i hin => h.toQRShape.absDiag_ok i hin) (fun i hin => (hdne i hin).2) hnu
  rw [hx] at hx'
  cases hx'
  refine ⟨x, hsx, ⟨s1, s2⟩, fun j => ?_⟩
  obtain ⟨E, hEb, hEe⟩ := hE j
  obtain ⟨Δ, hA, hΔ⟩ := h.back
  set U := prodP (nearP m 0 q.diag.get W) n
  have hU : Uᵀ * U = 1 := prodP_orth fun k hk => (h.stored k hk).orth
  set S : Matrix (Fin n) (Fin n) ℝ := triMat n .upper (Rnd.vals q.qr) fun i => |(q.diag.get i).v| with hS
  have hS' : triMat n .upper (Rnd.vals (⟨n, n, q.qr.get⟩ : Arr2 (Rnd R)))
      (fun i => (NdFloat.abs (q.diag.get i) : Rnd R).v) = S := rfl
  rw [hS'] at hEb hEe
  have hP : (U * eyeMat m n)ᵀ * (U * eyeMat m n) = 1 := by
    rw [Matrix.transpose_mul, Matrix.mul_assoc, ← Matrix.mul_assoc _ _ (eyeMat m n), hU, Matrix.one_mul,
      eyeMat_orth hnm]
  refine ⟨U * eyeMat m n, Δ + U * eyeMat m n * E, S + E, fun r => Δb r j, hP, ?_, ?_, fun c' => ?_, ?_⟩
  · rw [← add_assoc, hA, Matrix.mul_add, Matrix.mul_assoc, Matrix.mul_assoc]
  · rw [hEe]
    have e1 : (U * eyeMat m n)ᵀ * (toMat m k (Rnd.vals b) + Δb) = (eyeMat m n)ᵀ * toMat m k (Rnd.vals c) := by
      rw [ec, Matrix.transpose_mul, Matrix.mul_assoc, ← Matrix.mul_assoc Uᵀ, hU, Matrix.one_mul]
    ext i
    have e2 := congrFun (congrFun e1 i) j
    rw [eyeMat_transpose_mul hnm, Matrix.mul_apply] at e2
    exact e2.symm
  · have hSn : colNorm S c' ≤ (1 + reflErrs R m n) * colNorm (toMat m n (Rnd.vals a)) c' := by
      rw [← colNorm_orth_mul hP S c', Matrix.mul_assoc, ← hA]
      have := colNorm_add_le (toMat m n (Rnd.vals a)) Δ c'
      have h2 : colNorm Δ c' ≤ reflErrs R m n * colNorm (toMat m n (Rnd.vals a)) c' := hΔ c'
      linarith
    have hEn : colNorm E c' ≤ gam R.u n * colNorm S c' := colNorm_mono hg0 c' fun r => hEb r c'
    have h1 := colNorm_add_le Δ (U * eyeMat m n * E) c'
    rw [colNorm_orth_mul hP] at h1
    have h2 : colNorm Δ c' ≤ reflErrs R m n * colNorm (toMat m n (Rnd.vals a)) c' := hΔ c'
    have h3 := mul_le_mul_of_nonneg_left hSn hg0
    unfold solveErr
    calc _ ≤ reflErrs R m n * colNorm (toMat m n (Rnd.vals a)) c' +
          gam R.u n * ((1 + reflErrs R m n) * colNorm (toMat m n (Rnd.vals a)) c') := by linarith
      _ = _ := by ring
  · exact hΔb j

/-- C80: `solve`, and hence `least_squares` for tall matrices, is backward stable: column `j` of the result
solves exactly a least squares problem with a matrix and right-hand side near those given. -/
theorem C80_least_squares {m n k : Nat} (a b : Arr2 (Rnd R)) (ha : HasShape a m n) (hb : HasShape b m k)
    (hnm : n ≤ m) (hu : ((5 * m + 31 : Nat) : ℝ) * R.u < 1) (x : Arr2 (Rnd R)) (hx : leastSquares a b = .ok x) :
    HasShape x n k ∧ ∀ j : Fin k, ∃ (ΔA : Matrix (Fin m) (Fin n) ℝ) (Δb : Fin m → ℝ),
      (∀ c, colNorm ΔA c ≤ solveErr R m n * colNorm (toMat m n (Rnd.vals a)) c) ∧
      Real.sqrt (∑ r, Δb r ^ 2) ≤ reflErrs R m n * Real.sqrt (∑ r : Fin m, (b.get r j).v ^ 2) ∧
      ∀ y : Fin n → ℝ,
        ∑ r, ((toMat m n (Rnd.vals a) + ΔA).mulVec (fun c : Fin n => (x.get c j).v) r - ((b.get r j).v + Δb r)) ^ 2 ≤
          ∑ r, ((toMat m n (Rnd.vals a) + ΔA).mulVec y r - ((b.get r j).v + Δb r)) ^ 2 := by
  unfold leastSquares at hx
  rw [if_pos (by rw [ha.1, ha.2]; exact hnm)] at hx
  obtain ⟨q, W, hq, h⟩ := qrInto_rnd a ha hnm hu
  rw [hq] at hx
  replace hx : q.solveInto b = .ok x := hx
  have hinv : q.isInvertible = true := by
    by_contra hne
    rw [(h.toQRShape.solveInto_cases hnm b).2.1 hb.1 (by simpa using hne)] at hx
    cases hx
  obtain ⟨x', hx', sx, h⟩ := solveInto_rnd a b ha hb hnm hu q hq hinv
  rw [hx] at hx'
  cases hx'
  refine ⟨sx, fun j => ?_⟩
  obtain ⟨P, ΔA, T, Δb, hP, hA, hT, h1, h2⟩ := h j
  refine ⟨ΔA, Δb, h1, h2, fun y => ?_⟩
  set xv := fun c : Fin n => (x.get c j).v
  set bv := (fun r : Fin m => (b.get r j).v) + Δb with hbv
  have key : ∀ z : Fin n → ℝ, ∑ r, ((toMat m n (Rnd.vals a) + ΔA).mulVec z r - bv r) ^ 2 =
      (T.mulVec z - Pᵀ.mulVec bv) ⬝ᵥ (T.mulVec z - Pᵀ.mulVec bv) + (bv ⬝ᵥ bv - Pᵀ.mulVec bv ⬝ᵥ Pᵀ.mulVec bv) := by
    intro z
    have e1 : ∑ r, ((toMat m n (Rnd.vals a) + ΔA).mulVec z r - bv r) ^ 2 =
        (P.mulVec (T.mulVec z) - bv) ⬝ᵥ (P.mulVec (T.mulVec z) - bv) := by
      rw [hA, Matrix.mulVec_mulVec, dotProduct]
      refine Finset.sum_congr rfl fun r _ => ?_
      rw [Pi.sub_apply, sq]
    rw [e1]
    set t := T.mulVec z
    have e2 : P.mulVec t ⬝ᵥ P.mulVec t = t ⬝ᵥ t := by
      rw [Matrix.dotProduct_mulVec, Matrix.vecMul_mulVec, ← Matrix.dotProduct_mulVec, hP, Matrix.one_mulVec]
    have e3 : P.mulVec t ⬝ᵥ bv = t ⬝ᵥ Pᵀ.mulVec bv := by
      rw [Matrix.dotProduct_mulVec, Matrix.vecMul_transpose]
    rw [sub_dotProduct, dotProduct_sub, dotProduct_sub, sub_dotProduct, dotProduct_sub, dotProduct_sub, e2, e3,
      dotProduct_comm bv (P.mulVec t), e3, dotProduct_comm (Pᵀ.mulVec bv) t]
    ring
  have hx0 := key xv
  rw [hT, sub_self, zero_dotProduct, zero_add] at hx0
  have hy0 := key y
  have hn : 0 ≤ (T.mulVec y - Pᵀ.mulVec bv) ⬝ᵥ (T.mulVec y - Pᵀ.mulVec bv) :=
    Finset.sum_nonneg fun i _ => mul_self_nonneg _
  have e : ∀ z : Fin n → ℝ, ∑ r, ((toMat m n (Rnd.vals a) + ΔA).mulVec z r - ((b.get r j).v + Δb r)) ^ 2 =
      ∑ r, ((toMat m n (Rnd.vals a) + ΔA).mulVec z r - bv r) ^ 2 := fun z => rfl
  rw [e, e, hx0, hy0]
  linarith

/-- C80: for square matrices the result solves a nearby linear system exactly. -/
theorem C80_square {n k : Nat} (a b : Arr2 (Rnd R)) (ha : HasShape a n n) (hb : HasShape b n k)
    (hu : ((5 * n + 31 : Nat) : ℝ) * R.u < 1) (q : QRDecomp (Rnd R)) (hq : qrInto a = .ok q) (x : Arr2 (Rnd R))
    (hx : q.solveInto b = .ok x) :
    HasShape x n k ∧ ∀ j : Fin k, ∃ (ΔA : Matrix (Fin n) (Fin n) ℝ) (Δb : Fin n → ℝ),
      (∀ c, colNorm ΔA c ≤ solveErr R n n * colNorm (toMat n n (Rnd.vals a)) c) ∧
      Real.sqrt (∑ r, Δb r ^ 2) ≤ reflErrs R n n * Real.sqrt (∑ r : Fin n, (b.get r j).v ^ 2) ∧
      (toMat n n (Rnd.vals a) + ΔA).mulVec (fun c : Fin n => (x.get c j).v) =
        fun r : Fin n => (b.get r j).v + Δb r := by
  have hinv : q.isInvertible = true := by
    by_contra hne
    obtain ⟨q', W, hq', h⟩ := qrInto_rnd a ha le_rfl hu
    rw [hq] at hq'
    cases hq'
    rw [(h.toQRShape.solveInto_cases le_rfl b).2.1 hb.1 (by simpa using hne)] at hx
    cases hx
  obtain ⟨x', hx', sx, h⟩ := solveInto_rnd a b ha hb le_rfl hu q hq hinv
  rw [hx] at hx'
  cases hx'
  refine ⟨sx, fun j => ?_⟩
  obtain ⟨P, ΔA, T, Δb, hP, hA, hT, h1, h2⟩ := h j
  refine ⟨ΔA, Δb, h1, h2, ?_⟩
  rw [hA, ← Matrix.mulVec_mulVec, hT, Matrix.mulVec_mulVec, mul_eq_one_comm.1 hP, Matrix.one_mulVec]
  rfl

/-- C80: a matrix that is further from rank deficiency than the rounding errors is recognised as invertible, so
that `solve` and `least_squares` do return a result. -/
theorem C80_succeeds {m n k : Nat} (a b : Arr2 (Rnd R)) (ha : HasShape a m n) (hb : HasShape b m k) (hnm : n ≤ m)
    (hu : ((5 * m + 31 : Nat) : ℝ) * R.u < 1)
    (hσ : ∀ x : Fin n → ℝ, x ≠ 0 → (reflErrs R m n * frob (toMat m n (Rnd.vals a))) ^ 2 * ∑ i, x i ^ 2 <
      ∑ r, (toMat m n (Rnd.vals a)).mulVec x r ^ 2) :
    ∃ q x, qrInto a = .ok q ∧ q.isInvertible = true ∧ q.solveInto b = .ok x ∧ leastSquares a b = .ok x := by
  obtain ⟨q, W, hq, h⟩ := qrInto_rnd a ha hnm hu
  have hδ : 0 ≤ reflErrs R m n := reflErrs_nonneg hu
  have hdiag : ∀ i : Fin n, (q.diag.get i).v ≠ 0 := by
    by_contra hne
    push Not at hne
    obtain ⟨i, hi⟩ := hne
    obtain ⟨Δ, hA, hΔ⟩ := h.back
    set S : Matrix (Fin n) (Fin n) ℝ := triMat n .upper (Rnd.vals q.qr) fun i => |(q.diag.get i).v| with hS
    have hdet : S.det = 0 := by
      rw [Matrix.det_of_isUpperTriangular]
      · refine Finset.prod_eq_zero (Finset.mem_univ i) ?_
        simp [hS, triMat, hi]
      · intro r c hrc
        have hrc' : (c : Nat) < r := hrc
        simp only [hS, triMat, Matrix.of_apply, inTri_upper]
        rw [if_neg (by intro h; subst h; omega), if_neg (by omega)]
    obtain ⟨x, hx0, hx⟩ := Matrix.exists_mulVec_eq_zero_iff.2 hdet
    have hz : (toMat m n (Rnd.vals a)).mulVec x + Δ.mulVec x = 0 := by
      rw [← Matrix.add_mulVec, hA, ← Matrix.mulVec_mulVec, ← Matrix.mulVec_mulVec, hx, Matrix.mulVec_zero,
        Matrix.mulVec_zero]
    have h1 := hσ x hx0
    have h2 : ∑ r, (toMat m n (Rnd.vals a)).mulVec x r ^ 2 = ∑ r, Δ.mulVec x r ^ 2 := by
      refine Finset.sum_congr rfl fun r _ => ?_
      have := congrFun hz r
      simp only [Pi.add_apply, Pi.zero_apply] at this
      rw [eq_neg_of_add_eq_zero_left this, neg_sq]
    have h3 : ∑ r, Δ.mulVec x r ^ 2 ≤ frob Δ ^ 2 * ∑ i, x i ^ 2 := by
      rw [frob_sq, Finset.sum_mul]
      refine Finset.sum_le_sum fun r _ => ?_
      rw [Matrix.mulVec, dotProduct]
      exact Finset.sum_mul_sq_le_sq_mul_sq _ _ _
    have h4 : frob Δ ≤ reflErrs R m n * frob (toMat m n (Rnd.vals a)) := frob_le_of_colNorm hδ hΔ
    have h5 : frob Δ ^ 2 * ∑ i, x i ^ 2 ≤ (reflErrs R m n * frob (toMat m n (Rnd.vals a))) ^ 2 * ∑ i, x i ^ 2 :=
      mul_le_mul_of_nonneg_right (pow_le_pow_left₀ (frob_nonneg _) h4 2) (Finset.sum_nonneg fun i _ => sq_nonneg _)
    linarith
  have hinv : q.isInvertible = true := by
    simp only [QRDecomp.isInvertible, Arr1.toList, h.len, List.all_map, List.all_eq_true, List.mem_range]
    intro i hi
    simpa using hdiag ⟨i, hi⟩
  obtain ⟨x, hx, -⟩ := solveInto_rnd a b ha hb hnm hu q hq hinv
  refine ⟨q, x, hq, hinv, hx, ?_⟩
  unfold leastSquares
  rw [if_pos (by rw [ha.1, ha.2]; exact hnm), hq]
  exact hx

/-- C80: column `j` of the computed inverse solves a nearby system with a right-hand side near `e_j`. -/
theorem C80_inverse {n : Nat} (a : Arr2 (Rnd R)) (ha : HasShape a n n)
    (hu : ((5 * n + 31 : Nat) : ℝ) * R.u < 1) (q : QRDecomp (Rnd R)) (hq : qrInto a = .ok q) (x : Arr2 (Rnd R))
    (hx : q.inverse = .ok x) :
    HasShape x n n ∧ ∀ j : Fin n, ∃ (ΔA : Matrix (Fin n) (Fin n) ℝ) (Δb : Fin n → ℝ),
      (∀ c, colNorm ΔA c ≤ solveErr R n n * colNorm (toMat n n (Rnd.vals a)) c) ∧
      Real.sqrt (∑ r, Δb r ^ 2) ≤ reflErrs R n n ∧
      (toMat n n (Rnd.vals a) + ΔA).mulVec (fun c : Fin n => (x.get c j).v) =
        fun r : Fin n => (if r = j then 1 else 0) + Δb r := by
  obtain ⟨q', W, hq', h⟩ := qrInto_rnd a ha le_rfl hu
  rw [hq] at hq'
  cases hq'
  unfold QRDecomp.inverse at hx
  rw [checkSquare_ok (by rw [h.nr, h.nc]), ok_bind, h.len] at hx
  obtain ⟨sx, hs⟩ := C80_square (k := n) a (Arr2.eye n n) ha ⟨rfl, rfl⟩ hu q hq x hx
  refine ⟨sx, fun j => ?_⟩
  obtain ⟨ΔA, Δb, h1, h2, h3⟩ := hs j
  have he : ∀ r : Fin n, ((Arr2.eye n n : Arr2 (Rnd R)).get r j).v = if r = j then 1 else 0 := by
    intro r
    simp only [Arr2.eye]
    by_cases hrj : r = j
    · rw [if_pos hrj, if_pos (by rw [hrj])]
      rfl
    · rw [if_neg hrj, if_neg (fun h => hrj (Fin.ext h))]
      rfl
  refine ⟨ΔA, Δb, h1, ?_, ?_⟩
  · simpa [he] using h2
  · rw [h3]
    simp only [he]

/-- C80: the inverse of a matrix that is further from singularity than the rounding errors is computed. -/
theorem C80_inverse_succeeds {n : Nat} (a : Arr2 (Rnd R)) (ha : HasShape a n n)
    (hu : ((5 * n + 31 : Nat) : ℝ) * R.u < 1)
    (hσ : ∀ x : Fin n → ℝ, x ≠ 0 → (reflErrs R n n * frob (toMat n n (Rnd.vals a))) ^ 2 * ∑ i, x i ^ 2 <
      ∑ r, (toMat n n (Rnd.vals a)).mulVec x r ^ 2) :
    ∃ q x, qrInto a = .ok q ∧ q.inverse = .ok x := by
  obtain ⟨q, x, hq, -, hx, -⟩ := C80_succeeds (k := n) a (Arr2.eye n n) ha ⟨rfl, rfl⟩ le_rfl hu hσ
  obtain ⟨q', W, hq', h⟩ := qrInto_rnd a ha le_rfl hu
  rw [hq] at hq'
  cases hq'
  refine ⟨q, x, hq, ?_⟩
  unfold QRDecomp.inverse
  rw [checkSquare_ok (by rw [h.nr, h.nc]), ok_bind, h.len]
  exact hx

theorem exRnd_vals (R : StdModel) : toMat 2 2 (Rnd.vals (exRnd R)) = !![2, 0; 1, 3] := by
  ext i j
  fin_cases i <;> fin_cases j <;> simp [exRnd, ofRows, Rnd.vals]

/-- The hypotheses of C80 are met by a concrete array in double precision. -/
theorem exRnd_solves : ∃ q x, qrInto (exRnd .double) = .ok q ∧ q.isInvertible = true ∧
    q.solveInto (exRnd .double) = .ok x ∧ leastSquares (exRnd .double) (exRnd .double) = .ok x := by
  have h : ((5 * 2 + 31 : Nat) : ℝ) * StdModel.double.u < 1 := by norm_num [StdModel.double]
  have hδ : reflErrs .double 2 2 ≤ 1 / 1000 := by
    have h1 : reflErr .double 2 = 3 * (41 * (2 : ℝ)⁻¹ ^ 53 / (1 - 41 * (2 : ℝ)⁻¹ ^ 53)) := by
      norm_num [reflErr, gam, StdModel.double]
    refine (C79_constant h ?_).trans ?_ <;> rw [h1] <;> norm_num
  have hδ0 : 0 ≤ reflErrs .double 2 2 := reflErrs_nonneg h
  refine C80_succeeds (m := 2) (n := 2) (k := 2) _ _ ⟨rfl, rfl⟩ ⟨rfl, rfl⟩ le_rfl h ?_
  intro x hx
  rw [exRnd_vals, mul_pow, frob_sq]
  simp only [Fin.sum_univ_two, Matrix.mulVec, dotProduct, Matrix.cons_val_zero, Matrix.cons_val_one, Matrix.of_apply,
    Matrix.cons_val', Matrix.cons_val_fin_one]
  have hpos : 0 < x 0 ^ 2 + x 1 ^ 2 := by
    by_contra hne
    have h0 : x 0 = 0 := by nlinarith [sq_nonneg (x 0), sq_nonneg (x 1)]
    have h1 : x 1 = 0 := by nlinarith [sq_nonneg (x 0), sq_nonneg (x 1)]
    exact hx (by ext i; fin_cases i <;> simp [h0, h1])
  have hsq : reflErrs .double 2 2 ^ 2 ≤ 1 / 100 := by nlinarith
  have h3 : reflErrs .double 2 2 ^ 2 * (2 ^ 2 + 0 ^ 2 + (1 ^ 2 + 3 ^ 2)) * (x 0 ^ 2 + x 1 ^ 2) ≤
      x 0 ^ 2 + x 1 ^ 2 := by
    have : reflErrs .double 2 2 ^ 2 * (2 ^ 2 + 0 ^ 2 + (1 ^ 2 + 3 ^ 2)) ≤ 1 := by linarith
    nlinarith
  have h4 : x 0 ^ 2 + x 1 ^ 2 < (2 * x 0 + 0 * x 1) ^ 2 + (1 * x 0 + 3 * x 1) ^ 2 := by
    nlinarith [sq_nonneg (x 0 + x 1)]
  exact lt_of_le_of_lt h3 h4

/-! ## C81 -/

/-- The relative error of `fl (Q y)` for the computed `Q`. -/
noncomputable def applyErr (R : StdModel) (m n : Nat) : ℝ :=
  Real.sqrt n * (reflErrs R m n + gam R.u (n + 1) * (1 + reflErrs R m n))

/-- C81: `solve_tr` is stable: its result is near the solution of least norm of a nearby underdetermined system
`(A + ΔA)ᵀ z = b`. -/
theorem C81_solve_tr {m n k : Nat} (a b : Arr2 (Rnd R)) (ha : HasShape a m n) (hb : HasShape b n k) (hnm : n ≤ m)
    (hu : ((5 * m + 31 : Nat) : ℝ) * R.u < 1) (q : QRDecomp (Rnd R)) (hq : qrInto a = .ok q) (x : Arr2 (Rnd R))
    (hx : q.solveTrInto b = .ok x) :
    HasShape x m k ∧ ∀ j : Fin k, ∃ (ΔA : Matrix (Fin m) (Fin n) ℝ) (z : Fin m → ℝ),
      (∀ c, colNorm ΔA c ≤ solveErr R m n * colNorm (toMat m n (Rnd.vals a)) c) ∧
      (toMat m n (Rnd.vals a) + ΔA)ᵀ *ᵥ z = (fun r : Fin n => (b.get r j).v) ∧
      (∀ w, (toMat m n (Rnd.vals a) + ΔA)ᵀ *ᵥ w = (fun r : Fin n => (b.get r j).v) →
        ∑ r, z r ^ 2 ≤ ∑ r, w r ^ 2) ∧
      Real.sqrt (∑ r : Fin m, ((x.get r j).v - z r) ^ 2) ≤ applyErr R m n * Real.sqrt (∑ r, z r ^ 2) := by
  have h0 := R.u_nonneg
  have h1 := R.u_lt_one
  have hδ : 0 ≤ reflErrs R m n := reflErrs_nonneg hu
  have hlt : ∀ k : Nat, k ≤ 5 * m + 31 → (k : ℝ) * R.u < 1 := fun k hk => lt_of_le_of_lt
    (mul_le_mul_of_nonneg_right (by exact_mod_cast hk) h0) hu
  have hnu : (n : ℝ) * R.u < 1 := hlt n (by omega)
  have hnu1 : ((n + 1 : Nat) : ℝ) * R.u < 1 := hlt (n + 1) (by omega)
  have hg0 : 0 ≤ gam R.u n := gam_nonneg h0 hnu
  have hg1 : 0 ≤ gam R.u (n + 1) := gam_nonneg h0 hnu1
  have hglt : gam R.u n < 1 := by
    have h2 := hlt (2 * n) (by omega)
    push_cast at h2
    unfold gam
    rw [div_lt_one (by linarith)]
    linarith
  obtain ⟨q', W, hq', h⟩ := qrInto_rnd a ha hnm hu
  rw [hq] at hq'
  cases hq'
  obtain ⟨-, c2, c3⟩ := h.toQRShape.solveTrInto_cases hnm b
  have hi : q.isInvertible = true := by
    by_contra hne
    rw [c2 hb.1 (by simpa using hne)] at hx
    cases hx
  obtain ⟨y, Qc, x', hy, hQc, r1, r2, hdot, hx', s1, s2⟩ := c3 hb.1 hi
  rw [hx] at hx'
  cases hx'
  rw [hb.2] at s2
  have hdne : ∀ i, i < n → (q.diag.get i).v ≠ 0 := by
    intro i hin
    have h2 := hi
    simp only [QRDecomp.isInvertible, Arr1.toList, h.len, List.all_map, List.all_eq_true, List.mem_range] at h2
    have h3 := h2 i hin
    simpa using h3
  obtain ⟨y', hy', sy, hE⟩ := solveTriangularSystem_rounded (n := n) (m := k) ⟨n, n, fun i j => q.qr.get j i⟩ b .lower
    q.absDiag (fun i => NdFloat.abs (q.diag.get i)) ⟨rfl, rfl⟩ hb
    (fun i hin => h.toQRShape.absDiag_ok i hin) (fun i hin => by simpa using hdne i hin) hnu
  rw [hy] at hy'
  cases hy'
  have hmin : min q.qr.nr q.qr.nc = n := by have := h.nr; have := h.nc; omega
  obtain ⟨Qc', hQ, sQ, eQ⟩ := assembleQ_rnd q.qr 0 (fun i => q.diag.idx i) q.diag.get W (Nat.zero_le _)
    (fun i hi => Arr1.idx_ok (by rw [h.len]; omega)) (fun i hi => by rw [h.nr]; exact h.stored i (by omega))
    (by rw [h.nr]; exact hu)
  rw [hmin, h.nr] at sQ eQ
  have hQc' : assembleQ q.qr 0 (fun i => q.diag.idx i) = .ok Qc := hQc
  rw [hQc'] at hQ
  cases hQ
  refine ⟨⟨s1, s2⟩, fun j => ?_⟩
  obtain ⟨E, hEb, hEe⟩ := hE j
  obtain ⟨Δ, hA, hΔ⟩ := h.back
  set U := prodP (nearP m 0 q.diag.get W) n
  have hU : Uᵀ * U = 1 := prodP_orth fun k hk => (h.stored k hk).orth
  set S : Matrix (Fin n) (Fin n) ℝ := triMat n .upper (Rnd.vals q.qr) fun i => |(q.diag.get i).v| with hS
  have hS' : triMat n .lower (Rnd.vals (⟨n, n, fun i j => q.qr.get j i⟩ : Arr2 (Rnd R)))
      (fun i => (NdFloat.abs (q.diag.get i) : Rnd R).v) = Sᵀ := by
    ext i j
    simp only [hS, Matrix.transpose_apply, triMat, Matrix.of_apply, inTri_upper, inTri_lower, Rnd.vals]
    by_cases hij : i = j
    · subst hij
      rw [if_pos rfl, if_pos rfl]
      rfl
    · simp only [if_neg hij, if_neg (Ne.symm hij)]
  rw [hS'] at hEb hEe
  set P := U * eyeMat m n with hPdef
  have hP : Pᵀ * P = 1 := by
    rw [hPdef, Matrix.transpose_mul, Matrix.mul_assoc, ← Matrix.mul_assoc _ _ (eyeMat m n), hU, Matrix.one_mul,
      eyeMat_orth hnm]
  set yv := fun r : Fin n => (y.get r j).v with hyv
  have hAT : (toMat m n (Rnd.vals a) + (Δ + P * Eᵀ))ᵀ = (Sᵀ + E) * Pᵀ := by
    rw [← add_assoc, hA, hPdef, ← Matrix.mul_assoc, ← Matrix.mul_add, Matrix.transpose_mul, Matrix.transpose_add,
      Matrix.transpose_transpose]
  have hSn : ∀ c, colNorm S c ≤ (1 + reflErrs R m n) * colNorm (toMat m n (Rnd.vals a)) c := by
    intro c
    rw [← colNorm_orth_mul hP S c, hPdef, Matrix.mul_assoc, ← hA]
    have := colNorm_add_le (toMat m n (Rnd.vals a)) Δ c
    have h2 : colNorm Δ c ≤ reflErrs R m n * colNorm (toMat m n (Rnd.vals a)) c := hΔ c
    linarith
  have hPP : ∀ v : Fin n → ℝ, ∑ r, (P *ᵥ v) r ^ 2 = ∑ i, v i ^ 2 := by
    intro v
    have e2 : P.mulVec v ⬝ᵥ P.mulVec v = v ⬝ᵥ v := by
      rw [Matrix.dotProduct_mulVec, Matrix.vecMul_mulVec, ← Matrix.dotProduct_mulVec, hP, Matrix.one_mulVec]
    simpa [dotProduct, sq] using e2
  refine ⟨Δ + P * Eᵀ, P *ᵥ yv, fun c => ?_, ?_, fun w hw => ?_, ?_⟩
  · have hEn : colNorm Eᵀ c ≤ gam R.u n * colNorm S c := colNorm_mono hg0 c fun r => hEb c r
    have h1 := colNorm_add_le Δ (P * Eᵀ) c
    rw [colNorm_orth_mul hP] at h1
    have h2 : colNorm Δ c ≤ reflErrs R m n * colNorm (toMat m n (Rnd.vals a)) c := hΔ c
    have h3 := mul_le_mul_of_nonneg_left (hSn c) hg0
    unfold solveErr
    calc _ ≤ reflErrs R m n * colNorm (toMat m n (Rnd.vals a)) c +
          gam R.u n * ((1 + reflErrs R m n) * colNorm (toMat m n (Rnd.vals a)) c) := by linarith
      _ = _ := by ring
  · rw [hAT, Matrix.mulVec_mulVec, Matrix.mul_assoc, hP, Matrix.mul_one]
    exact hEe
  · -- `Pᵀ w = y`, as `Sᵀ + E` is invertible
    have hdet : (Sᵀ + E).det ≠ 0 := by
      rw [Matrix.det_of_isLowerTriangular]
      · refine Finset.prod_ne_zero_iff.2 fun i _ => ?_
        have hb := hEb i i
        have hSi : Sᵀ i i = |(q.diag.get i).v| := by simp [hS, triMat]
        rw [hSi, abs_abs] at hb
        have hp : 0 < |(q.diag.get i).v| := abs_pos.2 (hdne i i.2)
        rw [Matrix.add_apply, hSi]
        have := neg_abs_le (E i i)
        nlinarith
      · intro r c hrc
        have hrc' : (r : Nat) < c := hrc
        have hz : Sᵀ r c = 0 := by
          simp only [hS, Matrix.transpose_apply, triMat, Matrix.of_apply, inTri_upper]
          rw [if_neg (by intro h; subst h; omega), if_neg (by omega)]
        have hb := hEb r c
        rw [hz, abs_zero, mul_zero] at hb
        rw [Matrix.add_apply, hz, abs_nonpos_iff.1 hb, add_zero]
    have hPw : Pᵀ *ᵥ w = yv := by
      rw [hAT, ← Matrix.mulVec_mulVec, ← hEe] at hw
      exact (Matrix.mulVec_injective_iff_isUnit.2 ((Matrix.isUnit_iff_isUnit_det _).2 (isUnit_iff_ne_zero.2 hdet))) hw
    rw [hPP]
    have e1 : ∑ i, yv i ^ 2 = yv ⬝ᵥ yv := by simp [dotProduct, sq]
    have e2 : ∑ r, w r ^ 2 = w ⬝ᵥ w := by simp [dotProduct, sq]
    have e3 : (w - P *ᵥ yv) ⬝ᵥ (w - P *ᵥ yv) = w ⬝ᵥ w - yv ⬝ᵥ yv := by
      have e4 : P *ᵥ yv ⬝ᵥ P *ᵥ yv = yv ⬝ᵥ yv := by
        rw [Matrix.dotProduct_mulVec, Matrix.vecMul_mulVec, ← Matrix.dotProduct_mulVec, hP, Matrix.one_mulVec]
      have e5 : P *ᵥ yv ⬝ᵥ w = yv ⬝ᵥ yv := by
        rw [← Matrix.vecMul_transpose, ← Matrix.dotProduct_mulVec, hPw]
      rw [sub_dotProduct, dotProduct_sub, dotProduct_sub, dotProduct_comm w (P *ᵥ yv), e4, e5]
      ring
    have hn : 0 ≤ (w - P *ᵥ yv) ⬝ᵥ (w - P *ᵥ yv) := Finset.sum_nonneg fun i _ => mul_self_nonneg _
    rw [e1, e2]
    linarith
  · rw [hPP]
    rw [Arr2.dot_ok (by rw [r2, sy.1])] at hdot
    cases hdot
    choose τ hτ eτ using fun r : Fin m => dotTo_products n (fun c => Qc.get r c) (fun c => y.get c j)
    set F : Matrix (Fin m) (Fin n) ℝ := Matrix.of fun r c => (Qc.get r c).v * τ r c - P r c with hF
    have e1 : ∀ r : Fin m, (dotTo Qc.nc (Qc.get r) fun c => y.get c j).v - (P *ᵥ yv) r = ∑ c, F r c * yv c := by
      intro r
      rw [r2, eτ, Finset.sum_range, Matrix.mulVec, dotProduct, ← Finset.sum_sub_distrib]
      refine Finset.sum_congr rfl fun c _ => ?_
      simp only [hF, Matrix.of_apply, hyv]
      ring
    have hFn : frob F ≤ applyErr R m n := by
      have hcol : ∀ c, colNorm F c ≤ reflErrs R m n + gam R.u (n + 1) * (1 + reflErrs R m n) := by
        intro c
        have hQn : colNorm (toMat m n (Rnd.vals Qc)) c ≤ 1 + reflErrs R m n := by
          have := colNorm_add_le P (toMat m n (Rnd.vals Qc) - P) c
          rw [add_sub_cancel, colNorm_of_orth hP] at this
          have h2 : colNorm (toMat m n (Rnd.vals Qc) - P) c ≤ reflErrs R m n := eQ c
          linarith
        set G : Matrix (Fin m) (Fin n) ℝ := Matrix.of fun r c => (Qc.get r c).v * (τ r c - 1) with hG
        have eF : F = (toMat m n (Rnd.vals Qc) - P) + G := by
          ext r c
          simp only [hF, hG, Matrix.of_apply, Matrix.add_apply, Matrix.sub_apply, toMat_apply, Rnd.vals]
          ring
        have hGn : colNorm G c ≤ gam R.u (n + 1) * colNorm (toMat m n (Rnd.vals Qc)) c := by
          refine colNorm_mono hg1 c fun r => ?_
          simp only [hG, Matrix.of_apply, toMat_apply, Rnd.vals]
          rw [abs_mul, mul_comm]
          exact mul_le_mul_of_nonneg_right ((hτ r c).abs_sub_one h0 h1 hnu1) (abs_nonneg _)
        rw [eF]
        have h2 : colNorm (toMat m n (Rnd.vals Qc) - P) c ≤ reflErrs R m n := eQ c
        have h3 := colNorm_add_le (toMat m n (Rnd.vals Qc) - P) G c
        have h4 := mul_le_mul_of_nonneg_left hQn hg1
        linarith
      have hnn : 0 ≤ reflErrs R m n + gam R.u (n + 1) * (1 + reflErrs R m n) := by positivity
      unfold applyErr
      refine frob_le_of_sq (mul_nonneg (Real.sqrt_nonneg _) hnn) ?_
      rw [← frob_sq, frob_sq_colNorm, mul_pow, Real.sq_sqrt (Nat.cast_nonneg n)]
      refine (Finset.sum_le_sum fun c _ => pow_le_pow_left₀ (colNorm_nonneg _ _) (hcol c) 2).trans ?_
      simp
    rw [← Real.sqrt_sq (frob_nonneg F)] at hFn
    refine le_trans ?_ (mul_le_mul_of_nonneg_right hFn (Real.sqrt_nonneg _))
    rw [← Real.sqrt_mul (sq_nonneg _)]
    refine Real.sqrt_le_sqrt ?_
    rw [frob_sq, Finset.sum_mul]
    refine Finset.sum_le_sum fun r _ => ?_
    show ((dotTo Qc.nc (Qc.get r) fun c => y.get c j).v - (P *ᵥ yv) r) ^ 2 ≤ _
    rw [e1 r]
    exact Finset.sum_mul_sq_le_sq_mul_sq _ _ _

/-- C81: hence `least_squares` on wide matrices is near the solution of least norm of a nearby system. -/
theorem C81_least_squares_wide {m n k : Nat} (a b : Arr2 (Rnd R)) (ha : HasShape a m n) (hb : HasShape b m k)
    (hmn : m < n) (hu : ((5 * n + 31 : Nat) : ℝ) * R.u < 1) (x : Arr2 (Rnd R)) (hx : leastSquares a b = .ok x) :
    HasShape x n k ∧ ∀ j : Fin k, ∃ (ΔA : Matrix (Fin m) (Fin n) ℝ) (z : Fin n → ℝ),
      (∀ r, Real.sqrt (∑ c, ΔA r c ^ 2) ≤ solveErr R n m * Real.sqrt (∑ c : Fin n, (a.get r c).v ^ 2)) ∧
      (toMat m n (Rnd.vals a) + ΔA) *ᵥ z = (fun r : Fin m => (b.get r j).v) ∧
      (∀ w, (toMat m n (Rnd.vals a) + ΔA) *ᵥ w = (fun r : Fin m => (b.get r j).v) →
        ∑ r, z r ^ 2 ≤ ∑ r, w r ^ 2) ∧
      Real.sqrt (∑ r : Fin n, ((x.get r j).v - z r) ^ 2) ≤ applyErr R n m * Real.sqrt (∑ r, z r ^ 2) := by
  unfold leastSquares at hx
  rw [if_neg (by rw [ha.1, ha.2]; omega)] at hx
  have hat : HasShape a.t n m := ⟨ha.2, ha.1⟩
  obtain ⟨q, W, hq, -⟩ := qrInto_rnd a.t hat hmn.le hu
  rw [hq] at hx
  obtain ⟨sx, h⟩ := C81_solve_tr a.t b hat hb hmn.le hu q hq x hx
  refine ⟨sx, fun j => ?_⟩
  obtain ⟨ΔA, z, h1, h2, h3, h4⟩ := h j
  have e : (toMat n m (Rnd.vals a.t) + ΔA)ᵀ = toMat m n (Rnd.vals a) + ΔAᵀ := by
    rw [Matrix.transpose_add]
    rfl
  rw [e] at h2
  simp only [e] at h3
  exact ⟨ΔAᵀ, z, fun r => h1 r, h2, h3, h4⟩

/-- C81: `solve_tr` returns a result for every matrix that is further from rank deficiency than the rounding errors. -/
theorem C81_solve_tr_succeeds {m n k : Nat} (a b : Arr2 (Rnd R)) (ha : HasShape a m n) (hb : HasShape b n k)
    (hnm : n ≤ m) (hu : ((5 * m + 31 : Nat) : ℝ) * R.u < 1)
    (hσ : ∀ x : Fin n → ℝ, x ≠ 0 → (reflErrs R m n * frob (toMat m n (Rnd.vals a))) ^ 2 * ∑ i, x i ^ 2 <
      ∑ r, (toMat m n (Rnd.vals a)).mulVec x r ^ 2) :
    ∃ q x, qrInto a = .ok q ∧ q.solveTrInto b = .ok x := by
  obtain ⟨q, -, hq, hi, -⟩ := C80_succeeds (k := 0) a ⟨m, 0, fun _ _ => 0⟩ ha ⟨rfl, rfl⟩ hnm hu hσ
  obtain ⟨q', W, hq', h⟩ := qrInto_rnd a ha hnm hu
  rw [hq] at hq'
  cases hq'
  obtain ⟨y, r, x, -, -, -, -, -, hx, -⟩ := (h.toQRShape.solveTrInto_cases hnm b).2.2 hb.1 hi
  exact ⟨q, x, hq, hx⟩

/-- C81: so does `least_squares` for a wide matrix whose rows are further from linear dependence than the rounding
errors. -/
theorem C81_least_squares_succeeds {m n k : Nat} (a b : Arr2 (Rnd R)) (ha : HasShape a m n) (hb : HasShape b m k)
    (hmn : m < n) (hu : ((5 * n + 31 : Nat) : ℝ) * R.u < 1)
    (hσ : ∀ x : Fin m → ℝ, x ≠ 0 → (reflErrs R n m * frob (toMat m n (Rnd.vals a))) ^ 2 * ∑ i, x i ^ 2 <
      ∑ r, (toMat m n (Rnd.vals a))ᵀ.mulVec x r ^ 2) :
    ∃ x, leastSquares a b = .ok x := by
  have e : toMat n m (Rnd.vals a.t) = (toMat m n (Rnd.vals a))ᵀ := rfl
  obtain ⟨q, x, hq, hx⟩ := C81_solve_tr_succeeds a.t b ⟨ha.2, ha.1⟩ hb hmn.le hu (by
    rw [e, frob_transpose]; exact hσ)
  refine ⟨x, ?_⟩
  unfold leastSquares
  rw [if_neg (by rw [ha.1, ha.2]; omega), hq]
  exact hx

/-- The hypotheses of C81 are met by a concrete array in double precision. -/
example : ∃ q x, qrInto (exRnd .double) = .ok q ∧ q.solveTrInto (exRnd .double) = .ok x := by
  obtain ⟨q, -, hq, hi, -⟩ := exRnd_solves
  obtain ⟨q', W, hq', h⟩ := qrInto_rnd (m := 2) (n := 2) (exRnd .double) ⟨rfl, rfl⟩ le_rfl
    (by norm_num [StdModel.double])
  rw [hq] at hq'
  cases hq'
  obtain ⟨y, r, x, -, -, -, -, -, hx, -⟩ := (h.toQRShape.solveTrInto_cases le_rfl (exRnd .double)).2.2 rfl hi
  exact ⟨q, x, hq, hx⟩

/-- A wide array of floats: `[[3, 4]]`. -/
noncomputable def exWideRnd (R : StdModel) : Arr2 (Rnd R) := ⟨1, 2, fun i j => ⟨(ofRows 1 2 [[3, 4]]).get i j⟩⟩

/-- The hypotheses of C81 for wide matrices are met by a concrete array in double precision. -/
example : ∃ x, leastSquares (exWideRnd .double) (⟨1, 1, fun _ _ => ⟨5⟩⟩ : Arr2 (Rnd .double)) = .ok x := by
  have h : ((5 * 2 + 31 : Nat) : ℝ) * StdModel.double.u < 1 := by norm_num [StdModel.double]
  have hδ : reflErrs .double 2 1 ≤ 1 / 1000 := by
    have h1 : reflErr .double 2 = 3 * (41 * (2 : ℝ)⁻¹ ^ 53 / (1 - 41 * (2 : ℝ)⁻¹ ^ 53)) := by
      norm_num [reflErr, gam, StdModel.double]
    refine (C79_constant h ?_).trans ?_ <;> rw [h1] <;> norm_num
  have hδ0 : 0 ≤ reflErrs .double 2 1 := reflErrs_nonneg h
  have hA : toMat 2 1 (Rnd.vals (exWideRnd .double).t) = !![3; 4] := by
    ext i j
    fin_cases i <;> fin_cases j <;> simp [exWideRnd, ofRows, Rnd.vals, Arr2.t]
  refine C81_least_squares_succeeds (m := 1) (n := 2) (k := 1) _ _ ⟨rfl, rfl⟩ ⟨rfl, rfl⟩ (by norm_num) h ?_
  intro x hx
  have h0 : x 0 ≠ 0 := fun h0 => hx (by ext i; fin_cases i; exact h0)
  have hpos : 0 < x 0 ^ 2 := by positivity
  rw [← frob_transpose, show (toMat 1 2 (Rnd.vals (exWideRnd .double)))ᵀ = !![3; 4] from hA, mul_pow, frob_sq]
  simp only [Fin.sum_univ_two, Finset.univ_unique, Fin.default_eq_zero, Finset.sum_singleton, Matrix.mulVec,
    dotProduct, Matrix.of_apply, Matrix.cons_val', Matrix.cons_val_fin_one, Matrix.cons_val_zero,
    Matrix.cons_val_one]
  have hsq : reflErrs .double 2 1 ^ 2 ≤ 1 / 100 := by nlinarith
  nlinarith

end LinfaLinalg
