import Verif.Proofs.Perturb
import Verif.Props.Accuracy
import Verif.Props.RoundingEigh
import Verif.Props.RoundingSvd

/-! # C115: the values computed for related matrices

Each bound on the error of a single run turns classical facts on the exact spectra of two matrices into facts on two
runs: nearby matrices, ordered matrices, and a matrix with some of its rows and columns. -/

namespace LinfaLinalg

open Matrix

/-- The error of the sorted values of `eigvalsh` in exact arithmetic (C75). -/
noncomputable def eigTol {n : Nat} (A : Matrix (Fin n) (Fin n) ℝ) : ℝ := 2 * (n - 1 : Nat) * (2 : ℝ)⁻¹ ^ 52 * frob A

/-- The error of the sorted values of `svd` in exact arithmetic (C76). -/
noncomputable def svdTol {m n : Nat} (A : Matrix (Fin m) (Fin n) ℝ) : ℝ :=
  2 * (min m n - 1 : Nat) * (5 * (2 : ℝ)⁻¹ ^ 52) * frob A

/-! ## The exact spectra -/

theorem nthEigenvalue_lipschitz {n : Nat} {A B : Matrix (Fin n) (Fin n) ℝ} (hA : A.IsSymm) (hB : B.IsSymm)
    (order : Order) (j : Fin n) : |nthEigenvalue order hA j - nthEigenvalue order hB j| ≤ frob (A - B) := by
  cases order <;> exact eigenvalueDesc_lipschitz hA hB _

theorem nthEigenvalue_mono {n : Nat} {A B : Matrix (Fin n) (Fin n) ℝ} (hA : A.IsSymm) (hB : B.IsSymm)
    (h : ∀ x : Fin n → ℝ, x ⬝ᵥ A *ᵥ x ≤ x ⬝ᵥ B *ᵥ x) (order : Order) (j : Fin n) :
    nthEigenvalue order hA j ≤ nthEigenvalue order hB j := by
  have key : ∀ j : Fin n, eigenvalueDesc hA j ≤ eigenvalueDesc hB j := by
    intro j
    have := eig_le_of_form hB hA (P := 1) (c := 0) (by simp) (fun x => by simpa using h x) j j.2 j.2
    simpa using this
  cases order <;> exact key _

theorem select_orth {n k : Nat} {f : Fin k → Fin n} (hf : Function.Injective f) :
    ((1 : Matrix (Fin n) (Fin n) ℝ).submatrix id f)ᵀ * (1 : Matrix (Fin n) (Fin n) ℝ).submatrix id f = 1 := by
  ext i j
  simp [Matrix.mul_apply, Matrix.one_apply, hf.eq_iff, eq_comm]

theorem mul_select {m n k : Nat} (A : Matrix (Fin m) (Fin n) ℝ) (f : Fin k → Fin n) :
    A * (1 : Matrix (Fin n) (Fin n) ℝ).submatrix id f = A.submatrix id f := by
  ext i j
  simp [Matrix.mul_apply, Matrix.one_apply]

theorem select_form {n k : Nat} (A : Matrix (Fin n) (Fin n) ℝ) (f : Fin k → Fin n) (x : Fin k → ℝ) :
    x ⬝ᵥ A.submatrix f f *ᵥ x = ((1 : Matrix (Fin n) (Fin n) ℝ).submatrix id f *ᵥ x) ⬝ᵥ
      A *ᵥ ((1 : Matrix (Fin n) (Fin n) ℝ).submatrix id f *ᵥ x) := by
  rw [Matrix.mulVec_mulVec, mul_select]
  conv_rhs => rw [← Matrix.vecMul_transpose, ← Matrix.dotProduct_mulVec, Matrix.mulVec_mulVec]
  congr 2
  ext i j
  simp [Matrix.mul_apply, Matrix.one_apply]

/-- Cauchy interlacing. -/
theorem interlacing {n k : Nat} {A : Matrix (Fin n) (Fin n) ℝ} (hA : A.IsSymm) {f : Fin k → Fin n}
    (hf : Function.Injective f) (hB : (A.submatrix f f).IsSymm) (hkn : k ≤ n) (j : Nat) (hj : j < k) :
    eigenvalueDesc hB ⟨j, hj⟩ ≤ eigenvalueDesc hA ⟨j, by omega⟩ ∧
    eigenvalueDesc hA ⟨j + (n - k), by omega⟩ ≤ eigenvalueDesc hB ⟨j, hj⟩ := by
  constructor
  · have := eig_le_of_form hA hB (select_orth hf) (c := 0) (fun x => by rw [select_form]; simp) j hj (by omega)
    simpa using this
  · have hA' : (-A).IsSymm := by unfold Matrix.IsSymm; rw [transpose_neg, hA.eq]
    have hB' : (-(A.submatrix f f)).IsSymm := by unfold Matrix.IsSymm; rw [transpose_neg, hB.eq]
    have := eig_le_of_form hA' hB' (select_orth hf) (c := 0) (fun x => by
      rw [Matrix.neg_mulVec, Matrix.neg_mulVec, dotProduct_neg, dotProduct_neg, select_form]; simp)
      (k - 1 - j) (by omega) (by omega)
    rw [eigenvalueDesc_neg hA, eigenvalueDesc_neg hB, add_zero, neg_le_neg_iff] at this
    have e1 : Fin.rev (⟨k - 1 - j, by omega⟩ : Fin k) = ⟨j, hj⟩ := by ext; simp [Fin.val_rev]; omega
    have e2 : Fin.rev (⟨k - 1 - j, by omega⟩ : Fin n) = ⟨j + (n - k), by omega⟩ := by ext; simp [Fin.val_rev]; omega
    rwa [e1, e2] at this

/-- Deleting rows and columns does not increase any singular value. -/
theorem singularValue_submatrix {m n k l : Nat} (A : Matrix (Fin m) (Fin n) ℝ) {f : Fin k → Fin m} {g : Fin l → Fin n}
    (hf : Function.Injective f) (hg : Function.Injective g) (j : Nat) (hj : j < l) (hjn : j < n) :
    singularValue (A.submatrix f g) j ≤ singularValue A j := by
  have hsym : ∀ {r c : Nat} (M : Matrix (Fin r) (Fin c) ℝ), (Mᵀ * M).IsSymm := fun M => by
    unfold Matrix.IsSymm; rw [transpose_mul, transpose_transpose]
  have hform : ∀ {r c : Nat} (M : Matrix (Fin r) (Fin c) ℝ) (x : Fin c → ℝ),
      x ⬝ᵥ (Mᵀ * M) *ᵥ x = ∑ i, (M *ᵥ x) i ^ 2 := fun M x => by
    rw [← Matrix.mulVec_mulVec, Matrix.dotProduct_mulVec, Matrix.vecMul_transpose]
    simp [dotProduct, sq]
  have h := eig_le_of_form (hsym A) (hsym (A.submatrix f g)) (select_orth hg) (c := 0) (fun x => by
    rw [hform, hform, Matrix.mulVec_mulVec, mul_select, zero_mul, add_zero]
    have : ∀ i, (A.submatrix f g *ᵥ x) i = (A.submatrix id g *ᵥ x) (f i) := fun i => rfl
    simp only [this]
    refine (Finset.sum_map Finset.univ ⟨f, hf⟩ (fun i => (A.submatrix id g *ᵥ x) i ^ 2)).symm.trans_le ?_
    exact Finset.sum_le_sum_of_subset_of_nonneg (Finset.subset_univ _) fun _ _ _ => sq_nonneg _) j hj hjn
  rw [eigenvalueDesc_gram, eigenvalueDesc_gram, add_zero] at h
  exact (abs_le_of_sq_le_sq' h ((singularValue_spec A).1 j)).2

/-! ## The computed values -/

/-- **C115, nearby matrices**: whenever `eigvalsh` returns on two symmetric matrices, their sorted values differ, one
by one, by at most `‖A - B‖_F` plus the errors of the two runs. -/
theorem C115_eigvalsh_nearby {n : Nat} (fuel fuel' : Nat) (a b : Arr2 ℝ) (ha : HasShape a n n) (hb : HasShape b n n)
    (sa : (toMat n n a).IsSymm) (sb : (toMat n n b).IsSymm) (va vb : Arr1 ℝ) (hva : eigvalsh fuel a = .ok va)
    (hvb : eigvalsh fuel' b = .ok vb) (order : Order) :
    ∃ x y, sortEigVals va order = .ok x ∧ sortEigVals vb order = .ok y ∧ x.len = n ∧ y.len = n ∧ ∀ j < n,
      |x.get j - y.get j| ≤ frob (toMat n n a - toMat n n b) + eigTol (toMat n n a) + eigTol (toMat n n b) := by
  obtain ⟨x, hx, lx, ex⟩ := C75_eigvalsh_accuracy fuel a ha sa va hva order
  obtain ⟨y, hy, ly, ey⟩ := C75_eigvalsh_accuracy fuel' b hb sb vb hvb order
  refine ⟨x, y, hx, hy, lx, ly, fun j hj => ?_⟩
  have h1 := abs_le.1 (ex ⟨j, hj⟩)
  have h2 := abs_le.1 (ey ⟨j, hj⟩)
  have h3 := abs_le.1 (nthEigenvalue_lipschitz sa sb order ⟨j, hj⟩)
  simp only at h1 h2
  unfold eigTol
  rw [abs_le]
  constructor <;> linarith [h1.1, h1.2, h2.1, h2.2, h3.1, h3.2]

/-- **C115, ordered matrices**: if `xᵀ A x ≤ xᵀ B x` for all `x`, then no sorted value of `A` exceeds that of `B` by
more than the errors of the two runs. -/
theorem C115_eigvalsh_monotone {n : Nat} (fuel fuel' : Nat) (a b : Arr2 ℝ) (ha : HasShape a n n) (hb : HasShape b n n)
    (sa : (toMat n n a).IsSymm) (sb : (toMat n n b).IsSymm)
    (hab : ∀ x : Fin n → ℝ, x ⬝ᵥ toMat n n a *ᵥ x ≤ x ⬝ᵥ toMat n n b *ᵥ x) (va vb : Arr1 ℝ)
    (hva : eigvalsh fuel a = .ok va) (hvb : eigvalsh fuel' b = .ok vb) (order : Order) :
    ∃ x y, sortEigVals va order = .ok x ∧ sortEigVals vb order = .ok y ∧ x.len = n ∧ y.len = n ∧ ∀ j < n,
      x.get j ≤ y.get j + eigTol (toMat n n a) + eigTol (toMat n n b) := by
  obtain ⟨x, hx, lx, ex⟩ := C75_eigvalsh_accuracy fuel a ha sa va hva order
  obtain ⟨y, hy, ly, ey⟩ := C75_eigvalsh_accuracy fuel' b hb sb vb hvb order
  refine ⟨x, y, hx, hy, lx, ly, fun j hj => ?_⟩
  have h1 := abs_le.1 (ex ⟨j, hj⟩)
  have h2 := abs_le.1 (ey ⟨j, hj⟩)
  have h3 := nthEigenvalue_mono sa sb hab order ⟨j, hj⟩
  simp only at h1 h2
  unfold eigTol
  linarith [h1.2, h2.1]

/-- **C115, interlacing**: `b` holds `k` of the rows and the same columns of the symmetric matrix `a`. Sorted from the
largest, the values of `b` lie between those of `a` at the same place and `n - k` places further on, up to the errors
of the two runs. -/
theorem C115_eigvalsh_interlacing {n k : Nat} (fuel fuel' : Nat) (a b : Arr2 ℝ) (ha : HasShape a n n)
    (hb : HasShape b k k) (sa : (toMat n n a).IsSymm) (f : Fin k → Fin n) (hf : Function.Injective f)
    (hab : ∀ i j : Fin k, b.get i j = a.get (f i) (f j)) (va vb : Arr1 ℝ) (hva : eigvalsh fuel a = .ok va)
    (hvb : eigvalsh fuel' b = .ok vb) :
    ∃ x y, sortEigVals va .largest = .ok x ∧ sortEigVals vb .largest = .ok y ∧ x.len = n ∧ y.len = k ∧ ∀ j < k,
      y.get j ≤ x.get j + eigTol (toMat n n a) + eigTol (toMat k k b) ∧
      x.get (j + (n - k)) ≤ y.get j + eigTol (toMat n n a) + eigTol (toMat k k b) := by
  have e : toMat k k b = (toMat n n a).submatrix f f := by
    ext i j; exact hab i j
  have hkn : k ≤ n := by simpa using Fintype.card_le_of_injective f hf
  have sb : (toMat k k b).IsSymm := by rw [e]; exact sa.submatrix f
  obtain ⟨x, hx, lx, ex⟩ := C75_eigvalsh_accuracy fuel a ha sa va hva .largest
  obtain ⟨y, hy, ly, ey⟩ := C75_eigvalsh_accuracy fuel' b hb sb vb hvb .largest
  refine ⟨x, y, hx, hy, lx, ly, fun j hj => ?_⟩
  have h1 := abs_le.1 (ex ⟨j, by omega⟩)
  have h1' := abs_le.1 (ex ⟨j + (n - k), by omega⟩)
  have h2 := abs_le.1 (ey ⟨j, hj⟩)
  have h3 := interlacing sa hf (by rw [← e]; exact sb) hkn j hj
  simp only [← e] at h3
  simp only [nthEigenvalue] at h1 h1' h2
  unfold eigTol
  constructor
  · linarith [h1.1, h2.2]
  · linarith [h1'.2, h2.1]

/-- **C115, nearby matrices, `svd`**: on all pairs of nonempty matrices of one shape and for all flags, `svd` returns,
and the sorted values differ, one by one, by at most `‖A - B‖_F` plus the errors of the two runs. -/
theorem C115_svd_nearby {m n : Nat} (a b : Arr2 ℝ) (ha : HasShape a m n) (hb : HasShape b m n) (hm : m ≠ 0) (hn : n ≠ 0)
    (cu cv : Bool) (order : Order) :
    ∃ u s vt u' x vt' w t zt w' y zt', svd (svdFuel m n) a cu cv = .ok (u, s, vt) ∧
      sortSvd u s vt order = .ok (u', x, vt') ∧ svd (svdFuel m n) b cu cv = .ok (w, t, zt) ∧
      sortSvd w t zt order = .ok (w', y, zt') ∧ ∀ j < min m n,
        |x.get j - y.get j| ≤ frob (toMat m n a - toMat m n b) + svdTol (toMat m n a) + svdTol (toMat m n b) := by
  obtain ⟨u, s, vt, u', x, vt', h1, h2, -, ex⟩ := C76_svd_accuracy a ha hm hn cu cv order
  obtain ⟨w, t, zt, w', y, zt', g1, g2, -, ey⟩ := C76_svd_accuracy b hb hm hn cu cv order
  refine ⟨u, s, vt, u', x, vt', w, t, zt, w', y, zt', h1, h2, g1, g2, fun j hj => ?_⟩
  have h3 : |nthSingularValue order (toMat m n a) j - nthSingularValue order (toMat m n b) j| ≤
      frob (toMat m n a - toMat m n b) := by
    cases order
    · exact singularValue_lipschitz _ _ _ (by omega)
    · exact singularValue_lipschitz _ _ _ (by omega)
  have h4 := abs_le.1 (ex j hj)
  have h5 := abs_le.1 (ey j hj)
  have h6 := abs_le.1 h3
  unfold svdTol
  rw [abs_le]
  constructor <;> linarith [h4.1, h4.2, h5.1, h5.2, h6.1, h6.2]

/-- **C115, some rows and columns, `svd`**: `b` holds some rows and some columns of `a`. Sorted from the largest, no
value of `b` exceeds the one of `a` at the same place by more than the errors of the two runs. -/
theorem C115_svd_submatrix {m n k l : Nat} (a b : Arr2 ℝ) (ha : HasShape a m n) (hb : HasShape b k l) (hk : k ≠ 0)
    (hl : l ≠ 0) (f : Fin k → Fin m) (g : Fin l → Fin n) (hf : Function.Injective f) (hg : Function.Injective g)
    (hab : ∀ (i : Fin k) (j : Fin l), b.get i j = a.get (f i) (g j)) (cu cv : Bool) :
    ∃ u s vt u' x vt' w t zt w' y zt', svd (svdFuel m n) a cu cv = .ok (u, s, vt) ∧
      sortSvd u s vt .largest = .ok (u', x, vt') ∧ svd (svdFuel k l) b cu cv = .ok (w, t, zt) ∧
      sortSvd w t zt .largest = .ok (w', y, zt') ∧ ∀ j < min k l,
        y.get j ≤ x.get j + svdTol (toMat m n a) + svdTol (toMat k l b) := by
  have hkm : k ≤ m := by simpa using Fintype.card_le_of_injective f hf
  have hln : l ≤ n := by simpa using Fintype.card_le_of_injective g hg
  obtain ⟨u, s, vt, u', x, vt', h1, h2, -, ex⟩ := C76_svd_accuracy a ha (by omega) (by omega) cu cv .largest
  obtain ⟨w, t, zt, w', y, zt', g1, g2, -, ey⟩ := C76_svd_accuracy b hb hk hl cu cv .largest
  refine ⟨u, s, vt, u', x, vt', w, t, zt, w', y, zt', h1, h2, g1, g2, fun j hj => ?_⟩
  have e : toMat k l b = (toMat m n a).submatrix f g := by
    ext i j; exact hab i j
  have h3 := singularValue_submatrix (toMat m n a) hf hg j (by omega) (by omega)
  rw [← e] at h3
  have h4 := abs_le.1 (ex j (by omega))
  have h5 := abs_le.1 (ey j hj)
  simp only [nthSingularValue] at h4 h5
  unfold svdTol
  linarith [h4.1, h5.2]

variable {R : StdModel}

/-- **C115, nearby matrices, rounded**: the same for `eigvalsh` in the standard model of floating point arithmetic, with
the errors of C84. -/
theorem C115_eigvalsh_nearby_rounded {n : Nat} (fuel : Nat) (a b : Arr2 (Rnd R)) (ha : HasShape a n n)
    (hb : HasShape b n n) (sa : (toMat n n (Rnd.vals a)).IsSymm) (sb : (toMat n n (Rnd.vals b)).IsSymm)
    (hR : EigArith R n) (va vb : Arr1 (Rnd R)) (hva : eigvalsh fuel a = .ok va) (hvb : eigvalsh fuel b = .ok vb)
    (order : Order) :
    ∃ x y, sortEigVals va order = .ok x ∧ sortEigVals vb order = .ok y ∧ x.len = n ∧ y.len = n ∧ ∀ j < n,
      |(x.get j).v - (y.get j).v| ≤ frob (toMat n n (Rnd.vals a) - toMat n n (Rnd.vals b)) +
        eigErr R n fuel * (frob (toMat n n (Rnd.vals a)) + frob (toMat n n (Rnd.vals b))) := by
  obtain ⟨x, hx, lx, ex⟩ := C84_eigenvalues fuel a ha sa hR va (Or.inl hva) order
  obtain ⟨y, hy, ly, ey⟩ := C84_eigenvalues fuel b hb sb hR vb (Or.inl hvb) order
  refine ⟨x, y, hx, hy, lx, ly, fun j hj => ?_⟩
  have h1 := abs_le.1 (ex ⟨j, hj⟩)
  have h2 := abs_le.1 (ey ⟨j, hj⟩)
  have h3 := abs_le.1 (nthEigenvalue_lipschitz sa sb order ⟨j, hj⟩)
  simp only at h1 h2
  rw [mul_add, abs_le]
  constructor <;> linarith [h1.1, h1.2, h2.1, h2.2, h3.1, h3.2]

/-- **C115, nearby matrices, `svd`, rounded**: the same for `svd` without factors, with the errors of C86. -/
theorem C115_svd_nearby_rounded {m n : Nat} (fuel : Nat) (a b : Arr2 (Rnd R)) (ha : HasShape a m n)
    (hb : HasShape b m n) (hm : m ≠ 0) (hn : n ≠ 0) (hR : SvdArith R m n) (u vt w zt : Option (Arr2 (Rnd R)))
    (s t : Arr1 (Rnd R)) (hs : svd fuel a false false = .ok (u, s, vt)) (ht : svd fuel b false false = .ok (w, t, zt))
    (order : Order) :
    ∃ u' x vt' w' y zt', sortSvd u s vt order = .ok (u', x, vt') ∧ sortSvd w t zt order = .ok (w', y, zt') ∧
      x.len = min m n ∧ y.len = min m n ∧ ∀ j < min m n,
        |(x.get j).v - (y.get j).v| ≤ frob (toMat m n (Rnd.vals a) - toMat m n (Rnd.vals b)) +
          svdErr R m n fuel * (frob (toMat m n (Rnd.vals a)) + frob (toMat m n (Rnd.vals b))) := by
  obtain ⟨u', x, vt', h1, h2, ex⟩ := C86_singular_values fuel a ha hm hn hR u s vt hs order
  obtain ⟨w', y, zt', g1, g2, ey⟩ := C86_singular_values fuel b hb hm hn hR w t zt ht order
  refine ⟨u', x, vt', w', y, zt', h1, g1, h2, g2, fun j hj => ?_⟩
  have h3 : |nthSingularValue order (toMat m n (Rnd.vals a)) j - nthSingularValue order (toMat m n (Rnd.vals b)) j| ≤
      frob (toMat m n (Rnd.vals a) - toMat m n (Rnd.vals b)) := by
    cases order
    · exact singularValue_lipschitz _ _ _ (by omega)
    · exact singularValue_lipschitz _ _ _ (by omega)
  have h4 := abs_le.1 (ex j hj)
  have h5 := abs_le.1 (ey j hj)
  have h6 := abs_le.1 h3
  rw [mul_add, abs_le]
  constructor <;> linarith [h4.1, h4.2, h5.1, h5.2, h6.1, h6.2]

/-- The hypotheses are met: two nearby positive definite matrices, ordered, on which `eigvalsh` returns, and a block of
one of them. -/
example : ∃ N va vb vc, eigvalsh N exSpd = .ok va ∧ eigvalsh N (ofRows 2 2 [[5, 2], [2, 5]]) = .ok vb ∧
    eigvalsh N (ofRows 1 1 [[5]]) = .ok vc ∧
    (∀ x : Fin 2 → ℝ, x ⬝ᵥ toMat 2 2 exSpd *ᵥ x ≤ x ⬝ᵥ toMat 2 2 (ofRows 2 2 [[5, 2], [2, 5]]) *ᵥ x) ∧
    ∀ i j : Fin 1, (ofRows 1 1 [[5]] : Arr2 ℝ).get i j = exSpd.get (1 : Fin 2) (1 : Fin 2) := by
  have h2 : SymPosDef (toMat 2 2 (ofRows 2 2 [[5, 2], [2, 5]] : Arr2 ℝ)) := by
    constructor
    · ext i j; fin_cases i <;> fin_cases j <;> simp [ofRows, toMat]
    · intro x hx
      simp [dotProduct, mulVec, Fin.sum_univ_two, toMat, ofRows]
      have : 0 < x 0 ^ 2 + x 1 ^ 2 := by
        rcases eq_or_ne (x 0) 0 with h0 | h0
        · have h1 : x 1 ≠ 0 := fun h1 => hx (by funext i; fin_cases i <;> simp [h0, h1])
          positivity
        · positivity
      nlinarith [sq_nonneg (x 0 + x 1)]
  have h3 : SymPosDef (toMat 1 1 (ofRows 1 1 [[5]] : Arr2 ℝ)) := by
    constructor
    · ext i j; fin_cases i; fin_cases j; rfl
    · intro x hx
      have : x 0 ≠ 0 := fun h => hx (by funext i; fin_cases i; exact h)
      simp [dotProduct, mulVec, toMat, ofRows]
      nlinarith [mul_self_pos.2 this]
  have hnn : ∀ {n : Nat} {A : Matrix (Fin n) (Fin n) ℝ}, SymPosDef A → ∀ x : Fin n → ℝ, 0 ≤ x ⬝ᵥ A *ᵥ x :=
    fun h x => by
      rcases eq_or_ne x 0 with rfl | hx
      · simp
      · exact (h.2 x hx).le
  obtain ⟨N1, r1, e1⟩ := C70_eigh_terminates (n := 2) exSpd ⟨rfl, rfl⟩ exSpd_posDef.1 (Or.inl (hnn exSpd_posDef))
  obtain ⟨N2, r2, e2⟩ := C70_eigh_terminates (n := 2) (ofRows 2 2 [[5, 2], [2, 5]]) ⟨rfl, rfl⟩ h2.1 (Or.inl (hnn h2))
  obtain ⟨N3, r3, e3⟩ := C70_eigh_terminates (n := 1) (ofRows 1 1 [[5]]) ⟨rfl, rfl⟩ h3.1 (Or.inl (hnn h3))
  refine ⟨max N1 (max N2 N3), _, _, _, (e1 _ (by omega)).2, (e2 _ (by omega)).2, (e3 _ (by omega)).2, ?_, ?_⟩
  · intro x
    simp [dotProduct, mulVec, Fin.sum_univ_two, toMat, ofRows, exSpd]
    nlinarith [sq_nonneg (x 0)]
  · intro i j
    fin_cases i; fin_cases j
    simp [ofRows, exSpd]

end LinfaLinalg
