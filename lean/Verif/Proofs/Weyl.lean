import Verif.Proofs.Ritz
import Verif.Proofs.EighTerm
import Mathlib.Analysis.InnerProductSpace.SingularValues

/-! # Weyl's inequalities: eigenvalues and singular values of nearby matrices -/

namespace LinfaLinalg

open Matrix

/-- A nonzero combination of the first `j + 1` columns of `V` that is orthogonal to the first `j` columns of
`W`. -/
theorem exists_combo {n d e : Nat} (V : Matrix (Fin n) (Fin d) ℝ) (W : Matrix (Fin n) (Fin e) ℝ) (j : Nat)
    (hj : j < d) : ∃ c : Fin d → ℝ, c ≠ 0 ∧ (∀ t : Fin d, j < t.val → c t = 0) ∧
      ∀ i : Fin e, i.val < j → (Wᵀ *ᵥ (V *ᵥ c)) i = 0 := by
  let f : (Fin (j + 1) → ℝ) →ₗ[ℝ] (Fin j → ℝ) :=
    Matrix.mulVecLin (Matrix.of fun (i : Fin j) (t : Fin (j + 1)) =>
      if h : i.val < e then (Wᵀ * V) ⟨i, h⟩ ⟨t, by omega⟩ else 0)
  obtain ⟨y, hy, hy0⟩ := f.ker.ne_bot_iff.1 (LinearMap.ker_ne_bot_of_finrank_lt (f := f) (by simp))
  let c : Fin d → ℝ := fun t => if h : t.val < j + 1 then y ⟨t, h⟩ else 0
  have hsum : ∀ g : Fin d → ℝ, (∀ t : Fin d, ¬ t.val < j + 1 → g t = 0) →
      ∑ t, g t = ∑ t : Fin (j + 1), g ⟨t, by omega⟩ := by
    intro g hg
    have hle : j + 1 ≤ d := hj
    have := Finset.sum_subset (Finset.subset_univ (Finset.image (Fin.castLE hle) Finset.univ))
      (f := g) (fun t _ ht => hg t fun h => ht (Finset.mem_image.2 ⟨⟨t, h⟩, Finset.mem_univ _, rfl⟩))
    rw [← this, Finset.sum_image (fun a _ b _ hab => Fin.castLE_injective hle hab)]
    rfl
  refine ⟨c, fun h => hy0 ?_, fun t ht => ?_, fun i hi => ?_⟩
  · ext t
    have := congrFun h ⟨t, by omega⟩
    simpa only [c, t.2, dif_pos, Pi.zero_apply] using this
  · simp only [c]
    rw [dif_neg (by omega)]
  · have h1 := congrFun (LinearMap.mem_ker.1 hy) ⟨i, hi⟩
    simp only [f, Matrix.mulVecLin_apply, Matrix.mulVec, dotProduct, Matrix.of_apply, Pi.zero_apply, i.2,
      dif_pos] at h1
    rw [Matrix.mulVec_mulVec]
    simp only [Matrix.mulVec, dotProduct]
    rw [hsum]
    · rw [← h1]
      refine Finset.sum_congr rfl fun t _ => ?_
      simp only [c, t.2, dif_pos]
    · intro t ht
      simp only [c, ht, dif_neg, not_false_eq_true, mul_zero]

/-- The quadratic form of `W diag(L) Wᵀ`. -/
theorem quad_form {n e : Nat} (W : Matrix (Fin n) (Fin e) ℝ) (L : Fin e → ℝ) (y : Fin n → ℝ) :
    y ⬝ᵥ (W * diagonal L * Wᵀ) *ᵥ y = ∑ i, L i * (Wᵀ *ᵥ y) i ^ 2 := by
  rw [← quad_diag, ← Matrix.mulVec_mulVec, ← Matrix.mulVec_mulVec, Matrix.dotProduct_mulVec,
    ← Matrix.mulVec_transpose]

theorem dot_self_sum {n : Nat} (y : Fin n → ℝ) : y ⬝ᵥ y = ∑ i, y i ^ 2 :=
  Finset.sum_congr rfl fun i _ => (sq (y i)).symm

theorem mulVec_orth_dot {n d : Nat} {V : Matrix (Fin n) (Fin d) ℝ} (hV : Vᵀ * V = 1) (c : Fin d → ℝ) :
    (V *ᵥ c) ⬝ᵥ (V *ᵥ c) = c ⬝ᵥ c := by
  rw [Matrix.dotProduct_mulVec, Matrix.vecMul_mulVec, hV, Matrix.vecMul_one]

/-- Bessel's inequality. -/
theorem bessel {n e : Nat} {W : Matrix (Fin n) (Fin e) ℝ} (hW : Wᵀ * W = 1) (y : Fin n → ℝ) :
    (Wᵀ *ᵥ y) ⬝ᵥ (Wᵀ *ᵥ y) ≤ y ⬝ᵥ y := by
  have h0 : 0 ≤ (y - W *ᵥ (Wᵀ *ᵥ y)) ⬝ᵥ (y - W *ᵥ (Wᵀ *ᵥ y)) :=
    Finset.sum_nonneg fun i _ => mul_self_nonneg _
  rw [sub_dotProduct, dotProduct_sub, dotProduct_sub, mulVec_orth_dot hW] at h0
  have h1 : y ⬝ᵥ W *ᵥ (Wᵀ *ᵥ y) = (Wᵀ *ᵥ y) ⬝ᵥ (Wᵀ *ᵥ y) := by
    rw [Matrix.dotProduct_mulVec, ← Matrix.mulVec_transpose]
  rw [dotProduct_comm (W *ᵥ _) y, h1] at h0
  linarith

/-- The values of the quadratic form on vectors orthogonal to the first `j` columns. -/
theorem quad_upper {n e : Nat} {W : Matrix (Fin n) (Fin e) ℝ} (hW : Wᵀ * W = 1) {L : Fin e → ℝ}
    (hL : Antitone L) (j : Fin e) (h0 : 0 ≤ L j ∨ W * Wᵀ = 1) (y : Fin n → ℝ)
    (hy : ∀ i : Fin e, i.val < j.val → (Wᵀ *ᵥ y) i = 0) :
    y ⬝ᵥ (W * diagonal L * Wᵀ) *ᵥ y ≤ L j * (y ⬝ᵥ y) := by
  rw [quad_form]
  have h1 : ∑ i, L i * (Wᵀ *ᵥ y) i ^ 2 ≤ L j * ((Wᵀ *ᵥ y) ⬝ᵥ (Wᵀ *ᵥ y)) := by
    rw [dot_self_sum, Finset.mul_sum]
    refine Finset.sum_le_sum fun i _ => ?_
    by_cases hi : i.val < j.val
    · rw [hy i hi]; simp
    · exact mul_le_mul_of_nonneg_right (hL (by rw [Fin.le_def]; omega)) (sq_nonneg _)
  rcases h0 with h0 | h0
  · exact h1.trans (mul_le_mul_of_nonneg_left (bessel hW y) h0)
  · rwa [mulVec_orth_dot (V := Wᵀ) (by rwa [transpose_transpose])] at h1

/-- The values of the quadratic form on combinations of the first `j + 1` columns. -/
theorem quad_lower {n e : Nat} {W : Matrix (Fin n) (Fin e) ℝ} (hW : Wᵀ * W = 1) {L : Fin e → ℝ}
    (hL : Antitone L) (j : Fin e) (c : Fin e → ℝ) (hc : ∀ t : Fin e, j.val < t.val → c t = 0) :
    L j * ((W *ᵥ c) ⬝ᵥ (W *ᵥ c)) ≤ (W *ᵥ c) ⬝ᵥ (W * diagonal L * Wᵀ) *ᵥ (W *ᵥ c) := by
  rw [quad_form, mulVec_orth_dot hW, Matrix.mulVec_mulVec, hW, Matrix.one_mulVec, dot_self_sum, Finset.mul_sum]
  refine Finset.sum_le_sum fun i _ => ?_
  by_cases hi : j.val < i.val
  · rw [hc i hi]; simp
  · exact mul_le_mul_of_nonneg_right (hL (by rw [Fin.le_def]; omega)) (sq_nonneg _)

/-- `‖E y‖² ≤ ‖E‖_F² ‖y‖²`. -/
theorem mulVec_dot_le {m n : Nat} (E : Matrix (Fin m) (Fin n) ℝ) (y : Fin n → ℝ) :
    (E *ᵥ y) ⬝ᵥ (E *ᵥ y) ≤ frob E ^ 2 * (y ⬝ᵥ y) := by
  rw [dot_self_sum, dot_self_sum, frob_sq, Finset.sum_mul]
  exact Finset.sum_le_sum fun i _ => Finset.sum_mul_sq_le_sq_mul_sq Finset.univ (fun k => E i k) y

/-- Cauchy–Schwarz. -/
theorem dot_le_sqrt {n : Nat} (x y : Fin n → ℝ) : x ⬝ᵥ y ≤ Real.sqrt (x ⬝ᵥ x) * Real.sqrt (y ⬝ᵥ y) := by
  rw [dot_self_sum, dot_self_sum]
  exact Real.sum_mul_le_sqrt_mul_sqrt _ _ _

theorem sqrt_dot_add_le {n : Nat} (x y : Fin n → ℝ) :
    Real.sqrt ((x + y) ⬝ᵥ (x + y)) ≤ Real.sqrt (x ⬝ᵥ x) + Real.sqrt (y ⬝ᵥ y) := by
  apply Real.sqrt_le_iff.2
  refine ⟨by positivity, ?_⟩
  have hx : 0 ≤ x ⬝ᵥ x := Finset.sum_nonneg fun i _ => mul_self_nonneg _
  have hy : 0 ≤ y ⬝ᵥ y := Finset.sum_nonneg fun i _ => mul_self_nonneg _
  rw [add_sq, Real.sq_sqrt hx, Real.sq_sqrt hy, add_dotProduct, dotProduct_add, dotProduct_add,
    dotProduct_comm y x]
  nlinarith [dot_le_sqrt x y]

theorem dot_self_pos {n : Nat} {y : Fin n → ℝ} (h : y ≠ 0) : 0 < y ⬝ᵥ y :=
  lt_of_le_of_ne (Finset.sum_nonneg fun _ _ => mul_self_nonneg _) fun h0 =>
    h (dotProduct_self_eq_zero.1 h0.symm)

theorem mulVec_orth_ne {n d : Nat} {V : Matrix (Fin n) (Fin d) ℝ} (hV : Vᵀ * V = 1) {c : Fin d → ℝ}
    (hc : c ≠ 0) : V *ᵥ c ≠ 0 := by
  intro h
  have := mulVec_orth_dot hV c
  rw [h, zero_dotProduct] at this
  exact absurd this (dot_self_pos hc).ne

/-- One half of Weyl's inequality for eigenvalues in descending order. -/
theorem weyl_eig {n : Nat} {Q V : Matrix (Fin n) (Fin n) ℝ} {L μ : Fin n → ℝ} (hQ : Qᵀ * Q = 1)
    (hV : Vᵀ * V = 1) (hL : Antitone L) (hμ : Antitone μ) (j : Fin n) :
    μ j ≤ L j + frob (Q * diagonal L * Qᵀ - V * diagonal μ * Vᵀ) := by
  obtain ⟨c, hc, hc1, hc2⟩ := exists_combo V Q j.val j.2
  have h1 := quad_lower hV hμ j c hc1
  have h2 := quad_upper hQ hL j (Or.inr (mul_eq_one_comm.1 hQ)) _ hc2
  have hy := dot_self_pos (mulVec_orth_ne hV hc)
  set y := V *ᵥ c
  set E := Q * diagonal L * Qᵀ - V * diagonal μ * Vᵀ with hE
  have h3 : y ⬝ᵥ (V * diagonal μ * Vᵀ) *ᵥ y = y ⬝ᵥ (Q * diagonal L * Qᵀ) *ᵥ y + y ⬝ᵥ (-E) *ᵥ y := by
    rw [← dotProduct_add, ← Matrix.add_mulVec, hE]
    congr 2
    abel
  have h4 : y ⬝ᵥ (-E) *ᵥ y ≤ frob E * (y ⬝ᵥ y) := by
    refine (dot_le_sqrt _ _).trans ?_
    have h5 := mulVec_dot_le (-E) y
    rw [frob_neg] at h5
    have h6 := Real.sqrt_le_sqrt h5
    rw [Real.sqrt_mul (sq_nonneg _), Real.sqrt_sq (frob_nonneg _)] at h6
    calc _ ≤ Real.sqrt (y ⬝ᵥ y) * (frob E * Real.sqrt (y ⬝ᵥ y)) :=
          mul_le_mul_of_nonneg_left h6 (Real.sqrt_nonneg _)
      _ = frob E * (Real.sqrt (y ⬝ᵥ y) * Real.sqrt (y ⬝ᵥ y)) := by ring
      _ = _ := by rw [Real.mul_self_sqrt hy.le]
  have h7 : μ j * (y ⬝ᵥ y) ≤ (L j + frob E) * (y ⬝ᵥ y) := by rw [add_mul]; linarith
  exact le_of_mul_le_mul_right h7 hy

/-- Weyl's inequality for eigenvalues in descending order. -/
theorem weyl_eig_abs {n : Nat} {Q V : Matrix (Fin n) (Fin n) ℝ} {L μ : Fin n → ℝ} (hQ : Qᵀ * Q = 1)
    (hV : Vᵀ * V = 1) (hL : Antitone L) (hμ : Antitone μ) (j : Fin n) :
    |μ j - L j| ≤ frob (Q * diagonal L * Qᵀ - V * diagonal μ * Vᵀ) := by
  rw [abs_le]
  have h1 := weyl_eig hQ hV hL hμ j
  have h2 := weyl_eig hV hQ hμ hL j
  rw [← frob_neg, neg_sub] at h2
  constructor <;> linarith

/-- One half of Weyl's inequality for singular values in descending order: `W`, `s` are right singular
vectors and singular values of `B`. -/
theorem weyl_sv {m n e e' : Nat} {B B' : Matrix (Fin m) (Fin n) ℝ} {W : Matrix (Fin n) (Fin e) ℝ}
    {W' : Matrix (Fin n) (Fin e') ℝ} {s : Fin e → ℝ} {s' : Fin e' → ℝ} (hW : Wᵀ * W = 1) (hW' : W'ᵀ * W' = 1)
    (hB : Bᵀ * B = W * diagonal (fun i => s i ^ 2) * Wᵀ)
    (hB' : B'ᵀ * B' = W' * diagonal (fun i => s' i ^ 2) * W'ᵀ) (hs : Antitone s) (hs0 : ∀ i, 0 ≤ s i)
    (hs' : Antitone s') (hs0' : ∀ i, 0 ≤ s' i) (j : Nat) (hj : j < e) (hj' : j < e') :
    s' ⟨j, hj'⟩ ≤ s ⟨j, hj⟩ + frob (B - B') := by
  obtain ⟨c, hc, hc1, hc2⟩ := exists_combo W' W j hj'
  have sq_anti : ∀ {e : Nat} {s : Fin e → ℝ}, Antitone s → (∀ i, 0 ≤ s i) → Antitone fun i => s i ^ 2 :=
    fun h h0 a b hab => pow_le_pow_left₀ (h0 _) (h hab) 2
  have h1 := quad_lower hW' (sq_anti hs' hs0') ⟨j, hj'⟩ c hc1
  have h2 := quad_upper hW (sq_anti hs hs0) ⟨j, hj⟩ (Or.inl (sq_nonneg _)) _ hc2
  have hy := dot_self_pos (mulVec_orth_ne hW' hc)
  rw [← hB'] at h1
  rw [← hB] at h2
  set y := W' *ᵥ c
  have hg : ∀ B : Matrix (Fin m) (Fin n) ℝ, y ⬝ᵥ (Bᵀ * B) *ᵥ y = (B *ᵥ y) ⬝ᵥ (B *ᵥ y) := by
    intro B
    rw [← Matrix.mulVec_mulVec, Matrix.dotProduct_mulVec, Matrix.vecMul_transpose]
  rw [hg] at h1 h2
  have g1 := Real.sqrt_le_sqrt h1
  have g2 := Real.sqrt_le_sqrt h2
  rw [Real.sqrt_mul (sq_nonneg _), Real.sqrt_sq (hs0' _)] at g1
  rw [Real.sqrt_mul (sq_nonneg _), Real.sqrt_sq (hs0 _)] at g2
  have h3 := sqrt_dot_add_le (B *ᵥ y) ((-(B - B')) *ᵥ y)
  rw [← Matrix.add_mulVec, show B + -(B - B') = B' by abel] at h3
  have h4 := Real.sqrt_le_sqrt (mulVec_dot_le (-(B - B')) y)
  rw [frob_neg, Real.sqrt_mul (sq_nonneg _), Real.sqrt_sq (frob_nonneg _)] at h4
  have h5 : s' ⟨j, hj'⟩ * Real.sqrt (y ⬝ᵥ y) ≤ (s ⟨j, hj⟩ + frob (B - B')) * Real.sqrt (y ⬝ᵥ y) := by
    rw [add_mul]; linarith
  exact le_of_mul_le_mul_right h5 (Real.sqrt_pos.2 hy)

theorem weyl_sv_abs {m n e e' : Nat} {B B' : Matrix (Fin m) (Fin n) ℝ} {W : Matrix (Fin n) (Fin e) ℝ}
    {W' : Matrix (Fin n) (Fin e') ℝ} {s : Fin e → ℝ} {s' : Fin e' → ℝ} (hW : Wᵀ * W = 1) (hW' : W'ᵀ * W' = 1)
    (hB : Bᵀ * B = W * diagonal (fun i => s i ^ 2) * Wᵀ)
    (hB' : B'ᵀ * B' = W' * diagonal (fun i => s' i ^ 2) * W'ᵀ) (hs : Antitone s) (hs0 : ∀ i, 0 ≤ s i)
    (hs' : Antitone s') (hs0' : ∀ i, 0 ≤ s' i) (j : Nat) (hj : j < e) (hj' : j < e') :
    |s' ⟨j, hj'⟩ - s ⟨j, hj⟩| ≤ frob (B - B') := by
  rw [abs_le]
  have h1 := weyl_sv hW hW' hB hB' hs hs0 hs' hs0' j hj hj'
  have h2 := weyl_sv hW' hW hB' hB hs' hs0' hs hs0 j hj' hj
  rw [← frob_neg, neg_sub] at h2
  constructor <;> linarith

/-- The `j`-th largest singular value of a matrix (counting from zero), as defined by Mathlib: the square
roots of the eigenvalues of `AᵀA` in descending order, with multiplicity. -/
noncomputable def singularValue {m n : Nat} (A : Matrix (Fin m) (Fin n) ℝ) (j : Nat) : ℝ :=
  (Matrix.toEuclideanLin A).singularValues j

/-- The `j`-th largest eigenvalue of a symmetric matrix (counting from zero), as defined by Mathlib. -/
noncomputable def eigenvalueDesc {n : Nat} {A : Matrix (Fin n) (Fin n) ℝ} (hA : A.IsSymm) (j : Fin n) : ℝ :=
  Matrix.IsHermitian.eigenvalues₀ (A := A)
    (by rw [Matrix.IsHermitian, Matrix.conjTranspose_eq_transpose_of_trivial]; exact hA)
    (Fin.cast (Fintype.card_fin n).symm j)

/-- An orthonormal basis as the columns of a matrix. -/
theorem basis_mat {n : Nat} (b : OrthonormalBasis (Fin n) ℝ (EuclideanSpace ℝ (Fin n))) :
    (Matrix.of fun i j => b j i)ᵀ * (Matrix.of fun i j => b j i) = (1 : Matrix (Fin n) (Fin n) ℝ) := by
  ext i j
  rw [Matrix.mul_apply, Matrix.one_apply]
  have := b.inner_eq_ite i j
  rw [← this, EuclideanSpace.inner_eq_star_dotProduct, dotProduct]
  refine Finset.sum_congr rfl fun k _ => ?_
  simp [mul_comm]

theorem spectral_mat {n : Nat} {A : Matrix (Fin n) (Fin n) ℝ} {lam : Fin n → ℝ}
    (b : OrthonormalBasis (Fin n) ℝ (EuclideanSpace ℝ (Fin n)))
    (h : ∀ j, Matrix.toEuclideanLin A (b j) = lam j • b j) :
    A = (Matrix.of fun i j => b j i) * diagonal lam * (Matrix.of fun i j => b j i)ᵀ := by
  have h1 : A * (Matrix.of fun i j => b j i) = (Matrix.of fun i j => b j i) * diagonal lam := by
    ext i j
    have := congrArg (fun v => v i) (h j)
    simp only [Matrix.toLpLin_apply, PiLp.smul_apply, smul_eq_mul] at this
    rw [Matrix.mul_apply, Matrix.mul_diagonal, Matrix.of_apply, mul_comm, ← this]
    rfl
  rw [← h1, Matrix.mul_assoc, mul_eq_one_comm.1 (basis_mat b), Matrix.mul_one]

theorem eigenvalueDesc_spec {n : Nat} {A : Matrix (Fin n) (Fin n) ℝ} (hA : A.IsSymm) :
    Antitone (eigenvalueDesc hA) ∧ ∃ Q : Matrix (Fin n) (Fin n) ℝ, Qᵀ * Q = 1 ∧
      A = Q * diagonal (eigenvalueDesc hA) * Qᵀ := by
  have hH : A.IsHermitian := by
    rw [Matrix.IsHermitian, Matrix.conjTranspose_eq_transpose_of_trivial]; exact hA
  refine ⟨fun i j hij => hH.eigenvalues₀_antitone (by simpa using hij), ?_⟩
  have hS := isSymmetric_toEuclideanLin_iff.mpr hH
  let b := (hS.eigenvectorBasis finrank_euclideanSpace).reindex (finCongr (Fintype.card_fin n))
  refine ⟨_, basis_mat b, spectral_mat b fun j => ?_⟩
  have := hS.apply_eigenvectorBasis finrank_euclideanSpace (Fin.cast (Fintype.card_fin n).symm j)
  simp only [b, OrthonormalBasis.reindex_apply]
  exact this

theorem singularValue_spec {m n : Nat} (A : Matrix (Fin m) (Fin n) ℝ) :
    (∀ j, 0 ≤ singularValue A j) ∧ Antitone (singularValue A) ∧
    ∃ Q : Matrix (Fin n) (Fin n) ℝ, Qᵀ * Q = 1 ∧
      Aᵀ * A = Q * diagonal (fun j : Fin n => singularValue A j ^ 2) * Qᵀ := by
  refine ⟨fun j => LinearMap.singularValues_nonneg _ _, fun i j h => LinearMap.singularValues_antitone _ h, ?_⟩
  have hS := (Matrix.toEuclideanLin A).isSymmetric_adjoint_comp_self
  have hn : Module.finrank ℝ (EuclideanSpace ℝ (Fin n)) = n := by simp
  refine ⟨_, basis_mat (hS.eigenvectorBasis hn), spectral_mat _ fun j => ?_⟩
  have := hS.apply_eigenvectorBasis hn j
  rw [singularValue, LinearMap.sq_singularValues_fin _ hn j]
  have key : ∀ v, Matrix.toEuclideanLin (Aᵀ * A) v =
      (LinearMap.adjoint (Matrix.toEuclideanLin A) ∘ₗ Matrix.toEuclideanLin A) v := by
    intro v
    rw [← Matrix.toEuclideanLin_conjTranspose_eq_adjoint, Matrix.conjTranspose_eq_transpose_of_trivial]
    simp [Matrix.toLpLin_apply, Matrix.mulVec_mulVec]
  exact (key _).trans this

end LinfaLinalg
