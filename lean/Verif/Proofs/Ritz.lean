import Verif.Spec.Frob
import Mathlib.LinearAlgebra.FiniteDimensional.Lemmas
import Mathlib.LinearAlgebra.Matrix.ToLin
import Mathlib.Analysis.Matrix.Spectrum

/-! # Linear algebra for the Rayleigh–Ritz procedure -/

namespace LinfaLinalg

open Matrix

section
variable {n s k : Nat}

theorem frob_conj_orth {U : Matrix (Fin s) (Fin s) ℝ} (hU : Uᵀ * U = 1) (X : Matrix (Fin s) (Fin s) ℝ) :
    frob (Uᵀ * X * U) = frob X := by
  have h2 : U * Uᵀ = 1 := mul_eq_one_comm.1 hU
  rw [frob_mul_orth h2, frob_orth_mul (by rw [Matrix.transpose_transpose, h2])]

theorem frob_neg (A : Matrix (Fin n) (Fin k) ℝ) : frob (-A) = frob A := by
  rw [← neg_one_smul ℝ A, frob_smul]
  simp

theorem frob_one_le : frob (1 : Matrix (Fin s) (Fin s) ℝ) ≤ s := by
  refine frob_le_of_sq (Nat.cast_nonneg s) ?_
  have h1 : ∀ i : Fin s, ∑ j, (1 : Matrix (Fin s) (Fin s) ℝ) i j ^ 2 = 1 := by
    intro i
    rw [Finset.sum_eq_single i]
    · simp
    · intro j _ hj
      rw [Matrix.one_apply_ne (Ne.symm hj)]; norm_num
    · intro h; exact absurd (Finset.mem_univ _) h
  rw [Finset.sum_congr rfl fun i _ => h1 i]
  simp only [Finset.sum_const, Finset.card_univ, Fintype.card_fin, nsmul_eq_mul, mul_one]
  rcases Nat.eq_zero_or_pos s with h | h
  · subst h; simp
  · have : (1 : ℝ) ≤ s := by exact_mod_cast h
    nlinarith

/-- Scaling by the inverse square roots of approximate eigenvalues whitens a matrix. -/
theorem whiten {B V U : Matrix (Fin s) (Fin s) ℝ} {w d : Fin s → ℝ} {μ ε : ℝ}
    (hU : Uᵀ * U = 1) (hμ : 0 < μ) (hw : ∀ i, μ ≤ w i) (hd : ∀ i, 0 < d i ∧ d i * d i * w i = 1)
    (hE : frob (Vᵀ * B * V - Matrix.diagonal w) ≤ ε) :
    frob ((V * Matrix.diagonal d * U)ᵀ * B * (V * Matrix.diagonal d * U) - 1) ≤ ε / μ := by
  set E := Vᵀ * B * V - Matrix.diagonal w with hEdef
  have h1 : Matrix.diagonal d * Matrix.diagonal w * Matrix.diagonal d = (1 : Matrix (Fin s) (Fin s) ℝ) := by
    rw [Matrix.diagonal_mul_diagonal, Matrix.diagonal_mul_diagonal, ← Matrix.diagonal_one]
    congr 1
    ext i
    rw [mul_right_comm]
    exact (hd i).2
  have h2 : (V * Matrix.diagonal d * U)ᵀ * B * (V * Matrix.diagonal d * U) - 1 =
      Uᵀ * (Matrix.diagonal d * E * Matrix.diagonal d) * U := by
    have h3 : Uᵀ * (Matrix.diagonal d * Matrix.diagonal w * Matrix.diagonal d) * U = 1 := by
      rw [h1, Matrix.mul_one, hU]
    rw [← h3, hEdef, Matrix.mul_sub, Matrix.sub_mul, Matrix.mul_sub, Matrix.sub_mul]
    congr 1
    simp only [Matrix.transpose_mul, Matrix.diagonal_transpose, Matrix.mul_assoc]
  rw [h2, frob_conj_orth hU]
  have h4 : frob (Matrix.diagonal d * E * Matrix.diagonal d) ≤ frob (μ⁻¹ • E) := by
    refine frob_mono fun i j => ?_
    rw [Matrix.mul_diagonal, Matrix.diagonal_mul, Matrix.smul_apply, smul_eq_mul, abs_mul, abs_mul, abs_mul,
      abs_of_pos (hd i).1, abs_of_pos (hd j).1, abs_of_pos (inv_pos.2 hμ)]
    have hb : ∀ i, d i * d i ≤ μ⁻¹ := by
      intro i
      rw [le_inv_comm₀ (mul_pos (hd i).1 (hd i).1) hμ]
      calc μ ≤ w i := hw i
        _ = (d i * d i)⁻¹ := by
          exact eq_inv_of_mul_eq_one_right (hd i).2
    have h5 : d i * d j ≤ μ⁻¹ := by
      have := hb i
      have := hb j
      nlinarith [sq_nonneg (d i - d j)]
    calc d i * |E i j| * d j = d i * d j * |E i j| := by ring
      _ ≤ μ⁻¹ * |E i j| := mul_le_mul_of_nonneg_right h5 (abs_nonneg _)
  refine h4.trans ?_
  rw [frob_smul, abs_of_pos (inv_pos.2 hμ), div_eq_inv_mul]
  exact mul_le_mul_of_nonneg_left hE (inv_pos.2 hμ).le

/-- Selecting columns and flipping signs does not increase the norm. -/
theorem frob_select {M : Matrix (Fin s) (Fin s) ℝ} {N : Matrix (Fin k) (Fin k) ℝ} {f : Fin k → Fin s}
    (hf : Function.Injective f) {sg : Fin k → ℝ} (hsg : ∀ i, sg i * sg i = 1)
    (h : ∀ i j, N i j = sg i * M (f i) (f j) * sg j) : frob N ≤ frob M := by
  apply Real.sqrt_le_sqrt
  have h1 : ∀ i j, N i j ^ 2 = M (f i) (f j) ^ 2 := by
    intro i j
    rw [h]
    calc (sg i * M (f i) (f j) * sg j) ^ 2 = (sg i * sg i) * (sg j * sg j) * M (f i) (f j) ^ 2 := by ring
      _ = _ := by rw [hsg, hsg, one_mul, one_mul]
  simp only [h1]
  have h2 : ∀ g : Fin s → ℝ, (∀ i, 0 ≤ g i) → ∑ i, g (f i) ≤ ∑ i, g i := by
    intro g hg
    rw [← Finset.sum_image (f := g) (s := Finset.univ) (g := f) (fun a _ b _ hab => hf hab)]
    exact Finset.sum_le_sum_of_subset_of_nonneg (Finset.subset_univ _) fun i _ _ => hg i
  calc ∑ i, ∑ j, M (f i) (f j) ^ 2 ≤ ∑ i, ∑ j, M (f i) j ^ 2 :=
        Finset.sum_le_sum fun i _ => h2 (fun j => M (f i) j ^ 2) fun _ => sq_nonneg _
    _ ≤ _ := h2 (fun i => ∑ j, M i j ^ 2) fun _ => Finset.sum_nonneg fun _ _ => sq_nonneg _

theorem quad_diag (d : Fin s → ℝ) (z : Fin s → ℝ) :
    z ⬝ᵥ (Matrix.diagonal d).mulVec z = ∑ i, d i * z i ^ 2 := by
  simp only [dotProduct, Matrix.mulVec_diagonal]
  exact Finset.sum_congr rfl fun i _ => by ring

theorem quad_conj (C : Matrix (Fin s) (Fin k) ℝ) (M : Matrix (Fin s) (Fin s) ℝ) (y : Fin k → ℝ) :
    y ⬝ᵥ (Cᵀ * M * C).mulVec y = C.mulVec y ⬝ᵥ M.mulVec (C.mulVec y) := by
  rw [← Matrix.mulVec_mulVec, ← Matrix.mulVec_mulVec, Matrix.dotProduct_mulVec, Matrix.vecMul_transpose]

/-- The Poincaré inequality: the diagonal values of the compression of a diagonal matrix, in ascending
order, are bounded below by the diagonal values of the matrix, in ascending order. -/
theorem ritz_le (hks : k ≤ s) {L : Fin s → ℝ} {μ : Fin k → ℝ} {C : Matrix (Fin s) (Fin k) ℝ}
    (hL : ∀ i j, i ≤ j → L i ≤ L j) (hμ : ∀ i j, i ≤ j → μ i ≤ μ j) (hC : Cᵀ * C = 1)
    (hD : Cᵀ * Matrix.diagonal L * C = Matrix.diagonal μ) (j : Fin k) :
    L (Fin.castLE hks j) ≤ μ j := by
  -- a combination of the first `j + 1` columns of `C` whose first `j` entries vanish
  let f : (Fin (j.val + 1) → ℝ) →ₗ[ℝ] (Fin j.val → ℝ) :=
    Matrix.mulVecLin (Matrix.of fun (i : Fin j.val) (t : Fin (j.val + 1)) =>
      C ⟨i, by omega⟩ ⟨t, by omega⟩)
  obtain ⟨y, hy, hy0⟩ := f.ker.ne_bot_iff.1 (LinearMap.ker_ne_bot_of_finrank_lt (f := f) (by simp))
  let yy : Fin k → ℝ := fun t => if h : t.val < j.val + 1 then y ⟨t, h⟩ else 0
  have hsum : ∀ g : Fin k → ℝ, (∀ t : Fin k, ¬ t.val < j.val + 1 → g t = 0) →
      ∑ t, g t = ∑ t : Fin (j.val + 1), g ⟨t, by omega⟩ := by
    intro g hg
    have hle : j.val + 1 ≤ k := j.2
    have := Finset.sum_subset (Finset.subset_univ (Finset.image (Fin.castLE hle) Finset.univ))
      (f := g) (fun t _ ht => hg t fun h => ht (Finset.mem_image.2 ⟨⟨t, h⟩, Finset.mem_univ _, rfl⟩))
    rw [← this, Finset.sum_image (fun a _ b _ hab => Fin.castLE_injective hle hab)]
    rfl
  have hz : ∀ i : Fin s, i.val < j.val → C.mulVec yy i = 0 := by
    intro i hi
    have h1 := congrFun (LinearMap.mem_ker.1 hy) ⟨i, hi⟩
    simp only [f, Matrix.mulVecLin_apply, Matrix.mulVec, dotProduct, Matrix.of_apply, Pi.zero_apply] at h1
    simp only [Matrix.mulVec, dotProduct]
    rw [hsum]
    · rw [← h1]
      refine Finset.sum_congr rfl fun t _ => ?_
      simp only [yy, t.2, dif_pos]
    · intro t ht
      simp only [yy, ht, dif_neg, not_false_eq_true, mul_zero]
  have hyy : 0 < yy ⬝ᵥ yy := by
    have hne : yy ≠ 0 := by
      intro h
      apply hy0
      ext t
      have := congrFun h ⟨t, by omega⟩
      simpa only [yy, t.2, dif_pos, Pi.zero_apply] using this
    refine lt_of_le_of_ne (Finset.sum_nonneg fun i _ => mul_self_nonneg _) fun h => hne ?_
    exact dotProduct_self_eq_zero.1 h.symm
  have hnorm : C.mulVec yy ⬝ᵥ C.mulVec yy = yy ⬝ᵥ yy := by
    have := quad_conj C 1 yy
    rw [Matrix.mul_one, hC, Matrix.one_mulVec, Matrix.one_mulVec] at this
    exact this.symm
  have hq := quad_conj C (Matrix.diagonal L) yy
  rw [hD, quad_diag, quad_diag] at hq
  have h1 : ∑ i, μ i * yy i ^ 2 ≤ μ j * (yy ⬝ᵥ yy) := by
    rw [dotProduct, Finset.mul_sum]
    refine Finset.sum_le_sum fun i _ => ?_
    rw [← pow_two]
    by_cases hi : i.val < j.val + 1
    · exact mul_le_mul_of_nonneg_right (hμ i j (by rw [Fin.le_def]; omega)) (sq_nonneg _)
    · simp only [yy, hi, dif_neg, not_false_eq_true]; simp
  have h2 : L (Fin.castLE hks j) * (C.mulVec yy ⬝ᵥ C.mulVec yy) ≤ ∑ i, L i * C.mulVec yy i ^ 2 := by
    rw [dotProduct, Finset.mul_sum]
    refine Finset.sum_le_sum fun i _ => ?_
    rw [← pow_two]
    by_cases hi : i.val < j.val
    · rw [hz i hi]; simp
    · exact mul_le_mul_of_nonneg_right (hL _ i (by rw [Fin.le_def]; simp; omega)) (sq_nonneg _)
  rw [hnorm] at h2
  have h3 : L (Fin.castLE hks j) * (yy ⬝ᵥ yy) ≤ μ j * (yy ⬝ᵥ yy) := by linarith
  exact le_of_mul_le_mul_right h3 hyy

/-- The same for values in descending order. -/
theorem ritz_ge (hks : k ≤ s) {L : Fin s → ℝ} {μ : Fin k → ℝ} {C : Matrix (Fin s) (Fin k) ℝ}
    (hL : ∀ i j, i ≤ j → L j ≤ L i) (hμ : ∀ i j, i ≤ j → μ j ≤ μ i) (hC : Cᵀ * C = 1)
    (hD : Cᵀ * Matrix.diagonal L * C = Matrix.diagonal μ) (j : Fin k) :
    μ j ≤ L (Fin.castLE hks j) := by
  have h1 : Cᵀ * Matrix.diagonal (fun i => -L i) * C = Matrix.diagonal fun i => -μ i := by
    have e1 : Matrix.diagonal (fun i => -L i) = -Matrix.diagonal L := by
      ext i j; by_cases h : i = j <;> simp [h]
    have e2 : Matrix.diagonal (fun i => -μ i) = -Matrix.diagonal μ := by
      ext i j; by_cases h : i = j <;> simp [h]
    rw [e1, e2, ← hD, Matrix.mul_neg, Matrix.neg_mul]
  have := ritz_le hks (L := fun i => -L i) (μ := fun i => -μ i)
    (fun i j h => neg_le_neg (hL i j h)) (fun i j h => neg_le_neg (hμ i j h)) hC h1 j
  exact neg_le_neg_iff.1 this

/-- A small residual means that there is an eigenvalue nearby. -/
theorem residual_bound {A : Matrix (Fin n) (Fin n) ℝ} (hA : A.IsSymm) (v : Fin n → ℝ) (lam : ℝ)
    (hv : v ≠ 0) : ∃ μ, (∃ u : Fin n → ℝ, u ≠ 0 ∧ A.mulVec u = μ • u) ∧
      |μ - lam| * Real.sqrt (∑ i, v i ^ 2) ≤ Real.sqrt (∑ i, (A.mulVec v i - lam * v i) ^ 2) := by
  have hH : A.IsHermitian := by
    rw [Matrix.IsHermitian, Matrix.conjTranspose_eq_transpose_of_trivial]; exact hA
  obtain ⟨i0, -⟩ : ∃ i, v i ≠ 0 := by
    by_contra h; push Not at h; exact hv (funext h)
  let Q : Matrix (Fin n) (Fin n) ℝ := hH.eigenvectorUnitary
  have hQ : Qᵀ * Q = 1 := by
    have := (Matrix.mem_unitaryGroup_iff'.1 hH.eigenvectorUnitary.2)
    rwa [Matrix.star_eq_conjTranspose, Matrix.conjTranspose_eq_transpose_of_trivial] at this
  have hQ' : Q * Qᵀ = 1 := mul_eq_one_comm.1 hQ
  have hAQ : ∀ i, A.mulVec (fun t => Q t i) = hH.eigenvalues i • fun t => Q t i := by
    intro i
    exact hH.mulVec_eigenvectorBasis i
  have hAQ' : A * Q = Q * Matrix.diagonal hH.eigenvalues := by
    ext a b
    have := congrFun (hAQ b) a
    simp only [Matrix.mulVec, dotProduct, Pi.smul_apply, smul_eq_mul] at this
    rw [Matrix.mul_apply, Matrix.mul_diagonal, this, mul_comm]
  -- the eigenvalue closest to `lam`
  obtain ⟨m, -, hm⟩ := Finset.exists_min_image Finset.univ (fun i => |hH.eigenvalues i - lam|)
    ⟨i0, Finset.mem_univ _⟩
  refine ⟨hH.eigenvalues m, ⟨fun t => Q t m, ?_, hAQ m⟩, ?_⟩
  · intro h
    have h1 := congrFun (congrFun hQ m) m
    rw [Matrix.mul_apply, Matrix.one_apply_eq] at h1
    simp only [Matrix.transpose_apply] at h1
    rw [Finset.sum_eq_zero fun t _ => by rw [congrFun h t]; simp] at h1
    exact zero_ne_one h1
  · rw [← Real.sqrt_sq_eq_abs, ← Real.sqrt_mul (sq_nonneg _)]
    apply Real.sqrt_le_sqrt
    obtain ⟨c, hvc⟩ : ∃ c, v = Q.mulVec c :=
      ⟨Qᵀ.mulVec v, by rw [Matrix.mulVec_mulVec, hQ', Matrix.one_mulVec]⟩
    have hn : ∀ x : Fin n → ℝ, ∑ i, Q.mulVec x i ^ 2 = ∑ i, x i ^ 2 := by
      intro x
      have := quad_conj Q 1 x
      rw [Matrix.mul_one, hQ, Matrix.one_mulVec, Matrix.one_mulVec] at this
      simp only [dotProduct, ← pow_two] at this
      exact this.symm
    have h1 : ∀ i, A.mulVec v i - lam * v i = Q.mulVec (fun t => (hH.eigenvalues t - lam) * c t) i := by
      intro i
      have e1 : A.mulVec v = Q.mulVec ((Matrix.diagonal hH.eigenvalues).mulVec c) := by
        rw [hvc, Matrix.mulVec_mulVec, hAQ', Matrix.mulVec_mulVec]
      rw [e1, hvc]
      have e2 : (fun t => (hH.eigenvalues t - lam) * c t) =
          (Matrix.diagonal hH.eigenvalues).mulVec c - lam • c := by
        ext t
        simp only [Matrix.mulVec_diagonal, Pi.sub_apply, Pi.smul_apply, smul_eq_mul]
        ring
      rw [e2, Matrix.mulVec_sub, Matrix.mulVec_smul]
      rfl
    have h2 : ∑ i, (A.mulVec v i - lam * v i) ^ 2 = ∑ i, ((hH.eigenvalues i - lam) * c i) ^ 2 := by
      rw [← hn fun t => (hH.eigenvalues t - lam) * c t]
      exact Finset.sum_congr rfl fun i _ => by rw [h1 i]
    rw [h2, hvc, hn, Finset.mul_sum]
    refine Finset.sum_le_sum fun i _ => ?_
    rw [mul_pow]
    exact mul_le_mul_of_nonneg_right (sq_le_sq.2 (hm i (Finset.mem_univ _))) (sq_nonneg _)

end

end LinfaLinalg
