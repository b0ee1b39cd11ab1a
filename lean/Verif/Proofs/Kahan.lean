import Verif.Proofs.Weyl
import Mathlib.Data.Matrix.ColumnRowPartitioned

/-! # Several approximate eigenpairs at once: orthonormal vectors with small residuals belong to different
eigenvalues -/

namespace LinfaLinalg

open Matrix

/-- Projecting the rows of a matrix does not increase its norm. -/
theorem frob_mul_proj_le {m n k : Nat} {V : Matrix (Fin n) (Fin k) ℝ} (hV : Vᵀ * V = 1)
    (Y : Matrix (Fin m) (Fin n) ℝ) : frob (Y * (1 - V * Vᵀ)) ≤ frob Y := by
  refine frob_le_of_sq (frob_nonneg _) ?_
  rw [frob_sq]
  refine Finset.sum_le_sum fun i _ => ?_
  have h1 : ∀ j : Fin n, (Y * (1 - V * Vᵀ) : Matrix (Fin m) (Fin n) ℝ) i j = (Y i - V *ᵥ (Vᵀ *ᵥ Y i)) j := by
    intro j
    rw [Matrix.mul_sub, Matrix.mul_one, Matrix.sub_apply, Pi.sub_apply]
    congr 1
    have hs : (V * Vᵀ)ᵀ = V * Vᵀ := by rw [transpose_mul, transpose_transpose]
    have h0 := Matrix.mulVec_transpose (V * Vᵀ) (Y i)
    rw [hs] at h0
    rw [Matrix.mulVec_mulVec, h0]
    rfl
  have h2 := bessel hV (Y i)
  have h3 : (Y i - V *ᵥ (Vᵀ *ᵥ Y i)) ⬝ᵥ (Y i - V *ᵥ (Vᵀ *ᵥ Y i)) =
      Y i ⬝ᵥ Y i - (Vᵀ *ᵥ Y i) ⬝ᵥ (Vᵀ *ᵥ Y i) := by
    rw [sub_dotProduct, dotProduct_sub, dotProduct_sub, mulVec_orth_dot hV]
    have h1 : Y i ⬝ᵥ V *ᵥ (Vᵀ *ᵥ Y i) = (Vᵀ *ᵥ Y i) ⬝ᵥ (Vᵀ *ᵥ Y i) := by
      rw [Matrix.dotProduct_mulVec, ← Matrix.mulVec_transpose]
    rw [dotProduct_comm (V *ᵥ _) (Y i), h1]
    ring
  have h4 : 0 ≤ (Vᵀ *ᵥ Y i) ⬝ᵥ (Vᵀ *ᵥ Y i) := Finset.sum_nonneg fun _ _ => mul_self_nonneg _
  simp only [h1]
  rw [← dot_self_sum, ← dot_self_sum, h3]
  linarith

/-- Orthonormal vectors are part of an orthonormal basis. -/
theorem extend_orth {n k l : Nat} (hn : k + l = n) {V : Matrix (Fin n) (Fin k) ℝ} (hV : Vᵀ * V = 1) :
    ∃ W : Matrix (Fin n) (Fin l) ℝ, Wᵀ * W = 1 ∧ Vᵀ * W = 0 := by
  let v : Fin k ⊕ Fin l → EuclideanSpace ℝ (Fin n) :=
    Sum.elim (fun j => WithLp.toLp 2 fun i => V i j) fun _ => 0
  have hv : Orthonormal ℝ (Set.domRestrict (Set.range Sum.inl) v) := by
    rw [orthonormal_iff_ite]
    rintro ⟨_, a, rfl⟩ ⟨_, b, rfl⟩
    have := congrFun (congrFun hV a) b
    rw [Matrix.mul_apply, Matrix.one_apply] at this
    change inner ℝ (WithLp.toLp 2 fun i => V i a : EuclideanSpace ℝ (Fin n)) (WithLp.toLp 2 fun i => V i b) = _
    have e : (if (⟨Sum.inl a, a, rfl⟩ : Set.range (Sum.inl : Fin k → Fin k ⊕ Fin l)) = ⟨Sum.inl b, b, rfl⟩
        then (1 : ℝ) else 0) = if a = b then 1 else 0 := by
      refine if_congr ⟨fun h => Sum.inl.inj (congrArg Subtype.val h), fun h => ?_⟩ rfl rfl
      subst h; rfl
    refine Eq.trans ?_ e.symm
    rw [← this, EuclideanSpace.inner_eq_star_dotProduct, dotProduct]
    exact Finset.sum_congr rfl fun i _ => by simp [mul_comm]
  obtain ⟨b, hb⟩ := hv.exists_orthonormalBasis_extension_of_card_eq (by simp [← hn])
  refine ⟨Matrix.of fun i j => b (Sum.inr j) i, ?_, ?_⟩
  · ext i j
    have := b.inner_eq_ite (Sum.inr i) (Sum.inr j)
    rw [EuclideanSpace.inner_eq_star_dotProduct, dotProduct] at this
    rw [Matrix.mul_apply, Matrix.one_apply]
    simp only [Sum.inr.injEq] at this
    rw [← this]
    exact Finset.sum_congr rfl fun i _ => by simp [mul_comm]
  · ext i j
    have h1 := b.inner_eq_ite (Sum.inl i) (Sum.inr j)
    rw [hb (Sum.inl i) ⟨i, rfl⟩, EuclideanSpace.inner_eq_star_dotProduct, dotProduct] at h1
    rw [Matrix.mul_apply, Matrix.zero_apply]
    simp only [reduceCtorEq, if_false] at h1
    rw [← h1]
    exact Finset.sum_congr rfl fun i _ => by simp [v, mul_comm]

/-- A symmetric matrix with the orthonormal eigenvectors `V`: the eigenvectors are part of an eigenbasis. -/
theorem extend_eig {n k l : Nat} (hn : k + l = n) {A : Matrix (Fin n) (Fin n) ℝ} (hA : A.IsSymm)
    {V : Matrix (Fin n) (Fin k) ℝ} (hV : Vᵀ * V = 1) {lam : Fin k → ℝ} (hAV : A * V = V * diagonal lam) :
    ∃ (U : Matrix (Fin n) (Fin k ⊕ Fin l) ℝ) (ν : Fin l → ℝ), Uᵀ * U = 1 ∧ U * Uᵀ = 1 ∧
      A = U * diagonal (Sum.elim lam ν) * Uᵀ := by
  obtain ⟨W, hW, hVW⟩ := extend_orth hn hV
  have hC : (Wᵀ * A * W).IsSymm := by
    rw [Matrix.IsSymm, transpose_mul, transpose_mul, transpose_transpose, hA.eq, Matrix.mul_assoc]
  obtain ⟨-, Z, hZ, hCZ⟩ := eigenvalueDesc_spec hC
  have hWV : Wᵀ * V = 0 := by
    have := congrArg Matrix.transpose hVW
    rwa [transpose_mul, transpose_transpose, transpose_zero] at this
  have hAW : Vᵀ * A * W = 0 := by
    have h1 : Vᵀ * A = diagonal lam * Vᵀ := by
      have := congrArg Matrix.transpose hAV
      rwa [transpose_mul, transpose_mul, hA.eq, diagonal_transpose] at this
    rw [h1, Matrix.mul_assoc, hVW, Matrix.mul_zero]
  have hWZ : (W * Z)ᵀ * (W * Z) = 1 := by
    rw [transpose_mul, Matrix.mul_assoc, ← Matrix.mul_assoc Wᵀ, hW, Matrix.one_mul, hZ]
  have hU : (fromCols V (W * Z))ᵀ * fromCols V (W * Z) = 1 := by
    rw [transpose_fromCols, fromRows_mul_fromCols, hV, hWZ, ← Matrix.mul_assoc, hVW, Matrix.zero_mul,
      transpose_mul, Matrix.mul_assoc, hWV, Matrix.mul_zero, fromBlocks_one]
  have hU' : fromCols V (W * Z) * (fromCols V (W * Z))ᵀ = 1 := by
    refine (Matrix.mul_eq_one_comm_of_equiv (finSumFinEquiv.trans (finCongr hn)).symm).2 hU
  refine ⟨fromCols V (W * Z), eigenvalueDesc hC, hU, hU', ?_⟩
  have key : (fromCols V (W * Z))ᵀ * A * fromCols V (W * Z) =
      diagonal (Sum.elim lam (eigenvalueDesc hC)) := by
    rw [transpose_fromCols, fromRows_mul, fromRows_mul_fromCols]
    have e1 : Vᵀ * A * V = diagonal lam := by
      rw [Matrix.mul_assoc, hAV, ← Matrix.mul_assoc, hV, Matrix.one_mul]
    have e2 : Vᵀ * A * (W * Z) = 0 := by rw [← Matrix.mul_assoc, hAW, Matrix.zero_mul]
    have e3 : (W * Z)ᵀ * A * V = 0 := by
      rw [Matrix.mul_assoc, hAV, transpose_mul, ← Matrix.mul_assoc, Matrix.mul_assoc Zᵀ, hWV, Matrix.mul_zero,
        Matrix.zero_mul]
    have e4 : (W * Z)ᵀ * A * (W * Z) = diagonal (eigenvalueDesc hC) := by
      calc (W * Z)ᵀ * A * (W * Z) = Zᵀ * (Wᵀ * A * W) * Z := by
            simp only [transpose_mul, Matrix.mul_assoc]
        _ = Zᵀ * (Z * diagonal (eigenvalueDesc hC) * Zᵀ) * Z := by rw [← hCZ]
        _ = (Zᵀ * Z) * diagonal (eigenvalueDesc hC) * (Zᵀ * Z) := by simp only [Matrix.mul_assoc]
        _ = _ := by rw [hZ, Matrix.one_mul, Matrix.mul_one]
    rw [e1, e2, e3, e4, fromBlocks_diagonal]
  rw [← key]
  calc A = (fromCols V (W * Z) * (fromCols V (W * Z))ᵀ) * A *
      (fromCols V (W * Z) * (fromCols V (W * Z))ᵀ) := by rw [hU', Matrix.one_mul, Matrix.mul_one]
    _ = _ := by simp only [Matrix.mul_assoc]

/-- Orthonormal vectors with residual `R = A V - V diag(λ)` belong to different eigenvalues of `A`, up to
`2 ‖R‖`; if they form a basis, up to `‖R‖` and in the order of the values. -/
theorem matched_eigenvalues {n k : Nat} {A : Matrix (Fin n) (Fin n) ℝ} (hA : A.IsSymm)
    {V : Matrix (Fin n) (Fin k) ℝ} (hV : Vᵀ * V = 1) (lam : Fin k → ℝ) :
    ∃ f : Fin k → Fin n, Function.Injective f ∧
      ∀ j, |lam j - eigenvalueDesc hA (f j)| ≤ 2 * frob (A * V - V * diagonal lam) := by
  set R := A * V - V * diagonal lam with hR
  have hkn : k ≤ n := by
    have h5 : (1 : Matrix (Fin k) (Fin k) ℝ).rank ≤ V.rank := by
      rw [← hV]
      exact Matrix.rank_mul_le_right _ _
    rw [Matrix.rank_one, Fintype.card_fin] at h5
    exact h5.trans (Matrix.rank_le_height V)
  obtain ⟨l, hl⟩ := Nat.exists_eq_add_of_le hkn
  have hVR : (Vᵀ * R).IsSymm := by
    rw [Matrix.IsSymm, hR, Matrix.mul_sub, ← Matrix.mul_assoc Vᵀ V, hV, Matrix.one_mul, transpose_sub,
      diagonal_transpose, transpose_mul, transpose_mul, transpose_transpose, hA.eq, Matrix.mul_assoc]
  have hRV : Rᵀ * V = Vᵀ * R := by
    have := hVR.eq
    rwa [transpose_mul, transpose_transpose] at this
  -- the nearby matrix for which they are exact
  set A' := A - R * Vᵀ - V * Rᵀ * (1 - V * Vᵀ) with hA'
  have hs' : A'.IsSymm := by
    have e : A' = A - R * Vᵀ - V * Rᵀ + V * (Vᵀ * R) * Vᵀ := by
      rw [hA', Matrix.mul_sub, Matrix.mul_one, ← hRV]
      simp only [Matrix.mul_assoc]
      abel
    rw [e, Matrix.IsSymm, transpose_add, transpose_sub, transpose_sub, hA.eq, transpose_mul, transpose_mul,
      transpose_mul, transpose_mul, hVR.eq, transpose_transpose, transpose_transpose]
    simp only [Matrix.mul_assoc]
    abel
  have hAV : A' * V = V * diagonal lam := by
    have e1 : (1 - V * Vᵀ) * V = 0 := by
      rw [Matrix.sub_mul, Matrix.mul_assoc, hV, Matrix.mul_one, Matrix.one_mul, sub_self]
    rw [hA', Matrix.sub_mul, Matrix.sub_mul, Matrix.mul_assoc R, hV, Matrix.mul_one, Matrix.mul_assoc _ _ V, e1,
      Matrix.mul_zero, sub_zero, hR]
    abel
  have hE : frob (A - A') ≤ 2 * frob R := by
    have e : A - A' = R * Vᵀ + V * (Rᵀ * (1 - V * Vᵀ)) := by
      rw [hA', ← Matrix.mul_assoc]; abel
    rw [e]
    refine (frob_add_le _ _).trans ?_
    rw [frob_mul_orth (by rw [transpose_transpose, hV]), frob_orth_mul hV]
    have := frob_mul_proj_le hV Rᵀ
    rw [frob_transpose] at this
    linarith
  obtain ⟨U, ν, hU1, hU2, hAU⟩ := extend_eig (l := l) hl.symm hs' hV hAV
  let e : Fin n ≃ Fin k ⊕ Fin l := (finSumFinEquiv.trans (finCongr hl.symm)).symm
  let w : Fin n → ℝ := fun i => Sum.elim lam ν (e i)
  -- sort the values of the nearby matrix
  let τ : Equiv.Perm (Fin n) := Fin.revPerm.trans (Tuple.sort w)
  have hτ : Antitone fun i => w (τ i) := fun i j hij => Tuple.monotone_sort w (Fin.rev_le_rev.2 hij)
  obtain ⟨hL, Q, hQ, hAQ⟩ := eigenvalueDesc_spec hA
  have hUe : (U.submatrix id (fun i => e (τ i)))ᵀ * U.submatrix id (fun i => e (τ i)) = 1 := by
    ext i j
    have := congrFun (congrFun hU1 (e (τ i))) (e (τ j))
    rw [Matrix.mul_apply, Matrix.one_apply] at this ⊢
    simpa only [Matrix.transpose_apply, Matrix.submatrix_apply, id, EmbeddingLike.apply_eq_iff_eq] using this
  have hUA : U.submatrix id (fun i => e (τ i)) * diagonal (fun i => w (τ i)) *
      (U.submatrix id (fun i => e (τ i)))ᵀ = A' := by
    rw [hAU]
    ext i j
    simp only [Matrix.mul_apply, Matrix.submatrix_apply, id, Matrix.diagonal_apply, Matrix.transpose_apply,
      mul_ite, mul_zero, Finset.sum_ite_eq', Finset.mem_univ, if_true, w]
    exact Equiv.sum_comp (τ.trans e) fun x => U i x * Sum.elim lam ν x * U j x
  have hweyl : ∀ i, |w (τ i) - eigenvalueDesc hA i| ≤ 2 * frob R := by
    intro i
    have h1 := weyl_eig_abs hQ hUe hL hτ i
    rw [hUA, ← hAQ] at h1
    exact h1.trans hE
  refine ⟨fun j => τ.symm (e.symm (Sum.inl j)), fun i j hij => ?_, fun j => ?_⟩
  · simpa using hij
  · have := hweyl (τ.symm (e.symm (Sum.inl j)))
    simpa [w] using this

end LinfaLinalg
