import Verif.Proofs.Weyl
import Verif.Props.EighTerm
import Verif.Props.SvdTerm
import Verif.Props.Sort
import Verif.Proofs.LobpcgRitz

/-! # C75, C76: accuracy of eigenvalues and singular values

C29 and C35 bound the backward error. With Weyl's inequalities they bound the error of every single value.
The exact eigenvalues and singular values are those of Mathlib, `eigenvalueDesc` and `singularValue`. -/

set_option linter.unusedSectionVars false

namespace LinfaLinalg

open Matrix

/-- The `j`-th eigenvalue of a symmetric matrix in the given order. -/
noncomputable def nthEigenvalue (order : Order) {n : Nat} {A : Matrix (Fin n) (Fin n) ℝ} (hA : A.IsSymm)
    (j : Fin n) : ℝ :=
  match order with
  | .largest => eigenvalueDesc hA j
  | .smallest => eigenvalueDesc hA (Fin.rev j)

/-- The `j`-th of the `min m n` singular values of an `m × n` matrix in the given order. -/
noncomputable def nthSingularValue (order : Order) {m n : Nat} (A : Matrix (Fin m) (Fin n) ℝ) (j : Nat) : ℝ :=
  match order with
  | .largest => singularValue A j
  | .smallest => singularValue A (min m n - 1 - j)

theorem conj_perm {r d : Nat} (V : Matrix (Fin r) (Fin d) ℝ) (f : Fin d → ℝ) {c : Nat}
    (W : Matrix (Fin d) (Fin c) ℝ) (π : Equiv.Perm (Fin d)) :
    V.submatrix id π * diagonal (fun i => f (π i)) * W.submatrix π id = V * diagonal f * W := by
  ext i j
  simp only [Matrix.mul_apply, Matrix.submatrix_apply, id, Matrix.diagonal_apply,
    mul_ite, mul_zero, Finset.sum_ite_eq', Finset.mem_univ, if_true]
  exact Equiv.sum_comp π fun k => V i k * f k * W k j

theorem orth_perm {r d : Nat} {V : Matrix (Fin r) (Fin d) ℝ} (hV : Vᵀ * V = 1) (π : Equiv.Perm (Fin d)) :
    (V.submatrix id π)ᵀ * V.submatrix id π = 1 := by
  ext i j
  have := congrFun (congrFun hV (π i)) (π j)
  rw [Matrix.mul_apply, Matrix.one_apply] at this ⊢
  simpa only [Matrix.transpose_apply, Matrix.submatrix_apply, id, EmbeddingLike.apply_eq_iff_eq] using this

theorem eig_accuracy {n : Nat} {A V : Matrix (Fin n) (Fin n) ℝ} (hA : A.IsSymm) (hV : Vᵀ * V = 1)
    (v : Fin n → ℝ) {ε : ℝ} (h : frob (A - V * diagonal v * Vᵀ) ≤ ε) (order : Order) (π : Equiv.Perm (Fin n))
    (hπ : Ordered order fun i => v (π i)) (j : Fin n) : |v (π j) - nthEigenvalue order hA j| ≤ ε := by
  obtain ⟨hL, Q, hQ, hAQ⟩ := eigenvalueDesc_spec hA
  have key : ∀ π : Equiv.Perm (Fin n), Antitone (fun i => v (π i)) → ∀ j,
      |v (π j) - eigenvalueDesc hA j| ≤ ε := by
    intro π hπ j
    have h1 := weyl_eig_abs hQ (orth_perm hV π) hL hπ j
    rw [Matrix.transpose_submatrix, conj_perm, ← hAQ] at h1
    exact h1.trans h
  cases order with
  | largest => exact key π (fun i j hij => hπ i j hij) j
  | smallest =>
    have h1 := key (Fin.revPerm.trans π) (fun i j hij => hπ _ _ (Fin.rev_le_rev.2 hij)) (Fin.rev j)
    simpa [nthEigenvalue] using h1

theorem sv_accuracy {m n : Nat} {A : Matrix (Fin m) (Fin n) ℝ} {U : Matrix (Fin m) (Fin (min m n)) ℝ}
    {V : Matrix (Fin (min m n)) (Fin n) ℝ} (hU : Uᵀ * U = 1) (hV : V * Vᵀ = 1) (s : Fin (min m n) → ℝ)
    (hs : ∀ i, 0 ≤ s i) {ε : ℝ} (h : frob (A - U * diagonal s * V) ≤ ε) (order : Order)
    (π : Equiv.Perm (Fin (min m n))) (hπ : Ordered order fun i => s (π i)) (j : Fin (min m n)) :
    |s (π j) - nthSingularValue order A j| ≤ ε := by
  obtain ⟨h0, hL, Q, hQ, hAQ⟩ := singularValue_spec A
  have hV' : (Vᵀ)ᵀ * Vᵀ = 1 := by rwa [transpose_transpose]
  have key : ∀ π : Equiv.Perm (Fin (min m n)), Antitone (fun i => s (π i)) → ∀ j : Fin (min m n),
      |s (π j) - singularValue A j| ≤ ε := by
    intro π hπ j
    have hG : (U * diagonal s * V)ᵀ * (U * diagonal s * V) =
        (Vᵀ.submatrix id π) * diagonal (fun i => s (π i) ^ 2) * (Vᵀ.submatrix id π)ᵀ := by
      rw [Matrix.transpose_submatrix, conj_perm _ (fun i => s i ^ 2), transpose_transpose]
      calc (U * diagonal s * V)ᵀ * (U * diagonal s * V) = Vᵀ * (diagonal s * (Uᵀ * U) * diagonal s) * V := by
            simp only [transpose_mul, diagonal_transpose, Matrix.mul_assoc]
        _ = _ := by
          rw [hU, Matrix.mul_one, diagonal_mul_diagonal]
          simp only [sq]
    exact (weyl_sv_abs (s := fun i : Fin n => singularValue A i) hQ (orth_perm hV' π) hAQ hG
      (fun i j hij => hL hij) (fun i => h0 i) hπ (fun i => hs _) j.val (by have := j.2; omega) j.2).trans h
  cases order with
  | largest => exact key π (fun i j hij => hπ i j hij) j
  | smallest =>
    have h1 := key (Fin.revPerm.trans π) (fun i j hij => hπ _ _ (Fin.rev_le_rev.2 hij)) (Fin.rev j)
    have e : ((Fin.rev j : Fin (min m n)) : Nat) = min m n - 1 - j := by rw [Fin.val_rev]; omega
    rw [e] at h1
    simpa [nthSingularValue] using h1

/-- **C75**: whenever `eigvalsh` returns on a symmetric matrix, its values sorted by `sort_eig` are, one by one,
within `2 (n - 1) eps ‖A‖_F` of the exact eigenvalues in the same order, with multiplicity. Exact real
arithmetic, `eps = 2⁻⁵²`; every symmetric matrix. -/
theorem C75_eigvalsh_accuracy {n : Nat} (fuel : Nat) (a : Arr2 ℝ) (ha : HasShape a n n)
    (hs : (toMat n n a).IsSymm) (vals : Arr1 ℝ) (h : eigvalsh fuel a = .ok vals) (order : Order) :
    ∃ out, sortEigVals vals order = .ok out ∧ out.len = n ∧ ∀ j : Fin n,
      |out.get j - nthEigenvalue order hs j| ≤ 2 * (n - 1 : Nat) * (2 : ℝ)⁻¹ ^ 52 * frob (toMat n n a) := by
  obtain ⟨q, hq⟩ := (C27_eigvalsh_eq_eigh fuel a).1 vals |>.1 h
  have hw := eigh_real fuel a ha hs
  rw [hq] at hw
  obtain ⟨σ, h1, h2, h3, h4⟩ := hw
  rw [real_epsilon] at h4
  subst h1
  obtain ⟨out, τ, ho, hτ, hl, hg⟩ := C33_sort_eig_values vals (NaNFree.real vals) order
  refine ⟨out, ho, hl, fun j => ?_⟩
  have := eig_accuracy hs h3 (fun i => vals.get (σ i)) h4 order (τ.trans σ.symm)
    (by simpa using stableSortPerm_ordered hτ) j
  rw [hg j]
  simpa using this

/-- **C75**, total: on a positive or negative semidefinite matrix `eigvalsh` returns, and the values are
accurate. -/
theorem C75_semidefinite_total {n : Nat} (a : Arr2 ℝ) (ha : HasShape a n n) (hs : (toMat n n a).IsSymm)
    (hsd : (∀ x : Fin n → ℝ, 0 ≤ x ⬝ᵥ toMat n n a *ᵥ x) ∨ ∀ x : Fin n → ℝ, x ⬝ᵥ toMat n n a *ᵥ x ≤ 0)
    (order : Order) : ∃ N vals out, (∀ fuel, N ≤ fuel → eigvalsh fuel a = .ok vals) ∧
      sortEigVals vals order = .ok out ∧ out.len = n ∧ ∀ j : Fin n,
        |out.get j - nthEigenvalue order hs j| ≤
          2 * (n - 1 : Nat) * (2 : ℝ)⁻¹ ^ 52 * frob (toMat n n a) := by
  obtain ⟨N, r, h⟩ := C70_eigh_terminates a ha hs hsd
  obtain ⟨out, h1, h2, h3⟩ := C75_eigvalsh_accuracy N a ha hs r.1 (h N le_rfl).2 order
  exact ⟨N, r.1, out, fun fuel hf => (h fuel hf).2, h1, h2, h3⟩

/-- **C76**: on every nonempty real matrix and for all flags, `svd` returns within `svdFuel m n` iterations,
and its values sorted by `sort_svd` are, one by one, within `2 (d - 1) eps ‖A‖_F` of the exact singular values
in the same order, with multiplicity. Exact real arithmetic, `d = min(m, n)`, `eps = 5 · 2⁻⁵²`. -/
theorem C76_svd_accuracy {m n : Nat} (a : Arr2 ℝ) (ha : HasShape a m n) (hm : m ≠ 0) (hn : n ≠ 0)
    (cu cv : Bool) (order : Order) :
    ∃ u s vt u' s' vt', svd (svdFuel m n) a cu cv = .ok (u, s, vt) ∧
      sortSvd u s vt order = .ok (u', s', vt') ∧ s'.len = min m n ∧ ∀ j < min m n,
        |s'.get j - nthSingularValue order (toMat m n a) j| ≤
          2 * (min m n - 1 : Nat) * (5 * (2 : ℝ)⁻¹ ^ 52) * frob (toMat m n a) := by
  obtain ⟨U, s, V, h1, h2, h3, h4, h5, h6, h7, h8⟩ := C73_svd_total a ha hm hn
  have h9 := ((C36_svd_flags (svdFuel m n) a cu cv).1 _ s _ h1).2.2
  obtain ⟨u', s', vt', τ, g1, g2, g3, g4, -⟩ := C40_sort_svd (if cu then some U else none) s
    (if cv then some V else none) (fun b hb => by
      cases cu <;> simp at hb
      subst hb; rw [h2.2, h4]) (fun b hb => by
      cases cv <;> simp at hb
      subst hb; rw [h3.1, h4]) (NaNFree.real s) order
  refine ⟨_, s, _, u', s', vt', h9, g1, by rw [g3, h4], fun j hj => ?_⟩
  have hord : Ordered order fun i : Fin (min m n) => s.get ((finCongr h4).permCongr τ i) := by
    have := stableSortPerm_ordered g2
    cases order <;> exact fun i j hij => this ((finCongr h4).symm i) ((finCongr h4).symm j) hij
  have key := sv_accuracy h6 h7 (toVec (min m n) s) (fun i => h5 i i.2) h8 order ((finCongr h4).permCongr τ)
    hord ⟨j, hj⟩
  have := g4 ⟨j, by rw [h4]; exact hj⟩
  simp only at this
  rw [this]
  exact key

/-- **C76**, numerical rank: the values beyond the rank of the matrix are at most `2 (d - 1) eps ‖A‖_F`. -/
theorem C76_numerical_rank {m n : Nat} (a : Arr2 ℝ) (ha : HasShape a m n) (hm : m ≠ 0) (hn : n ≠ 0)
    (cu cv : Bool) :
    ∃ u s vt u' s' vt', svd (svdFuel m n) a cu cv = .ok (u, s, vt) ∧
      sortSvd u s vt .largest = .ok (u', s', vt') ∧ ∀ j < min m n, (toMat m n a).rank ≤ j →
        s'.get j ≤ 2 * (min m n - 1 : Nat) * (5 * (2 : ℝ)⁻¹ ^ 52) * frob (toMat m n a) := by
  obtain ⟨u, s, vt, u', s', vt', h1, h2, -, h3⟩ := C76_svd_accuracy a ha hm hn cu cv .largest
  refine ⟨u, s, vt, u', s', vt', h1, h2, fun j hj hr => ?_⟩
  have h4 := h3 j hj
  have h5 : nthSingularValue .largest (toMat m n a) j = 0 := by
    simp only [nthSingularValue, singularValue]
    rw [LinearMap.singularValues_eq_zero_iff_le_finrank_range]
    rwa [Matrix.rank_eq_finrank_range_toLin _ (EuclideanSpace.basisFun _ ℝ).toBasis
      (EuclideanSpace.basisFun _ ℝ).toBasis] at hr
  rw [h5, sub_zero] at h4
  exact (le_abs_self _).trans h4

/-- The hypotheses are met by a `3 × 3` matrix of rank two that needs sweeps, and by a semidefinite one. -/
example : (∃ r, svd (svdFuel 3 3) (ofRows 3 3 [[1, 1, 0], [0, 1, 1], [1, 0, -1]] : Arr2 ℝ) true false = .ok r) ∧
    (toMat 2 2 (ofRows 2 2 [[1, 1], [1, 1]])).IsSymm ∧
    ∀ x : Fin 2 → ℝ, 0 ≤ x ⬝ᵥ toMat 2 2 (ofRows 2 2 [[1, 1], [1, 1]]) *ᵥ x := by
  refine ⟨C73_svd_terminates (m := 3) (n := 3) _ ⟨rfl, rfl⟩ (by norm_num) (by norm_num) true false _ le_rfl, ?_, ?_⟩
  · ext i j
    fin_cases i <;> fin_cases j <;> simp [ofRows, toMat]
  · intro x
    simp [dotProduct, mulVec, Fin.sum_univ_two, toMat, ofRows]
    nlinarith [sq_nonneg (x 0 + x 1)]

end LinfaLinalg
