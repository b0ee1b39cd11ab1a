import Verif.Proofs.Weyl
import Mathlib.LinearAlgebra.Matrix.Charpoly.Basic
import Mathlib.Algebra.Polynomial.Roots
import Mathlib.Data.List.Sort

/-! # Comparing the eigenvalues and singular values of different matrices -/

namespace LinfaLinalg

open Matrix

/-- Poincaré separation with a shift: `B` is at most `Pᵀ A P + c` for an isometry `P`. -/
theorem eig_le_of_form {n k : Nat} {A : Matrix (Fin n) (Fin n) ℝ} {B : Matrix (Fin k) (Fin k) ℝ} (hA : A.IsSymm)
    (hB : B.IsSymm) {P : Matrix (Fin n) (Fin k) ℝ} (hP : Pᵀ * P = 1) {c : ℝ}
    (h : ∀ x : Fin k → ℝ, x ⬝ᵥ B *ᵥ x ≤ (P *ᵥ x) ⬝ᵥ A *ᵥ (P *ᵥ x) + c * (x ⬝ᵥ x)) (j : Nat) (hj : j < k) (hjn : j < n) :
    eigenvalueDesc hB ⟨j, hj⟩ ≤ eigenvalueDesc hA ⟨j, hjn⟩ + c := by
  obtain ⟨hL, Q, hQ, hAQ⟩ := eigenvalueDesc_spec hA
  obtain ⟨hM, V, hV, hBV⟩ := eigenvalueDesc_spec hB
  have hPV : (P * V)ᵀ * (P * V) = 1 := by
    rw [transpose_mul, Matrix.mul_assoc, ← Matrix.mul_assoc Pᵀ, hP, Matrix.one_mul, hV]
  obtain ⟨d, hd, hd1, hd2⟩ := exists_combo (P * V) Q j hj
  have h1 := quad_lower hV hM ⟨j, hj⟩ d hd1
  have h2 := quad_upper hQ hL ⟨j, hjn⟩ (Or.inr (mul_eq_one_comm.1 hQ)) _ hd2
  rw [← hBV] at h1
  rw [← hAQ, ← Matrix.mulVec_mulVec] at h2
  have hy := dot_self_pos (mulVec_orth_ne hV hd)
  set y := V *ᵥ d
  rw [mulVec_orth_dot hP] at h2
  have h3 := h y
  have h4 : eigenvalueDesc hB ⟨j, hj⟩ * (y ⬝ᵥ y) ≤ (eigenvalueDesc hA ⟨j, hjn⟩ + c) * (y ⬝ᵥ y) := by
    rw [add_mul]; linarith
  exact le_of_mul_le_mul_right h4 hy

/-- The eigenvalues are determined by any orthogonal diagonalization. -/
theorem eigenvalueDesc_unique {n : Nat} {A : Matrix (Fin n) (Fin n) ℝ} (hA : A.IsSymm) {Q : Matrix (Fin n) (Fin n) ℝ}
    {L : Fin n → ℝ} (hQ : Qᵀ * Q = 1) (hL : Antitone L) (h : A = Q * diagonal L * Qᵀ) (j : Fin n) :
    eigenvalueDesc hA j = L j := by
  obtain ⟨hM, V, hV, hAV⟩ := eigenvalueDesc_spec hA
  have h1 := weyl_eig_abs hQ hV hL hM j
  rw [← h, ← hAV, sub_self, frob_zero] at h1
  exact sub_eq_zero.1 (abs_nonpos_iff.1 h1)

theorem eigenvalueDesc_neg {n : Nat} {A : Matrix (Fin n) (Fin n) ℝ} (hA : A.IsSymm) (hA' : (-A).IsSymm) (j : Fin n) :
    eigenvalueDesc hA' j = -eigenvalueDesc hA (Fin.rev j) := by
  obtain ⟨hL, Q, hQ, hAQ⟩ := eigenvalueDesc_spec hA
  refine eigenvalueDesc_unique hA' (Q := Q.submatrix id Fin.revPerm) (L := fun j => -eigenvalueDesc hA (Fin.rev j)) ?_ ?_ ?_ j
  · ext i j
    have := congrFun (congrFun hQ (Fin.rev i)) (Fin.rev j)
    rw [Matrix.mul_apply, Matrix.one_apply] at this ⊢
    simpa [Matrix.transpose_apply, Matrix.submatrix_apply] using this
  · intro i j hij
    exact neg_le_neg (hL (Fin.rev_le_rev.2 hij))
  · conv_lhs => rw [hAQ]
    ext i j
    simp only [Matrix.neg_apply, Matrix.mul_apply, Matrix.submatrix_apply, id, Matrix.diagonal_apply, mul_ite, mul_zero,
      Finset.sum_ite_eq', Finset.mem_univ, if_true, Matrix.transpose_apply]
    rw [← Finset.sum_neg_distrib, ← Equiv.sum_comp Fin.revPerm]
    refine Finset.sum_congr rfl fun k _ => ?_
    simp

/-- The singular values are determined by any orthogonal diagonalization of the Gram matrix. -/
theorem singularValue_unique {m n : Nat} {A : Matrix (Fin m) (Fin n) ℝ} {Q : Matrix (Fin n) (Fin n) ℝ}
    {s : Fin n → ℝ} (hQ : Qᵀ * Q = 1) (hs : Antitone s) (hs0 : ∀ i, 0 ≤ s i)
    (h : Aᵀ * A = Q * diagonal (fun i => s i ^ 2) * Qᵀ) (j : Fin n) : singularValue A j = s j := by
  obtain ⟨h0, hL, V, hV, hAV⟩ := singularValue_spec A
  have h1 := weyl_sv_abs (s := s) (s' := fun i : Fin n => singularValue A i) hQ hV h hAV hs hs0
    (fun i j hij => hL hij) (fun i => h0 i) j j.2 j.2
  rw [sub_self, frob_zero] at h1
  exact sub_eq_zero.1 (abs_nonpos_iff.1 h1)

/-- Singular values of nearby matrices. -/
theorem singularValue_lipschitz {m n : Nat} (A B : Matrix (Fin m) (Fin n) ℝ) (j : Nat) (hj : j < n) :
    |singularValue A j - singularValue B j| ≤ frob (A - B) := by
  obtain ⟨h0, hL, V, hV, hAV⟩ := singularValue_spec A
  obtain ⟨h0', hL', V', hV', hBV⟩ := singularValue_spec B
  have h1 := weyl_sv_abs (s := fun i : Fin n => singularValue A i) (s' := fun i : Fin n => singularValue B i) hV hV' hAV
    hBV (fun i j hij => hL hij) (fun i => h0 i) (fun i j hij => hL' hij) (fun i => h0' i) j hj hj
  rwa [abs_sub_comm]

/-- Eigenvalues of nearby matrices. -/
theorem eigenvalueDesc_lipschitz {n : Nat} {A B : Matrix (Fin n) (Fin n) ℝ} (hA : A.IsSymm) (hB : B.IsSymm) (j : Fin n) :
    |eigenvalueDesc hA j - eigenvalueDesc hB j| ≤ frob (A - B) := by
  obtain ⟨hL, Q, hQ, hAQ⟩ := eigenvalueDesc_spec hA
  obtain ⟨hM, V, hV, hBV⟩ := eigenvalueDesc_spec hB
  have h1 := weyl_eig_abs hQ hV hL hM j
  rw [← hAQ, ← hBV] at h1
  rwa [abs_sub_comm]

/-- The squares of the singular values are the eigenvalues of the Gram matrix. -/
theorem eigenvalueDesc_gram {m n : Nat} (A : Matrix (Fin m) (Fin n) ℝ) (hG : (Aᵀ * A).IsSymm) (j : Fin n) :
    eigenvalueDesc hG j = singularValue A j ^ 2 := by
  obtain ⟨h0, hL, V, hV, hAV⟩ := singularValue_spec A
  exact eigenvalueDesc_unique hG hV (fun i j hij => pow_le_pow_left₀ (h0 _) (hL hij) 2) hAV j

/-- The singular values of a positive semidefinite matrix are its eigenvalues. -/
theorem singularValue_psd {n : Nat} {A : Matrix (Fin n) (Fin n) ℝ} (hA : A.IsSymm)
    (hp : ∀ x : Fin n → ℝ, 0 ≤ x ⬝ᵥ A *ᵥ x) (j : Fin n) : singularValue A j = eigenvalueDesc hA j := by
  obtain ⟨hL, Q, hQ, hAQ⟩ := eigenvalueDesc_spec hA
  have hnn : ∀ i, 0 ≤ eigenvalueDesc hA i := by
    intro i
    have h1 := hp (Q *ᵥ Pi.single i 1)
    have h2 := quad_form Q (eigenvalueDesc hA) (Q *ᵥ Pi.single i 1)
    rw [← hAQ, Matrix.mulVec_mulVec (Pi.single i 1) Qᵀ Q, hQ, Matrix.one_mulVec] at h2
    rw [h2, Finset.sum_eq_single i (fun b _ hb => by rw [Pi.single_eq_of_ne hb]; simp) (by simp)] at h1
    simpa using h1
  refine singularValue_unique hQ hL hnn ?_ j
  conv_lhs => rw [hA.eq, hAQ]
  calc Q * diagonal (eigenvalueDesc hA) * Qᵀ * (Q * diagonal (eigenvalueDesc hA) * Qᵀ)
      = Q * (diagonal (eigenvalueDesc hA) * (Qᵀ * Q) * diagonal (eigenvalueDesc hA)) * Qᵀ := by
        simp only [Matrix.mul_assoc]
    _ = _ := by
      rw [hQ, Matrix.mul_one, diagonal_mul_diagonal]
      simp only [sq]

/-- Antitone families with the same characteristic polynomial are equal. -/
theorem antitone_eq_of_charpoly {n : Nat} {f g : Fin n → ℝ} (hf : Antitone f) (hg : Antitone g)
    (h : (diagonal f).charpoly = (diagonal g).charpoly) : f = g := by
  have hroots : ∀ f : Fin n → ℝ, (diagonal f).charpoly.roots = ((List.ofFn f : List ℝ) : Multiset ℝ) := fun f => by
    rw [charpoly_diagonal, ← Polynomial.roots_multiset_prod_X_sub_C ((List.ofFn f : List ℝ) : Multiset ℝ),
      Multiset.map_coe, Multiset.prod_coe, List.map_ofFn, List.prod_ofFn]
    rfl
  have h1 := congrArg Polynomial.roots h
  rw [hroots, hroots, Multiset.coe_eq_coe] at h1
  exact List.ofFn_injective (h1.eq_of_sortedGE hf.sortedGE_ofFn hg.sortedGE_ofFn)

theorem charpoly_conj {n : Nat} {Q : Matrix (Fin n) (Fin n) ℝ} (hQ : Qᵀ * Q = 1) (f : Fin n → ℝ) :
    (Q * diagonal f * Qᵀ).charpoly = (diagonal f).charpoly := by
  rw [charpoly_mul_comm, ← Matrix.mul_assoc, hQ, Matrix.one_mul]

/-- The singular values of a square matrix and of its transpose. -/
theorem singularValue_transpose {n : Nat} (A : Matrix (Fin n) (Fin n) ℝ) (j : Nat) (hj : j < n) :
    singularValue Aᵀ j = singularValue A j := by
  obtain ⟨h0, hL, V, hV, hAV⟩ := singularValue_spec A
  obtain ⟨h0', hL', V', hV', hAV'⟩ := singularValue_spec Aᵀ
  have h1 := congrArg Matrix.charpoly hAV
  have h2 := congrArg Matrix.charpoly hAV'
  rw [charpoly_conj hV] at h1
  rw [charpoly_conj hV', transpose_transpose, charpoly_mul_comm, h1] at h2
  have h3 := antitone_eq_of_charpoly (fun i j hij => pow_le_pow_left₀ (h0 _) (hL hij) 2)
    (fun i j hij => pow_le_pow_left₀ (h0' _) (hL' hij) 2) h2
  have h4 := congrFun h3 ⟨j, hj⟩
  exact ((pow_left_inj₀ (h0 j) (h0' j) two_ne_zero).1 h4).symm

end LinfaLinalg
