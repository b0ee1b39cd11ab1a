import Verif.Proofs.EighExample
import Verif.Proofs.EighPairs
import Mathlib.LinearAlgebra.Matrix.Charpoly.Basic

/-! # C27–C31: properties of `/repo/src/eigh.rs`

The main loop of `symmetric_eig` has no static bound; `fuel` is the number of iterations it is given
and the outcome `.error .fuel` means that it is still running. Every theorem holds for every `fuel`. -/

set_option linter.unusedSectionVars false

namespace LinfaLinalg

open Matrix

variable {α : Type} [Zero α] [One α] [Add α] [Sub α] [Mul α] [Div α] [Neg α] [NdFloat α]

/-- C27: `eigvalsh` returns exactly the values that `eigh` returns, fails exactly when `eigh` fails,
in the same way, and is still running exactly when `eigh` is; the by-reference variants are the
consuming ones. For every scalar type and every matrix. -/
theorem C27_eigvalsh_eq_eigh (fuel : Nat) (a : Arr2 α) :
    (∀ v, eigvalsh fuel a = .ok v ↔ ∃ q, eigh fuel a = .ok (v, q)) ∧
    (∀ f, eigvalsh fuel a = .error f ↔ eigh fuel a = .error f) ∧
    eigvalshInto fuel a = eigvalsh fuel a ∧ eighInto fuel a = eigh fuel a := by
  have hsim := symmetricEig_sim fuel a (NdFloat.epsilon : α)
  have hsome : ∀ r, symmetricEig fuel a true (NdFloat.epsilon : α) = .ok r → r.2.isSome = true := by
    intro r hr
    by_cases hs : a.nr = a.nc
    · have := symmetricEig_shape fuel a true (NdFloat.epsilon : α) hs
      rw [hr] at this
      exact this.2.2
    · rw [symmetricEig_notSquare _ _ _ _ hs] at hr
      exact absurd hr (by simp)
  refine ⟨?_, ?_, rfl, rfl⟩
  · intro v
    unfold eigvalsh eigvalshInto eigh eighInto
    cases h1 : symmetricEig fuel a true (NdFloat.epsilon : α) with
    | error e =>
      cases h2 : symmetricEig fuel a false (NdFloat.epsilon : α) with
      | error e' => constructor
                    · intro h; exact absurd h (by simp [error_bind])
                    · rintro ⟨q, h⟩; exact absurd h (by simp [error_bind])
      | ok r => rw [h1, h2] at hsim; exact hsim.elim
    | ok r =>
      cases h2 : symmetricEig fuel a false (NdFloat.epsilon : α) with
      | error e' => rw [h1, h2] at hsim; exact hsim.elim
      | ok r' =>
        rw [h1, h2] at hsim
        obtain ⟨v1, q1⟩ := r
        obtain ⟨q, rfl⟩ := Option.isSome_iff_exists.1 (hsome _ h1)
        have hv : v1 = r'.1 := hsim
        subst hv
        simp [ok_bind]
  · intro f
    unfold eigvalsh eigvalshInto eigh eighInto
    cases h1 : symmetricEig fuel a true (NdFloat.epsilon : α) with
    | error e =>
      cases h2 : symmetricEig fuel a false (NdFloat.epsilon : α) with
      | error e' =>
        rw [h1, h2] at hsim
        have : e = e' := hsim
        subst this
        simp [error_bind]
      | ok r => rw [h1, h2] at hsim; exact hsim.elim
    | ok r =>
      cases h2 : symmetricEig fuel a false (NdFloat.epsilon : α) with
      | error e' => rw [h1, h2] at hsim; exact hsim.elim
      | ok r' =>
        obtain ⟨v1, q1⟩ := r
        obtain ⟨q, rfl⟩ := Option.isSome_iff_exists.1 (hsome _ h1)
        simp [ok_bind]

theorem eigh_real_swaps {n : Nat} (fuel : Nat) (a : Arr2 ℝ) (ha : HasShape a n n)
    (hs : (toMat n n a).IsSymm) :
    wp (eigh fuel a) (fun r => ∃ σ : Equiv.Perm (Fin n),
      r.1.len = n ∧ HasShape r.2 n n ∧ (toMat n n r.2)ᵀ * toMat n n r.2 = 1 ∧
      frob (toMat n n a - toMat n n r.2 *
          (Matrix.diagonal fun i => r.1.get (σ i)) * (toMat n n r.2)ᵀ) ≤
        2 * (n - 1 : Nat) * NdFloat.epsilon * frob (toMat n n a) ∧
      ∀ k, σ k ≠ k → σ (σ k) = k ∧ ((σ k : Nat) = k + 1 ∨ (k : Nat) = σ k + 1) ∧
        |r.1.get k| + |r.1.get (σ k)| ≤ (1 + 2 * NdFloat.epsilon) * a.amax) (fun e => e = .fuel) := by
  have hsq : a.nr = a.nc := by rw [ha.1, ha.2]
  have hshape := symmetricEig_shape fuel a true (NdFloat.epsilon : ℝ) hsq
  unfold eigh eighInto
  rw [wp_bind]
  by_cases hn : n = 0
  · rw [symmetricEig_empty _ _ _ _ hsq (by rw [ha.1, hn])]
    subst hn
    refine ⟨Equiv.refl _, rfl, ⟨rfl, rfl⟩, ?_, ?_, fun k => k.elim0⟩
    · ext i; exact i.elim0
    · simp [frob]
  · have hr := symmetricEig_real fuel a (eps := NdFloat.epsilon) (by rw [real_epsilon]; positivity)
      ha (by omega) hs
    cases h : symmetricEig fuel a true (NdFloat.epsilon : ℝ) with
    | error e => rw [h] at hr; exact hr
    | ok r =>
      rw [h] at hr hshape
      obtain ⟨v, q⟩ := r
      obtain ⟨Q, σ, h1, h2, h3, h4⟩ := hr
      simp only at h1
      subst h1
      exact ⟨σ, hshape.1.trans ha.1, h2, h3, h4⟩

theorem eigh_real {n : Nat} (fuel : Nat) (a : Arr2 ℝ) (ha : HasShape a n n)
    (hs : (toMat n n a).IsSymm) :
    wp (eigh fuel a) (fun r => ∃ σ : Equiv.Perm (Fin n),
      r.1.len = n ∧ HasShape r.2 n n ∧ (toMat n n r.2)ᵀ * toMat n n r.2 = 1 ∧
      frob (toMat n n a - toMat n n r.2 *
          (Matrix.diagonal fun i => r.1.get (σ i)) * (toMat n n r.2)ᵀ) ≤
        2 * (n - 1 : Nat) * NdFloat.epsilon * frob (toMat n n a)) (fun e => e = .fuel) :=
  wp_conseq (eigh_real_swaps fuel a ha hs) fun _ ⟨σ, h1, h2, h3, h4, _⟩ => ⟨σ, h1, h2, h3, h4⟩

/-- C28: whenever `eigh` returns on a symmetric matrix, the eigenvectors are orthonormal.
Exact real arithmetic. -/
theorem C28_eigh_orthonormal {n : Nat} (fuel : Nat) (a : Arr2 ℝ) (ha : HasShape a n n)
    (hs : (toMat n n a).IsSymm) (vals : Arr1 ℝ) (vecs : Arr2 ℝ)
    (h : eigh fuel a = .ok (vals, vecs)) :
    HasShape vecs n n ∧ (toMat n n vecs)ᵀ * toMat n n vecs = 1 ∧
      toMat n n vecs * (toMat n n vecs)ᵀ = 1 := by
  have := eigh_real fuel a ha hs
  rw [h] at this
  obtain ⟨σ, h1, h2, h3, h4⟩ := this
  exact ⟨h2, h3, mul_eq_one_comm.1 h3⟩

/-- C29: whenever `eigvalsh` returns on a symmetric matrix, the returned values are, with
multiplicity, the eigenvalues of a symmetric matrix within `2 (n - 1) eps ‖A‖` of the given one.
Exact real arithmetic. -/
theorem C29_eigvalsh_backward_stable {n : Nat} (fuel : Nat) (a : Arr2 ℝ) (ha : HasShape a n n)
    (hs : (toMat n n a).IsSymm) (vals : Arr1 ℝ) (h : eigvalsh fuel a = .ok vals) :
    vals.len = n ∧ ∃ A' : Matrix (Fin n) (Fin n) ℝ, A'.IsSymm ∧
      frob (toMat n n a - A') ≤ 2 * (n - 1 : Nat) * (2 : ℝ)⁻¹ ^ 52 * frob (toMat n n a) ∧
      A'.charpoly = ∏ i : Fin n, (Polynomial.X - Polynomial.C (vals.get i)) := by
  obtain ⟨q, hq⟩ := (C27_eigvalsh_eq_eigh fuel a).1 vals |>.1 h
  have := eigh_real fuel a ha hs
  rw [hq] at this
  obtain ⟨σ, h1, h2, h3, h4⟩ := this
  refine ⟨h1, _, ?_, h4, ?_⟩
  · rw [Matrix.IsSymm, Matrix.transpose_mul, Matrix.transpose_mul, Matrix.transpose_transpose,
      Matrix.diagonal_transpose, Matrix.mul_assoc]
  · rw [Matrix.charpoly_mul_comm, ← Matrix.mul_assoc, h3, Matrix.one_mul,
      Matrix.charpoly_diagonal]
    exact Equiv.prod_comp σ (fun i : Fin n => Polynomial.X - Polynomial.C (vals.get i))

/-- C30, weakened: whenever `eigh` returns on a symmetric matrix, `Q diag(vals) Qᵀ = A` within
`2 (n - 1) eps ‖A‖` *for some re-ordering of the returned values*. The re-ordering only exchanges
neighbouring values, each at most once, and only values whose absolute values add up to at most
`(1 + 2 eps)` times the largest absolute value in the matrix. The full property (without
re-ordering) is false: see `C30_eigh_pairs_counterexample`. Exact real arithmetic. -/
theorem C30_eigh_pairs_partial {n : Nat} (fuel : Nat) (a : Arr2 ℝ) (ha : HasShape a n n)
    (hs : (toMat n n a).IsSymm) (vals : Arr1 ℝ) (vecs : Arr2 ℝ)
    (h : eigh fuel a = .ok (vals, vecs)) :
    ∃ σ : Equiv.Perm (Fin n), frob (toMat n n a - toMat n n vecs *
        (Matrix.diagonal fun i => vals.get (σ i)) * (toMat n n vecs)ᵀ) ≤
      2 * (n - 1 : Nat) * (2 : ℝ)⁻¹ ^ 52 * frob (toMat n n a) ∧
      ∀ k, σ k ≠ k → σ (σ k) = k ∧ ((σ k : Nat) = k + 1 ∨ (k : Nat) = σ k + 1) ∧
        ∃ i j : Fin n, |vals.get k| + |vals.get (σ k)| ≤
          (1 + 2 * (2 : ℝ)⁻¹ ^ 52) * |toMat n n a i j| := by
  have := eigh_real_swaps fuel a ha hs
  rw [h] at this
  obtain ⟨σ, h1, h2, h3, h4, h5⟩ := this
  refine ⟨σ, h4, fun k hk => ?_⟩
  obtain ⟨g1, g2, g3⟩ := h5 k hk
  have hn : 1 ≤ n := by have := k.2; omega
  obtain ⟨-, i, j, hi, hj, hij⟩ := amax_real a (by rw [ha.1]; exact hn) (by rw [ha.2]; exact hn)
  refine ⟨g1, g2, ⟨i, by rw [← ha.1]; exact hi⟩, ⟨j, by rw [← ha.2]; exact hj⟩, ?_⟩
  rw [toMat_apply, hij]
  exact g3

/-- C30 for well separated values: if the absolute values of any two returned values add up to more
than `(1 + 2 eps)` times every absolute value in the matrix, then every returned value belongs to the
vector returned with it. What is missing for the full property are the matrices with two small
eigenvalues. Exact real arithmetic. -/
theorem C30_eigh_separated_partial {n : Nat} (fuel : Nat) (a : Arr2 ℝ) (ha : HasShape a n n)
    (hs : (toMat n n a).IsSymm) (vals : Arr1 ℝ) (vecs : Arr2 ℝ)
    (h : eigh fuel a = .ok (vals, vecs))
    (hsep : ∀ k l i j : Fin n, k ≠ l →
      (1 + 2 * (2 : ℝ)⁻¹ ^ 52) * |toMat n n a i j| < |vals.get k| + |vals.get l|) :
    frob (toMat n n a - toMat n n vecs * (Matrix.diagonal fun i : Fin n => vals.get i) *
        (toMat n n vecs)ᵀ) ≤ 2 * (n - 1 : Nat) * (2 : ℝ)⁻¹ ^ 52 * frob (toMat n n a) := by
  obtain ⟨σ, h1, h2⟩ := C30_eigh_pairs_partial fuel a ha hs vals vecs h
  have : ∀ k, σ k = k := by
    intro k
    by_contra hk
    obtain ⟨-, -, i, j, hij⟩ := h2 k hk
    exact absurd (hsep k (σ k) i j (Ne.symm hk)) (not_lt.2 hij)
  simpa only [this] using h1

/-- C30 for the large eigenvalues: a returned value that exceeds `(1 + 2 eps)` times every entry of the
matrix in absolute value, together with its vector, is an eigenpair within `2 (n - 1) eps ‖A‖`. What
is missing for the full property are the smaller values. Exact real arithmetic. -/
theorem C30_eigh_large_values_partial {n : Nat} (fuel : Nat) (a : Arr2 ℝ) (ha : HasShape a n n)
    (hs : (toMat n n a).IsSymm) (vals : Arr1 ℝ) (vecs : Arr2 ℝ)
    (h : eigh fuel a = .ok (vals, vecs)) (k : Fin n)
    (hk : ∀ i j : Fin n, (1 + 2 * (2 : ℝ)⁻¹ ^ 52) * |toMat n n a i j| < |vals.get k|) :
    Real.sqrt (∑ i, ((∑ j, toMat n n a i j * toMat n n vecs j k) -
        vals.get k * toMat n n vecs i k) ^ 2) ≤
      2 * (n - 1 : Nat) * (2 : ℝ)⁻¹ ^ 52 * frob (toMat n n a) := by
  obtain ⟨σ, h1, h2⟩ := C30_eigh_pairs_partial fuel a ha hs vals vecs h
  obtain ⟨-, o1, o2⟩ := C28_eigh_orthonormal fuel a ha hs vals vecs h
  have hσ : σ k = k := by
    by_contra hne
    obtain ⟨-, -, i, j, hij⟩ := h2 k hne
    have := hk i j
    have := abs_nonneg (vals.get (σ k))
    linarith
  have e : (toMat n n a - toMat n n vecs * (Matrix.diagonal fun i => vals.get (σ i)) *
      (toMat n n vecs)ᵀ) * toMat n n vecs =
      toMat n n a * toMat n n vecs - toMat n n vecs * (Matrix.diagonal fun i => vals.get (σ i)) := by
    rw [Matrix.sub_mul, Matrix.mul_assoc _ _ (toMat n n vecs), o1, Matrix.mul_one]
  rw [← frob_mul_orth o2, e] at h1
  refine le_trans ?_ h1
  unfold frob
  apply Real.sqrt_le_sqrt
  rw [Finset.sum_comm]
  refine le_trans (le_of_eq ?_) (Finset.single_le_sum (f := fun j => ∑ i, (toMat n n a *
    toMat n n vecs - toMat n n vecs * (Matrix.diagonal fun i => vals.get (σ i))) i j ^ 2)
    (fun _ _ => Finset.sum_nonneg fun _ _ => sq_nonneg _) (Finset.mem_univ k))
  refine Finset.sum_congr rfl fun i _ => ?_
  rw [Matrix.sub_apply, Matrix.mul_apply, Matrix.mul_diagonal, hσ, mul_comm (toMat n n vecs i k)]

/-- C30 holds without any condition for matrices with at most two rows. -/
theorem C30_eigh_two_partial {n : Nat} (hn : n ≤ 2) (fuel : Nat) (a : Arr2 ℝ) (ha : HasShape a n n)
    (hs : (toMat n n a).IsSymm) (vals : Arr1 ℝ) (vecs : Arr2 ℝ)
    (h : eigh fuel a = .ok (vals, vecs)) :
    frob (toMat n n a - toMat n n vecs * (Matrix.diagonal fun i : Fin n => vals.get i) *
        (toMat n n vecs)ᵀ) ≤ 2 * (n - 1 : Nat) * (2 : ℝ)⁻¹ ^ 52 * frob (toMat n n a) := by
  by_cases h2 : n = 2
  · subst h2
    have hw := symmetricEig_pairs fuel a (eps := NdFloat.epsilon) (by rw [real_epsilon]; positivity)
      (by rw [real_epsilon]; norm_num) ha hs
    unfold eigh eighInto at h
    cases hr : symmetricEig fuel a true (NdFloat.epsilon : ℝ) with
    | error e => rw [hr] at h; exact absurd h (by simp [error_bind])
    | ok r =>
      rw [hr] at hw h
      obtain ⟨v, q⟩ := r
      obtain ⟨Q, h1, -, h3⟩ := hw
      simp only at h1
      subst h1
      simp only [ok_bind, Except.ok.injEq, Prod.mk.injEq] at h
      obtain ⟨rfl, rfl⟩ := h
      rw [real_epsilon] at h3
      simpa using h3
  · obtain ⟨σ, h1, -⟩ := C30_eigh_pairs_partial fuel a ha hs vals vecs h
    have : σ = Equiv.refl _ := by
      ext k
      have := k.2
      have := (σ k).2
      simp only [Equiv.refl_apply]
      omega
    rw [this] at h1
    exact h1

/-- `C30_eigh_large_values_partial` and `C30_eigh_separated_partial` apply to `[[1, 1], [1, 1]]`: `eigh`
returns, one of the values is large and any two add up to more than the bound. -/
example : ∃ vals vecs, eigh 1 (ofRows 2 2 [[1, 1], [1, 1]]) = .ok (vals, vecs) ∧
    ∃ k : Fin 2, (∀ i j : Fin 2, (1 + 2 * (2 : ℝ)⁻¹ ^ 52) *
        |toMat 2 2 (ofRows 2 2 [[1, 1], [1, 1]]) i j| < |vals.get k|) ∧
      ∀ k l i j : Fin 2, k ≠ l → (1 + 2 * (2 : ℝ)⁻¹ ^ 52) *
        |toMat 2 2 (ofRows 2 2 [[1, 1], [1, 1]]) i j| < |vals.get k| + |vals.get l| := by
  obtain ⟨⟨vals, vecs⟩, h⟩ := eigh_two (ofRows 2 2 [[1, 1], [1, 1]]) ⟨rfl, rfl⟩
  have hs : (toMat 2 2 (ofRows 2 2 [[1, 1], [1, 1]])).IsSymm := by
    ext i j
    fin_cases i <;> fin_cases j <;> simp [ofRows]
  have hone : ∀ i j : Fin 2, |toMat 2 2 (ofRows 2 2 [[1, 1], [1, 1]]) i j| = 1 := by
    intro i j
    fin_cases i <;> fin_cases j <;> simp [ofRows]
  have h1 := C30_eigh_two_partial le_rfl 1 _ ⟨rfl, rfl⟩ hs vals vecs h
  obtain ⟨-, o1, o2⟩ := C28_eigh_orthonormal (n := 2) 1 _ ⟨rfl, rfl⟩ hs vals vecs h
  have hA : frob (toMat 2 2 (ofRows 2 2 [[1, 1], [1, 1]])) = 2 := by
    have h3 : ∀ i j : Fin 2, toMat 2 2 (ofRows 2 2 [[1, 1], [1, 1]]) i j = 1 := by
      intro i j
      fin_cases i <;> fin_cases j <;> simp [ofRows]
    rw [frob]
    simp only [h3, Fin.sum_univ_two]
    rw [show ((1 : ℝ) ^ 2 + 1 ^ 2 + (1 ^ 2 + 1 ^ 2)) = 2 ^ 2 by norm_num]
    exact Real.sqrt_sq (by norm_num)
  have hD : frob (toMat 2 2 vecs * (Matrix.diagonal fun i : Fin 2 => vals.get i) *
      (toMat 2 2 vecs)ᵀ) ^ 2 = vals.get 0 ^ 2 + vals.get 1 ^ 2 := by
    rw [frob_mul_orth (by rw [Matrix.transpose_transpose]; exact o1), frob_orth_mul o1, frob_sq]
    simp [Fin.sum_univ_two]
  have htri : 2 - 1 / 100 ≤ frob (toMat 2 2 vecs * (Matrix.diagonal fun i : Fin 2 => vals.get i) *
      (toMat 2 2 vecs)ᵀ) := by
    have h3 := frob_sub_le (toMat 2 2 (ofRows 2 2 [[1, 1], [1, 1]])) (toMat 2 2 vecs *
      (Matrix.diagonal fun i : Fin 2 => vals.get i) * (toMat 2 2 vecs)ᵀ) 0
    rw [sub_zero, sub_zero, hA] at h3
    rw [hA] at h1
    norm_num at h1
    linarith
  have hsq : (39 / 10 : ℝ) ≤ vals.get 0 ^ 2 + vals.get 1 ^ 2 := by
    rw [← hD]
    nlinarith
  have hsum : (19 / 10 : ℝ) ≤ |vals.get 0| + |vals.get 1| := by
    by_contra hlt
    have := abs_nonneg (vals.get 0)
    have := abs_nonneg (vals.get 1)
    nlinarith [sq_abs (vals.get 0), sq_abs (vals.get 1)]
  have hbig : ∃ k : Fin 2, (13 / 10 : ℝ) ≤ |vals.get k| := by
    by_contra hlt
    push Not at hlt
    have g0 := hlt 0
    have g1 := hlt 1
    simp only [Fin.val_zero, Fin.val_one] at g0 g1
    nlinarith [sq_abs (vals.get 0), sq_abs (vals.get 1), abs_nonneg (vals.get 0),
      abs_nonneg (vals.get 1)]
  obtain ⟨k, hk⟩ := hbig
  refine ⟨vals, vecs, h, k, fun i j => ?_, fun k l i j hkl => ?_⟩
  · rw [hone]
    refine lt_of_lt_of_le ?_ hk
    norm_num
  · rw [hone]
    refine lt_of_lt_of_le (b := 19 / 10) (by norm_num) ?_
    fin_cases k <;> fin_cases l <;> simp at hkl ⊢
    · exact hsum
    · rw [add_comm]; exact hsum

/-- C30 is false of the code as it stands: on the symmetric matrix `exA` (with `f = 3/4 eps`)
`eigh` returns, but `Q diag(vals) Qᵀ` differs from the matrix by at least `1/2`. The rotation of a
`2 × 2` block is skipped when its norm is at most `eps`, although the two values have been written
to the diagonal in the other order (`/repo/src/eigh.rs:111-121`). -/
theorem C30_eigh_pairs_counterexample :
    HasShape exA 3 3 ∧ (toMat 3 3 exA).IsSymm ∧ ∃ vals vecs, eigh 1 exA = .ok (vals, vecs) ∧
      1 / 2 ≤ frob (toMat 3 3 exA - toMat 3 3 vecs *
        (Matrix.diagonal fun i : Fin 3 => vals.get i) * (toMat 3 3 vecs)ᵀ) ∧
      2 * (3 - 1 : Nat) * (2 : ℝ)⁻¹ ^ 52 * frob (toMat 3 3 exA) <
        frob (toMat 3 3 exA - toMat 3 3 vecs *
          (Matrix.diagonal fun i : Fin 3 => vals.get i) * (toMat 3 3 vecs)ᵀ) := by
  refine ⟨⟨rfl, rfl⟩, ?_, ?_⟩
  · ext i j
    fin_cases i <;> fin_cases j <;> simp [exA, ofRows]
  · obtain ⟨vals, vecs, h1, h2, h3⟩ := exEigh
    have hh : 1 / 2 ≤ frob (toMat 3 3 exA - toMat 3 3 vecs *
        (Matrix.diagonal fun i : Fin 3 => vals.get i) * (toMat 3 3 vecs)ᵀ) := by
      refine le_trans ?_ (abs_le_frob _ (1 : Fin 3) (1 : Fin 3))
      rw [h2, Matrix.one_mul, Matrix.transpose_one, Matrix.mul_one]
      have : (toMat 3 3 exA - Matrix.diagonal fun i : Fin 3 => vals.get i) 1 1 = -vals.get 1 := by
        simp [exA, ofRows]
      rw [this, abs_neg]
      exact h3.trans (le_abs_self _)
    refine ⟨vals, vecs, h1, hh, lt_of_lt_of_le ?_ hh⟩
    have hA : frob (toMat 3 3 exA) ≤ 2 := by
      apply frob_le_of_sq (by norm_num)
      simp [Fin.sum_univ_three, exA, ofRows]
      norm_num
    calc 2 * ((3 - 1 : Nat) : ℝ) * (2 : ℝ)⁻¹ ^ 52 * frob (toMat 3 3 exA)
        ≤ 2 * ((3 - 1 : Nat) : ℝ) * (2 : ℝ)⁻¹ ^ 52 * 2 :=
          mul_le_mul_of_nonneg_left hA (by positivity)
      _ < 1 / 2 := by norm_num

/-- The hypotheses of C28–C30 are met by a concrete symmetric (indefinite, not diagonal) matrix on
which `eigh` and `eigvalsh` return. -/
example : HasShape (ofRows 2 2 [[1, 2], [2, -5]]) 2 2 ∧
    (toMat 2 2 (ofRows 2 2 [[1, 2], [2, -5]])).IsSymm ∧
    ∃ vals vecs, eigh 1 (ofRows 2 2 [[1, 2], [2, -5]]) = .ok (vals, vecs) ∧
      eigvalsh 1 (ofRows 2 2 [[1, 2], [2, -5]]) = .ok vals := by
  refine ⟨⟨rfl, rfl⟩, ?_, ?_⟩
  · ext i j
    fin_cases i <;> fin_cases j <;> simp [ofRows]
  · obtain ⟨⟨vals, vecs⟩, h⟩ := eigh_two (ofRows 2 2 [[1, 2], [2, -5]]) ⟨rfl, rfl⟩
    exact ⟨vals, vecs, h, ((C27_eigvalsh_eq_eigh 1 _).1 vals).2 ⟨vecs, h⟩⟩

/-- C31: `NotSquare` exactly for non-square input; the empty matrix yields empty results; otherwise
whenever `eigh` returns it returns `n` values and an `n × n` matrix; it never accesses memory out of
bounds, and the only possible panic is the `unwrap` of the `2 × 2` eigenvalues on a block that passed
the deflation test. For every scalar type. -/
theorem C31_eigh_shapes (fuel : Nat) (a : Arr2 α) :
    (a.nr ≠ a.nc → eigh fuel a = .error (.err (.notSquare a.nr a.nc))) ∧
    (a.nr = a.nc → a.nr = 0 → eigh fuel a = .ok (Arr1.zeros 0, Arr2.zeros 0 0)) ∧
    (a.nr = a.nc → match eigh fuel a with
      | .ok (vals, vecs) => vals.len = a.nr ∧ HasShape vecs a.nr a.nr
      | .error .fuel => True
      | .error .panic => ∃ x o y : α,
          NdFloat.lt (NdFloat.epsilon * (NdFloat.abs y + NdFloat.abs x)) (NdFloat.abs o) = true ∧
          compute2x2Eigvals x o o y = none
      | .error _ => False) := by
  refine ⟨?_, ?_, ?_⟩
  · intro h
    unfold eigh eighInto
    rw [symmetricEig_notSquare _ _ _ _ h]; rfl
  · intro h h0
    unfold eigh eighInto
    rw [symmetricEig_empty _ _ _ _ h h0]; rfl
  · intro h
    have := symmetricEig_shape fuel a true (NdFloat.epsilon : α) h
    unfold eigh eighInto
    cases hr : symmetricEig fuel a true (NdFloat.epsilon : α) with
    | error e =>
      rw [hr] at this
      rcases this with rfl | ⟨rfl, hh⟩
      · trivial
      · simp only [error_bind]
        simp only [Safe2x2, not_forall] at hh
        obtain ⟨x, o, y, h1, h2⟩ := hh
        exact ⟨x, o, y, h1, not_not.1 h2⟩
    | ok r =>
      rw [hr] at this
      obtain ⟨v, q⟩ := r
      obtain ⟨h1, h2, h3⟩ := this
      obtain ⟨q, rfl⟩ := Option.isSome_iff_exists.1 h3
      exact ⟨h1, h2 q rfl⟩

end LinfaLinalg
