import Verif.Props.LobpcgErrors
import Verif.Props.LobpcgRitz
import Verif.Props.RoundingEigh
import Verif.Props.SvdTerm
import Verif.Props.TruncatedSvdRitz
import Verif.Proofs.ForwardErr

/-! # C133: accuracy of the vectors

A vector with a small residual need not be near any single eigenvector, when eigenvalues are close to each other. It is near the
span of all the eigenvectors whose eigenvalues are close to the value. -/

namespace LinfaLinalg

open Matrix

section general
variable {ι : Type} [Fintype ι] [DecidableEq ι]

/-- All sums of eigenvectors of `A` for eigenvalues at a distance of less than `δ` from `θ`. -/
def NearSpan (A : Matrix ι ι ℝ) (θ δ : ℝ) : Submodule ℝ (ι → ℝ) :=
  Submodule.span ℝ {u | ∃ μ : ℝ, |μ - θ| < δ ∧ A *ᵥ u = μ • u}

theorem near_of_diagonal {A Q : Matrix ι ι ℝ} {L : ι → ℝ} (hQ : Qᵀ * Q = 1) (hA : A * Q = Q * diagonal L) (x : ι → ℝ) (θ : ℝ)
    {δ : ℝ} (hδ : 0 < δ) :
    ∃ y ∈ NearSpan A θ δ, δ ^ 2 * ((x - y) ⬝ᵥ (x - y)) ≤ (A *ᵥ x - θ • x) ⬝ᵥ (A *ᵥ x - θ • x) := by
  have hQ' : Q * Qᵀ = 1 := mul_eq_one_comm.1 hQ
  have hdot : ∀ z : ι → ℝ, (Q *ᵥ z) ⬝ᵥ (Q *ᵥ z) = z ⬝ᵥ z := fun z => by
    rw [dotProduct_mulVec, vecMul_mulVec, ← dotProduct_mulVec, hQ, one_mulVec]
  obtain ⟨c, rfl⟩ : ∃ c, x = Q *ᵥ c := ⟨Qᵀ *ᵥ x, by rw [mulVec_mulVec, hQ', one_mulVec]⟩
  refine ⟨Q *ᵥ fun i => if |L i - θ| < δ then c i else 0, ?_, ?_⟩
  · have e : (Q *ᵥ fun i => if |L i - θ| < δ then c i else 0) =
        ∑ i, (if |L i - θ| < δ then c i else 0) • (fun r => Q r i) := by
      ext r
      rw [Finset.sum_apply]
      exact Finset.sum_congr rfl fun i _ => mul_comm _ _
    rw [e]
    refine Submodule.sum_mem _ fun i _ => ?_
    by_cases h : |L i - θ| < δ
    · rw [if_pos h]
      refine Submodule.smul_mem _ _ (Submodule.subset_span ?_)
      refine ⟨L i, h, ?_⟩
      ext r
      have h2 := congrFun (congrFun hA r) i
      rw [mul_diagonal] at h2
      rw [Pi.smul_apply, smul_eq_mul, mul_comm, ← h2]
      rfl
    · rw [if_neg h, zero_smul]
      exact Submodule.zero_mem _
  · have e1 : Q *ᵥ c - Q *ᵥ (fun i => if |L i - θ| < δ then c i else 0) = Q *ᵥ fun i => if |L i - θ| < δ then 0 else c i := by
      rw [← mulVec_sub]
      congr 1
      ext i
      by_cases h : |L i - θ| < δ <;> simp [h]
    have e2 : A *ᵥ (Q *ᵥ c) - θ • (Q *ᵥ c) = Q *ᵥ fun i => (L i - θ) * c i := by
      rw [mulVec_mulVec, hA, ← mulVec_mulVec, ← mulVec_smul, ← mulVec_sub]
      congr 1
      ext i
      simp [mulVec_diagonal, sub_mul]
    rw [e1, e2, hdot, hdot, dotProduct, dotProduct, Finset.mul_sum]
    refine Finset.sum_le_sum fun i _ => ?_
    by_cases h : |L i - θ| < δ
    · simp only [h, if_true, mul_zero]; exact mul_self_nonneg _
    · simp only [h, if_false]
      have h1 : δ ^ 2 ≤ (L i - θ) ^ 2 := by
        rw [← sq_abs (L i - θ)]
        exact pow_le_pow_left₀ hδ.le (not_lt.1 h) 2
      nlinarith [mul_self_nonneg (c i)]

/-- A symmetric matrix has an orthonormal basis of eigenvectors. -/
theorem exists_eigenbasis {A : Matrix ι ι ℝ} (hA : A.IsSymm) :
    ∃ (Q : Matrix ι ι ℝ) (L : ι → ℝ), Qᵀ * Q = 1 ∧ A * Q = Q * diagonal L := by
  have hH : A.IsHermitian := by rw [Matrix.IsHermitian, conjTranspose_eq_transpose_of_trivial]; exact hA
  refine ⟨Matrix.of fun i j => hH.eigenvectorBasis j i, hH.eigenvalues, ?_, ?_⟩
  · ext i j
    rw [Matrix.mul_apply, Matrix.one_apply, ← hH.eigenvectorBasis.inner_eq_ite i j,
      EuclideanSpace.inner_eq_star_dotProduct, dotProduct]
    refine Finset.sum_congr rfl fun k _ => ?_
    simp [mul_comm]
  · ext i j
    have := congrFun (hH.mulVec_eigenvectorBasis j) i
    rw [Matrix.mul_diagonal, Matrix.of_apply, mul_comm]
    exact this

/-- A residual measures how much of the vector is outside of the eigenvectors for nearby eigenvalues. -/
theorem near_of_residual {A : Matrix ι ι ℝ} (hA : A.IsSymm) (x : ι → ℝ) (θ : ℝ) {δ : ℝ} (hδ : 0 < δ) :
    ∃ y ∈ NearSpan A θ δ, δ ^ 2 * ((x - y) ⬝ᵥ (x - y)) ≤ (A *ᵥ x - θ • x) ⬝ᵥ (A *ᵥ x - θ • x) := by
  obtain ⟨Q, L, h1, h2⟩ := exists_eigenbasis hA
  exact near_of_diagonal h1 h2 x θ hδ

omit [DecidableEq ι] in
/-- If all of those eigenvectors are multiples of one, the vector is near a multiple of that one. -/
theorem NearSpan.single {A : Matrix ι ι ℝ} {θ δ : ℝ} {u y : ι → ℝ}
    (hu : ∀ z μ, |μ - θ| < δ → A *ᵥ z = μ • z → ∃ c : ℝ, z = c • u) (hy : y ∈ NearSpan A θ δ) : ∃ c : ℝ, y = c • u := by
  have : NearSpan A θ δ ≤ Submodule.span ℝ {u} := by
    refine Submodule.span_le.2 ?_
    rintro z ⟨μ, h1, h2⟩
    obtain ⟨c, rfl⟩ := hu z μ h1 h2
    exact Submodule.smul_mem _ _ (Submodule.mem_span_singleton_self u)
  obtain ⟨c, hc⟩ := Submodule.mem_span_singleton.1 (this hy)
  exact ⟨c, hc.symm⟩

end general

/-- All sums of pairs of left and right singular vectors of `A` for singular values at a distance of less than `δ` from
`s`: pairs with `A q = μ p` and `Aᵀ p = μ q`. -/
def NearPairs {m n : Nat} (A : Matrix (Fin m) (Fin n) ℝ) (s δ : ℝ) : Submodule ℝ ((Fin m → ℝ) × (Fin n → ℝ)) :=
  Submodule.span ℝ {z | ∃ μ : ℝ, |μ - s| < δ ∧ A *ᵥ z.2 = μ • z.1 ∧ Aᵀ *ᵥ z.1 = μ • z.2}

/-- The vector version in terms of lengths. -/
theorem near_len {n : Nat} {A : Matrix (Fin n) (Fin n) ℝ} (hA : A.IsSymm) (x : Fin n → ℝ) (θ : ℝ) {δ : ℝ} (hδ : 0 < δ) :
    ∃ y ∈ NearSpan A θ δ, δ * len (x - y) ≤ len (A *ᵥ x - θ • x) := by
  obtain ⟨y, h1, h2⟩ := near_of_residual hA x θ hδ
  refine ⟨y, h1, abs_le_of_sq_le_sq' ?_ (len_nonneg _) |>.2⟩
  rwa [mul_pow, len_sq, len_sq]

/-- The version for singular vectors. -/
theorem near_pairs {m n : Nat} (A : Matrix (Fin m) (Fin n) ℝ) (u : Fin m → ℝ) (v : Fin n → ℝ) (s : ℝ) {δ : ℝ} (hδ : 0 < δ) :
    ∃ p q, (p, q) ∈ NearPairs A s δ ∧ δ ^ 2 * (len (u - p) ^ 2 + len (v - q) ^ 2) ≤
      len (A *ᵥ v - s • u) ^ 2 + len (Aᵀ *ᵥ u - s • v) ^ 2 := by
  have hH : (fromBlocks 0 A Aᵀ 0 : Matrix (Fin m ⊕ Fin n) (Fin m ⊕ Fin n) ℝ).IsSymm := by
    rw [Matrix.IsSymm, fromBlocks_transpose]; simp
  have hmul : ∀ z : Fin m ⊕ Fin n → ℝ, (fromBlocks 0 A Aᵀ 0 : Matrix (Fin m ⊕ Fin n) (Fin m ⊕ Fin n) ℝ) *ᵥ z =
      Sum.elim (A *ᵥ (z ∘ Sum.inr)) (Aᵀ *ᵥ (z ∘ Sum.inl)) := fun z => by
    rw [fromBlocks_mulVec]; simp
  obtain ⟨y, h1, h2⟩ := near_of_residual hH (Sum.elim u v) s hδ
  refine ⟨y ∘ Sum.inl, y ∘ Sum.inr, ?_, ?_⟩
  · clear h2
    unfold NearSpan at h1
    induction h1 using Submodule.span_induction with
    | mem z hz =>
      obtain ⟨μ, k1, k2⟩ := hz
      rw [hmul] at k2
      refine Submodule.subset_span ⟨μ, k1, ?_, ?_⟩
      · funext i; exact congrFun k2 (Sum.inl i)
      · funext i; exact congrFun k2 (Sum.inr i)
    | zero => exact Submodule.zero_mem _
    | add x z _ _ hx hz => exact Submodule.add_mem _ hx hz
    | smul c x _ hx => exact Submodule.smul_mem _ c hx
  · rw [hmul] at h2
    simp only [len_sq]
    simpa only [dotProduct, Fintype.sum_sum_type, Pi.sub_apply, Pi.smul_apply, Sum.elim_inl, Sum.elim_inr,
      Function.comp_def] using h2

/-- **C133**: a vector returned by LOBPCG is within the residual norm returned with it, divided by `δ`, of a sum of
eigenvectors of the matrix for eigenvalues closer than `δ` to the value returned; every `δ`, every number of iterations,
converged or not, any eigensolver, preconditioner and constraints. Exact arithmetic. -/
theorem C133_lobpcg {n k : Nat} {A : Matrix (Fin n) (Fin n) ℝ} (hs : A.IsSymm) (eig : EigSolver ℝ) (P : LobParams ℝ)
    (hA : IsOperator A P) (x0 : Arr2 ℝ) (hx0 : HasShape x0 n k) (maxiter : Nat) (res : LobpcgResult ℝ)
    (hist : List (Iterate ℝ)) (h : lobpcgRun eig P x0 maxiter = .ok (res, hist)) (b : Lobpcg ℝ) (hb : Returned res b)
    (j : Fin k) {δ : ℝ} (hδ : 0 < δ) :
    ∃ rn, b.rnorm[j.val]? = some rn ∧ ∃ y ∈ NearSpan A (b.eigvals.get j) δ,
      δ * len ((fun i : Fin n => b.eigvecs.get i j) - y) ≤ rn := by
  obtain ⟨y, h1, h2⟩ := near_len hs (fun i : Fin n => b.eigvecs.get i j) (b.eigvals.get j) hδ
  exact ⟨_, C44_true_residuals A eig P hA x0 hx0 maxiter res hist h b hb j, y, h1, h2⟩

/-- **C133**: an eigenvalue with one eigenvector `u`, up to factors, and no other eigenvalue closer than `δ`. -/
theorem C133_lobpcg_simple {n k : Nat} {A : Matrix (Fin n) (Fin n) ℝ} (hs : A.IsSymm) (eig : EigSolver ℝ) (P : LobParams ℝ)
    (hA : IsOperator A P) (x0 : Arr2 ℝ) (hx0 : HasShape x0 n k) (maxiter : Nat) (res : LobpcgResult ℝ)
    (hist : List (Iterate ℝ)) (h : lobpcgRun eig P x0 maxiter = .ok (res, hist)) (b : Lobpcg ℝ) (hb : Returned res b)
    (j : Fin k) {δ : ℝ} (hδ : 0 < δ) (u : Fin n → ℝ)
    (hu : ∀ z μ, |μ - b.eigvals.get j| < δ → A *ᵥ z = μ • z → ∃ c : ℝ, z = c • u) :
    ∃ rn, b.rnorm[j.val]? = some rn ∧ ∃ c : ℝ, δ * len ((fun i : Fin n => b.eigvecs.get i j) - c • u) ≤ rn := by
  obtain ⟨rn, h1, y, h2, h3⟩ := C133_lobpcg hs eig P hA x0 hx0 maxiter res hist h b hb j hδ
  obtain ⟨c, rfl⟩ := NearSpan.single hu h2
  exact ⟨rn, h1, c, h3⟩

/-- **C133** for `TruncatedEig::decompose`. -/
theorem C133_truncatedEig {ρ : Type} {n num : Nat} (eig : EigSolver ℝ) (R : RandomSource ℝ ρ) (t t' : TruncatedEig ℝ ρ)
    (ht : HasShape t.problem n n) (hs : (toMat n n t.problem).IsSymm) (hnum : 1 ≤ num) (res : LobpcgResult ℝ)
    (h : t.decompose eig R num = .ok (res, t')) (b : Lobpcg ℝ) (hb : Returned res b) (j : Fin num) {δ : ℝ} (hδ : 0 < δ) :
    ∃ rn, b.rnorm[j.val]? = some rn ∧ ∃ y ∈ NearSpan (toMat n n t.problem) (b.eigvals.get j) δ,
      δ * len ((fun i : Fin n => b.eigvecs.get i j) - y) ≤ rn := by
  obtain ⟨y, h1, h2⟩ := near_len hs (fun i : Fin n => b.eigvecs.get i j) (b.eigvals.get j) hδ
  exact ⟨_, C44_truncatedEig eig R t t' ht hnum res h b hb j, y, h1, h2⟩

/-- **C133** for the iterator, which yields pairs with residual norms of at most `1/10`. -/
theorem C133_iterator {ρ : Type} {n : Nat} (eig : EigSolver ℝ) (R : RandomSource ℝ ρ) (it it' : TruncatedEigIterator ℝ ρ)
    (ht : HasShape it.eig.problem n n) (hs : (toMat n n it.eig.problem).IsSymm) (hst : 1 ≤ it.stepSize)
    (vals : Arr1 ℝ) (vecs : Arr2 ℝ) (h : it.next eig R = .ok (some (vals, vecs), it')) (j : Fin vals.len) {δ : ℝ}
    (hδ : 0 < δ) :
    ∃ y ∈ NearSpan (toMat n n it.eig.problem) (vals.get j) δ, δ * len ((fun i : Fin n => vecs.get i j) - y) ≤ 1 / 10 := by
  obtain ⟨y, h1, h2⟩ := near_len hs (fun i : Fin n => vecs.get i j) (vals.get j) hδ
  exact ⟨y, h1, h2.trans (C52_residuals_real eig R it it' ht hst vals vecs h j)⟩

theorem len_col {m n : Nat} {Q : Matrix (Fin m) (Fin n) ℝ} (hQ : Qᵀ * Q = 1) (k : Fin n) : len (fun i => Q i k) = 1 := by
  have := congrFun (congrFun hQ k) k
  rw [mul_apply, one_apply_eq] at this
  rw [len, ← Real.sqrt_one, ← this]
  simp only [transpose_apply, sq]

/-- The columns of a factorization with a small defect have small residuals. -/
theorem residual_col {m n r : Nat} (A : Matrix (Fin m) (Fin n) ℝ) (U : Matrix (Fin m) (Fin r) ℝ)
    {W : Matrix (Fin n) (Fin r) ℝ} (hW : Wᵀ * W = 1) (d : Fin r → ℝ) (k : Fin r) :
    len (A *ᵥ (fun i => W i k) - d k • fun i => U i k) ≤ frob (A - U * diagonal d * Wᵀ) := by
  have e1 : Wᵀ *ᵥ (fun i => W i k) = Pi.single k 1 := by
    funext l
    have := congrFun (congrFun hW l) k
    rw [one_apply] at this
    rw [Pi.single_apply]
    exact this
  have e2 : A *ᵥ (fun i => W i k) - d k • (fun i => U i k) = (A - U * diagonal d * Wᵀ) *ᵥ fun i => W i k := by
    rw [sub_mulVec, ← mulVec_mulVec, e1]
    congr 1
    funext i
    simp [mul_comm]
  rw [e2]
  refine (len_mulVec_le _ _).trans (le_of_eq ?_)
  rw [len_col hW, mul_one]

/-- **C133** for `eigh`: every vector returned is, up to `2(n-1)·2⁻⁵²‖A‖_F / δ`, a sum of eigenvectors for eigenvalues
closer than `δ` to one of the values returned. Which value, is told by the permutation of C30: not always the one at the
position of the vector. -/
theorem C133_eigh {n : Nat} (fuel : Nat) (a : Arr2 ℝ) (ha : HasShape a n n) (hs : (toMat n n a).IsSymm) (vals : Arr1 ℝ)
    (vecs : Arr2 ℝ) (h : eigh fuel a = .ok (vals, vecs)) :
    ∃ σ : Equiv.Perm (Fin n), (∀ k (δ : ℝ), 0 < δ → ∃ y ∈ NearSpan (toMat n n a) (vals.get (σ k)) δ,
      δ * len ((fun i : Fin n => vecs.get i k) - y) ≤ 2 * (n - 1 : Nat) * (2 : ℝ)⁻¹ ^ 52 * frob (toMat n n a)) ∧
      ∀ k, σ k ≠ k → σ (σ k) = k ∧ ((σ k : Nat) = k + 1 ∨ (k : Nat) = σ k + 1) ∧
        ∃ i j : Fin n, |vals.get k| + |vals.get (σ k)| ≤ (1 + 2 * (2 : ℝ)⁻¹ ^ 52) * |toMat n n a i j| := by
  obtain ⟨σ, h1, h2⟩ := C30_eigh_pairs_partial fuel a ha hs vals vecs h
  obtain ⟨-, o1, -⟩ := C28_eigh_orthonormal fuel a ha hs vals vecs h
  refine ⟨σ, fun k δ hδ => ?_, h2⟩
  obtain ⟨y, k1, k2⟩ := near_len hs (fun i : Fin n => vecs.get i k) (vals.get (σ k)) hδ
  exact ⟨y, k1, k2.trans ((residual_col (toMat n n a) (toMat n n vecs) o1 (fun i => vals.get (σ i)) k).trans h1)⟩

/-- **C133** for `eigh` where the pairing of C30 is certain: a value larger in magnitude than every entry of the matrix
(by a little) belongs to the vector at its position. -/
theorem C133_eigh_large {n : Nat} (fuel : Nat) (a : Arr2 ℝ) (ha : HasShape a n n) (hs : (toMat n n a).IsSymm)
    (vals : Arr1 ℝ) (vecs : Arr2 ℝ) (h : eigh fuel a = .ok (vals, vecs)) (k : Fin n)
    (hk : ∀ i j : Fin n, (1 + 2 * (2 : ℝ)⁻¹ ^ 52) * |toMat n n a i j| < |vals.get k|) {δ : ℝ} (hδ : 0 < δ) :
    ∃ y ∈ NearSpan (toMat n n a) (vals.get k) δ,
      δ * len ((fun i : Fin n => vecs.get i k) - y) ≤ 2 * (n - 1 : Nat) * (2 : ℝ)⁻¹ ^ 52 * frob (toMat n n a) := by
  obtain ⟨σ, h1, h2⟩ := C133_eigh fuel a ha hs vals vecs h
  have : σ k = k := by
    by_contra hne
    obtain ⟨-, -, i, j, h3⟩ := h2 k hne
    have := hk i j
    have := abs_nonneg (vals.get (σ k))
    linarith
  have h3 := h1 k δ hδ
  rwa [this] at h3

/-- **C133** for `svd`: every pair of vectors returned with a value `s` is close to a sum of pairs of singular vectors for
singular values closer than `δ` to `s`, the left and the right vectors with the same coefficients. -/
theorem C133_svd {m n : Nat} (fuel : Nat) (a U V : Arr2 ℝ) (s : Arr1 ℝ) (ha : HasShape a m n)
    (h : svd fuel a true true = .ok (some U, s, some V)) (k : Fin (min m n)) {δ : ℝ} (hδ : 0 < δ) :
    ∃ p q, (p, q) ∈ NearPairs (toMat m n a) (s.get k) δ ∧
      δ ^ 2 * (len ((fun i : Fin m => U.get i k) - p) ^ 2 + len ((fun i : Fin n => V.get k i) - q) ^ 2) ≤
        2 * (2 * (min m n - 1 : Nat) * (5 * (2 : ℝ)⁻¹ ^ 52) * frob (toMat m n a)) ^ 2 := by
  have hmn : m ≠ 0 ∧ n ≠ 0 := by have := k.2; omega
  have h1 := C35_svd_residual fuel a U V s ha h
  obtain ⟨U', V', e1, e2, -, -, -, o1, o2, -⟩ := (C34_svd_orthonormal fuel a ha hmn.1 hmn.2).2 _ _ _ h
  cases e1; cases e2
  obtain ⟨p, q, k1, k2⟩ := near_pairs (toMat m n a) (fun i : Fin m => U.get i k) (fun i : Fin n => V.get k i) (s.get k) hδ
  refine ⟨p, q, k1, k2.trans ?_⟩
  have r1 := residual_col (toMat m n a) (toMat m (min m n) U) (W := (toMat (min m n) n V)ᵀ) (by rwa [transpose_transpose])
    (toVec (min m n) s) k
  have r2 := residual_col (toMat m n a)ᵀ (toMat (min m n) n V)ᵀ o1 (toVec (min m n) s) k
  rw [transpose_transpose] at r1
  have e3 : (toMat m n a)ᵀ - (toMat (min m n) n V)ᵀ * diagonal (toVec (min m n) s) * (toMat m (min m n) U)ᵀ =
      (toMat m n a - toMat m (min m n) U * diagonal (toVec (min m n) s) * toMat (min m n) n V)ᵀ := by
    simp only [transpose_sub, transpose_mul, diagonal_transpose, Matrix.mul_assoc]
  rw [e3, frob_transpose] at r2
  rw [two_mul]
  exact add_le_add (pow_le_pow_left₀ (len_nonneg _) (r1.trans h1) 2) (pow_le_pow_left₀ (len_nonneg _) (r2.trans h1) 2)

/-- The two residuals of a Ritz triple, in terms of the residual of the eigenvector it comes from. -/
theorem triple_residual {p q num r : Nat} (B : Matrix (Fin p) (Fin q) ℝ) {eig : EigSolver ℝ} {P : LobParams ℝ}
    (hA : IsOperator (Bᵀ * B) P) {x0 : Arr2 ℝ} (hx0 : HasShape x0 q num) {maxiter : Nat} {res : LobpcgResult ℝ}
    {hist : List (Iterate ℝ)} (h : lobpcgRun eig P x0 maxiter = .ok (res, hist)) (b : Lobpcg ℝ) (hb : Returned res b)
    {U : Matrix (Fin p) (Fin r) ℝ} {V : Matrix (Fin q) (Fin r) ℝ} {s : Nat → ℝ}
    (hUV : B * V = U * diagonal fun j : Fin r => s j) (hs : ∀ j < r, 0 < s j ∧ s j ^ 2 = b.eigvals.get j) (hr : r ≤ num)
    (hV : V = (toMat q num b.eigvecs).submatrix id (Fin.castLE hr)) (j : Fin r) :
    ∃ rn, b.rnorm[j.val]? = some rn ∧ len (B *ᵥ (fun i => V i j) - s j • fun i => U i j) = 0 ∧
      s j * len (Bᵀ *ᵥ (fun i => U i j) - s j • fun i => V i j) = rn := by
  obtain ⟨hj0, hj2⟩ := hs j j.2
  have e0 : B *ᵥ (fun i => V i j) = s j • fun i => U i j := by
    funext i
    have := congrFun (congrFun hUV i) j
    rw [mul_diagonal, mul_comm] at this
    exact this
  refine ⟨_, C44_true_residuals (Bᵀ * B) eig P hA x0 hx0 maxiter res hist h b hb (Fin.castLE hr j), ?_, ?_⟩
  · rw [e0, sub_self]; simp [len]
  · have hcol : (fun i : Fin q => b.eigvecs.get i j) = fun i => V i j := by
      funext i; rw [hV]; rfl
    have e1 : (Bᵀ * B) *ᵥ (fun i => V i j) - s j ^ 2 • (fun i => V i j) =
        s j • (Bᵀ *ᵥ (fun i => U i j) - s j • fun i => V i j) := by
      rw [← mulVec_mulVec, e0, mulVec_smul, smul_sub, smul_smul, sq]
    have e2 : len ((Bᵀ * B) *ᵥ (fun i => V i j) - s j ^ 2 • (fun i => V i j)) =
        s j * len (Bᵀ *ᵥ (fun i => U i j) - s j • fun i => V i j) := by
      rw [e1, len, len, ← Real.sqrt_sq hj0.le, ← Real.sqrt_mul (sq_nonneg _), Real.sqrt_sq hj0.le, Finset.mul_sum]
      simp only [Pi.smul_apply, smul_eq_mul, mul_pow]
    rw [← e2, hj2, ← hcol]
    rfl

section
variable [MagnitudeCorrection ℝ]

/-- **C133** for `TruncatedSvd`, more rows than columns: every returned triple is, up to the residual norm of the run
divided by the value and by `δ`, a sum of pairs of singular vectors for singular values closer than `δ` to the value.
Same assumptions as C74. -/
theorem C133_tall (hc : 0 < (NdFloat.epsilon : ℝ) * MagnitudeCorrection.correction)
    (hc1 : (NdFloat.epsilon : ℝ) * MagnitudeCorrection.correction < 1) {ρ : Type} {n m num : Nat}
    {eig : EigSolver ℝ} (he : EigWithin 0 eig) (R : RandomSource ℝ ρ) (t : TruncatedSvd ℝ ρ)
    (hp : HasShape t.problem n m) (hnm : n > m) (hnum : 1 ≤ num) (res : LobpcgResult ℝ) (hist : List (Iterate ℝ))
    (h : lobpcgRun eig t.params (R.random m num t.rng).1 t.maxiter = .ok (res, hist))
    (hcond : ∀ it ∈ hist, ∀ C, it.gram = some C → WellConditioned condFloor C) (b : Lobpcg ℝ) (hb : Returned res b)
    (hrank : t.order = .smallest → ∀ x, (toMat n m t.problem).mulVec x = 0 → x = 0) :
    ∃ out u s vt, t.decompose eig R num = .ok out ∧ out.valuesVectors = .ok (u, s, vt) ∧
      ∀ (j : Fin s.len) (δ : ℝ), 0 < δ → ∃ rn p q, b.rnorm[j.val]? = some rn ∧
        (p, q) ∈ NearPairs (toMat n m t.problem) (s.get j) δ ∧
        (s.get j * δ) ^ 2 * (len ((fun i : Fin n => u.get i j) - p) ^ 2 + len ((fun i : Fin m => vt.get j i) - q) ^ 2) ≤
          rn ^ 2 := by
  obtain ⟨out, r, u, s, vt, h1, h2, -, rfl, -, -, h7, hr, hV⟩ :=
    tall_triples hc hc1 he R t hp hnm hnum res hist h hcond b hb hrank
  refine ⟨out, u, s, vt, h1, h2, fun j δ hδ => ?_⟩
  obtain ⟨rn, k1, k2, k3⟩ := triple_residual _ (t.isOperator_tall hp hnm) (x0 := (R.random m num t.rng).1) ⟨rfl, rfl⟩ h b hb
    h7.exact_side h7.value hr hV j
  obtain ⟨p, q, g1, g2⟩ := near_pairs (toMat n m t.problem) (fun i : Fin n => u.get i j) (fun i : Fin m => vt.get j i)
    (s.get j) hδ
  refine ⟨rn, p, q, k1, g1, ?_⟩
  have g3 := mul_le_mul_of_nonneg_left g2 (sq_nonneg (s.get j))
  rw [mul_pow, mul_assoc]
  refine g3.trans (le_of_eq ?_)
  rw [← k3, mul_pow]
  congr 1
  have k2' : len (toMat n m t.problem *ᵥ (fun i : Fin m => vt.get j i) - s.get j • fun i : Fin n => u.get i j) = 0 := k2
  rw [k2']
  simp only [ne_eq, OfNat.ofNat_ne_zero, not_false_eq_true, zero_pow, zero_add]
  rfl

/-- **C133** for `TruncatedSvd`, no more rows than columns. -/
theorem C133_wide (hc : 0 < (NdFloat.epsilon : ℝ) * MagnitudeCorrection.correction)
    (hc1 : (NdFloat.epsilon : ℝ) * MagnitudeCorrection.correction < 1) {ρ : Type} {n m num : Nat}
    {eig : EigSolver ℝ} (he : EigWithin 0 eig) (R : RandomSource ℝ ρ) (t : TruncatedSvd ℝ ρ)
    (hp : HasShape t.problem n m) (hnm : n ≤ m) (hnum : 1 ≤ num) (res : LobpcgResult ℝ) (hist : List (Iterate ℝ))
    (h : lobpcgRun eig t.params (R.random n num t.rng).1 t.maxiter = .ok (res, hist))
    (hcond : ∀ it ∈ hist, ∀ C, it.gram = some C → WellConditioned condFloor C) (b : Lobpcg ℝ) (hb : Returned res b)
    (hrank : t.order = .smallest → ∀ x, (toMat n m t.problem)ᵀ.mulVec x = 0 → x = 0) :
    ∃ out u s vt, t.decompose eig R num = .ok out ∧ out.valuesVectors = .ok (u, s, vt) ∧
      ∀ (j : Fin s.len) (δ : ℝ), 0 < δ → ∃ rn p q, b.rnorm[j.val]? = some rn ∧
        (p, q) ∈ NearPairs (toMat n m t.problem) (s.get j) δ ∧
        (s.get j * δ) ^ 2 * (len ((fun i : Fin n => u.get i j) - p) ^ 2 + len ((fun i : Fin m => vt.get j i) - q) ^ 2) ≤
          rn ^ 2 := by
  obtain ⟨out, r, u, s, vt, h1, h2, -, rfl, -, -, h7, hr, hV⟩ :=
    wide_triples hc hc1 he R t hp hnm hnum res hist h hcond b hb hrank
  refine ⟨out, u, s, vt, h1, h2, fun j δ hδ => ?_⟩
  have hA : IsOperator ((toMat n m t.problem)ᵀᵀ * (toMat n m t.problem)ᵀ) t.params := by
    rw [transpose_transpose]
    exact t.isOperator_wide hp hnm
  obtain ⟨rn, k1, k2, k3⟩ := triple_residual _ hA (x0 := (R.random n num t.rng).1) ⟨rfl, rfl⟩ h b hb
    h7.exact_side h7.value hr hV j
  obtain ⟨p, q, g1, g2⟩ := near_pairs (toMat n m t.problem) (fun i : Fin n => u.get i j) (fun i : Fin m => vt.get j i)
    (s.get j) hδ
  refine ⟨rn, p, q, k1, g1, ?_⟩
  have g3 := mul_le_mul_of_nonneg_left g2 (sq_nonneg (s.get j))
  rw [mul_pow, mul_assoc]
  refine g3.trans (le_of_eq ?_)
  rw [← k3, mul_pow]
  congr 1
  have k2' : len ((toMat n m t.problem)ᵀ *ᵥ (fun i : Fin n => u.get i j) - s.get j • fun i : Fin m => vt.get j i) = 0 := k2
  rw [k2', transpose_transpose]
  simp only [ne_eq, OfNat.ofNat_ne_zero, not_false_eq_true, zero_pow, add_zero]
  rfl

end

/-! ## The hypotheses and the conclusions are not trivial -/

/-- Only one direction is near `1` for `diag(1, 2)`, up to the distance `1`. -/
theorem exNear {y : Fin 2 → ℝ} (hy : y ∈ NearSpan (diagonal ![1, 2]) 1 1) : y 1 = 0 := by
  unfold NearSpan at hy
  induction hy using Submodule.span_induction with
  | mem z hz =>
    obtain ⟨μ, h1, h2⟩ := hz
    have h3 := congrFun h2 1
    simp [mulVec_diagonal] at h3
    rcases h3 with h3 | h3
    · rw [← h3] at h1; norm_num at h1
    · exact h3
  | zero => rfl
  | add x z _ _ hx hz => rw [Pi.add_apply, hx, hz, add_zero]
  | smul c x _ hx => rw [Pi.smul_apply, hx, smul_zero]

/-- The bound of `near_len` is attained: for `diag(1, 2)`, the value `1` and the vector `(0, 1)` the residual is `1`, and
the distance to the span is `1`. -/
example : len ((diagonal ![1, 2] : Matrix (Fin 2) (Fin 2) ℝ) *ᵥ ![0, 1] - (1 : ℝ) • ![0, 1]) = 1 ∧
    ∀ y ∈ NearSpan (diagonal ![1, 2] : Matrix (Fin 2) (Fin 2) ℝ) 1 1, 1 ≤ len (![0, 1] - y) := by
  refine ⟨?_, fun y hy => ?_⟩
  · simp [len, Fin.sum_univ_two, mulVec_diagonal]; norm_num
  · have := exNear hy
    rw [len, Fin.sum_univ_two]
    refine Real.le_sqrt_of_sq_le ?_
    simp [this]
    positivity

/-- The run `strict_run`, which makes one update step, meets the hypotheses of `C133_lobpcg`. -/
example : ∃ b rn, (∃ hist, lobpcgRun exactEig strictParams (ofRows 2 1 [[1], [1]]) 1 = .ok (.ok b, hist)) ∧
    b.rnorm[0]? = some rn ∧ ∃ y ∈ NearSpan (toMat 2 2 (ofRows 2 2 [[1, 0], [0, 3]])) (b.eigvals.get 0) 1,
      len ((fun i : Fin 2 => b.eigvecs.get i 0) - y) ≤ rn := by
  obtain ⟨b, it0, it1, h, -⟩ := strict_run
  obtain ⟨rn, h1, y, h2, h3⟩ := C133_lobpcg strict_symm exactEig strictParams strict_operator _ (k := 1) ⟨rfl, rfl⟩ 1 _ _ h b
    (.inl rfl) 0 one_pos
  rw [one_mul] at h3
  exact ⟨b, rn, ⟨_, h⟩, h1, y, h2, h3⟩

/-- The first call of `next()` on the identity (`identity_next`) meets the hypotheses of `C133_iterator`. -/
example (fuel : Nat) : ∃ (vals : Arr1 ℝ) (vecs : Arr2 ℝ), (∃ it', identityProblem.intoIter.next (eighInto fuel)
      ⟨fun _ _ s => (fun _ _ => 1, s)⟩ = .ok (some (vals, vecs), it')) ∧
    ∃ y ∈ NearSpan (toMat 2 2 (ofRows 2 2 [[1, 0], [0, 1]])) (vals.get 0) (1 / 2),
      1 / 2 * len ((fun i : Fin 2 => vecs.get i 0) - y) ≤ 1 / 10 := by
  obtain ⟨vals, vecs, it', h, h1, -⟩ := identity_next fuel
  refine ⟨vals, vecs, ⟨it', h⟩, ?_⟩
  exact C133_iterator (n := 2) _ _ _ _ ⟨rfl, rfl⟩ (by
    ext i j
    fin_cases i <;> fin_cases j <;> simp [identityProblem, TruncatedEig.intoIter, TruncatedEig.new, ofRows]) (by
    simp [TruncatedEig.intoIter]) vals vecs h ⟨0, by omega⟩ (by norm_num)

/-- `eigh` returns on every symmetric positive semidefinite matrix (C70), here `[[2, 1], [1, 2]]`. -/
example : ∃ fuel vals vecs, eigh fuel (ofRows 2 2 [[2, 1], [1, 2]]) = .ok (vals, vecs) ∧
    (toMat 2 2 (ofRows 2 2 [[2, 1], [1, 2]])).IsSymm := by
  have hs : (toMat 2 2 (ofRows 2 2 [[2, 1], [1, 2]])).IsSymm := by
    ext i j
    fin_cases i <;> fin_cases j <;> simp [ofRows]
  obtain ⟨⟨vals, vecs⟩, h⟩ := eigh_two (ofRows 2 2 [[2, 1], [1, 2]]) ⟨rfl, rfl⟩
  exact ⟨1, vals, vecs, h, hs⟩

/-- The run `tall_run` meets the hypotheses of `C133_tall`. -/
example : letI : MagnitudeCorrection ℝ := ⟨1000⟩
    ∃ out u s vt, (tallProblem .largest).decompose exactEig ⟨fun _ _ s => (fun _ _ => 1, s)⟩ 1 = .ok out ∧
      out.valuesVectors = .ok (u, s, vt) := by
  let _ : MagnitudeCorrection ℝ := ⟨1000⟩
  obtain ⟨b, hist, h, hc, hrank⟩ := tall_run .largest
  obtain ⟨out, u, s, vt, h1, h2, -⟩ := C133_tall (n := 3) (m := 2) (by
    show (0 : ℝ) < (2 : ℝ)⁻¹ ^ 52 * 1000
    positivity) (by
    show (2 : ℝ)⁻¹ ^ 52 * 1000 < 1
    norm_num) exactEig_within ⟨fun _ _ s => (fun _ _ => 1, s)⟩ (tallProblem .largest) ⟨rfl, rfl⟩ (by norm_num) le_rfl
    (.ok b) hist h hc b (.inl rfl) (fun _ => hrank)
  exact ⟨out, u, s, vt, h1, h2⟩

/-- `svd` returns for every nonempty matrix (C73), so that C133 applies to all of them. -/
example : ∃ U s V, svd (svdFuel 2 3) (ofRows 2 3 [[1, 2, 3], [4, 5, 6]]) true true = .ok (some U, s, some V) := by
  obtain ⟨U, s, V, h, -⟩ := C73_svd_total (m := 2) (n := 3) (ofRows 2 3 [[1, 2, 3], [4, 5, 6]]) ⟨rfl, rfl⟩ (by simp)
    (by simp)
  exact ⟨U, s, V, h⟩

end LinfaLinalg
