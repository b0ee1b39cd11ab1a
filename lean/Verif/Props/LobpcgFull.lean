import Verif.Props.LobpcgSubspace
import Verif.Props.TruncatedSvdRitz
import Verif.Props.Builder
import Verif.Props.LobpcgGram
import Mathlib.LinearAlgebra.Matrix.Charpoly.Basic

/-! # C106: start matrices that span an invariant subspace -/

set_option linter.unusedSectionVars false

namespace LinfaLinalg

open Matrix

/-- Splitting a matrix by orthonormal columns. -/
theorem frob_split {n m k : Nat} {X : Matrix (Fin n) (Fin k) ℝ} (hX : Xᵀ * X = 1) (M : Matrix (Fin n) (Fin m) ℝ) :
    frob M ^ 2 = frob (Xᵀ * M) ^ 2 + frob ((1 - X * Xᵀ) * M) ^ 2 := by
  simp only [frob_sq_trace]
  rw [← Matrix.trace_add]
  congr 1
  have e1 : (1 - X * Xᵀ)ᵀ * (1 - X * Xᵀ) = 1 - X * Xᵀ := by
    rw [transpose_sub, transpose_one, transpose_mul, transpose_transpose, sub_mul, one_mul, mul_sub, mul_one,
      Matrix.mul_assoc X, ← Matrix.mul_assoc Xᵀ, hX, Matrix.one_mul, sub_self, sub_zero]
  have e2 : ((1 - X * Xᵀ) * M)ᵀ * ((1 - X * Xᵀ) * M) = Mᵀ * ((1 - X * Xᵀ) * M) := by
    rw [transpose_mul, Matrix.mul_assoc, ← Matrix.mul_assoc _ _ M, e1]
  have e3 : (Xᵀ * M)ᵀ * (Xᵀ * M) = Mᵀ * (X * Xᵀ * M) := by
    rw [transpose_mul, transpose_transpose]
    simp only [Matrix.mul_assoc]
  rw [e2, e3, ← Matrix.mul_add, ← Matrix.add_mul, add_sub_cancel, Matrix.one_mul]

/-- A square piece of a matrix between orthonormal columns is no larger than the matrix. -/
theorem frob_between_le {n k : Nat} {X : Matrix (Fin n) (Fin k) ℝ} (hX : Xᵀ * X = 1)
    (A : Matrix (Fin n) (Fin n) ℝ) : frob (Xᵀ * A * X) ≤ frob A := by
  have key : ∀ {m : Nat} (M : Matrix (Fin n) (Fin m) ℝ), frob (Xᵀ * M) ≤ frob M := by
    intro m M
    have h1 := frob_split hX M
    have h2 := sq_nonneg (frob ((1 - X * Xᵀ) * M))
    exact (sq_le_sq₀ (frob_nonneg _) (frob_nonneg _)).1 (by linarith)
  calc frob (Xᵀ * A * X) = frob (Xᵀ * (A * X)) := by rw [Matrix.mul_assoc]
    _ ≤ frob (A * X) := key _
    _ = frob (Xᵀ * Aᵀ) := by rw [← frob_transpose, transpose_mul]
    _ ≤ frob Aᵀ := key _
    _ = frob A := frob_transpose _

/-- The eigensolver returns orthogonal matrices, and for matrices of size `k` the values belong to the vectors,
with an error of at most `η` times the norm of the matrix. -/
def EigWithinAt (η : ℝ) (k : Nat) (eig : EigSolver ℝ) : Prop :=
  EigOrth eig ∧ ∀ (a : Arr2 ℝ) (v : Arr1 ℝ) (q : Arr2 ℝ), HasShape a k k →
    (toMat k k a).IsSymm → eig a = .ok (v, q) →
    frob ((toMat k k q)ᵀ * toMat k k a * toMat k k q - Matrix.diagonal fun i : Fin k => v.get i) ≤
      η * frob (toMat k k a)

theorem EigWithin.at {η : ℝ} {eig : EigSolver ℝ} (h : EigWithin η eig) (k : Nat) : EigWithinAt η k eig :=
  ⟨h.1, h.2 k⟩

/-- The eigensolver of the library on matrices of size one or two. -/
theorem eighInto_within {k : Nat} (hk : k ≤ 2) (fuel : Nat) :
    EigWithinAt (eighErr k) k (eighInto fuel : EigSolver ℝ) := by
  refine ⟨eighInto_orth fuel, fun a v q sa ha h => ?_⟩
  obtain ⟨-, -, oq⟩ := eighInto_orth fuel k a v q sa ha h
  have h1 := C30_eigh_two_partial hk fuel a sa ha v q h
  rw [← frob_conj_orth oq] at h1
  refine le_trans (le_of_eq ?_) h1
  rw [Matrix.mul_sub, Matrix.sub_mul]
  congr 2
  have h2 : (toMat k k q)ᵀ * toMat k k q = 1 := oq
  simp only [Matrix.mul_assoc]
  rw [h2, Matrix.mul_one, ← Matrix.mul_assoc, h2, Matrix.one_mul]

/-- The first iterate: orthonormal, and the values belong to the vectors up to the error of the
eigensolver. -/
theorem start_within {n k : Nat} {A : Matrix (Fin n) (Fin n) ℝ} {eig : EigSolver ℝ} {η : ℝ} (hη : 0 ≤ η)
    {order : Order} (he : EigWithinAt η k eig) {it : Iterate ℝ} (h : StartIter n k A eig order it) :
    (toMat n k it.pairs.eigvecs)ᵀ * toMat n k it.pairs.eigvecs = 1 ∧
    Ordered order (fun i : Fin k => it.pairs.eigvals.get i) ∧
    frob ((toMat n k it.pairs.eigvecs)ᵀ * A * toMat n k it.pairs.eigvecs -
      diagonal fun i : Fin k => it.pairs.eigvals.get i) ≤ η * frob A := by
  obtain ⟨-, x, a, vecs, ox, sa, ha, ea, hse, -, e⟩ := h
  have hk := sortedEig_pos he.1 sa ha hse
  obtain ⟨v0, U0, L, U, Pm, hU0, rfl, oP, hP, oU, eU, hord, hl⟩ := sortedEig_std he.1 hse sa ha hk le_rfl
  have eU : toMat k k vecs = toMat k k U0 * Pm := eU
  rw [e, eU]
  refine ⟨?_, ?_, ?_⟩
  · rw [transpose_mul, Matrix.mul_assoc, ← Matrix.mul_assoc _ (toMat n k x), ox, Matrix.one_mul, oU]
  · have := hord.castLE (le_refl k)
    simp only [← hl] at this
    exact this
  · have e1 : (toMat n k x * (toMat k k U0 * Pm))ᵀ * A * (toMat n k x * (toMat k k U0 * Pm)) -
        diagonal (fun i : Fin k => it.pairs.eigvals.get i) =
        Pmᵀ * ((toMat k k U0)ᵀ * toMat k k a * toMat k k U0 - diagonal fun i : Fin k => v0.get i) * Pm := by
      rw [Matrix.mul_sub, Matrix.sub_mul, hP, ea]
      congr 1
      · simp only [transpose_mul, Matrix.mul_assoc]
      · congr 1
        funext i
        exact hl i
    rw [e1, frob_conj_orth oP]
    refine (he.2 a v0 U0 sa ha hU0).trans (mul_le_mul_of_nonneg_left ?_ hη)
    rw [ea]
    exact frob_between_le ox A

/-- A run without unfinished pairs in its first iterate stops there. -/
theorem stops_at_first {n k : Nat} {eig : EigSolver ℝ} {P : LobParams ℝ} (hop : OpShape n P)
    {x0 : Arr2 ℝ} (hx0 : HasShape x0 n k) {maxiter : Nat} {res : LobpcgResult ℝ} {hist : List (Iterate ℝ)}
    (h : lobpcgRun eig P x0 maxiter = .ok (res, hist)) (it : Iterate ℝ) (hit : hist.head? = some it)
    (hconv : ∀ p < k, it.pairs.rnorm.getD p 0 ≤ P.tol) : hist = [it] ∧ res = .ok it.pairs := by
  cases hist with
  | nil => cases hit
  | cons it0 l =>
    simp only [List.head?_cons, Option.some.injEq] at hit
    subst hit
    obtain ⟨-, g2, g3⟩ := C49_locked eig P x0 maxiter _ _ h [] l it0 rfl
    have hcount : it0.active.count true = 0 := by
      rw [List.count_eq_zero]
      intro ht
      obtain ⟨p, hp', hpt⟩ := List.mem_iff_getElem.1 ht
      have hp := hp'
      rw [g2, hx0.2] at hp
      obtain ⟨norm, h4, h5⟩ := (g3 p (by rw [hx0.2]; exact hp)).1
        (by rw [List.getElem?_eq_getElem hp', hpt]) it0 (by simp)
      have := hconv p hp
      rw [List.getD_eq_getElem?_getD, h4, Option.getD_some] at this
      rw [real_lt, decide_eq_true_eq] at h5
      linarith
    obtain rfl : l = [] := by
      cases l with
      | nil => rfl
      | cons it1 l =>
        have := (C63_room hop hx0 h 0 it0 it1 rfl rfl).1
        omega
    refine ⟨rfl, ?_⟩
    rcases lobpcgRun_hist h with ⟨e, -, rfl, h0⟩ | ⟨_, _, st, o, b, _, _, -, hm, hend, hb, hh, rfl⟩
    · cases h0
    · have hblock : st.blockSize = 0 := by
        rw [hm.block, List.count_eq_zero]
        intro ht
        obtain ⟨p, hp', hpt⟩ := List.mem_iff_getElem.1 ht
        have hp := hp'
        rw [hm.mask.1, hx0.2] at hp
        have h1 := (hm.mask.2 p (by rw [hx0.2]; exact hp)).1
          (by rw [List.getD_eq_getElem?_getD, List.getElem?_eq_getElem hp', hpt]; rfl) it0 (by rw [← hh]; simp)
        rw [real_lt, decide_eq_true_eq] at h1
        have := hconv p hp
        linarith
      cases o with
      | some e => exact absurd hblock hend.1
      | none =>
        have hbest := hm.best
        rw [hb, ← hh] at hbest
        obtain ⟨i, hi, hib⟩ := hbest.1
        simp only [List.mem_singleton] at hi
        subst hi
        rw [← hib]

/-- The columns of the start matrix span a subspace that the operator maps into itself. -/
def Invariant {n k : Nat} (A : Matrix (Fin n) (Fin n) ℝ) (X : Matrix (Fin n) (Fin k) ℝ) : Prop :=
  ∃ C : Matrix (Fin k) (Fin k) ℝ, A * X = X * C

/-- **C106**, the first iterate: if the columns of the start matrix span an invariant subspace of the
symmetric operator, the vectors of the first iterate are orthonormal, its values are in the order asked for,
and the residual matrix `A X - X diag(λ)` has a norm of at most `η ‖A‖`, where `η` is the relative error of
the eigensolver for the small problem. -/
theorem C106_first_iterate {n k : Nat} {A : Matrix (Fin n) (Fin n) ℝ} (hs : A.IsSymm) {eig : EigSolver ℝ}
    {η : ℝ} (hη : 0 ≤ η) (he : EigWithinAt η k eig) {P : LobParams ℝ} (hA : IsOperator A P) (hy : P.y = none)
    {x0 : Arr2 ℝ} (hx0 : HasShape x0 n k) (hinv : Invariant A (toMat n k x0)) {maxiter : Nat}
    {res : LobpcgResult ℝ} {hist : List (Iterate ℝ)} (h : lobpcgRun eig P x0 maxiter = .ok (res, hist))
    (it : Iterate ℝ) (hit : hist.head? = some it) :
    (toMat n k it.pairs.eigvecs)ᵀ * toMat n k it.pairs.eigvecs = 1 ∧
    Ordered P.order (fun i : Fin k => it.pairs.eigvals.get i) ∧
    frob (A * toMat n k it.pairs.eigvecs -
      toMat n k it.pairs.eigvecs * diagonal fun i : Fin k => it.pairs.eigvals.get i) ≤ η * frob A := by
  obtain ⟨ho, hord, hle⟩ := start_within hη he ((lobpcgRun_ritz hs hA hx0 h).2 it hit)
  refine ⟨ho, hord, ?_⟩
  obtain ⟨C, hC⟩ := first_iterate_span hA.opShape hy hx0 h it hit
  obtain ⟨D, hD⟩ := hinv
  generalize toMat n k it.pairs.eigvecs = V at *
  have hu : (Vᵀ * toMat n k x0) * C = 1 := by rw [Matrix.mul_assoc, ← hC, ho]
  have hu' : C * (Vᵀ * toMat n k x0) = 1 := mul_eq_one_comm.1 hu
  have h1 : A * V = V * (Vᵀ * toMat n k x0 * D * C) := by
    calc A * V = toMat n k x0 * D * C := by rw [hC, ← Matrix.mul_assoc, hD]
      _ = toMat n k x0 * (C * (Vᵀ * toMat n k x0)) * D * C := by rw [hu', Matrix.mul_one]
      _ = V * (Vᵀ * toMat n k x0 * D * C) := by rw [hC]; simp only [Matrix.mul_assoc]
  have h2 : A * V = V * (Vᵀ * A * V) := by
    rw [Matrix.mul_assoc Vᵀ, h1, ← Matrix.mul_assoc Vᵀ, ho, Matrix.one_mul]
  rw [h2, ← Matrix.mul_sub, frob_orth_mul ho]
  exact hle

theorem residual_le_frob {n k : Nat} (M : Matrix (Fin n) (Fin k) ℝ) (j : Fin k) :
    Real.sqrt (∑ i, M i j ^ 2) ≤ frob M := by
  unfold frob
  apply Real.sqrt_le_sqrt
  refine Finset.sum_le_sum fun i _ => ?_
  exact Finset.single_le_sum (f := fun j => M i j ^ 2) (fun j _ => sq_nonneg _) (Finset.mem_univ j)

/-- From independent start vectors `lobpcg` gets to its first iterate. -/
theorem reaches_first {n k : Nat} {eig : EigSolver ℝ} (heig : EigTotal eig) {P : LobParams ℝ}
    (hop : OpShape n P) (hy : P.y = none) (hk : 1 ≤ k) (hkn : k ≤ n) {x0 : Arr2 ℝ} (hx0 : HasShape x0 n k)
    (hind : LinearIndependent ℝ (toMat n k x0).col) {maxiter : Nat} {res : LobpcgResult ℝ}
    {hist : List (Iterate ℝ)} (h : lobpcgRun eig P x0 maxiter = .ok (res, hist)) :
    ∃ it, hist.head? = some it := by
  have hcon : ∀ c x1, P.constrain c x0 = .ok x1 → x1 = x0 := by
    intro c x1 h1
    unfold LobParams.constrain at h1
    rw [hy] at h1
    simp only at h1
    injection h1 with h1
    exact h1.symm
  obtain ⟨b, hb⟩ : ∃ b, Returned res b := by
    rcases lobpcgRun_inv h with ⟨e, h2, -, -⟩ | ⟨-, -, -, o, b, -, -, -, -, rfl⟩
    · exfalso
      obtain ⟨u, l, h3, su, -⟩ := (C50_orthonormalize x0 hx0).1 hind
      cases h2 with
      | notThin h' => rw [hx0.1, hx0.2] at h'; omega
      | ortho c x1 _ _ hco hx1 h5 =>
        rw [hcon c x1 hx1, h3] at h5
        cases h5
      | eigen c x1 x2 l' ax xax _ _ hco hx1 h5 h6 h7 h8 =>
        rw [hcon c x1 hx1, h3] at h5
        injection h5 with h5
        simp only [Prod.mk.injEq] at h5
        obtain ⟨rfl, rfl⟩ := h5
        obtain ⟨sx, -⟩ := tdot_mat h7 su (hop _ _ _ _ su (unwrapM_eq_ok.1 h6))
        have := sortedEig_total heig hk sx (b := none) (fun _ h => by cases h) (le_refl k) P.order
        rw [hx0.2] at h8
        rw [h8] at this
        cases this
    · cases o with
      | none => exact ⟨b, Or.inl rfl⟩
      | some e => exact ⟨b, Or.inr ⟨e, rfl⟩⟩
  obtain ⟨⟨it, hit, -⟩, -⟩ := C42_best_iterate eig P x0 maxiter res hist h b hb
  cases hist with
  | nil => cases hit
  | cons it0 l => exact ⟨it0, rfl⟩

/-- **C106**: started with independent vectors that span an invariant subspace of the symmetric operator,
`lobpcg` stops at the first iterate and returns `Ok` with it, provided the tolerance is at least `η ‖A‖`. No
iteration is made, whatever the preconditioner. -/
theorem C106_stops {n k : Nat} {A : Matrix (Fin n) (Fin n) ℝ} (hs : A.IsSymm) {eig : EigSolver ℝ}
    {η : ℝ} (hη : 0 ≤ η) (he : EigWithinAt η k eig) (heig : EigTotal eig) {P : LobParams ℝ} (hA : IsOperator A P)
    (hy : P.y = none) (htol : η * frob A ≤ P.tol) (hk : 1 ≤ k) (hkn : k ≤ n)
    {x0 : Arr2 ℝ} (hx0 : HasShape x0 n k) (hind : LinearIndependent ℝ (toMat n k x0).col)
    (hinv : Invariant A (toMat n k x0)) {maxiter : Nat}
    {res : LobpcgResult ℝ} {hist : List (Iterate ℝ)} (h : lobpcgRun eig P x0 maxiter = .ok (res, hist)) :
    ∃ it, hist = [it] ∧ res = .ok it.pairs ∧
      (toMat n k it.pairs.eigvecs)ᵀ * toMat n k it.pairs.eigvecs = 1 ∧
      Ordered P.order (fun i : Fin k => it.pairs.eigvals.get i) ∧
      frob (A * toMat n k it.pairs.eigvecs -
        toMat n k it.pairs.eigvecs * diagonal fun i : Fin k => it.pairs.eigvals.get i) ≤ η * frob A := by
  obtain ⟨it, hit⟩ := reaches_first heig hA.opShape hy hk hkn hx0 hind h
  have hf := C106_first_iterate hs hη he hA hy hx0 hinv h it hit
  obtain ⟨h1, h2⟩ := stops_at_first hA.opShape hx0 h it hit fun p hp => by
    have := iterate_residual A eig P hA x0 hx0 maxiter res _ h it (List.mem_of_head? hit) ⟨p, hp⟩
    rw [List.getD_eq_getElem?_getD, this, Option.getD_some]
    refine le_trans ?_ (hf.2.2.trans htol)
    refine le_trans (le_of_eq ?_) (residual_le_frob _ ⟨p, hp⟩)
    congr 1
    refine Finset.sum_congr rfl fun i _ => ?_
    rw [Matrix.sub_apply, mul_diagonal, Matrix.mul_apply]
    simp only [Matrix.mulVec, dotProduct, toMat, Matrix.of_apply]
    ring
  exact ⟨it, h1, h2, hf⟩

/-- C106 with an exact eigensolver for the small problem: the pairs are exact, whatever the tolerance. -/
theorem C106_exact {n k : Nat} {A : Matrix (Fin n) (Fin n) ℝ} (hs : A.IsSymm) {eig : EigSolver ℝ}
    (he : EigWithinAt 0 k eig) (heig : EigTotal eig) {P : LobParams ℝ} (hA : IsOperator A P)
    (hy : P.y = none) (htol : 0 ≤ P.tol) (hk : 1 ≤ k) (hkn : k ≤ n)
    {x0 : Arr2 ℝ} (hx0 : HasShape x0 n k) (hind : LinearIndependent ℝ (toMat n k x0).col)
    (hinv : Invariant A (toMat n k x0)) {maxiter : Nat}
    {res : LobpcgResult ℝ} {hist : List (Iterate ℝ)} (h : lobpcgRun eig P x0 maxiter = .ok (res, hist)) :
    ∃ it, hist = [it] ∧ res = .ok it.pairs ∧
      (toMat n k it.pairs.eigvecs)ᵀ * toMat n k it.pairs.eigvecs = 1 ∧
      Ordered P.order (fun i : Fin k => it.pairs.eigvals.get i) ∧
      A * toMat n k it.pairs.eigvecs =
        toMat n k it.pairs.eigvecs * diagonal fun i : Fin k => it.pairs.eigvals.get i := by
  obtain ⟨it, h1, h2, h3, h4, h5⟩ := C106_stops hs le_rfl he heig hA hy (by rw [zero_mul]; exact htol) hk hkn
    hx0 hind hinv h
  rw [zero_mul] at h5
  exact ⟨it, h1, h2, h3, h4, sub_eq_zero.1 (frob_eq_zero (le_antisymm h5 (frob_nonneg _)))⟩

/-- **C106** with the eigensolver of the library, for one start vector: if it is an eigenvector, `lobpcg`
returns `Ok` at once with the exact eigenvalue and the eigenvector scaled to length one. -/
theorem C106_eigenvector {n : Nat} {A : Matrix (Fin n) (Fin n) ℝ} (hs : A.IsSymm) (fuel : Nat)
    {P : LobParams ℝ} (hA : IsOperator A P) (hy : P.y = none) (htol : 0 ≤ P.tol) (hn : 1 ≤ n)
    {x0 : Arr2 ℝ} (hx0 : HasShape x0 n 1) (hne : ∃ i : Fin n, x0.get i 0 ≠ 0) (μ : ℝ)
    (hμ : A.mulVec (fun i => x0.get i 0) = μ • fun i : Fin n => x0.get i 0) {maxiter : Nat}
    {res : LobpcgResult ℝ} {hist : List (Iterate ℝ)}
    (h : lobpcgRun (eighInto fuel) P x0 maxiter = .ok (res, hist)) :
    ∃ it, hist = [it] ∧ res = .ok it.pairs ∧ it.pairs.eigvals.get 0 = μ ∧
      ∑ i : Fin n, it.pairs.eigvecs.get i 0 ^ 2 = 1 ∧
      A.mulVec (fun i => it.pairs.eigvecs.get i 0) = μ • fun i : Fin n => it.pairs.eigvecs.get i 0 := by
  have hw : EigWithinAt 0 1 (eighInto fuel : EigSolver ℝ) := by
    have := eighInto_within (k := 1) (by norm_num) fuel
    simpa [eighErr] using this
  have hind : LinearIndependent ℝ (toMat n 1 x0).col := by
    rw [linearIndependent_unique_iff]
    obtain ⟨i, hi⟩ := hne
    exact fun h2 => hi (congrFun h2 i)
  have hinv : Invariant A (toMat n 1 x0) := by
    refine ⟨diagonal fun _ => μ, ?_⟩
    ext i j
    rw [Fin.fin_one_eq_zero j, mul_diagonal, mul_apply]
    have := congrFun hμ i
    simp only [mulVec, dotProduct, Pi.smul_apply, smul_eq_mul] at this
    simpa [toMat, mul_comm] using this
  obtain ⟨it, h1, h2, h3, -, h5⟩ := C106_exact hs hw (eighInto_total fuel) hA hy htol le_rfl hn hx0 hind hinv h
  have hone : ∑ i : Fin n, it.pairs.eigvecs.get i 0 ^ 2 = 1 := by
    have := congrFun (congrFun h3 0) 0
    simpa [mul_apply, toMat, sq] using this
  have hvec : A.mulVec (fun i => it.pairs.eigvecs.get i 0) =
      it.pairs.eigvals.get 0 • fun i : Fin n => it.pairs.eigvecs.get i 0 := by
    funext i
    have := congrFun (congrFun h5 i) 0
    rw [mul_diagonal, mul_apply] at this
    simpa [mulVec, dotProduct, toMat, mul_comm] using this
  obtain ⟨C, hC⟩ := first_iterate_span hA.opShape hy hx0 h it (by rw [h1]; rfl)
  have hsp : ∀ i : Fin n, it.pairs.eigvecs.get i 0 = x0.get i 0 * C 0 0 := by
    intro i
    have := congrFun (congrFun hC i) 0
    simpa [mul_apply, toMat] using this
  have hval : it.pairs.eigvals.get 0 = μ := by
    obtain ⟨i, hi⟩ : ∃ i : Fin n, it.pairs.eigvecs.get i 0 ≠ 0 := by
      by_contra hcon
      push Not at hcon
      simp [hcon] at hone
    have e1 := congrFun hvec i
    have e2 : A.mulVec (fun i => it.pairs.eigvecs.get i 0) i = μ * it.pairs.eigvecs.get i 0 := by
      have e3 : (fun i : Fin n => it.pairs.eigvecs.get i 0) = C 0 0 • fun i : Fin n => x0.get i 0 := by
        funext i
        rw [hsp i, Pi.smul_apply, smul_eq_mul, mul_comm]
      rw [e3, mulVec_smul, hμ, Pi.smul_apply, Pi.smul_apply, smul_eq_mul, smul_eq_mul, hsp i]
      ring
    rw [e2, Pi.smul_apply, smul_eq_mul] at e1
    exact (mul_right_cancel₀ hi e1).symm
  exact ⟨it, h1, h2, hval, hone, by rw [← hval]; exact hvec⟩

/-- C106 with the eigensolver of the library, for one or two start vectors. -/
theorem C106_eigh {n k : Nat} {A : Matrix (Fin n) (Fin n) ℝ} (hs : A.IsSymm) (fuel : Nat)
    {P : LobParams ℝ} (hA : IsOperator A P) (hy : P.y = none) (hk : 1 ≤ k) (hk2 : k ≤ 2) (hkn : k ≤ n)
    (htol : 2 * (k - 1 : Nat) * (2 : ℝ)⁻¹ ^ 52 * frob A ≤ P.tol) {x0 : Arr2 ℝ} (hx0 : HasShape x0 n k)
    (hind : LinearIndependent ℝ (toMat n k x0).col) (hinv : Invariant A (toMat n k x0)) {maxiter : Nat}
    {res : LobpcgResult ℝ} {hist : List (Iterate ℝ)}
    (h : lobpcgRun (eighInto fuel) P x0 maxiter = .ok (res, hist)) :
    ∃ it, hist = [it] ∧ res = .ok it.pairs ∧
      (toMat n k it.pairs.eigvecs)ᵀ * toMat n k it.pairs.eigvecs = 1 ∧
      Ordered P.order (fun i : Fin k => it.pairs.eigvals.get i) ∧
      frob (A * toMat n k it.pairs.eigvecs -
        toMat n k it.pairs.eigvecs * diagonal fun i : Fin k => it.pairs.eigvals.get i) ≤
          2 * (k - 1 : Nat) * (2 : ℝ)⁻¹ ^ 52 * frob A :=
  C106_stops hs (by unfold eighErr; positivity) (eighInto_within hk2 fuel) (eighInto_total fuel) hA hy htol hk hkn
    hx0 hind hinv h

/-- Independent columns of a square matrix make it invertible, so they span an invariant subspace. -/
theorem invariant_of_square {n : Nat} (A X : Matrix (Fin n) (Fin n) ℝ) (hX : LinearIndependent ℝ X.col) :
    Invariant A X := by
  have hu : IsUnit X.det := (Matrix.isUnit_iff_isUnit_det _).1
    (Matrix.linearIndependent_cols_iff_isUnit.1 hX)
  exact ⟨X⁻¹ * A * X, by
    rw [← Matrix.mul_assoc, ← Matrix.mul_assoc, Matrix.mul_nonsing_inv _ hu, Matrix.one_mul]⟩

/-- **C106**, all pairs at once: with as many independent start vectors as there are rows, `lobpcg` returns
a complete eigendecomposition `A = X diag(λ) Xᵀ`, with `X` orthogonal and every eigenvalue listed as often
as it occurs. -/
theorem C106_complete {n : Nat} {A : Matrix (Fin n) (Fin n) ℝ} (hs : A.IsSymm) {eig : EigSolver ℝ}
    (he : EigWithin 0 eig) (heig : EigTotal eig) {P : LobParams ℝ} (hA : IsOperator A P)
    (hy : P.y = none) (htol : 0 ≤ P.tol) (hn : 1 ≤ n)
    {x0 : Arr2 ℝ} (hx0 : HasShape x0 n n) (hind : LinearIndependent ℝ (toMat n n x0).col) {maxiter : Nat}
    {res : LobpcgResult ℝ} {hist : List (Iterate ℝ)} (h : lobpcgRun eig P x0 maxiter = .ok (res, hist)) :
    ∃ it, hist = [it] ∧ res = .ok it.pairs ∧
      (toMat n n it.pairs.eigvecs)ᵀ * toMat n n it.pairs.eigvecs = 1 ∧
      Ordered P.order (fun i : Fin n => it.pairs.eigvals.get i) ∧
      A = toMat n n it.pairs.eigvecs * diagonal (fun i : Fin n => it.pairs.eigvals.get i) *
        (toMat n n it.pairs.eigvecs)ᵀ ∧
      A.charpoly = ∏ i : Fin n, (Polynomial.X - Polynomial.C (it.pairs.eigvals.get i)) := by
  obtain ⟨it, h1, h2, h3, h4, h5⟩ := C106_exact hs (he.at n) heig hA hy htol hn le_rfl hx0 hind
    (invariant_of_square A _ hind) h
  have hA' : A = toMat n n it.pairs.eigvecs * diagonal (fun i : Fin n => it.pairs.eigvals.get i) *
      (toMat n n it.pairs.eigvecs)ᵀ := by
    rw [← h5, Matrix.mul_assoc, mul_eq_one_comm.1 h3, Matrix.mul_one]
  refine ⟨it, h1, h2, h3, h4, hA', ?_⟩
  rw [hA', Matrix.charpoly_mul_comm, ← Matrix.mul_assoc, h3, Matrix.one_mul, Matrix.charpoly_diagonal]

/-- **C106** for `TruncatedEig::decompose`: asked for all `n` pairs, with no constraints, and with an
invertible random start, it returns the complete eigendecomposition. -/
theorem C106_decompose {ρ : Type} {n : Nat} {eig : EigSolver ℝ} (he : EigWithin 0 eig) (heig : EigTotal eig)
    (R : RandomSource ℝ ρ) (t t' : TruncatedEig ℝ ρ) (ht : HasShape t.problem n n) (hn : 1 ≤ n)
    (hs : (toMat n n t.problem).IsSymm) (hc : t.constraints = none) (hp : 0 ≤ t.precision)
    (hind : LinearIndependent ℝ (toMat n n (R.random n n t.rng).1).col) (res : LobpcgResult ℝ)
    (h : t.decompose eig R n = .ok (res, t')) :
    ∃ b, res = .ok b ∧ (toMat n n b.eigvecs)ᵀ * toMat n n b.eigvecs = 1 ∧
      Ordered t.order (fun i : Fin n => b.eigvals.get i) ∧
      toMat n n t.problem = toMat n n b.eigvecs * diagonal (fun i : Fin n => b.eigvals.get i) *
        (toMat n n b.eigvecs)ᵀ ∧
      (toMat n n t.problem).charpoly = ∏ i : Fin n, (Polynomial.X - Polynomial.C (b.eigvals.get i)) := by
  obtain ⟨⟨hist, h1, -⟩, -⟩ := C78_decompose eig R t t' ht hn res h
  obtain ⟨it, -, h2, h3, h4, h5, h6⟩ := C106_complete hs he heig (t.isOperator ht) hc hp hn
    (x0 := (R.random n n t.rng).1) ⟨rfl, rfl⟩ hind h1
  exact ⟨it.pairs, h2, h3, h4, h5, h6⟩

/-! ## Singular values -/

theorem frob_diagonal_sq {r : Nat} (s : Fin r → ℝ) : frob (diagonal s) ^ 2 = ∑ j, s j ^ 2 := by
  rw [frob_sq_trace, diagonal_transpose, diagonal_mul_diagonal, trace_diagonal]
  simp only [sq]

/-- What is missing when only some of the singular triples are kept. -/
theorem triples_defect {p q r : Nat} {B : Matrix (Fin p) (Fin q) ℝ} {U : Matrix (Fin p) (Fin r) ℝ}
    {V : Matrix (Fin q) (Fin r) ℝ} {s : Fin r → ℝ} (hU : Uᵀ * U = 1) (hV : Vᵀ * V = 1)
    (h : B * V = U * diagonal s) :
    frob (B - U * diagonal s * Vᵀ) ^ 2 = frob B ^ 2 - ∑ j, s j ^ 2 := by
  have h1 := frob_split hV Bᵀ
  have h2 : frob (Vᵀ * Bᵀ) ^ 2 = ∑ j, s j ^ 2 := by
    rw [← transpose_mul, h, frob_transpose, frob_orth_mul hU, frob_diagonal_sq]
  have h3 : (1 - V * Vᵀ) * Bᵀ = (B - U * diagonal s * Vᵀ)ᵀ := by
    rw [← h, transpose_sub, transpose_mul, transpose_mul, transpose_transpose, Matrix.sub_mul, Matrix.one_mul,
      Matrix.mul_assoc]
  rw [h2, h3, frob_transpose, frob_transpose] at h1
  linarith

section

variable [MagnitudeCorrection ℝ]

/-- What `TruncatedSvd` returns when asked for all singular triples: `U` and `V` orthonormal, both equations
of a singular value decomposition, the values positive and in the order asked for. What is left out (only for
`Order::Largest`) are singular values at or below `√(ε c)` times the largest, where `ε c` is the cut-off of the
implementation. -/
structure FullSvd (order : Order) {n m r : Nat} (A : Matrix (Fin n) (Fin m) ℝ) (U : Matrix (Fin n) (Fin r) ℝ)
    (s : Fin r → ℝ) (V : Matrix (Fin m) (Fin r) ℝ) : Prop where
  orth_u : Uᵀ * U = 1
  orth_v : Vᵀ * V = 1
  right : A * V = U * diagonal s
  left : Aᵀ * U = V * diagonal s
  pos : ∀ j, 0 < s j
  ordered : Ordered order s
  complete : order = .smallest → A = U * diagonal s * Vᵀ
  nearly : frob (A - U * diagonal s * Vᵀ) ^ 2 ≤
    (min n m - r : Nat) * (NdFloat.epsilon * MagnitudeCorrection.correction) * frob A ^ 2

/-- What is left out, from the count of the values kept. -/
theorem rest_le (hc : 0 < (NdFloat.epsilon : ℝ) * MagnitudeCorrection.correction) {order : Order} {p q r : Nat}
    {B : Matrix (Fin p) (Fin q) ℝ} {U : Matrix (Fin p) (Fin r) ℝ} {V : Matrix (Fin q) (Fin r) ℝ} {s b : Nat → ℝ}
    {W : Matrix (Fin q) (Fin q) ℝ} (hq : 1 ≤ q) (hW : Wᵀ * W = 1)
    (hB : Bᵀ * B * W = W * diagonal fun i : Fin q => b i) (h : RitzTriples order q B U s V b) :
    (order = .smallest → B = U * diagonal (fun j : Fin r => s j) * Vᵀ) ∧
    frob (B - U * diagonal (fun j : Fin r => s j) * Vᵀ) ^ 2 ≤
      (q - r : Nat) * (NdFloat.epsilon * MagnitudeCorrection.correction) * frob B ^ 2 := by
  have hrq : r ≤ q := by
    cases order with
    | largest => exact (h.count_largest rfl).1
    | smallest => exact (h.count_smallest rfl).le
  have hdiag : Wᵀ * (Bᵀ * B) * W = diagonal fun i : Fin q => b i := by
    rw [Matrix.mul_assoc, hB, ← Matrix.mul_assoc, hW, Matrix.one_mul]
  have hsum : frob B ^ 2 = ∑ i ∈ Finset.range q, b i := by
    rw [frob_sq_trace, ← Fin.sum_univ_eq_sum_range b q, ← trace_diagonal (fun i : Fin q => b i), ← hdiag,
      trace_mul_comm (Wᵀ * (Bᵀ * B)), ← Matrix.mul_assoc, mul_eq_one_comm.1 hW, Matrix.one_mul]
  have hnn : ∀ i < q, 0 ≤ b i := by
    intro i hi
    have h1 := congrFun (congrFun hdiag ⟨i, hi⟩) ⟨i, hi⟩
    rw [diagonal_apply_eq] at h1
    have h2 : Wᵀ * (Bᵀ * B) * W = (B * W)ᵀ * (B * W) := by
      rw [transpose_mul]; simp only [Matrix.mul_assoc]
    rw [← h1, h2, mul_apply]
    exact Finset.sum_nonneg fun j _ => mul_self_nonneg _
  have hval : ∑ j : Fin r, s j ^ 2 = ∑ i ∈ Finset.range r, b i := by
    rw [← Fin.sum_univ_eq_sum_range b r]
    exact Finset.sum_congr rfl fun j _ => (h.value j j.2).2
  have hdef := triples_defect (s := fun j : Fin r => s j) h.orth_u h.orth_v h.exact_side
  have hrest : frob B ^ 2 - ∑ j : Fin r, s j ^ 2 = ∑ i ∈ Finset.Ico r q, b i := by
    rw [hsum, hval, Finset.sum_Ico_eq_sub _ hrq]
  rw [hrest] at hdef
  constructor
  · intro ho
    have h0 : ∑ i ∈ Finset.Ico r q, b i = 0 := by
      rw [h.count_smallest ho, Finset.Ico_self, Finset.sum_empty]
    rw [h0] at hdef
    exact sub_eq_zero.1 (frob_eq_zero (pow_eq_zero_iff (two_ne_zero) |>.1 hdef))
  · rw [hdef]
    cases order with
    | smallest =>
      rw [h.count_smallest rfl, Finset.Ico_self, Finset.sum_empty, Nat.sub_self, Nat.cast_zero, zero_mul, zero_mul]
    | largest =>
      have hb0 : b 0 ≤ frob B ^ 2 := by
        rw [hsum]
        exact Finset.single_le_sum (f := b) (fun i hi => hnn i (Finset.mem_range.1 hi)) (Finset.mem_range.2 hq)
      have := Finset.sum_le_card_nsmul (Finset.Ico r q) b
        (NdFloat.epsilon * MagnitudeCorrection.correction * frob B ^ 2) (fun i hi => by
          rw [Finset.mem_Ico] at hi
          have h1 := ((h.count_largest rfl).2 i hi.2).not.1 (by omega)
          rw [not_lt] at h1
          exact h1.trans (mul_le_mul_of_nonneg_left hb0 hc.le))
      rw [Nat.card_Ico, nsmul_eq_mul, ← mul_assoc] at this
      exact this

/-- **C106** for `TruncatedSvd::decompose`: asked for all `min(n, m)` triples with an invertible random start,
and of full rank if the order is `Smallest`, `values_vectors` returns a complete singular value decomposition,
but for what is below the cut-off. -/
theorem C106_svd (hc : 0 < (NdFloat.epsilon : ℝ) * MagnitudeCorrection.correction)
    (hc1 : (NdFloat.epsilon : ℝ) * MagnitudeCorrection.correction < 1) {ρ : Type} {n m q : Nat}
    {eig : EigSolver ℝ} (he : EigWithin 0 eig) (heig : EigTotal eig) (R : RandomSource ℝ ρ)
    (t : TruncatedSvd ℝ ρ) (hp : HasShape t.problem n m) (hq : q = min n m) (hq1 : 1 ≤ q)
    (hind : LinearIndependent ℝ (toMat q q (R.random q q t.rng).1).col)
    (hrank : t.order = .smallest → (toMat n m t.problem).rank = q)
    (out : TruncatedSvdResult ℝ) (h : t.decompose eig R q = .ok out) :
    ∃ (r : Nat) (u : Arr2 ℝ) (s : Arr1 ℝ) (vt : Arr2 ℝ), out.valuesVectors = .ok (u, s, vt) ∧
      out.values = .ok s ∧ s.len = r ∧ HasShape u n r ∧ HasShape vt r m ∧
      FullSvd t.order (toMat n m t.problem) (toMat n r u) (fun j : Fin r => s.get j) (toMat r m vt)ᵀ := by
  have hx0 : HasShape (R.random q q t.rng).1 q q := ⟨rfl, rfl⟩
  obtain ⟨res, hist, hrun⟩ : ∃ res hist,
      lobpcgRun eig t.params (R.random q q t.rng).1 t.maxiter = .ok (res, hist) := by
    unfold TruncatedSvd.decompose at h
    rw [if_neg (by omega), show min t.problem.nr t.problem.nc = q by rw [hp.1, hp.2, hq]] at h
    simp only [bind_eq_ok] at h
    obtain ⟨⟨res, hist⟩, h1, -⟩ := h
    exact ⟨res, hist, h1⟩
  have hinj : ∀ {a b : Nat} (B : Matrix (Fin a) (Fin b) ℝ), B.rank = b → ∀ x, B.mulVec x = 0 → x = 0 := by
    intro a b B hr x hx
    have h1 : Function.Injective B.mulVecLin := by
      rw [← LinearMap.ker_eq_bot, ← Submodule.finrank_eq_zero]
      have := LinearMap.finrank_range_add_finrank_ker B.mulVecLin
      rw [Module.finrank_fin_fun] at this
      unfold Matrix.rank at hr
      omega
    exact h1 (by rw [mulVecLin_apply, hx, map_zero])
  have hout : ∀ it : Iterate ℝ, res = .ok it.pairs →
      out = ⟨it.pairs.eigvals, it.pairs.eigvecs, t.problem, t.order, decide (n > m)⟩ := by
    rintro it rfl
    unfold TruncatedSvd.decompose at h
    rw [if_neg (by omega), show min t.problem.nr t.problem.nc = q by rw [hp.1, hp.2, hq]] at h
    simp only at h
    rw [hrun, ok_bind, hp.1, hp.2] at h
    injection h with h
    exact h.symm
  by_cases hnm : n > m
  · obtain rfl : q = m := by omega
    have hA := t.isOperator_tall hp hnm
    have hsym := isSymm_gram (toMat n q t.problem)
    obtain ⟨it, h1, h2, h3, h4, h5⟩ := C106_exact hsym (he.at q) heig hA rfl (mul_self_nonneg t.precision) hq1 le_rfl
      hx0 hind (invariant_of_square _ _ hind) hrun
    have ho' := hout it h2
    clear hout
    subst h1 h2
    have hg : it.gram = none := ((lobpcgRun_ritz hsym hA hx0 hrun).2 it rfl).1
    obtain ⟨out', r, u, s, vt, g1, g2, g3, g4, g5, g6, g7⟩ := C74_tall hc hc1 he R t hp hnm hq1 _ _ hrun
      (fun i hi C hC => by
        rw [List.mem_singleton.1 hi, hg] at hC
        cases hC) it.pairs (Or.inl rfl) (fun ho => hinj _ (hrank ho))
    rw [h] at g1
    obtain rfl : out = out' := by injection g1
    refine ⟨r, u, s, vt, g2, g3, g4, g5, g6, ?_⟩
    obtain ⟨k1, k2⟩ := rest_le hc hq1 h3 h5 g7
    obtain ⟨z1, z2, z3, -⟩ := C48_shapes eig t.params _ t.maxiter _ _ hrun it.pairs (Or.inl rfl)
    obtain ⟨r', u', s', vt', w1, -, w2, -, -, -, -, -, w3, -⟩ := C55_singular_triples hc hc1 (n := n) (m := q)
      out (by rw [ho']; exact hp) (by rw [ho']) hq hq1 (by rw [ho']; exact z1) (by rw [ho']; exact ⟨z2, z3⟩)
      (by rw [ho']; exact h3) (fun _ => by rw [ho']; exact h5) (fun hn => absurd hnm hn)
      (fun ho i hi => by
        rw [ho'] at ho ⊢
        exact ritz_pos _ _ it.pairs.eigvals.get h3 (by
          rw [Matrix.mul_assoc, h5, ← Matrix.mul_assoc, h3, Matrix.one_mul]) (hinj _ (hrank ho)) i hi)
    rw [g2] at w1
    injection w1 with w1
    simp only [Prod.mk.injEq] at w1
    obtain ⟨rfl, rfl, rfl⟩ := w1
    rw [g4] at w2
    subst w2
    rw [ho'] at w3
    exact ⟨g7.orth_u, g7.orth_v, g7.exact_side, w3, fun j => (g7.value j j.2).1, g7.ordered, k1, by
      rw [← hq]; exact k2⟩
  · obtain rfl : q = n := by omega
    have hA : IsOperator ((toMat q m t.problem)ᵀᵀ * (toMat q m t.problem)ᵀ) t.params := by
      rw [transpose_transpose]
      exact t.isOperator_wide hp (not_lt.1 hnm)
    have hsym := isSymm_gram (toMat q m t.problem)ᵀ
    obtain ⟨it, h1, h2, h3, h4, h5⟩ := C106_exact hsym (he.at q) heig hA rfl (mul_self_nonneg t.precision) hq1 le_rfl
      hx0 hind (invariant_of_square _ _ hind) hrun
    have ho' := hout it h2
    clear hout
    subst h1 h2
    have hg : it.gram = none := ((lobpcgRun_ritz hsym hA hx0 hrun).2 it rfl).1
    have hinj' : t.order = .smallest → ∀ x, (toMat q m t.problem)ᵀ.mulVec x = 0 → x = 0 := fun ho =>
      hinj _ (by rw [rank_transpose]; exact hrank ho)
    obtain ⟨out', r, u, s, vt, g1, g2, g3, g4, g5, g6, g7⟩ := C74_wide hc hc1 he R t hp (not_lt.1 hnm) hq1 _ _ hrun
      (fun i hi C hC => by
        rw [List.mem_singleton.1 hi, hg] at hC
        cases hC) it.pairs (Or.inl rfl) hinj'
    rw [h] at g1
    obtain rfl : out = out' := by injection g1
    refine ⟨r, u, s, vt, g2, g3, g4, g5, g6, ?_⟩
    obtain ⟨k1, k2⟩ := rest_le hc hq1 h3 h5 g7
    obtain ⟨z1, z2, z3, -⟩ := C48_shapes eig t.params _ t.maxiter _ _ hrun it.pairs (Or.inl rfl)
    obtain ⟨r', u', s', vt', w1, -, w2, -, -, -, -, w3, -, -⟩ := C55_singular_triples hc hc1 (n := q) (m := m)
      out (by rw [ho']; exact hp) (by rw [ho']) hq hq1 (by rw [ho']; exact z1) (by rw [ho']; exact ⟨z2, z3⟩)
      (by rw [ho']; exact h3) (fun hn => absurd hn hnm)
      (fun _ => by rw [ho']; rw [transpose_transpose] at h5; exact h5)
      (fun ho i hi => by
        rw [ho'] at ho ⊢
        exact ritz_pos _ _ it.pairs.eigvals.get h3 (by
          rw [Matrix.mul_assoc, h5, ← Matrix.mul_assoc, h3, Matrix.one_mul]) (hinj' ho) i hi)
    rw [g2] at w1
    injection w1 with w1
    simp only [Prod.mk.injEq] at w1
    obtain ⟨rfl, rfl, rfl⟩ := w1
    rw [g4] at w2
    subst w2
    rw [ho'] at w3
    have ht : ∀ {S : Matrix (Fin r) (Fin r) ℝ}, Sᵀ = S →
        toMat q m t.problem - toMat q r u * S * (toMat r m vt)ᵀᵀ =
        ((toMat q m t.problem)ᵀ - (toMat r m vt)ᵀ * S * (toMat q r u)ᵀ)ᵀ := by
      intro S hS
      simp only [transpose_sub, transpose_mul, transpose_transpose, hS, Matrix.mul_assoc]
    refine ⟨g7.orth_v, g7.orth_u, w3, g7.exact_side, fun j => (g7.value j j.2).1, g7.ordered, fun ho => ?_, ?_⟩
    · have := k1 ho
      rw [← sub_eq_zero, ht (diagonal_transpose _), ← this, sub_self, transpose_zero]
    · rw [← hq, ht (diagonal_transpose _), frob_transpose, ← frob_transpose (toMat q m t.problem)]
      exact k2

end

/-! ## A concrete case -/

/-- A generator of triangular matrices of ones. -/
def triangleSource : RandomSource ℝ Unit := ⟨fun _ _ s => (fun i j => if i ≤ j then 1 else 0, s)⟩

theorem triangle_independent : LinearIndependent ℝ (toMat 2 2 (triangleSource.random 2 2 ()).1).col := by
  rw [Matrix.linearIndependent_cols_iff_isUnit, Matrix.isUnit_iff_isUnit_det, Matrix.det_fin_two]
  simp [toMat, triangleSource, RandomSource.random]

/-- `lobpcg` with an exact eigensolver comes back. -/
theorem exactEig_run {n k : Nat} {P : LobParams ℝ} (hP : ParamsTotal n P) (hy : P.y = none)
    (ha : ∀ c v, P.a c v ≠ .error .fuel) (hm : ∀ v, P.m v ≠ .error .fuel) {x0 : Arr2 ℝ} (hx0 : HasShape x0 n k)
    (hk : 1 ≤ k) (maxiter : Nat) : ∃ res hist, lobpcgRun exactEig P x0 maxiter = .ok (res, hist) := by
  rcases (lobpcgRun_total exactEig_total hP hx0 hk (fun y h => by rw [hy] at h; cases h) maxiter).cases with
    ⟨r, h, -⟩ | h
  · exact ⟨r.1, r.2, h⟩
  · refine absurd h (C43_terminates _ _ _ _ (fun a h => ?_) ha hm)
    obtain ⟨v, q, h1, -⟩ := exactEig_ok a
    rw [h1] at h; cases h

/-- All pairs of `[[2, 1], [1, 2]]`: the hypotheses of `C106_decompose` are met. -/
example (order : Order) : ∃ (t t' : TruncatedEig ℝ Unit) (res : LobpcgResult ℝ), HasShape t.problem 2 2 ∧
    (toMat 2 2 t.problem).IsSymm ∧ t.constraints = none ∧ 0 ≤ t.precision ∧ t.order = order ∧
    LinearIndependent ℝ (toMat 2 2 (triangleSource.random 2 2 t.rng).1).col ∧
    t.decompose exactEig triangleSource 2 = .ok (res, t') := by
  let t : TruncatedEig ℝ Unit := (TruncatedEig.new (ofRows 2 2 [[2, 1], [1, 2]]) order ()).withPrecision 0
  have ht : HasShape t.problem 2 2 := ⟨rfl, rfl⟩
  obtain ⟨res, hist, h⟩ := exactEig_run (n := 2) (k := 2) (P := t.params) (x0 := (triangleSource.random 2 2 ()).1)
    ⟨fun _ y k hy => dot_shape ht hy, fun y _ hy => ⟨y, rfl, hy⟩⟩ rfl
    (fun c v h => by simp only [TruncatedEig.params, Arr2.dot] at h; split_ifs at h <;> cases h)
    (fun v h => by cases h) ⟨rfl, rfl⟩ (by norm_num) t.maxiter
  refine ⟨t, { t with rng := (triangleSource.random 2 2 ()).2 }, res, ht, ?_, rfl, le_rfl, rfl,
    triangle_independent, ?_⟩
  · ext i j
    fin_cases i <;> fin_cases j <;> simp [t, toMat, ofRows, TruncatedEig.new, TruncatedEig.withPrecision]
  · unfold TruncatedEig.decompose
    rw [if_neg (by norm_num)]
    have : t.problem.nr = 2 := rfl
    simp only [this]
    rw [show t.rng = () from rfl, h]
    rfl

/-- All triples of the tall matrix of C74, in both orders: the hypotheses of `C106_svd` are met. -/
example [MagnitudeCorrection ℝ] (order : Order) : ∃ out, HasShape (tallProblem order).problem 3 2 ∧
    (toMat 3 2 (tallProblem order).problem).rank = 2 ∧
    (tallProblem order).decompose exactEig triangleSource 2 = .ok out := by
  have hp : HasShape (tallProblem order).problem 3 2 := ⟨rfl, rfl⟩
  have hA := (tallProblem order).isOperator_tall hp (by norm_num)
  have hsym := isSymm_gram (toMat 3 2 (tallProblem order).problem)
  have hx0 : HasShape (triangleSource.random 2 2 ()).1 2 2 := ⟨rfl, rfl⟩
  obtain ⟨res, hist, h⟩ := exactEig_run (n := 2) (k := 2) (P := (tallProblem order).params)
    (x0 := (triangleSource.random 2 2 ()).1)
    (by
      refine ⟨fun _ y k hy => ?_, fun y _ hy => ⟨y, rfl, hy⟩⟩
      obtain ⟨z, h1, s1⟩ := dot_shape hp hy
      obtain ⟨w, h2, s2⟩ := dot_shape (shape_t hp) s1
      refine ⟨w, ?_, s2⟩
      simp only [TruncatedSvd.params]
      rw [if_pos (by rw [hp.1, hp.2]; norm_num), h1, ok_bind, h2]) rfl
    (fun c v h => by
      simp only [TruncatedSvd.params, Arr2.dot] at h
      split_ifs at h <;> simp [bind, Except.bind] at h)
    (fun v h => by cases h) hx0 (by norm_num) 1
  obtain ⟨it, -, rfl, -⟩ := C106_exact hsym (exactEig_within.at 2) exactEig_total hA rfl
    (by simp [TruncatedSvd.params, tallProblem]) (by norm_num) le_rfl hx0 triangle_independent
    (invariant_of_square _ _ triangle_independent) h
  refine ⟨⟨it.pairs.eigvals, it.pairs.eigvecs, (tallProblem order).problem, order, true⟩, hp, ?_, ?_⟩
  rotate_left
  · unfold TruncatedSvd.decompose
    rw [if_neg (by norm_num), show min (tallProblem order).problem.nr (tallProblem order).problem.nc = 2 from rfl,
      show (tallProblem order).rng = () from rfl, show (tallProblem order).maxiter = 1 from rfl]
    simp only
    rw [h, ok_bind]
    rfl
  · have hinj : ∀ x, (toMat 3 2 (tallProblem order).problem).mulVecLin x = 0 → x = 0 := by
      intro x hx
      rw [mulVecLin_apply] at hx
      have h0 := congrFun hx 0
      have h1 := congrFun hx 1
      simp [tallProblem, toMat, mulVec, dotProduct, ofRows, Fin.sum_univ_two] at h0 h1
      funext i
      fin_cases i
      · exact h0
      · exact h1
    unfold Matrix.rank
    rw [LinearMap.finrank_range_of_inj ((injective_iff_map_eq_zero _).2 hinj)]
    simp

/-- The library's eigensolver and the start vector `(2, 0)` for the operator `diag(1, 3)`: the hypotheses of
`C106_eigenvector` are met, with `μ = 1`. -/
example (fuel : Nat) : ∃ res hist, lobpcgRun (eighInto fuel) demoParams (ofRows 2 1 [[2], [0]]) 0 = .ok (res, hist) ∧
    (toMat 2 2 (ofRows 2 2 [[1, 0], [0, 3]])).mulVec (fun i => (ofRows 2 1 [[2], [0]] : Arr2 ℝ).get i 0) =
      (1 : ℝ) • fun i : Fin 2 => (ofRows 2 1 [[2], [0]] : Arr2 ℝ).get i 0 := by
  obtain ⟨u, l, h1, s1, -⟩ := orthonormalize_col (n := 2) (v := ofRows 2 1 [[2], [0]]) ⟨rfl, rfl⟩
    (by simp [ofRows])
  obtain ⟨ax, h2, s2⟩ := dot_shape (⟨rfl, rfl⟩ : HasShape (ofRows 2 2 [[1, 0], [0, 3]] : Arr2 ℝ) 2 2) s1
  obtain ⟨b, it, h3, -⟩ := lobpcgRun_one (n := 2) fuel (P := demoParams)
    (x0 := ofRows 2 1 [[2], [0]]) (cholYY := none) (maxiter := 0) (by norm_num) ⟨rfl, rfl⟩
    (Or.inl ⟨rfl, rfl⟩) rfl h1 s1 h2 s2 (Or.inl rfl)
  refine ⟨_, _, h3, ?_⟩
  funext i
  fin_cases i <;> simp [mulVec, dotProduct, toMat, ofRows]

end LinfaLinalg
