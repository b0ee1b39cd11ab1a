import Verif.Props.LobpcgErrors
import Mathlib.LinearAlgebra.InvariantBasisNumber
import Mathlib.Data.Matrix.ColumnRowPartitioned

/-! # C63: room for new directions; C64: invariant subspaces -/

set_option linter.unusedSectionVars false

namespace LinfaLinalg

open Matrix

/-- Two orthonormal systems that are orthogonal to each other. -/
theorem orth_room {n k b : Nat} {X : Matrix (Fin n) (Fin k) ℝ} {R : Matrix (Fin n) (Fin b) ℝ}
    (hX : Xᵀ * X = 1) (hR : Rᵀ * R = 1) (hXR : Xᵀ * R = 0) : k + b ≤ n := by
  have hW : (Matrix.fromCols X R)ᵀ * Matrix.fromCols X R = 1 := by
    have hRX : Rᵀ * X = 0 := by
      have := congrArg Matrix.transpose hXR
      rwa [Matrix.transpose_mul, Matrix.transpose_transpose, Matrix.transpose_zero] at this
    rw [Matrix.transpose_fromCols, Matrix.fromRows_mul_fromCols, hX, hR, hXR, hRX, Matrix.fromBlocks_one]
  have := card_le_of_injective ℝ (Matrix.mulVecLin (Matrix.fromCols X R)) (by
    intro x y hxy
    have h2 := congrArg ((Matrix.fromCols X R)ᵀ).mulVec (hxy : (Matrix.fromCols X R).mulVec x =
      (Matrix.fromCols X R).mulVec y)
    simp only [Matrix.mulVecLin_apply] at h2
    rwa [Matrix.mulVec_mulVec, Matrix.mulVec_mulVec, hW, Matrix.one_mulVec, Matrix.one_mulVec] at h2)
  simpa using this

/-- **C63**: an update step from an orthonormal iterate of `k` vectors with `b` active pairs needs
`1 ≤ b` and `k + b ≤ n`: if another iterate follows, some pair was active and there was room for `b` new
directions. For every operator,
preconditioner and eigensolver for the small problems. -/
theorem C63_room {n k : Nat} {eig : EigSolver ℝ} {P : LobParams ℝ} (hop : OpShape n P) {x0 : Arr2 ℝ}
    (hx0 : HasShape x0 n k) {maxiter : Nat} {res : LobpcgResult ℝ} {hist : List (Iterate ℝ)}
    (h : lobpcgRun eig P x0 maxiter = .ok (res, hist)) (p : Nat) (it it' : Iterate ℝ)
    (hp : hist[p]? = some it) (hp' : hist[p + 1]? = some it') :
    1 ≤ it.active.count true ∧
    ((toMat n k it.pairs.eigvecs)ᵀ * toMat n k it.pairs.eigvecs = 1 → k + it.active.count true ≤ n) := by
  have hch := (lobpcgRun_chain h (fun _ st => SInv n k st) (fun _ => True)
    (fun it _ => 1 ≤ it.active.count true ∧
      ((toMat n k it.pairs.eigvecs)ᵀ * toMat n k it.pairs.eigvecs = 1 →
        k + it.active.count true ≤ n)) ?_ ?_ ?_).1
  · rw [List.isChain_iff_getElem] at hch
    obtain ⟨h1, rfl⟩ := List.getElem?_eq_some_iff.1 hp'
    obtain ⟨h2, rfl⟩ := List.getElem?_eq_some_iff.1 hp
    exact hch p h1
  · intro c st h1
    obtain ⟨x1, x2, ax, xax, eb, L, g1, g2, s2, g3, g4, o2, h3, s3, s4, e4, h5, s5, e1, -, hS, -⟩ := h1.mat hop hx0
    exact ⟨hS, fun _ _ => trivial⟩
  · intro c st st' r norms hI hh
    exact lobHead_sInv hI hh
  · intro c st st' r0 norms hI hb hr ht
    refine ⟨lobTail_sInv hop hI hr ht, fun _ _ => ⟨Nat.one_le_iff_ne_zero.2 hb, fun ho => ?_⟩⟩
    simp only at ho ⊢
    obtain ⟨b, w, u, r, ar, Z, Lr, eg, g, pap, pap', vecs, gram, p, ap, hb, -, -, -, hZ, -, hL, hrL, hrr, -⟩ :=
      (lobTail_mat hop hI hr ht).run
    rw [← maskIndices_length, ← hb]
    refine orth_room ho hrr ?_
    have h1 : (toMat n k st.x)ᵀ * toMat n b r * Lrᵀ = 0 := by
      rw [Matrix.mul_assoc, hrL, hZ, Matrix.mul_sub, ← Matrix.mul_assoc, ho, Matrix.one_mul, sub_self]
    have h2 := congrArg Matrix.transpose h1
    rw [Matrix.transpose_mul, Matrix.transpose_transpose, Matrix.transpose_zero] at h2
    have h3 := matrix_mul_left_cancel hL.isUnit (h2.trans (Matrix.mul_zero Lr).symm)
    exact Matrix.transpose_injective (h3.trans Matrix.transpose_zero.symm)

/-- C63, consequence: if the start matrix has `k` columns and more than `n - k` pairs have not converged at
the first iterate, `lobpcg` cannot make a single step and returns `NotPositiveDefinite` with the first
iterate, whatever the operator, the preconditioner and the number of iterations. In particular it cannot
improve the pairs of a problem with `k > n / 2` unless some of them have converged from the start. -/
theorem C63_wide_block {n k : Nat} {A : Matrix (Fin n) (Fin n) ℝ} (hs : A.IsSymm) {eig : EigSolver ℝ}
    (he : EigOrth eig) (heig : EigTotal eig) {P : LobParams ℝ} (hP : ParamsTotal n P)
    (hA : IsOperator A P) (hy : ∀ y, P.y = some y → y.nr = n) {x0 : Arr2 ℝ}
    (hx0 : HasShape x0 n k) {maxiter : Nat} (hmax : 1 ≤ maxiter) {res : LobpcgResult ℝ}
    {hist : List (Iterate ℝ)} (h : lobpcgRun eig P x0 maxiter = .ok (res, hist)) (it : Iterate ℝ)
    (hit : hist.head? = some it) (hroom : n < k + it.active.count true) :
    hist = [it] ∧ res = .error (.notPositiveDefinite, some it.pairs) := by
  cases hist with
  | nil => cases hit
  | cons it0 l =>
    simp only [List.head?_cons, Option.some.injEq] at hit
    subst hit
    have hmem : it0 ∈ it0 :: l := by simp
    have ho : (toMat n k it0.pairs.eigvecs)ᵀ * toMat n k it0.pairs.eigvecs = 1 := by
      have hg := (gram_two hs he hA hx0 h).1 it0 rfl
      rcases iterate_gram hs he hA hx0 h it0 hmem with ⟨-, h2⟩ | ⟨_, _, h2, -⟩
      · exact h2
      · rw [hg] at h2; cases h2
    obtain rfl : l = [] := by
      cases l with
      | nil => rfl
      | cons it1 l =>
        have := (C63_room hA.opShape hx0 h 0 it0 it1 rfl rfl).2 ho
        omega
    refine ⟨rfl, ?_⟩
    obtain ⟨g1, g2, g3⟩ := C49_locked eig P x0 maxiter _ _ h [] [] it0 rfl
    have hkn : k + 0 ≤ n := orth_room (R := (0 : Matrix (Fin n) (Fin 0) ℝ)) ho
      (by ext i; exact i.elim0) (by ext _ j; exact j.elim0)
    have hcnt : it0.active.count true ≤ k := by
      rw [← hx0.2, ← g2]; exact List.count_le_length
    have hk0 : 1 ≤ k := by omega
    rcases res with ⟨e, b⟩ | b
    · rcases C61_errors heig hP hy hk0 hx0 h with ⟨h1, h2, h3⟩ | ⟨h1, rfl, h2⟩
      · omega
      · cases b with
        | none => exact absurd (h2.1 rfl) (by simp)
        | some b =>
          obtain ⟨⟨it, hit, rfl⟩, -⟩ := C42_best_iterate eig P x0 maxiter _ _ h b (Or.inr ⟨_, rfl⟩)
          rw [List.mem_singleton] at hit
          rw [hit]
    · exfalso
      have hz : it0.active.count true = 0 := by
        rw [List.count_eq_zero]
        intro ht
        obtain ⟨p, hp, hpt⟩ := List.mem_iff_getElem.1 ht
        have hp' : p < x0.nc := by rw [← g2]; exact hp
        obtain ⟨it', h1, norm, h2, h3⟩ := C49_converged eig P x0 maxiter b _ h
          (by rw [hx0.1]; simp only [List.length_cons, List.length_nil]; omega) p hp'
        rw [List.mem_singleton] at h1
        subst h1
        obtain ⟨norm', h4, h5⟩ := (g3 p hp').1 (by rw [List.getElem?_eq_getElem hp, hpt]) it' (by simp)
        rw [h2, Option.some.injEq] at h4
        subst h4
        rw [h3] at h5
        cases h5
      omega

/-! A concrete case: a `3 × 3` matrix without eigenvectors in the plane spanned by the two start vectors. -/

noncomputable def planeParams : LobParams ℝ where
  a := fun _ y => (ofRows 3 3 [[1, 0, 1], [0, 2, 1], [1, 1, 0]]).dot y
  m := fun y => .ok y
  y := none
  tol := 0
  order := .largest

theorem plane_operator : IsOperator (toMat 3 3 (ofRows 3 3 [[1, 0, 1], [0, 2, 1], [1, 1, 0]])) planeParams :=
  fun _ _ _ _ hy hz => dot_mat hz ⟨rfl, rfl⟩ hy

theorem plane_symm : (toMat 3 3 (ofRows 3 3 [[1, 0, 1], [0, 2, 1], [1, 1, 0]])).IsSymm := by
  ext i j
  fin_cases i <;> (fin_cases j <;> simp [toMat, ofRows])

theorem plane_total : ParamsTotal 3 planeParams :=
  ⟨fun _ _ _ hy => dot_shape ⟨rfl, rfl⟩ hy, fun y _ hy => ⟨y, rfl, hy⟩⟩

/-- Whatever the number of iterations, the run ends with `NotPositiveDefinite` at the first iterate. -/
theorem plane_run (maxiter : Nat) (hmax : 1 ≤ maxiter) : ∃ it,
    lobpcgRun exactEig planeParams (ofRows 3 2 [[1, 0], [0, 1], [0, 0]]) maxiter =
      .ok (.error (.notPositiveDefinite, some it.pairs), [it]) ∧ it.gram = none := by
  have hx0 : HasShape (ofRows 3 2 [[1, 0], [0, 1], [0, 0]]) 3 2 := ⟨rfl, rfl⟩
  have hnf : lobpcgRun exactEig planeParams (ofRows 3 2 [[1, 0], [0, 1], [0, 0]]) maxiter ≠ .error .fuel := by
    refine C43_terminates _ _ _ _ (fun a h => ?_) (fun k v h => ?_) (fun v h => by cases h)
    · obtain ⟨v, q, h1, -⟩ := exactEig_ok a
      rw [h1] at h; cases h
    · simp only [planeParams, Arr2.dot] at h
      split_ifs at h <;> cases h
  obtain ⟨⟨res, hist⟩, h⟩ : ∃ r, lobpcgRun exactEig planeParams (ofRows 3 2 [[1, 0], [0, 1], [0, 0]]) maxiter =
      .ok r := by
    rcases (lobpcgRun_total exactEig_total plane_total hx0 (by norm_num) (fun y h => by cases h) maxiter).cases
      with ⟨r, h, -⟩ | h
    · exact ⟨r, h⟩
    · exact absurd h hnf
  have hne : ∃ it l, hist = it :: l := by
    cases hist with
    | cons it l => exact ⟨it, l, rfl⟩
    | nil =>
      exfalso
      have hr : res = .error (.notPositiveDefinite, none) := by
        rcases res with ⟨e, b⟩ | b
        · rcases C61_errors exactEig_total plane_total (fun y h => by cases h) (by norm_num) hx0 h with
            ⟨h1, -⟩ | ⟨-, rfl, h2⟩
          · omega
          · rw [h2.2 rfl]
        · obtain ⟨⟨it, hit, -⟩, -⟩ := C42_best_iterate exactEig planeParams _ maxiter _ _ h b (Or.inl rfl)
          cases hit
      refine (C61_start exactEig_total plane_total rfl (by norm_num) (by norm_num) hx0 h).1 hr ?_
      rw [Fintype.linearIndependent_iff]
      intro g hg i
      have e0 := congrFun hg 0
      have e1 := congrFun hg 1
      simp [Fin.sum_univ_two, toMat, ofRows, Matrix.col] at e0 e1
      fin_cases i
      · exact e0
      · exact e1
  obtain ⟨it, l, rfl⟩ := hne
  have hg := (gram_two plane_symm exactEig_within.1 plane_operator hx0 h).1 it rfl
  have ho := C45_orthonormal_partial plane_symm exactEig_within plane_operator hx0 h it (by simp)
    (fun B hB => by rw [hg] at hB; cases hB)
  obtain ⟨C, hC⟩ := first_iterate_span plane_operator.opShape rfl hx0 h it rfl
  obtain ⟨g1, g2, g3⟩ := C49_locked exactEig planeParams _ maxiter _ _ h [] l it rfl
  have hact : ∀ j : Fin 2, it.active[j.val]? = some true := by
    intro j
    refine (g3 j (by exact j.2)).2 fun it' hit' => ?_
    simp only [List.nil_append, List.mem_singleton] at hit'
    subst hit'
    refine ⟨_, iterate_residual _ exactEig planeParams plane_operator _ hx0 maxiter _ _ h it' (by simp) j, ?_⟩
    rw [real_lt, decide_eq_true_eq]
    change 0 < _
    refine Real.sqrt_pos.2 (lt_of_le_of_ne (Finset.sum_nonneg fun i _ => sq_nonneg _) fun h0 => ?_)
    have t0 := congrFun (congrFun hC 0) j
    have t1 := congrFun (congrFun hC 1) j
    have t2 := congrFun (congrFun hC 2) j
    have t3 := congrFun (congrFun ho j) j
    simp [toMat, Matrix.mul_apply, ofRows, Fin.sum_univ_two, Fin.sum_univ_three] at t0 t1 t2 t3
    rw [t0, t1, t2] at t3
    simp [toMat, Matrix.mulVec, dotProduct, ofRows, Fin.sum_univ_three, t0, t1, t2] at h0
    generalize C 0 j = a at *
    generalize C 1 j = b at *
    generalize it'.pairs.eigvals.get j = μ at *
    have e1 : a - μ * a = 0 := by nlinarith [sq_nonneg (a - μ * a), sq_nonneg (2 * b - μ * b), sq_nonneg (a + b)]
    have e2 : 2 * b - μ * b = 0 := by
      nlinarith [sq_nonneg (a - μ * a), sq_nonneg (2 * b - μ * b), sq_nonneg (a + b)]
    have e3 : a + b = 0 := by nlinarith [sq_nonneg (a - μ * a), sq_nonneg (2 * b - μ * b), sq_nonneg (a + b)]
    have ha : a = 0 := by linear_combination -e1 - e2 + (2 - μ) * e3
    have hb : b = 0 := by linarith
    rw [ha, hb] at t3
    norm_num at t3
  have hcount : it.active.count true = 2 := by
    have a0 := hact 0
    have a1 := hact 1
    match hl : it.active, g2 with
    | [x, y], _ =>
      rw [hl] at a0 a1
      simp at a0 a1
      subst a0 a1
      rfl
  obtain ⟨h1, rfl⟩ := C63_wide_block plane_symm exactEig_within.1 exactEig_total plane_total plane_operator
    (fun y h => by cases h) hx0 hmax h it rfl (by rw [hcount]; norm_num)
  rw [h1] at h
  exact ⟨it, h, hg⟩

end LinfaLinalg
