import Verif.Props.LobpcgErrors
import Verif.Props.LobpcgFull
import Verif.Proofs.Descent

/-! # How fast LOBPCG converges

Every step lowers the sum of the Ritz values by an amount proportional to the square of the residual of any
active pair. The sum is bounded, so the residuals cannot stay large. Exact real arithmetic. -/

namespace LinfaLinalg

open Matrix

/-- The residual of pair `j`. -/
noncomputable def resid {n k : Nat} (A : Matrix (Fin n) (Fin n) ℝ) (b : Lobpcg ℝ) (j : Fin k) : Fin n → ℝ :=
  A *ᵥ (toMat n k b.eigvecs).col j - b.eigvals.get j • (toMat n k b.eigvecs).col j

/-- What `apply_constraints` multiplies by if the constraints are orthonormal: the projection to the
orthogonal complement of their span. -/
noncomputable def deflator (n : Nat) (P : LobParams ℝ) : Matrix (Fin n) (Fin n) ℝ :=
  match P.y with
  | none => 1
  | some y => 1 - toMat n y.nc y * (toMat n y.nc y)ᵀ

/-- The constraints, if any, are orthonormal and span an invariant subspace of the operator, as eigenvectors
that are already known do. -/
def Deflates {n : Nat} (A : Matrix (Fin n) (Fin n) ℝ) (P : LobParams ℝ) : Prop :=
  ∀ y, P.y = some y → y.nr = n ∧ (toMat n y.nc y)ᵀ * toMat n y.nc y = 1 ∧ Invariant A (toMat n y.nc y)

/-- Where an iterate comes from, with the directions which the trial space contains. -/
def StepDir (n k : Nat) (A K : Matrix (Fin n) (Fin n) ℝ) (eig : EigSolver ℝ) (order : Order)
    (it it' : Iterate ℝ) : Prop :=
  ∃ (s : Nat) (S a B vecs : Arr2 ℝ), k ≤ s ∧
    (∀ i j, i < n → j < k → S.get i j = it.pairs.eigvecs.get i j) ∧
    HasShape a s s ∧ (toMat s s a).IsSymm ∧ toMat s s a = (toMat n s S)ᵀ * A * toMat n s S ∧
    HasShape B s s ∧ toMat s s B = (toMat n s S)ᵀ * toMat n s S ∧
    sortedEig eig a (some B) k order = .ok (it'.pairs.eigvals, vecs) ∧ it'.gram = some B ∧
    (∃ j : Fin k, it.active[j.val]? = some true) ∧
    ∀ j : Fin k, it.active[j.val]? = some true → ∃ h : Fin s → ℝ, toMat n s S *ᵥ h =
      K *ᵥ resid A it.pairs j - toMat n k it.pairs.eigvecs *ᵥ
        ((toMat n k it.pairs.eigvecs)ᵀ *ᵥ (K *ᵥ resid A it.pairs j))

theorem constrain_deflator {n m : Nat} {A : Matrix (Fin n) (Fin n) ℝ} {P : LobParams ℝ} (hy : Deflates A P)
    {c : Option (Arr2 ℝ)} (hc : CholOf P c) {w u : Arr2 ℝ} (sw : HasShape w n m)
    (h : P.constrain c w = .ok u) : toMat n m u = deflator n P * toMat n m w := by
  unfold LobParams.constrain at h
  unfold deflator
  unfold CholOf at hc
  cases hP : P.y with
  | none =>
    rw [hP] at h
    simp only at h
    injection h with h
    rw [h, Matrix.one_mul]
  | some y =>
    rw [hP] at h hc
    obtain ⟨yy, C, h2, h3, rfl⟩ := hc
    obtain ⟨sy, hY, -⟩ := hy y hP
    obtain ⟨s2, e2⟩ := tdot_mat h2 ⟨sy, rfl⟩ ⟨sy, rfl⟩
    obtain ⟨s3, e3⟩ := cholesky_one s2 (by rw [e2, hY]) h3
    simp only at h
    have pl : LowerPos (toMat y.nc y.nc C) := by
      rw [e3]
      refine ⟨fun i j hij => Matrix.one_apply_ne (ne_of_lt hij), fun i => ?_⟩
      rw [Matrix.one_apply_eq]; exact one_pos
    obtain ⟨X, h1, -, h4⟩ := applyConstraints_mat h sw ⟨sy, rfl⟩ s3 pl
    rw [e3, Matrix.one_mul] at h1
    rw [h4, h1, Matrix.sub_mul, Matrix.one_mul, Matrix.mul_assoc]

theorem lobpcgRun_dir {n k : Nat} {A M : Matrix (Fin n) (Fin n) ℝ} (hs : A.IsSymm) {eig : EigSolver ℝ}
    {P : LobParams ℝ} (hA : IsOperator A P) (hy : Deflates A P) (hM : IsPreconditioner M P) {x0 : Arr2 ℝ}
    (hx0 : HasShape x0 n k) {maxiter : Nat}
    {res : LobpcgResult ℝ} {hist : List (Iterate ℝ)}
    (h : lobpcgRun eig P x0 maxiter = .ok (res, hist)) :
    hist.IsChain (StepDir n k A (deflator n P * M) eig P.order) := by
  refine (lobpcgRun_chain h (fun c st => AInv A k st ∧ st.explicitGram = true ∧ CholOf P c)
    (fun _ => True) _ ?_ ?_ ?_).1
  · intro c st h1
    obtain ⟨x1, x2, ax, xax, eb, L, -, -, s2, -, -, o2, h3, s3, s4, e4, h5, s5, e1, -, -, g1, g2, g3⟩ :=
      h1.mat hA.opShape hx0
    refine ⟨⟨h1.aInv hA hx0, g2, ?_⟩, fun _ _ => trivial⟩
    obtain ⟨_, _, _, _, _, _, _, _, _, -, h2, -⟩ := h1.run
    exact h2
  · intro c st st' r norms hI hh
    refine ⟨lobHead_aInv hI.1 hh, ?_⟩
    obtain ⟨-, rfl⟩ := lobHead_inv hh
    exact hI.2
  · intro c st st' r norms hI hcount hr ht
    obtain ⟨s, S, a, B, vecs, g1, g2, g3, g4, g5, g6, g7, g8, g9, g10, g11, g12, g13, hdir, -⟩ :=
      (lobTail_step hA hI.1 hI.2.1 hr ht).run
    refine ⟨⟨lobTail_aInv hA hI.1 hr ht, g13, hI.2.2⟩, fun norms' m' => ⟨s, S, a, B, vecs, g2, g3, g4, g5, g6 hs, g7, g8,
      g9, g12, ?_, ?_⟩⟩
    all_goals
      obtain ⟨r0, nr, v, w, u, hr0, hv, hw, hu, sw, su, D, hD⟩ := hdir
      rw [hr] at hr0
      simp only [Except.ok.injEq, Prod.mk.injEq] at hr0
      obtain ⟨rfl, rfl⟩ := hr0
      have sr : HasShape r n k := by
        have := lobResidual_shape hr
        rwa [hI.1.sx.1, hI.1.len] at this
      have hres := lobResidual_mat hI.1 hr
      obtain ⟨hml, sv, ev⟩ := ndarrayMask_mat hv sr
    · have : true ∈ st.mask := by
        by_contra hcon
        exact hcount (List.count_eq_zero.2 hcon)
      obtain ⟨j, hj, hjt⟩ := List.getElem_of_mem this
      exact ⟨⟨j, by omega⟩, by rw [List.getElem?_eq_getElem hj, hjt]⟩
    · intro j hj
      have hu' := constrain_deflator hy hI.2.2 sw hu
      have hw' : toMat n (maskIndices st.mask).length w = M * toMat n (maskIndices st.mask).length v := by
        refine hM _ _ _ sv ?_
        unfold LobParams.precondition at hw
        simp only [bind_eq_ok] at hw
        obtain ⟨w', h1, h2⟩ := hw
        split_ifs at h2 with hc
        injection h2 with h2
        subst h2
        exact unwrapM_eq_ok.1 h1
      have hmem : j.val ∈ maskIndices st.mask := by
        simp only [maskIndices, List.mem_filter, List.mem_range, List.getD_eq_getElem?_getD]
        simp only at hj
        exact ⟨by rw [hml]; exact j.2, by rw [hj]; rfl⟩
      obtain ⟨t, ht, htj⟩ := List.getElem_of_mem hmem
      refine ⟨D.col ⟨t, ht⟩, ?_⟩
      have hcol : (toMat n (maskIndices st.mask).length v).col ⟨t, ht⟩ =
          resid A ⟨st.lambda, st.x, norms⟩ j := by
        rw [ev]
        funext i
        have := congrFun (congrFun hres i) j
        simp only [toMat_apply] at this
        simp only [col_apply, colsAt, of_apply, toMat_apply, resid, Pi.sub_apply, Pi.smul_apply, smul_eq_mul]
        simp only [List.getElem?_eq_getElem ht, List.getD_eq_getElem?_getD, Option.getD_some, htj]
        rw [this, Matrix.sub_apply, mul_diagonal, mul_comm (st.lambda.get j)]
        rfl
      have h1 : toMat n s S *ᵥ D.col ⟨t, ht⟩ = (toMat n s S * D).col ⟨t, ht⟩ := rfl
      rw [h1, ← hD, ← hcol]
      have h2 : (deflator n P * M) *ᵥ (toMat n (maskIndices st.mask).length v).col ⟨t, ht⟩ =
          (toMat n (maskIndices st.mask).length u).col ⟨t, ht⟩ := by rw [hu', hw', ← Matrix.mul_assoc]; rfl
      rw [h2]
      rfl

/-- `new` is closer than `old` to the end of the spectrum asked for, by at least `δ`. -/
def Improves (order : Order) (old new δ : ℝ) : Prop :=
  match order with
  | .smallest => new ≤ old - δ
  | .largest => old + δ ≤ new

/-- Removing the components along orthonormal vectors does not make a vector longer. -/
theorem proj_len_le {n k : Nat} {X : Matrix (Fin n) (Fin k) ℝ} (hX : Xᵀ * X = 1) (v : Fin n → ℝ) :
    (v - X *ᵥ (Xᵀ *ᵥ v)) ⬝ᵥ (v - X *ᵥ (Xᵀ *ᵥ v)) ≤ v ⬝ᵥ v := by
  have h1 : X *ᵥ (Xᵀ *ᵥ v) ⬝ᵥ v = Xᵀ *ᵥ v ⬝ᵥ Xᵀ *ᵥ v := mulVec_dot _ _ _
  have h2 : X *ᵥ (Xᵀ *ᵥ v) ⬝ᵥ X *ᵥ (Xᵀ *ᵥ v) = Xᵀ *ᵥ v ⬝ᵥ Xᵀ *ᵥ v := by
    rw [mulVec_dot, mulVec_mulVec _ Xᵀ X, hX, one_mulVec]
  have h3 : 0 ≤ Xᵀ *ᵥ v ⬝ᵥ Xᵀ *ᵥ v := by rw [← len_sq]; positivity
  rw [sub_dotProduct, dotProduct_sub, dotProduct_sub, dotProduct_comm v (X *ᵥ _), h1, h2]
  linarith

/-- The trial space, in one orthonormal basis that diagonalises the operator on it. -/
theorem step_space {n k : Nat} {A K : Matrix (Fin n) (Fin n) ℝ} {eig : EigSolver ℝ} (he : EigWithin 0 eig)
    {order : Order} {it it' : Iterate ℝ} (hk : 1 ≤ k) (h : StepDir n k A K eig order it it')
    (hc : ∀ B, it'.gram = some B → WellConditioned condFloor B) :
    ∃ (s : Nat) (hks : k ≤ s) (U : Matrix (Fin n) (Fin s) ℝ) (L : Fin s → ℝ) (C : Matrix (Fin s) (Fin k) ℝ),
      Uᵀ * U = 1 ∧ Uᵀ * A * U = diagonal L ∧ Ordered order L ∧
      (∀ j : Fin k, it'.pairs.eigvals.get j = L (Fin.castLE hks j)) ∧ toMat n k it.pairs.eigvecs = U * C ∧
      (∃ j : Fin k, it.active[j.val]? = some true) ∧
      ∀ j : Fin k, it.active[j.val]? = some true → ∃ g : Fin s → ℝ, U *ᵥ g =
        K *ᵥ resid A it.pairs j - toMat n k it.pairs.eigvecs *ᵥ
          ((toMat n k it.pairs.eigvecs)ᵀ *ᵥ (K *ᵥ resid A it.pairs j)) := by
  obtain ⟨s, S, a, B, vecs, hks, eS, sa, ha, ea, sB, eB, hse, hg, hact, hdir⟩ := h
  have hB : (toMat s s B).IsSymm := by rw [eB]; exact isSymm_gram _
  obtain ⟨Q, L, hQB, hQa, hordL, hl⟩ := step_basis he hk hks sa ha sB hB hse (hc B hg)
  have hQ1 : Q * (Qᵀ * toMat s s B) = 1 := mul_eq_one_comm.1 hQB
  refine ⟨s, hks, toMat n s S * Q, L,
    Qᵀ * toMat s s B * (Matrix.of fun i j => if i = Fin.castLE hks j then (1 : ℝ) else 0), ?_, ?_, hordL, hl, ?_,
    hact, ?_⟩
  · rw [← hQB, eB, transpose_mul]
    simp only [Matrix.mul_assoc]
  · rw [← hQa, ea, transpose_mul]
    simp only [Matrix.mul_assoc]
  · rw [Matrix.mul_assoc, ← Matrix.mul_assoc Q, hQ1, Matrix.one_mul]
    ext i j
    rw [Matrix.mul_apply, Finset.sum_eq_single (Fin.castLE hks j)]
    · rw [of_apply, if_pos rfl, mul_one]
      exact (eS i j i.2 j.2).symm
    · intro t _ ht
      rw [of_apply, if_neg ht, mul_zero]
    · intro h; exact absurd (Finset.mem_univ _) h
  · intro j hj
    obtain ⟨h, hh⟩ := hdir j hj
    refine ⟨(Qᵀ * toMat s s B) *ᵥ h, ?_⟩
    rw [← hh, mulVec_mulVec, Matrix.mul_assoc, hQ1, Matrix.mul_one]

/-- The gain of one step. -/
theorem step_progress {n k : Nat} {A K : Matrix (Fin n) (Fin n) ℝ} {eig : EigSolver ℝ} (he : EigWithin 0 eig)
    {order : Order} {it it' : Iterate ℝ} (hk : 1 ≤ k) (h : StepDir n k A K eig order it it')
    (hc : ∀ B, it'.gram = some B → WellConditioned condFloor B)
    (ho : (toMat n k it.pairs.eigvecs)ᵀ * toMat n k it.pairs.eigvecs = 1)
    (hr : (toMat n k it.pairs.eigvecs)ᵀ * A * toMat n k it.pairs.eigvecs =
      Matrix.diagonal (fun i : Fin k => it.pairs.eigvals.get i))
    {a m m' : ℝ} (ha : 0 < a) (hA : ∀ x, len (A *ᵥ x) ≤ a * len x) (hm : 0 < m) (hm' : 0 < m')
    (j : Fin k) (hj : it.active[j.val]? = some true)
    (h1 : m * (resid A it.pairs j ⬝ᵥ resid A it.pairs j) ≤ resid A it.pairs j ⬝ᵥ K *ᵥ resid A it.pairs j)
    (h2 : K *ᵥ resid A it.pairs j ⬝ᵥ K *ᵥ resid A it.pairs j ≤
      m' ^ 2 * (resid A it.pairs j ⬝ᵥ resid A it.pairs j))
    (hpos : 0 < resid A it.pairs j ⬝ᵥ resid A it.pairs j) :
    Improves order (∑ i : Fin k, it.pairs.eigvals.get i) (∑ i : Fin k, it'.pairs.eigvals.get i)
      (2 / 5 * (m / m') ^ 2 * (resid A it.pairs j ⬝ᵥ resid A it.pairs j) / a) := by
  obtain ⟨s, hks, U, L, C, hU, hUA, hord, hl, hX, -, hdir⟩ := step_space he hk h hc
  obtain ⟨g, hg⟩ := hdir j hj
  simp only [hl]
  set X := toMat n k it.pairs.eigvecs with hXdef
  set r := resid A it.pairs j with hrdef
  set d := K *ᵥ r - X *ᵥ (Xᵀ *ᵥ (K *ᵥ r)) with hddef
  have hXr : Xᵀ *ᵥ r = 0 := by
    have e1 : Xᵀ *ᵥ (A *ᵥ X.col j) = (Xᵀ * A * X).col j := by
      rw [mulVec_mulVec]; rfl
    have e2 : Xᵀ *ᵥ X.col j = (Xᵀ * X).col j := rfl
    rw [hrdef, resid, mulVec_sub, mulVec_smul, e1, e2, hr, ho]
    funext i
    by_cases hij : i = j
    · subst hij; simp
    · simp [hij, Matrix.one_apply_ne hij]
  have hXd : Xᵀ *ᵥ d = 0 := by
    rw [hddef, mulVec_sub, mulVec_mulVec _ Xᵀ X, ho, one_mulVec, sub_self]
  have hAx : A *ᵥ X.col j = r + it.pairs.eigvals.get j • X.col j := by
    rw [hrdef, resid]; abel
  have hdx : d ⬝ᵥ X.col j = 0 := by
    have := congrFun hXd j
    rw [dotProduct_comm]
    exact this
  have hdr : d ⬝ᵥ A *ᵥ X.col j = r ⬝ᵥ K *ᵥ r := by
    rw [hAx, dotProduct_add, dotProduct_smul, hdx, smul_zero, add_zero, hddef, sub_dotProduct, mulVec_dot X, hXr,
      dotProduct_zero, sub_zero, dotProduct_comm]
  have hdd : d ⬝ᵥ d ≤ m' ^ 2 * (r ⬝ᵥ r) := (proj_len_le ho _).trans h2
  have hrK : 0 < r ⬝ᵥ K *ᵥ r := lt_of_lt_of_le (mul_pos hm hpos) h1
  have hd0 : 0 < d ⬝ᵥ d := by
    rcases (by rw [← len_sq]; positivity : (0 : ℝ) ≤ d ⬝ᵥ d).lt_or_eq with h | h
    · exact h
    · have hz : d = 0 := len_eq_zero (by
        have := len_sq d
        rw [← h] at this
        exact pow_eq_zero_iff (two_ne_zero) |>.1 this)
      rw [hz, zero_dotProduct] at hdr
      rw [← hdr] at hrK
      exact absurd hrK (lt_irrefl _)
  have hgain : 2 / 5 * (m / m') ^ 2 * (r ⬝ᵥ r) / a ≤ 2 / 5 * ((d ⬝ᵥ A *ᵥ X.col j) ^ 2 / (d ⬝ᵥ d)) / a := by
    refine div_le_div_of_nonneg_right ?_ ha.le
    rw [mul_assoc]
    refine mul_le_mul_of_nonneg_left ?_ (by norm_num)
    rw [hdr, le_div_iff₀ hd0]
    calc (m / m') ^ 2 * (r ⬝ᵥ r) * (d ⬝ᵥ d) ≤ (m / m') ^ 2 * (r ⬝ᵥ r) * (m' ^ 2 * (r ⬝ᵥ r)) :=
          mul_le_mul_of_nonneg_left hdd (by positivity)
      _ = (m * (r ⬝ᵥ r)) ^ 2 := by field_simp
      _ ≤ _ := pow_le_pow_left₀ (by positivity) h1 2
  cases order with
  | smallest =>
    have := space_descent hks hord hU hUA hX ho hr hg.symm hXd hd0 ha hA j
    exact this.trans (by linarith)
  | largest =>
    have hneg : ∀ {q : Nat} (v : Fin q → ℝ), -diagonal v = diagonal fun i => -v i := by
      intro q v; ext i j; by_cases h : i = j <;> simp [h]
    have := space_descent (A := -A) (L := fun i => -L i) (μ := fun i => -it.pairs.eigvals.get i) hks
      (fun i j hij => neg_le_neg (hord i j hij)) hU
      (by rw [Matrix.mul_neg, Matrix.neg_mul, hUA, hneg]) hX ho
      (by rw [Matrix.mul_neg, Matrix.neg_mul, hr, hneg]) hg.symm hXd hd0 ha
      (fun x => by rw [neg_mulVec, len_neg]; exact hA x) j
    rw [neg_mulVec, dotProduct_neg, neg_sq, Finset.sum_neg_distrib, Finset.sum_neg_distrib] at this
    unfold Improves
    simp only
    linarith

/-- The symmetric part of `M` has no eigenvalue below `m`, and `M` stretches no vector by more than `m'`. For
no preconditioner `m = m' = 1`. -/
def Between {n : Nat} (m m' : ℝ) (M : Matrix (Fin n) (Fin n) ℝ) : Prop :=
  (∀ x, m * len x ^ 2 ≤ x ⬝ᵥ M *ᵥ x) ∧ ∀ x, len (M *ᵥ x) ≤ m' * len x

/-- The residual norm is the length of the residual. -/
theorem rnorm_resid {n k : Nat} {A : Matrix (Fin n) (Fin n) ℝ} {eig : EigSolver ℝ}
    {P : LobParams ℝ} (hA : IsOperator A P) {x0 : Arr2 ℝ} (hx0 : HasShape x0 n k) {maxiter : Nat}
    {res : LobpcgResult ℝ} {hist : List (Iterate ℝ)}
    (h : lobpcgRun eig P x0 maxiter = .ok (res, hist)) {it : Iterate ℝ} (hit : it ∈ hist) (j : Fin k) :
    it.pairs.rnorm[j.val]? = some (len (resid A it.pairs j)) :=
  iterate_residual A eig P hA x0 hx0 maxiter res hist h it hit j

/-- With orthonormal constraints that span an invariant subspace the residuals are orthogonal to the
constraints, so that projecting the preconditioned residual does not change its inner product with the
residual. -/
theorem deflator_resid {n k : Nat} {A M : Matrix (Fin n) (Fin n) ℝ} (hs : A.IsSymm) {eig : EigSolver ℝ}
    {P : LobParams ℝ} (hA : IsOperator A P) (hy : Deflates A P) {x0 : Arr2 ℝ} (hx0 : HasShape x0 n k)
    {maxiter : Nat} {res : LobpcgResult ℝ} {hist : List (Iterate ℝ)}
    (h : lobpcgRun eig P x0 maxiter = .ok (res, hist)) {it : Iterate ℝ} (hit : it ∈ hist) (j : Fin k) :
    resid A it.pairs j ⬝ᵥ (deflator n P * M) *ᵥ resid A it.pairs j =
      resid A it.pairs j ⬝ᵥ M *ᵥ resid A it.pairs j ∧
    (deflator n P * M) *ᵥ resid A it.pairs j ⬝ᵥ (deflator n P * M) *ᵥ resid A it.pairs j ≤
      M *ᵥ resid A it.pairs j ⬝ᵥ M *ᵥ resid A it.pairs j := by
  unfold deflator
  cases hP : P.y with
  | none => simp only [Matrix.one_mul, le_refl, and_self]
  | some y =>
    obtain ⟨sy, hY, T, hT⟩ := hy y hP
    have h1 := (C46_constraints_partial eig P hA.opShape y hP ⟨sy, rfl⟩ hY x0 hx0 maxiter res hist h).1 it hit
    simp only
    generalize toMat n y.nc y = Y at hY hT h1 ⊢
    have e1 : Yᵀ *ᵥ (toMat n k it.pairs.eigvecs).col j = 0 := by
      have : Yᵀ *ᵥ (toMat n k it.pairs.eigvecs).col j = (Yᵀ * toMat n k it.pairs.eigvecs).col j := rfl
      rw [this, h1]; rfl
    have e2 : Yᵀ * A = Tᵀ * Yᵀ := by
      have := congrArg Matrix.transpose hT
      rwa [transpose_mul, transpose_mul, hs.eq] at this
    have e3 : Yᵀ *ᵥ resid A it.pairs j = 0 := by
      rw [resid, mulVec_sub, mulVec_smul, mulVec_mulVec, e2, ← mulVec_mulVec, e1, mulVec_zero, smul_zero,
        sub_zero]
    have e4 : ∀ v, ((1 - Y * Yᵀ) * M) *ᵥ v = M *ᵥ v - Y *ᵥ (Yᵀ *ᵥ (M *ᵥ v)) := by
      intro v
      rw [← mulVec_mulVec, sub_mulVec, one_mulVec, ← mulVec_mulVec]
    rw [e4]
    refine ⟨?_, proj_len_le hY _⟩
    rw [dotProduct_sub, dotProduct_comm _ (Y *ᵥ _), mulVec_dot, e3, dotProduct_zero, sub_zero]

/-- **C123**, one step: the sum of the Ritz values moves towards its end of the spectrum by at least
`2/5 (m/m')² ρ² / a`, where `ρ` is the residual norm of any pair that is active. Exact eigensolver for the
small problems, Gram matrices without eigenvalues below `1e-10`; every symmetric operator whose eigenvalues
lie between `-a` and `a`, every preconditioner between `m` and `m'`; constraints, if any, orthonormal and
spanning an invariant subspace. -/
theorem C123_progress {n k : Nat} {A M : Matrix (Fin n) (Fin n) ℝ} (hs : A.IsSymm) {eig : EigSolver ℝ}
    (he : EigWithin 0 eig) {P : LobParams ℝ} (hA : IsOperator A P) (hy : Deflates A P)
    (hM : IsPreconditioner M P) {a m m' : ℝ} (ha : 0 < a) (hAa : ∀ x, len (A *ᵥ x) ≤ a * len x) (hm : 0 < m)
    (hm' : 0 < m') (hMm : Between m m' M) {x0 : Arr2 ℝ} (hx0 : HasShape x0 n k)
    {maxiter : Nat} {res : LobpcgResult ℝ} {hist : List (Iterate ℝ)}
    (h : lobpcgRun eig P x0 maxiter = .ok (res, hist))
    (hc : ∀ it ∈ hist, ∀ B, it.gram = some B → WellConditioned condFloor B)
    (p : Nat) (itp itq : Iterate ℝ) (hp : hist[p]? = some itp) (hq : hist[p + 1]? = some itq)
    (j : Fin k) (hj : itp.active[j.val]? = some true) (ρ : ℝ) (hρ : itp.pairs.rnorm[j.val]? = some ρ) :
    Improves P.order (∑ i : Fin k, itp.pairs.eigvals.get i) (∑ i : Fin k, itq.pairs.eigvals.get i)
      (2 / 5 * (m / m') ^ 2 * ρ ^ 2 / a) := by
  have hmp := List.mem_of_getElem? hp
  have hmq := List.mem_of_getElem? hq
  have hk : 1 ≤ k := by have := j.2; omega
  have hR : StepDir n k A (deflator n P * M) eig P.order itp itq := by
    have h1 := lobpcgRun_dir hs hA hy hM hx0 h
    rw [List.isChain_iff_getElem] at h1
    obtain ⟨hlt, hq'⟩ := List.getElem?_eq_some_iff.1 hq
    obtain ⟨hlt', hp'⟩ := List.getElem?_eq_some_iff.1 hp
    have := h1 p hlt
    rw [hp', hq'] at this
    exact this
  rw [rnorm_resid hA hx0 h hmp j, Option.some.injEq] at hρ
  subst hρ
  rw [len_sq]
  obtain ⟨g1, g2⟩ := iterate_ritz hs he hA hx0 h itp hmp
  obtain ⟨e1, e2⟩ := deflator_resid (M := M) hs hA hy hx0 h hmp j
  rcases (by rw [← len_sq]; positivity :
    (0 : ℝ) ≤ resid A itp.pairs j ⬝ᵥ resid A itp.pairs j).lt_or_eq with h0 | h0
  · refine step_progress he hk hR (hc itq hmq) (C45_orthonormal_partial hs he hA hx0 h itp hmp (hc itp hmp)) g1 ha
      hAa hm hm' j hj ?_ ?_ h0
    · rw [e1, ← len_sq]
      exact hMm.1 _
    · refine e2.trans ?_
      rw [← len_sq, ← len_sq, ← mul_pow]
      exact pow_le_pow_left₀ (len_nonneg _) (hMm.2 _) 2
  · rw [← h0]
    have hmono := fun i => C58_monotone hs he hA hx0 h hc p (p + 1) (by omega) itp itq hp hq i
    unfold Improves
    cases ho : P.order with
    | smallest =>
      simp only [ho, NoWorse] at hmono ⊢
      have := Finset.sum_le_sum fun i (_ : i ∈ Finset.univ) => hmono i
      simpa using this
    | largest =>
      simp only [ho, NoWorse] at hmono ⊢
      have := Finset.sum_le_sum fun i (_ : i ∈ Finset.univ) => hmono i
      simpa using this

/-- Every Ritz value is at most `a` in absolute value. -/
theorem ritz_abs_le {n k : Nat} {A : Matrix (Fin n) (Fin n) ℝ} {X : Matrix (Fin n) (Fin k) ℝ} {μ : Fin k → ℝ}
    {a : ℝ} (hAa : ∀ x, len (A *ᵥ x) ≤ a * len x) (ho : Xᵀ * X = 1) (hr : Xᵀ * A * X = diagonal μ)
    (j : Fin k) : |μ j| ≤ a := by
  have h1 : μ j = X.col j ⬝ᵥ A *ᵥ X.col j := by
    have := congrFun (congrFun hr j) j
    rw [diagonal_apply_eq, Matrix.mul_assoc] at this
    rw [← this]
    rfl
  have h2 : len (X.col j) = 1 := by
    have h1 := congrFun (congrFun ho j) j
    rw [Matrix.mul_apply, one_apply_eq] at h1
    rw [len, Real.sqrt_eq_one, ← h1]
    exact Finset.sum_congr rfl fun i _ => by rw [transpose_apply, sq, col_apply]
  have h3 := abs_dot_le_len (X.col j) (A *ᵥ X.col j)
  have h4 := hAa (X.col j)
  rw [h2, one_mul] at h3
  rw [h2, mul_one] at h4
  rw [h1]
  exact h3.trans h4

/-- Adding up the gains. -/
theorem gains_add_up {n k : Nat} {A M : Matrix (Fin n) (Fin n) ℝ} (hs : A.IsSymm) {eig : EigSolver ℝ}
    (he : EigWithin 0 eig) {P : LobParams ℝ} (hA : IsOperator A P) (hy : Deflates A P)
    (hM : IsPreconditioner M P) {a m m' : ℝ} (ha : 0 < a) (hAa : ∀ x, len (A *ᵥ x) ≤ a * len x) (hm : 0 < m)
    (hm' : 0 < m') (hMm : Between m m' M) {x0 : Arr2 ℝ} (hx0 : HasShape x0 n k)
    {maxiter : Nat} {res : LobpcgResult ℝ} {hist : List (Iterate ℝ)}
    (h : lobpcgRun eig P x0 maxiter = .ok (res, hist))
    (hc : ∀ it ∈ hist, ∀ B, it.gram = some B → WellConditioned condFloor B) {θ : ℝ} (hθ : 0 ≤ θ)
    (hlow : ∀ it ∈ hist, ∀ (j : Fin k) (ρ : ℝ), it.active[j.val]? = some true →
      it.pairs.rnorm[j.val]? = some ρ → θ ≤ ρ) :
    (hist.length - 1 : Nat) * θ ^ 2 ≤ 5 * k * (a * m' / m) ^ 2 := by
  obtain hl | hl := Nat.eq_zero_or_pos hist.length
  · rw [hl]; simp; positivity
  set δ := 2 / 5 * (m / m') ^ 2 * θ ^ 2 / a with hδ
  have hval : ∀ it ∈ hist, |∑ i : Fin k, it.pairs.eigvals.get i| ≤ k * a := by
    intro it hit
    have h1 := ritz_abs_le hAa (C45_orthonormal_partial hs he hA hx0 h it hit (hc it hit))
      (iterate_ritz hs he hA hx0 h it hit).1
    calc |∑ i : Fin k, it.pairs.eigvals.get i| ≤ ∑ i : Fin k, |it.pairs.eigvals.get i| :=
          Finset.abs_sum_le_sum_abs _ _
      _ ≤ ∑ _i : Fin k, a := Finset.sum_le_sum fun i _ => h1 i
      _ = k * a := by simp
  have hchain := lobpcgRun_dir hs hA hy hM hx0 h
  rw [List.isChain_iff_getElem] at hchain
  have hstep : ∀ p itp itq, hist[p]? = some itp → hist[p + 1]? = some itq →
      Improves P.order (∑ i : Fin k, itp.pairs.eigvals.get i) (∑ i : Fin k, itq.pairs.eigvals.get i) δ := by
    intro p itp itq hp hq
    obtain ⟨hlt, hq'⟩ := List.getElem?_eq_some_iff.1 hq
    obtain ⟨hlt', hp'⟩ := List.getElem?_eq_some_iff.1 hp
    have hstep := hchain p hlt
    rw [hp', hq'] at hstep
    obtain ⟨s, S, a', B, vecs, -, -, -, -, -, -, -, -, -, ⟨j, hj⟩, -⟩ := hstep
    have hmp := List.mem_of_getElem? hp
    have hρ := rnorm_resid hA hx0 h hmp j
    have h1 := hlow itp hmp j _ hj hρ
    have h2 := C123_progress hs he hA hy hM ha hAa hm hm' hMm hx0 h hc p itp itq hp hq j hj _ hρ
    have h3 : δ ≤ 2 / 5 * (m / m') ^ 2 * len (resid A itp.pairs j) ^ 2 / a := by
      rw [hδ]
      refine div_le_div_of_nonneg_right (mul_le_mul_of_nonneg_left ?_ (by positivity)) ha.le
      exact pow_le_pow_left₀ hθ h1 2
    unfold Improves at h2 ⊢
    cases ho : P.order with
    | smallest => simp only [ho] at h2 ⊢; linarith
    | largest => simp only [ho] at h2 ⊢; linarith
  have htel : ∀ (p : Nat) (it0 itp : Iterate ℝ), hist[0]? = some it0 → hist[p]? = some itp →
      Improves P.order (∑ i : Fin k, it0.pairs.eigvals.get i) (∑ i : Fin k, itp.pairs.eigvals.get i) (p * δ) := by
    intro p
    induction p with
    | zero =>
      intro it0 itp h0 hp
      rw [h0, Option.some.injEq] at hp
      subst hp
      unfold Improves
      cases P.order <;> simp
    | succ p ih =>
      intro it0 itp h0 hp
      obtain ⟨hlt, -⟩ := List.getElem?_eq_some_iff.1 hp
      have hmid : hist[p]? = some (hist[p]'(by omega)) := List.getElem?_eq_getElem _
      have e1 := ih it0 _ h0 hmid
      have e2 := hstep p _ itp hmid hp
      unfold Improves at e1 e2 ⊢
      push_cast
      cases ho : P.order with
      | smallest => simp only [ho] at e1 e2 ⊢; linarith
      | largest => simp only [ho] at e1 e2 ⊢; linarith
  have g0 : hist[0]? = some (hist[0]'hl) := List.getElem?_eq_getElem _
  have g1 : hist[hist.length - 1]? = some (hist[hist.length - 1]'(by omega)) := List.getElem?_eq_getElem _
  have e1 := htel _ _ _ g0 g1
  have b0 := abs_le.1 (hval _ (List.mem_of_getElem? g0))
  have b1 := abs_le.1 (hval _ (List.mem_of_getElem? g1))
  have e2 : ((hist.length - 1 : Nat) : ℝ) * δ ≤ 2 * (k * a) := by
    unfold Improves at e1
    cases ho : P.order with
    | smallest => simp only [ho] at e1; linarith
    | largest => simp only [ho] at e1; linarith
  rw [hδ] at e2
  have e3 : ((hist.length - 1 : Nat) : ℝ) * θ ^ 2 =
      ((hist.length - 1 : Nat) : ℝ) * (2 / 5 * (m / m') ^ 2 * θ ^ 2 / a) * (5 / 2 * a * (m' / m) ^ 2) := by
    field_simp
  rw [e3]
  calc _ ≤ 2 * (k * a) * (5 / 2 * a * (m' / m) ^ 2) := mul_le_mul_of_nonneg_right e2 (by positivity)
    _ = _ := by ring

/-- **C123**, the number of iterations: whatever `maxiter` is, `lobpcg` makes at most
`5 k (a m' / (m tol))²` steps. Hypotheses as in `C123_progress`. -/
theorem C123_iterations {n k : Nat} {A M : Matrix (Fin n) (Fin n) ℝ} (hs : A.IsSymm) {eig : EigSolver ℝ}
    (he : EigWithin 0 eig) {P : LobParams ℝ} (hA : IsOperator A P) (hy : Deflates A P)
    (hM : IsPreconditioner M P) {a m m' : ℝ} (ha : 0 < a) (hAa : ∀ x, len (A *ᵥ x) ≤ a * len x) (hm : 0 < m)
    (hm' : 0 < m') (hMm : Between m m' M) (htol : 0 ≤ P.tol) {x0 : Arr2 ℝ} (hx0 : HasShape x0 n k)
    {maxiter : Nat} {res : LobpcgResult ℝ} {hist : List (Iterate ℝ)}
    (h : lobpcgRun eig P x0 maxiter = .ok (res, hist))
    (hc : ∀ it ∈ hist, ∀ B, it.gram = some B → WellConditioned condFloor B) :
    (hist.length - 1 : Nat) * P.tol ^ 2 ≤ 5 * k * (a * m' / m) ^ 2 := by
  refine gains_add_up hs he hA hy hM ha hAa hm hm' hMm hx0 h hc htol fun it hit j ρ hj hρ => ?_
  obtain ⟨l, r, hlr⟩ := List.append_of_mem hit
  obtain ⟨-, -, h6⟩ := C49_locked eig P x0 maxiter _ hist h l r it hlr
  obtain ⟨ρ', h7, h8⟩ := (h6 j (by rw [hx0.2]; exact j.2)).1 hj it (by simp)
  rw [hρ, Option.some.injEq] at h7
  subst h7
  exact le_of_lt (by simpa using h8)

/-- **C123**, convergence: if the number of iterations allowed exceeds `5 k (a m' / (m tol))²` and `lobpcg`
returns `Ok`, it has stopped because it converged: every pair has reached the tolerance. Hypotheses as in
`C123_progress`. -/
theorem C123_converges {n k : Nat} {A M : Matrix (Fin n) (Fin n) ℝ} (hs : A.IsSymm) {eig : EigSolver ℝ}
    (he : EigWithin 0 eig) {P : LobParams ℝ} (hA : IsOperator A P) (hy : Deflates A P)
    (hM : IsPreconditioner M P) {a m m' : ℝ} (ha : 0 < a) (hAa : ∀ x, len (A *ᵥ x) ≤ a * len x) (hm : 0 < m)
    (hm' : 0 < m') (hMm : Between m m' M) (htol : 0 ≤ P.tol) {x0 : Arr2 ℝ} (hx0 : HasShape x0 n k)
    {maxiter : Nat} (hmax : 5 * k * (a * m' / m) ^ 2 < (min (10 * n) maxiter : Nat) * P.tol ^ 2)
    {b : Lobpcg ℝ} {hist : List (Iterate ℝ)}
    (h : lobpcgRun eig P x0 maxiter = .ok (.ok b, hist))
    (hc : ∀ it ∈ hist, ∀ B, it.gram = some B → WellConditioned condFloor B) (j : Fin k) :
    ∃ it ∈ hist, ∃ ρ, it.pairs.rnorm[j.val]? = some ρ ∧ ρ ≤ P.tol := by
  have h1 := C123_iterations hs he hA hy hM ha hAa hm hm' hMm htol hx0 h hc
  have h2 : hist.length < 1 + min (10 * x0.nr) maxiter := by
    rw [hx0.1]
    by_contra hcon
    push Not at hcon
    have h3 : min (10 * n) maxiter ≤ hist.length - 1 := by omega
    have h4 : ((min (10 * n) maxiter : Nat) : ℝ) ≤ ((hist.length - 1 : Nat) : ℝ) := by exact_mod_cast h3
    have h5 := mul_le_mul_of_nonneg_right h4 (sq_nonneg P.tol)
    linarith
  obtain ⟨it, hit, ρ, hρ, hlt⟩ := C49_converged eig P x0 maxiter b hist h h2 j (by rw [hx0.2]; exact j.2)
  exact ⟨it, hit, ρ, hρ, by simpa using hlt⟩

/-- **C123**, the returned residual for one vector: it is at most `tol`, or it has gone down like
`a (m'/m) √(5 / iterations)`. Hypotheses as in `C123_progress`; by C62 such a run does return `Ok`. -/
theorem C123_single {n : Nat} {A M : Matrix (Fin n) (Fin n) ℝ} (hs : A.IsSymm) {eig : EigSolver ℝ}
    (he : EigWithin 0 eig) {P : LobParams ℝ} (hA : IsOperator A P) (hy : Deflates A P)
    (hM : IsPreconditioner M P) {a m m' : ℝ} (ha : 0 < a) (hAa : ∀ x, len (A *ᵥ x) ≤ a * len x) (hm : 0 < m)
    (hm' : 0 < m') (hMm : Between m m' M) {x0 : Arr2 ℝ} (hx0 : HasShape x0 n 1)
    {maxiter : Nat} {b : Lobpcg ℝ} {hist : List (Iterate ℝ)}
    (h : lobpcgRun eig P x0 maxiter = .ok (.ok b, hist))
    (hc : ∀ it ∈ hist, ∀ B, it.gram = some B → WellConditioned condFloor B) :
    ∃ ρ, b.rnorm = [ρ] ∧ (ρ ≤ P.tol ∨ (min (10 * n) maxiter : Nat) * ρ ^ 2 ≤ 5 * (a * m' / m) ^ 2) := by
  obtain ⟨hleast, itb, hitb, hb⟩ := C42_best_iterate_real eig P x0 maxiter _ hist h b (Or.inl rfl)
  have hone : ∀ it ∈ hist, ∃ ρ, it.pairs.rnorm = [ρ] := by
    intro it hit
    obtain ⟨l, r, hlr⟩ := List.append_of_mem hit
    obtain ⟨h5, -, -⟩ := C49_locked eig P x0 maxiter _ hist h l r it hlr
    rw [hx0.2] at h5
    exact List.length_eq_one_iff.1 h5
  obtain ⟨ρ, hρ⟩ := hone itb hitb
  have hnn : 0 ≤ ρ := by
    have := rnorm_resid hA hx0 h hitb 0
    rw [hρ] at this
    simp only [Fin.val_zero, List.getElem?_cons_zero, Option.some.injEq] at this
    rw [this]
    exact len_nonneg _
  rw [hb] at hρ
  have hlow : ∀ it ∈ hist, ∀ ρ', it.pairs.rnorm[0]? = some ρ' → ρ ≤ ρ' := by
    intro it hit ρ' hρ'
    obtain ⟨σ, hσ⟩ := hone it hit
    have := hleast.2 ⟨it, hit, rfl⟩
    rw [hσ] at hρ'
    simp only [List.getElem?_cons_zero, Option.some.injEq] at hρ'
    subst hρ'
    simpa [hρ, hσ] using this
  refine ⟨ρ, hρ, ?_⟩
  by_cases h2 : hist.length < 1 + min (10 * x0.nr) maxiter
  · obtain ⟨it, hit, σ, hσ, hlt⟩ := C49_converged eig P x0 maxiter b hist h h2 0 (by rw [hx0.2]; exact one_pos)
    exact Or.inl ((hlow it hit σ hσ).trans (by simpa using hlt))
  · have h1 := gains_add_up hs he hA hy hM ha hAa hm hm' hMm hx0 h hc hnn
      (fun it hit j σ _ hσ => hlow it hit σ (by rwa [Subsingleton.elim j 0] at hσ))
    rw [hx0.1] at h2
    have h3 : min (10 * n) maxiter ≤ hist.length - 1 := by omega
    have h4 : ((min (10 * n) maxiter : Nat) : ℝ) ≤ ((hist.length - 1 : Nat) : ℝ) := by exact_mod_cast h3
    have h5 := mul_le_mul_of_nonneg_right h4 (sq_nonneg ρ)
    exact Or.inr (by rw [Nat.cast_one, mul_one] at h1; exact h5.trans h1)

/-- `L` lies beyond `v` in the direction opposite to the one asked for, by at least `g`. -/
def Beyond (order : Order) (v L g : ℝ) : Prop :=
  match order with
  | .smallest => v + g ≤ L
  | .largest => L ≤ v - g

/-- The residual, the Rayleigh quotient and the length in the coordinates of the eigenvectors. -/
theorem eig_coords {n : Nat} {A Q : Matrix (Fin n) (Fin n) ℝ} {Λ : Fin n → ℝ} (hQ : Qᵀ * Q = 1)
    (hAQ : A = Q * diagonal Λ * Qᵀ) (x : Fin n → ℝ) (v : ℝ) :
    x ⬝ᵥ x = ∑ i, (Q.col i ⬝ᵥ x) ^ 2 ∧ x ⬝ᵥ A *ᵥ x = ∑ i, Λ i * (Q.col i ⬝ᵥ x) ^ 2 ∧
      len (A *ᵥ x - v • x) ^ 2 = ∑ i, (Λ i - v) ^ 2 * (Q.col i ⬝ᵥ x) ^ 2 := by
  have hQ' : Q * Qᵀ = 1 := mul_eq_one_comm.1 hQ
  set c := Qᵀ *ᵥ x with hcx
  have hc : ∀ i, c i = Q.col i ⬝ᵥ x := fun i => rfl
  have hx : x = Q *ᵥ c := by rw [hcx, mulVec_mulVec, hQ', one_mulVec]
  have hdot : ∀ u w : Fin n → ℝ, Q *ᵥ u ⬝ᵥ Q *ᵥ w = ∑ i, u i * w i := by
    intro u w
    rw [mulVec_dot, mulVec_mulVec, hQ, one_mulVec]
    rfl
  have hAx : A *ᵥ x = Q *ᵥ (fun i => Λ i * c i) := by
    rw [hAQ, ← mulVec_mulVec, ← mulVec_mulVec, ← hcx]
    congr 1
    funext i
    rw [mulVec_diagonal]
  refine ⟨?_, ?_, ?_⟩
  · rw [hx, hdot]
    rw [← hx]
    exact Finset.sum_congr rfl fun i _ => by rw [hc]; ring
  · rw [hAx]
    nth_rw 1 [hx]
    rw [hdot]
    exact Finset.sum_congr rfl fun i _ => by rw [hc]; ring
  · have h1 : A *ᵥ x - v • x = Q *ᵥ (fun i => (Λ i - v) * c i) := by
      rw [hAx]
      nth_rw 1 [hx]
      rw [← mulVec_smul, ← mulVec_sub]
      congr 1
      funext i
      simp only [Pi.sub_apply, Pi.smul_apply, smul_eq_mul]
      ring
    rw [h1, len_sq, hdot]
    exact Finset.sum_congr rfl fun i _ => by rw [hc]; ring

/-- Temple's inequality, for either end of the spectrum. -/
theorem temple {n : Nat} {A Q : Matrix (Fin n) (Fin n) ℝ} {Λ : Fin n → ℝ} (hQ : Qᵀ * Q = 1)
    (hAQ : A = Q * diagonal Λ * Qᵀ) {i0 : Fin n} {order : Order} {v0 g : ℝ} (hg : 0 < g)
    (hgap : ∀ i ≠ i0, Beyond order v0 (Λ i) g) {x : Fin n → ℝ} (hx : x ⬝ᵥ x = 1)
    (hv : Improves order v0 (x ⬝ᵥ A *ᵥ x) 0) :
    Improves order (x ⬝ᵥ A *ᵥ x) (Λ i0) 0 ∧
    g * |x ⬝ᵥ A *ᵥ x - Λ i0| ≤ len (A *ᵥ x - (x ⬝ᵥ A *ᵥ x) • x) ^ 2 ∧
    g * (1 - (Q.col i0 ⬝ᵥ x) ^ 2) ≤ |x ⬝ᵥ A *ᵥ x - Λ i0| := by
  obtain ⟨e1, e2, e3⟩ := eig_coords hQ hAQ x (x ⬝ᵥ A *ᵥ x)
  rw [hx] at e1
  generalize x ⬝ᵥ A *ᵥ x = v at *
  generalize hcd : (fun i => Q.col i ⬝ᵥ x) = c at *
  replace hcd : ∀ i, Q.col i ⬝ᵥ x = c i := fun i => congrFun hcd i
  simp only [hcd] at *
  have t0 : ∀ f : Fin n → ℝ, ∑ i, f i = f i0 + ∑ i ∈ Finset.univ.erase i0, f i := fun f =>
    (Finset.add_sum_erase _ _ (Finset.mem_univ i0)).symm
  have f1 := t0 fun i => c i ^ 2
  have f2 := t0 fun i => Λ i * c i ^ 2
  have f3 := t0 fun i => (Λ i - v) ^ 2 * c i ^ 2
  have hlin : ∑ i ∈ Finset.univ.erase i0, (Λ i - v) * c i ^ 2 = -((Λ i0 - v) * c i0 ^ 2) := by
    have : ∑ i, (Λ i - v) * c i ^ 2 = 0 := by
      simp only [sub_mul, Finset.sum_sub_distrib, ← Finset.mul_sum]
      rw [← e2, ← e1]; ring
    rw [t0] at this
    linarith
  have hne : ∀ i ∈ Finset.univ.erase i0, i ≠ i0 := fun i hi => Finset.ne_of_mem_erase hi
  have hS : (∑ i ∈ Finset.univ.erase i0, c i ^ 2) = 1 - c i0 ^ 2 := by
    rw [f1] at e1; linarith
  have hS0 : 0 ≤ 1 - c i0 ^ 2 := by rw [← hS]; exact Finset.sum_nonneg fun i _ => sq_nonneg _
  have hsec : ∀ w : ℝ, ∑ i, (Λ i - Λ i0) * (Λ i - w) * c i ^ 2 =
      ∑ i, (Λ i - v) ^ 2 * c i ^ 2 - (v - Λ i0) * (w - v) := by
    intro w
    have h1 : ∀ i, (Λ i - Λ i0) * (Λ i - w) * c i ^ 2 = (Λ i - v) ^ 2 * c i ^ 2 +
        (2 * v - Λ i0 - w) * (Λ i * c i ^ 2) + (Λ i0 * w - v ^ 2) * c i ^ 2 := fun i => by ring
    simp only [h1, Finset.sum_add_distrib, ← Finset.mul_sum]
    rw [← e1, ← e2]
    ring
  cases order with
  | smallest =>
    simp only [Beyond, Improves, sub_zero] at hgap hv ⊢
    have g1 : g * (1 - c i0 ^ 2) ≤ (v - Λ i0) * c i0 ^ 2 := by
      rw [← hS, Finset.mul_sum]
      calc _ ≤ ∑ i ∈ Finset.univ.erase i0, (Λ i - v) * c i ^ 2 := Finset.sum_le_sum fun i hi =>
            mul_le_mul_of_nonneg_right (by have := hgap i (hne i hi); linarith) (sq_nonneg _)
        _ = _ := by rw [hlin]; ring
    have g0 : Λ i0 ≤ v := by
      by_contra hcon
      push Not at hcon
      have a1 : (v - Λ i0) * c i0 ^ 2 ≤ 0 := mul_nonpos_of_nonpos_of_nonneg (by linarith) (sq_nonneg _)
      have a2 : 0 ≤ g * (1 - c i0 ^ 2) := by positivity
      have a3 : 1 - c i0 ^ 2 = 0 := by nlinarith
      have a4 : c i0 ^ 2 = 1 := by linarith
      rw [a4, mul_one] at g1
      linarith
    have g2 := hsec (v0 + g)
    have g3 : 0 ≤ ∑ i, (Λ i - Λ i0) * (Λ i - (v0 + g)) * c i ^ 2 := Finset.sum_nonneg fun i _ => by
      by_cases hi : i = i0
      · subst hi; simp
      · have := hgap i hi
        exact mul_nonneg (mul_nonneg (by linarith) (by linarith)) (sq_nonneg _)
    have g4 : (v - Λ i0) * g ≤ (v - Λ i0) * (v0 + g - v) :=
      mul_le_mul_of_nonneg_left (by linarith) (by linarith)
    rw [abs_of_nonneg (by linarith)]
    refine ⟨g0, ?_, ?_⟩
    · rw [e3]; linarith
    · nlinarith
  | largest =>
    simp only [Beyond, Improves, add_zero] at hgap hv ⊢
    have g1 : g * (1 - c i0 ^ 2) ≤ (Λ i0 - v) * c i0 ^ 2 := by
      rw [← hS, Finset.mul_sum]
      calc _ ≤ ∑ i ∈ Finset.univ.erase i0, -((Λ i - v) * c i ^ 2) := Finset.sum_le_sum fun i hi => by
            rw [← neg_mul]
            exact mul_le_mul_of_nonneg_right (by have := hgap i (hne i hi); linarith) (sq_nonneg _)
        _ = _ := by rw [Finset.sum_neg_distrib, hlin]; ring
    have g0 : v ≤ Λ i0 := by
      by_contra hcon
      push Not at hcon
      have a1 : (Λ i0 - v) * c i0 ^ 2 ≤ 0 := mul_nonpos_of_nonpos_of_nonneg (by linarith) (sq_nonneg _)
      have a2 : 0 ≤ g * (1 - c i0 ^ 2) := by positivity
      have a3 : 1 - c i0 ^ 2 = 0 := by nlinarith
      have a4 : c i0 ^ 2 = 1 := by linarith
      rw [a4, mul_one] at g1
      linarith
    have g2 := hsec (v0 - g)
    have g3 : 0 ≤ ∑ i, (Λ i - Λ i0) * (Λ i - (v0 - g)) * c i ^ 2 := Finset.sum_nonneg fun i _ => by
      by_cases hi : i = i0
      · subst hi; simp
      · have := hgap i hi
        exact mul_nonneg (mul_nonneg_of_nonpos_of_nonpos (by linarith) (by linarith)) (sq_nonneg _)
    have g4 : (Λ i0 - v) * g ≤ (Λ i0 - v) * (v - (v0 - g)) :=
      mul_le_mul_of_nonneg_left (by linarith) (by linarith)
    rw [abs_of_nonpos (by linarith)]
    refine ⟨g0, ?_, ?_⟩
    · rw [e3]; nlinarith
    · nlinarith

open Classical in
/-- `temple` for vectors that are orthogonal to some of the eigenvectors: their eigenvalues do not matter. -/
theorem temple_deflated {n : Nat} {A Q : Matrix (Fin n) (Fin n) ℝ} {Λ : Fin n → ℝ} (hQ : Qᵀ * Q = 1)
    (hAQ : A = Q * diagonal Λ * Qᵀ) {i0 : Fin n} {order : Order} {v0 g : ℝ} (hg : 0 < g) {x : Fin n → ℝ}
    (hgap : ∀ i ≠ i0, Q.col i ⬝ᵥ x = 0 ∨ Beyond order v0 (Λ i) g) (hx : x ⬝ᵥ x = 1)
    (hv : Improves order v0 (x ⬝ᵥ A *ᵥ x) 0) :
    Improves order (x ⬝ᵥ A *ᵥ x) (Λ i0) 0 ∧
    g * |x ⬝ᵥ A *ᵥ x - Λ i0| ≤ len (A *ᵥ x - (x ⬝ᵥ A *ᵥ x) • x) ^ 2 ∧
    g * (1 - (Q.col i0 ⬝ᵥ x) ^ 2) ≤ |x ⬝ᵥ A *ᵥ x - Λ i0| := by
  set b : ℝ := match order with | .smallest => v0 + g | .largest => v0 - g with hb
  set L : Fin n → ℝ := fun i => if i ≠ i0 ∧ Q.col i ⬝ᵥ x = 0 then b else Λ i with hL
  have hL0 : L i0 = Λ i0 := if_neg fun h => h.1 rfl
  have hAx : (Q * diagonal L * Qᵀ) *ᵥ x = A *ᵥ x := by
    rw [hAQ, ← mulVec_mulVec, ← mulVec_mulVec, ← mulVec_mulVec (M := Q * diagonal Λ), ← mulVec_mulVec]
    congr 1
    ext i
    rw [mulVec_diagonal, mulVec_diagonal]
    have e : (Qᵀ *ᵥ x) i = Q.col i ⬝ᵥ x := rfl
    rw [e]
    by_cases h : i ≠ i0 ∧ Q.col i ⬝ᵥ x = 0
    · rw [h.2]; simp
    · rw [show L i = Λ i from if_neg h]
  have h := temple (A := Q * diagonal L * Qᵀ) hQ rfl (i0 := i0) (order := order) (v0 := v0) hg (fun i hi => by
    by_cases hz : Q.col i ⬝ᵥ x = 0
    · rw [show L i = b from if_pos ⟨hi, hz⟩, hb]
      cases order <;> exact le_rfl
    · rw [show L i = Λ i from if_neg fun h => hz h.2]
      exact (hgap i hi).resolve_left hz) hx (by rw [hAx]; exact hv)
  rwa [hAx, hL0] at h

/-- A vector in the span of the constraints. -/
def Excluded {n : Nat} (P : LobParams ℝ) (q : Fin n → ℝ) : Prop :=
  ∃ y, P.y = some y ∧ ∃ c, q = toMat n y.nc y *ᵥ c

/-- The iterates are orthogonal to the constraints. -/
theorem excluded_perp {n k : Nat} {A : Matrix (Fin n) (Fin n) ℝ} {eig : EigSolver ℝ} {P : LobParams ℝ}
    (hA : IsOperator A P) (hy : Deflates A P) {x0 : Arr2 ℝ} (hx0 : HasShape x0 n k) {maxiter : Nat}
    {res : LobpcgResult ℝ} {hist : List (Iterate ℝ)} (h : lobpcgRun eig P x0 maxiter = .ok (res, hist))
    {it : Iterate ℝ} (hit : it ∈ hist) {q : Fin n → ℝ} (hq : Excluded P q) (j : Fin k) :
    q ⬝ᵥ (toMat n k it.pairs.eigvecs).col j = 0 := by
  obtain ⟨y, hP, c, rfl⟩ := hq
  obtain ⟨sy, hY, -⟩ := hy y hP
  have h1 := (C46_constraints_partial eig P hA.opShape y hP ⟨sy, rfl⟩ hY x0 hx0 maxiter res hist h).1 it hit
  have e1 : (toMat n y.nc y)ᵀ *ᵥ (toMat n k it.pairs.eigvecs).col j =
      ((toMat n y.nc y)ᵀ * toMat n k it.pairs.eigvecs).col j := rfl
  rw [mulVec_dot, e1, h1]
  exact dotProduct_zero _

/-- A sequence that shrinks by the factor `1 - q` at every step. -/
theorem geometric {e : Nat → ℝ} {q : ℝ} (N : Nat) (h0 : ∀ p ≤ N, 0 ≤ e p)
    (h : ∀ p < N, e (p + 1) ≤ (1 - q) * e p) : ∀ p ≤ N, e p ≤ (1 - q) ^ p * e 0 := by
  intro p
  induction p with
  | zero => intro _; simp
  | succ p ih =>
    intro hp
    have h1 := ih (by omega)
    have h2 := h p (by omega)
    obtain hq | hq := le_or_gt 0 (1 - q)
    · calc e (p + 1) ≤ (1 - q) * e p := h2
        _ ≤ (1 - q) * ((1 - q) ^ p * e 0) := mul_le_mul_of_nonneg_left h1 hq
        _ = _ := by ring
    · have h3 := h 0 (by omega)
      have h4 := h0 1 (by omega)
      have h5 : e 0 = 0 := by
        have := h0 0 (by omega)
        by_contra hne
        have hpos : 0 < e 0 := lt_of_le_of_ne this (Ne.symm hne)
        have := mul_neg_of_neg_of_pos hq hpos
        simp only [Nat.zero_add] at h3
        linarith
      rw [h5, mul_zero] at h1 ⊢
      have h6 := h0 p (by omega)
      have h7 : e p = 0 := le_antisymm h1 h6
      rw [h7, mul_zero] at h2
      exact h2

/-- **C123**, linear convergence for one vector: let `Λ i0` be the eigenvalue asked for, with eigenvector
`Q.col i0`, and let every other eigenvalue lie beyond the first Ritz value by at least `g > 0`, unless its
eigenvector is excluded by the constraints. Then the error of the Ritz value shrinks at every step by the factor `1 - 2/5 (m/m')² g / a`, and the squared sine of the angle
between the iterate and the eigenvector is at most that error divided by `g`. -/
theorem C123_linear {n : Nat} {A M : Matrix (Fin n) (Fin n) ℝ} (hs : A.IsSymm) {eig : EigSolver ℝ}
    (he : EigWithin 0 eig) {P : LobParams ℝ} (hA : IsOperator A P) (hd : Deflates A P)
    (hM : IsPreconditioner M P) {a m m' : ℝ} (ha : 0 < a) (hAa : ∀ x, len (A *ᵥ x) ≤ a * len x) (hm : 0 < m)
    (hm' : 0 < m') (hMm : Between m m' M) {x0 : Arr2 ℝ} (hx0 : HasShape x0 n 1)
    {maxiter : Nat} {res : LobpcgResult ℝ} {it0 : Iterate ℝ} {later : List (Iterate ℝ)}
    (h : lobpcgRun eig P x0 maxiter = .ok (res, it0 :: later))
    (hc : ∀ it ∈ it0 :: later, ∀ B, it.gram = some B → WellConditioned condFloor B)
    {Q : Matrix (Fin n) (Fin n) ℝ} {Λ : Fin n → ℝ} (hQ : Qᵀ * Q = 1) (hAQ : A = Q * diagonal Λ * Qᵀ)
    {i0 : Fin n} {g : ℝ} (hg : 0 < g)
    (hgap : ∀ i ≠ i0, Excluded P (Q.col i) ∨ Beyond P.order (it0.pairs.eigvals.get 0) (Λ i) g)
    (p : Nat) (it : Iterate ℝ) (hp : (it0 :: later)[p]? = some it) :
    |it.pairs.eigvals.get 0 - Λ i0| ≤
      (1 - 2 / 5 * (m / m') ^ 2 * g / a) ^ p * |it0.pairs.eigvals.get 0 - Λ i0| ∧
    g * (1 - (Q.col i0 ⬝ᵥ (toMat n 1 it.pairs.eigvecs).col 0) ^ 2) ≤ |it.pairs.eigvals.get 0 - Λ i0| := by
  set hist := it0 :: later with hhist
  have hunit : ∀ it ∈ hist, (toMat n 1 it.pairs.eigvecs).col 0 ⬝ᵥ (toMat n 1 it.pairs.eigvecs).col 0 = 1 := by
    intro it hit
    have := congrFun (congrFun (C45_orthonormal_partial hs he hA hx0 h it hit (hc it hit)) 0) 0
    rwa [one_apply_eq] at this
  have hval : ∀ it ∈ hist, (toMat n 1 it.pairs.eigvecs).col 0 ⬝ᵥ A *ᵥ (toMat n 1 it.pairs.eigvecs).col 0 =
      it.pairs.eigvals.get 0 := by
    intro it hit
    have := congrFun (congrFun (iterate_ritz hs he hA hx0 h it hit).1 0) 0
    rw [diagonal_apply_eq, Matrix.mul_assoc] at this
    exact this
  have hchain := lobpcgRun_dir hs hA hd hM hx0 h
  rw [List.isChain_iff_getElem] at hchain
  have hstep : ∀ p itp itq, hist[p]? = some itp → hist[p + 1]? = some itq →
      Improves P.order (itp.pairs.eigvals.get 0) (itq.pairs.eigvals.get 0)
        (2 / 5 * (m / m') ^ 2 * len (resid A itp.pairs (0 : Fin 1)) ^ 2 / a) := by
    intro p itp itq hp hq
    obtain ⟨hlt, hq'⟩ := List.getElem?_eq_some_iff.1 hq
    obtain ⟨hlt', hp'⟩ := List.getElem?_eq_some_iff.1 hp
    have hstep := hchain p hlt
    rw [hp', hq'] at hstep
    obtain ⟨s, S, a', B, vecs, -, -, -, -, -, -, -, -, -, ⟨j, hj⟩, -⟩ := hstep
    rw [Subsingleton.elim j 0] at hj
    have h2 := C123_progress hs he hA hd hM ha hAa hm hm' hMm hx0 h hc p itp itq hp hq 0 hj _
      (rnorm_resid hA hx0 h (List.mem_of_getElem? hp) 0)
    rwa [Fin.sum_univ_one, Fin.sum_univ_one] at h2
  have hmono : ∀ (p : Nat) (itp : Iterate ℝ), hist[p]? = some itp →
      Improves P.order (it0.pairs.eigvals.get 0) (itp.pairs.eigvals.get 0) 0 := by
    intro p
    induction p with
    | zero =>
      intro itp hp
      rw [hhist, List.getElem?_cons_zero, Option.some.injEq] at hp
      subst hp
      unfold Improves
      cases P.order <;> simp
    | succ p ih =>
      intro itp hp
      obtain ⟨hlt, -⟩ := List.getElem?_eq_some_iff.1 hp
      have hmid : hist[p]? = some (hist[p]'(by omega)) := List.getElem?_eq_getElem _
      have e1 := ih _ hmid
      have e2 := hstep p _ itp hmid hp
      have e3 : 0 ≤ 2 / 5 * (m / m') ^ 2 * len (resid A (hist[p]'(by omega)).pairs (0 : Fin 1)) ^ 2 / a := by
        positivity
      unfold Improves at e1 e2 ⊢
      cases ho : P.order with
      | smallest => simp only [ho] at e1 e2 ⊢; linarith
      | largest => simp only [ho] at e1 e2 ⊢; linarith
  have htemple : ∀ (p : Nat) (itp : Iterate ℝ), hist[p]? = some itp →
      Improves P.order (itp.pairs.eigvals.get 0) (Λ i0) 0 ∧
      g * |itp.pairs.eigvals.get 0 - Λ i0| ≤ len (resid A itp.pairs (0 : Fin 1)) ^ 2 ∧
      g * (1 - (Q.col i0 ⬝ᵥ (toMat n 1 itp.pairs.eigvecs).col 0) ^ 2) ≤ |itp.pairs.eigvals.get 0 - Λ i0| := by
    intro p itp hp
    have hmem := List.mem_of_getElem? hp
    have hv := hval itp hmem
    have := temple_deflated hQ hAQ hg (fun i hi => (hgap i hi).imp_left fun hq =>
      excluded_perp hA hd hx0 h hmem hq 0) (hunit itp hmem) (by rw [hv]; exact hmono p itp hp)
    rw [hv] at this
    exact this
  refine ⟨?_, (htemple p it hp).2.2⟩
  obtain ⟨hlt, hpe⟩ := List.getElem?_eq_some_iff.1 hp
  have hget : ∀ i (hi : i < hist.length), hist.getD i it0 = hist[i] := fun i hi => by
    rw [List.getD_eq_getElem?_getD, List.getElem?_eq_getElem hi, Option.getD_some]
  have key := geometric (e := fun i => |(hist.getD i it0).pairs.eigvals.get 0 - Λ i0|)
    (q := 2 / 5 * (m / m') ^ 2 * g / a) (hist.length - 1) (fun _ _ => abs_nonneg _) (fun i hi => ?_) p (by omega)
  · rw [hget p hlt, hpe, hget 0 (by omega)] at key
    exact key
  · have hi1 : i + 1 < hist.length := by omega
    rw [hget i (by omega), hget (i + 1) hi1]
    have c1 : hist[i]? = some (hist[i]'(by omega)) := List.getElem?_eq_getElem _
    have c2 : hist[i + 1]? = some (hist[i + 1]'hi1) := List.getElem?_eq_getElem _
    have d1 := hstep i _ _ c1 c2
    obtain ⟨d2, d3, -⟩ := htemple i _ c1
    obtain ⟨d4, -, -⟩ := htemple (i + 1) _ c2
    generalize (hist[i]'(by omega)).pairs.eigvals.get 0 = v at *
    generalize (hist[i + 1]'hi1).pairs.eigvals.get 0 = w at *
    generalize len (resid A (hist[i]'(by omega)).pairs (0 : Fin 1)) = ρ at *
    have d5 : 2 / 5 * (m / m') ^ 2 * g / a * |v - Λ i0| ≤ 2 / 5 * (m / m') ^ 2 * ρ ^ 2 / a := by
      rw [div_mul_eq_mul_div, mul_assoc]
      exact div_le_div_of_nonneg_right (mul_le_mul_of_nonneg_left d3 (by positivity)) ha.le
    rw [sub_mul, one_mul]
    unfold Improves at d1 d2 d4
    cases ho : P.order with
    | smallest =>
      simp only [ho, sub_zero] at d1 d2 d4
      have n1 : |w - Λ i0| = w - Λ i0 := abs_of_nonneg (by linarith)
      have n2 : |v - Λ i0| = v - Λ i0 := abs_of_nonneg (by linarith)
      linarith
    | largest =>
      simp only [ho, add_zero] at d1 d2 d4
      have n1 : |w - Λ i0| = -(w - Λ i0) := abs_of_nonpos (by linarith)
      have n2 : |v - Λ i0| = -(v - Λ i0) := abs_of_nonpos (by linarith)
      linarith

/-- `block_gap` for vectors and either end of the spectrum. -/
theorem block_temple {n k : Nat} {A Q : Matrix (Fin n) (Fin n) ℝ} {Λ : Fin n → ℝ} (hQ : Qᵀ * Q = 1)
    (hAQ : A = Q * diagonal Λ * Qᵀ) {X : Matrix (Fin n) (Fin k) ℝ} {μ : Fin k → ℝ} (hX : Xᵀ * X = 1)
    (hr : Xᵀ * A * X = diagonal μ) {W : Finset (Fin n)} (hW : W.card = k) {order : Order} {v g a : ℝ}
    (hg : 0 < g) (ha0 : 0 ≤ a) (ha : ∀ i, |Λ i| ≤ a) (hμ : ∀ j, |μ j| ≤ a) (hv : ∀ j, NoWorse order (μ j) v)
    (hgap : ∀ i, i ∉ W → (∀ j, Q.col i ⬝ᵥ X.col j = 0) ∨ Beyond order v (Λ i) g) :
    Improves order (∑ j, μ j) (∑ i ∈ W, Λ i) 0 ∧
    |∑ j, μ j - ∑ i ∈ W, Λ i| ≤ (g + 2 * a) / g ^ 2 * ∑ j, len (A *ᵥ X.col j - μ j • X.col j) ^ 2 ∧
    g * (k - ∑ i ∈ W, ∑ j, (Q.col i ⬝ᵥ X.col j) ^ 2) ≤ |∑ j, μ j - ∑ i ∈ W, Λ i| := by
  have hQ' : Q * Qᵀ = 1 := mul_eq_one_comm.1 hQ
  have hC : (Qᵀ * X)ᵀ * (Qᵀ * X) = 1 := by
    rw [transpose_mul, transpose_transpose, Matrix.mul_assoc, ← Matrix.mul_assoc Q, hQ', Matrix.one_mul, hX]
  have hD : (Qᵀ * X)ᵀ * diagonal Λ * (Qᵀ * X) = diagonal μ := by
    rw [← hr, hAQ, transpose_mul, transpose_transpose]
    simp only [Matrix.mul_assoc]
  have hres : ∑ j, len (A *ᵥ X.col j - μ j • X.col j) ^ 2 =
      ∑ j, ∑ i, (Λ i - μ j) ^ 2 * (Qᵀ * X) i j ^ 2 :=
    Finset.sum_congr rfl fun j _ => (eig_coords hQ hAQ (X.col j) (μ j)).2.2
  have hent : ∑ i ∈ W, ∑ j, (Q.col i ⬝ᵥ X.col j) ^ 2 = ∑ i ∈ W, ∑ j, (Qᵀ * X) i j ^ 2 := rfl
  rw [hres, hent]
  cases order with
  | smallest =>
    obtain ⟨h1, h2, h3⟩ := block_gap_deflated hC hD hW (v := min v a) hg ha0
      (fun j => le_min (hv j) (abs_le.1 (hμ j)).2) (min_le_right _ _)
      (fun i hi => (hgap i hi).imp_right fun h => by
        have h' : v + g ≤ Λ i := h
        linarith [min_le_left v a]) (fun i _ => ha i)
    have h4 : 0 ≤ ∑ j, μ j - ∑ i ∈ W, Λ i := le_trans (mul_nonneg hg.le h1) h2
    rw [abs_of_nonneg h4]
    refine ⟨?_, h3, h2⟩
    show ∑ i ∈ W, Λ i ≤ ∑ j, μ j - 0
    linarith
  | largest =>
    have hD' : (Qᵀ * X)ᵀ * diagonal (fun i => -Λ i) * (Qᵀ * X) = diagonal fun j => -μ j := by
      have e1 : diagonal (fun i => -Λ i) = -diagonal Λ := by rw [← diagonal_neg]
      have e2 : (diagonal fun j => -μ j) = -diagonal μ := by rw [← diagonal_neg]
      rw [e1, e2, ← hD, Matrix.mul_neg, Matrix.neg_mul]
    obtain ⟨h1, h2, h3⟩ := block_gap_deflated hC hD' hW (v := min (-v) a) hg ha0
      (fun j => le_min (neg_le_neg (hv j)) (by linarith [(abs_le.1 (hμ j)).1])) (min_le_right _ _)
      (fun i hi => (hgap i hi).imp_right fun h => by
        have h' : Λ i ≤ v - g := h
        linarith [min_le_left (-v) a])
      (fun i _ => by rw [abs_neg]; exact ha i)
    rw [Finset.sum_neg_distrib, Finset.sum_neg_distrib] at h2 h3
    have e3 : ∑ j, ∑ i, (-Λ i - -μ j) ^ 2 * (Qᵀ * X) i j ^ 2 = ∑ j, ∑ i, (Λ i - μ j) ^ 2 * (Qᵀ * X) i j ^ 2 :=
      Finset.sum_congr rfl fun j _ => Finset.sum_congr rfl fun i _ => by ring
    rw [e3] at h3
    have h4 : 0 ≤ -∑ j, μ j - -∑ i ∈ W, Λ i := le_trans (mul_nonneg hg.le h1) h2
    rw [abs_of_nonpos (by linarith)]
    refine ⟨?_, by linarith, by linarith⟩
    show ∑ j, μ j + 0 ≤ ∑ i ∈ W, Λ i
    linarith

/-- **C123**, linear convergence of a block: let `W` be `k` eigenvalues, and let every other eigenvalue lie
beyond all first Ritz values by at least `g > 0`, unless its eigenvector is excluded by the constraints. As
long as no pair is locked, the error of the sum of the Ritz values shrinks at every step by the factor `1 - 2/5 (m/m')² g² / (k a (g + 2a))`, and the sum of the squared
sines of the angles between the iterate and the eigenvectors `W` is at most that error divided by `g`. -/
theorem C123_block {n k : Nat} {A M : Matrix (Fin n) (Fin n) ℝ} (hs : A.IsSymm) {eig : EigSolver ℝ}
    (he : EigWithin 0 eig) {P : LobParams ℝ} (hA : IsOperator A P) (hd : Deflates A P)
    (hM : IsPreconditioner M P) {a m m' : ℝ} (ha : 0 < a) (hAa : ∀ x, len (A *ᵥ x) ≤ a * len x) (hm : 0 < m)
    (hm' : 0 < m') (hMm : Between m m' M) {x0 : Arr2 ℝ} (hx0 : HasShape x0 n k)
    {maxiter : Nat} {res : LobpcgResult ℝ} {it0 : Iterate ℝ} {later : List (Iterate ℝ)}
    (h : lobpcgRun eig P x0 maxiter = .ok (res, it0 :: later))
    (hc : ∀ it ∈ it0 :: later, ∀ B, it.gram = some B → WellConditioned condFloor B)
    {Q : Matrix (Fin n) (Fin n) ℝ} {Λ : Fin n → ℝ} (hQ : Qᵀ * Q = 1) (hAQ : A = Q * diagonal Λ * Qᵀ)
    {W : Finset (Fin n)} (hW : W.card = k) {v g : ℝ} (hg : 0 < g)
    (hv : ∀ j : Fin k, NoWorse P.order (it0.pairs.eigvals.get j) v)
    (hgap : ∀ i, i ∉ W → Excluded P (Q.col i) ∨ Beyond P.order v (Λ i) g)
    (p : Nat) (it : Iterate ℝ) (hp : (it0 :: later)[p]? = some it)
    (hact : ∀ q < p, ∀ it', (it0 :: later)[q]? = some it' → ∀ j : Fin k, it'.active[j.val]? = some true) :
    |∑ j : Fin k, it.pairs.eigvals.get j - ∑ i ∈ W, Λ i| ≤
      (1 - 2 / 5 * (m / m') ^ 2 * g ^ 2 / (k * a * (g + 2 * a))) ^ p *
        |∑ j : Fin k, it0.pairs.eigvals.get j - ∑ i ∈ W, Λ i| ∧
    g * (k - ∑ i ∈ W, ∑ j, (Q.col i ⬝ᵥ (toMat n k it.pairs.eigvecs).col j) ^ 2) ≤
      |∑ j : Fin k, it.pairs.eigvals.get j - ∑ i ∈ W, Λ i| := by
  set hist := it0 :: later with hhist
  obtain hk | hk := Nat.eq_zero_or_pos k
  · subst hk
    have hW0 : W = ∅ := Finset.card_eq_zero.1 hW
    simp [hW0]
  have hQ' : Q * Qᵀ = 1 := mul_eq_one_comm.1 hQ
  have hΛ : ∀ i, |Λ i| ≤ a := by
    refine ritz_abs_le hAa hQ ?_
    rw [hAQ, ← Matrix.mul_assoc, ← Matrix.mul_assoc, hQ, Matrix.one_mul, Matrix.mul_assoc, hQ, Matrix.mul_one]
  have hblock : ∀ (p : Nat) (itp : Iterate ℝ), hist[p]? = some itp →
      Improves P.order (∑ j : Fin k, itp.pairs.eigvals.get j) (∑ i ∈ W, Λ i) 0 ∧
      |∑ j : Fin k, itp.pairs.eigvals.get j - ∑ i ∈ W, Λ i| ≤
        (g + 2 * a) / g ^ 2 * ∑ j : Fin k, len (resid A itp.pairs j) ^ 2 ∧
      g * (k - ∑ i ∈ W, ∑ j, (Q.col i ⬝ᵥ (toMat n k itp.pairs.eigvecs).col j) ^ 2) ≤
        |∑ j : Fin k, itp.pairs.eigvals.get j - ∑ i ∈ W, Λ i| := by
    intro p itp hp
    have hmem := List.mem_of_getElem? hp
    have hX := C45_orthonormal_partial hs he hA hx0 h itp hmem (hc itp hmem)
    have hr := (iterate_ritz hs he hA hx0 h itp hmem).1
    refine block_temple hQ hAQ hX hr hW hg ha.le hΛ (ritz_abs_le hAa hX hr) (fun j => ?_)
      (fun i hi => (hgap i hi).imp_left fun hq j => excluded_perp hA hd hx0 h hmem hq j)
    have h1 := C58_monotone hs he hA hx0 h hc 0 p (Nat.zero_le _) it0 itp rfl hp j
    have h2 := hv j
    unfold NoWorse at h1 h2 ⊢
    cases ho : P.order with
    | smallest => simp only [ho] at h1 h2 ⊢; linarith
    | largest => simp only [ho] at h1 h2 ⊢; linarith
  refine ⟨?_, (hblock p it hp).2.2⟩
  obtain ⟨hlt, hpe⟩ := List.getElem?_eq_some_iff.1 hp
  have hget : ∀ i (hi : i < hist.length), hist.getD i it0 = hist[i] := fun i hi => by
    rw [List.getD_eq_getElem?_getD, List.getElem?_eq_getElem hi, Option.getD_some]
  have key := geometric (e := fun i => |∑ j : Fin k, (hist.getD i it0).pairs.eigvals.get j - ∑ i ∈ W, Λ i|)
    (q := 2 / 5 * (m / m') ^ 2 * g ^ 2 / (k * a * (g + 2 * a))) p (fun _ _ => abs_nonneg _) (fun i hi => ?_)
    p le_rfl
  · rw [hget p hlt, hpe, hget 0 (by omega)] at key
    exact key
  · have hi1 : i + 1 < hist.length := by omega
    rw [hget i (by omega), hget (i + 1) hi1]
    have c1 : hist[i]? = some (hist[i]'(by omega)) := List.getElem?_eq_getElem _
    have c2 : hist[i + 1]? = some (hist[i + 1]'hi1) := List.getElem?_eq_getElem _
    obtain ⟨d2, d3, -⟩ := hblock i _ c1
    obtain ⟨d4, -, -⟩ := hblock (i + 1) _ c2
    have d1 : ∀ j : Fin k, Improves P.order (∑ j : Fin k, (hist[i]'(by omega)).pairs.eigvals.get j)
        (∑ j : Fin k, (hist[i + 1]'hi1).pairs.eigvals.get j)
        (2 / 5 * (m / m') ^ 2 * len (resid A (hist[i]'(by omega)).pairs j) ^ 2 / a) := fun j =>
      C123_progress hs he hA hd hM ha hAa hm hm' hMm hx0 h hc i _ _ c1 c2 j (hact i hi _ c1 j) _
        (rnorm_resid hA hx0 h (List.mem_of_getElem? c1) j)
    generalize ∑ j : Fin k, (hist[i]'(by omega)).pairs.eigvals.get j = s at *
    generalize ∑ j : Fin k, (hist[i + 1]'hi1).pairs.eigvals.get j = t at *
    generalize hρ : (fun j : Fin k => len (resid A (hist[i]'(by omega)).pairs j)) = ρ at *
    replace hρ : ∀ j : Fin k, len (resid A (hist[i]'(by omega)).pairs j) = ρ j := fun j => congrFun hρ j
    simp only [hρ] at d1 d3
    -- the gain, averaged over the pairs
    have hk' : (0 : ℝ) < k := by exact_mod_cast hk
    have hgain : 2 / 5 * (m / m') ^ 2 * g ^ 2 / (k * a * (g + 2 * a)) * |s - ∑ i ∈ W, Λ i| ≤
        2 / 5 * (m / m') ^ 2 / a * ((∑ j, ρ j ^ 2) / k) := by
      have : 2 / 5 * (m / m') ^ 2 * g ^ 2 / (k * a * (g + 2 * a)) * |s - ∑ i ∈ W, Λ i| ≤
          2 / 5 * (m / m') ^ 2 * g ^ 2 / (k * a * (g + 2 * a)) * ((g + 2 * a) / g ^ 2 * ∑ j, ρ j ^ 2) :=
        mul_le_mul_of_nonneg_left d3 (by positivity)
      refine this.trans (le_of_eq ?_)
      field_simp
    have hsum : 2 / 5 * (m / m') ^ 2 / a * ((∑ j, ρ j ^ 2) / k) =
        (∑ j, 2 / 5 * (m / m') ^ 2 * ρ j ^ 2 / a) / k := by
      rw [mul_div_assoc', Finset.mul_sum]
      congr 1
      exact Finset.sum_congr rfl fun j _ => by ring
    rw [sub_mul, one_mul]
    unfold Improves at d1 d2 d4
    cases ho : P.order with
    | smallest =>
      simp only [ho, sub_zero] at d1 d2 d4
      have n1 : |t - ∑ i ∈ W, Λ i| = t - ∑ i ∈ W, Λ i := abs_of_nonneg (by linarith)
      have n2 : |s - ∑ i ∈ W, Λ i| = s - ∑ i ∈ W, Λ i := abs_of_nonneg (by linarith)
      have n3 : (∑ j, 2 / 5 * (m / m') ^ 2 * ρ j ^ 2 / a) / k ≤ s - t := by
        rw [div_le_iff₀ hk']
        calc _ ≤ ∑ _j : Fin k, (s - t) := Finset.sum_le_sum fun j _ => by linarith [d1 j]
          _ = _ := by rw [Finset.sum_const, Finset.card_univ, Fintype.card_fin, nsmul_eq_mul, mul_comm]
      linarith
    | largest =>
      simp only [ho, add_zero] at d1 d2 d4
      have n1 : |t - ∑ i ∈ W, Λ i| = -(t - ∑ i ∈ W, Λ i) := abs_of_nonpos (by linarith)
      have n2 : |s - ∑ i ∈ W, Λ i| = -(s - ∑ i ∈ W, Λ i) := abs_of_nonpos (by linarith)
      have n3 : (∑ j, 2 / 5 * (m / m') ^ 2 * ρ j ^ 2 / a) / k ≤ t - s := by
        rw [div_le_iff₀ hk']
        calc _ ≤ ∑ _j : Fin k, (t - s) := Finset.sum_le_sum fun j _ => by linarith [d1 j]
          _ = _ := by rw [Finset.sum_const, Finset.card_univ, Fintype.card_fin, nsmul_eq_mul, mul_comm]
      linarith

/-- No preconditioner: `m = m' = 1`. -/
theorem between_one (n : Nat) : Between 1 1 (1 : Matrix (Fin n) (Fin n) ℝ) :=
  ⟨fun x => by rw [one_mulVec, one_mul, len_sq], fun x => by rw [one_mulVec, one_mul]⟩

/-- The run `strict_run` has no preconditioner, -/
theorem strict_precond : IsPreconditioner (1 : Matrix (Fin 2) (Fin 2) ℝ) strictParams :=
  fun y z k hy hz => by injection hz with hz; rw [hz, Matrix.one_mul]

/-- its operator is bounded by `3`, -/
theorem strict_bound : ∀ x, len (toMat 2 2 (ofRows 2 2 [[1, 0], [0, 3]]) *ᵥ x) ≤ 3 * len x := by
  intro x
  refine le_of_sq_le_sq ?_ (mul_nonneg (by norm_num) (len_nonneg _))
  rw [mul_pow, len_sq, len_sq]
  simp only [toMat, ofRows, mulVec, dotProduct, Fin.sum_univ_two]
  simp
  nlinarith [sq_nonneg (x 0)]

/-- and its first Ritz value is `2`. -/
theorem strict_first {b : Lobpcg ℝ} {it0 it1 : Iterate ℝ}
    (h : lobpcgRun exactEig strictParams (ofRows 2 1 [[1], [1]]) 1 = .ok (.ok b, [it0, it1]))
    (hc : ∀ it ∈ [it0, it1], ∀ B, it.gram = some B → WellConditioned condFloor B) :
    it0.pairs.eigvals.get 0 = 2 := by
  have hx0 : HasShape (ofRows 2 1 [[1], [1]] : Arr2 ℝ) 2 1 := ⟨rfl, rfl⟩
  obtain ⟨C, h5⟩ := first_iterate_span strict_operator.opShape rfl hx0 h it0 rfl
  have h6 := C45_orthonormal_partial strict_symm exactEig_within strict_operator hx0 h it0 (by simp)
    (hc it0 (by simp))
  have h7 := congrFun (congrFun (iterate_ritz strict_symm exactEig_within strict_operator hx0 h it0
    (by simp)).1 0) 0
  rw [diagonal_apply_eq] at h7
  have t2 := congrFun (congrFun h6 0) 0
  rw [h5] at h7 t2
  simp [toMat, Matrix.mul_apply, ofRows, Fin.sum_univ_two] at h7 t2
  linarith

/-- The theorems are not vacuous: the run `strict_run` on `diag(1, 3)` from `(1, 1)` meets their hypotheses.
Its first Ritz value is `2`, the gap to the unwanted eigenvalue is `1`. -/
example : ∃ b it0 it1,
    lobpcgRun exactEig strictParams (ofRows 2 1 [[1], [1]]) 1 = .ok (.ok b, [it0, it1]) ∧
      |it1.pairs.eigvals.get 0 - 3| ≤ (1 - 2 / 5 * (1 / 1) ^ 2 * 1 / 3) ^ 1 * |it0.pairs.eigvals.get 0 - 3| ∧
      (∃ ρ, b.rnorm = [ρ] ∧ (ρ ≤ 0 ∨ (1 : Nat) * ρ ^ 2 ≤ 5 * ((3 : ℝ) * 1 / 1) ^ 2)) ∧
      |∑ j : Fin 1, it1.pairs.eigvals.get j - ∑ i ∈ {(1 : Fin 2)}, (![1, 3] : Fin 2 → ℝ) i| ≤
        (1 - 2 / 5 * (1 / 1) ^ 2 * 1 ^ 2 / ((1 : Nat) * 3 * (1 + 2 * 3))) ^ 1 *
          |∑ j : Fin 1, it0.pairs.eigvals.get j - ∑ i ∈ {(1 : Fin 2)}, (![1, 3] : Fin 2 → ℝ) i| := by
  obtain ⟨b, it0, it1, h, hc⟩ := strict_run
  have hx0 : HasShape (ofRows 2 1 [[1], [1]] : Arr2 ℝ) 2 1 := ⟨rfl, rfl⟩
  have hM := strict_precond
  have hAa := strict_bound
  have hfirst := strict_first h hc
  refine ⟨b, it0, it1, h, ?_, ?_, ?_⟩
  · exact (C123_linear strict_symm exactEig_within strict_operator (fun y h => by cases h) hM (by norm_num) hAa one_pos one_pos
      (between_one 2) hx0 h hc (Q := 1) (Λ := ![1, 3]) (by simp) (by
        ext i j
        fin_cases i <;> fin_cases j <;> simp [toMat, ofRows]) (i0 := 1) (g := 1) one_pos (fun i hi => .inr <| by
        have : i = 0 := by omega
        subst this
        show (1 : ℝ) ≤ it0.pairs.eigvals.get 0 - 1
        rw [hfirst]; norm_num) 1 it1 rfl).1
  · exact C123_single strict_symm exactEig_within strict_operator (fun y h => by cases h) hM (by norm_num) hAa
      one_pos one_pos (between_one 2) hx0 h hc
  · have hact : ∀ q < 1, ∀ it', [it0, it1][q]? = some it' → ∀ j : Fin 1, it'.active[j.val]? = some true := by
      intro q hq it' hit j
      obtain rfl : q = 0 := by omega
      obtain rfl : it0 = it' := by simpa using hit
      have hchain := lobpcgRun_dir strict_symm strict_operator (fun y h => by cases h) hM hx0 h
      obtain ⟨-, -, -, -, -, -, -, -, -, -, -, -, -, -, ⟨i, hi⟩, -⟩ := hchain.rel
      rw [Subsingleton.elim j i]
      exact hi
    exact (C123_block strict_symm exactEig_within strict_operator (fun y h => by cases h) hM (by norm_num) hAa one_pos one_pos
      (between_one 2) hx0 h hc (Q := 1) (Λ := ![1, 3]) (by simp) (by
        ext i j
        fin_cases i <;> fin_cases j <;> simp [toMat, ofRows]) (W := {1}) rfl (v := 2) (g := 1) one_pos
        (fun j => by
          rw [Subsingleton.elim j 0]
          exact hfirst.symm.le)
        (fun i hi => .inr <| by
          have : i ≠ 1 := fun h => hi (by rw [h]; exact Finset.mem_singleton_self _)
          have : i = 0 := by omega
          subst this
          show (1 : ℝ) ≤ 2 - 1
          norm_num) 1 it1 rfl hact).1

end LinfaLinalg
