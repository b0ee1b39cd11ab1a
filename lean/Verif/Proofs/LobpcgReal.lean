import Verif.Proofs.LobpcgShape

/-! # `lobpcg` over the reals: matrix identities -/

set_option linter.unusedSectionVars false

namespace LinfaLinalg

open Matrix

section
variable {n m k b c : Nat}

theorem dot_mat {x y z : Arr2 ℝ} (h : x.dot y = .ok z) (hx : HasShape x n m) (hy : HasShape y m k) :
    HasShape z n k ∧ toMat n k z = toMat n m x * toMat m k y := by
  obtain ⟨-, rfl⟩ := Arr2.dot_inv h
  refine ⟨⟨hx.1, hy.2⟩, ?_⟩
  ext i j
  simp only [toMat_apply, Matrix.mul_apply, dotTo_eq, hx.2]
  rw [Finset.sum_range]

theorem toMat_t (x : Arr2 ℝ) : toMat m n x.t = (toMat n m x)ᵀ := rfl

theorem HasShape.t {x : Arr2 ℝ} (h : HasShape x n m) : HasShape x.t m n := ⟨h.2, h.1⟩

theorem tdot_mat {x y z : Arr2 ℝ} (h : x.t.dot y = .ok z) (hx : HasShape x n m)
    (hy : HasShape y n k) : HasShape z m k ∧ toMat m k z = (toMat n m x)ᵀ * toMat n k y :=
  dot_mat h hx.t hy

theorem add_mat {x y z : Arr2 ℝ} (h : x.add y = .ok z) (hx : HasShape x n m) :
    HasShape y n m ∧ HasShape z n m ∧ toMat n m z = toMat n m x + toMat n m y := by
  obtain ⟨h1, h2, rfl⟩ := Arr2.add_inv h
  exact ⟨⟨h1.symm.trans hx.1, h2.symm.trans hx.2⟩, hx, rfl⟩

theorem genMatMul_mat {x y v z : Arr2 ℝ} (h : genMatMul (-1) x y 1 v = .ok z) (hx : HasShape x n m)
    (hv : HasShape v n k) :
    HasShape y m k ∧ HasShape z n k ∧ toMat n k z = toMat n k v - toMat n m x * toMat m k y := by
  obtain ⟨h1, h2, h3, rfl⟩ := genMatMul_inv h
  refine ⟨⟨h1.symm.trans hx.2, h3.trans hv.2⟩, hv, ?_⟩
  ext i j
  simp only [toMat_apply, Matrix.sub_apply, Matrix.mul_apply, dotTo_eq, hx.2]
  rw [Finset.sum_range]
  ring

theorem triPart_lower_of_lowerPos {L : Matrix (Fin n) (Fin n) ℝ} (h : LowerPos L) :
    triPart .lower L = L := by
  ext i j
  simp only [triPart, Matrix.of_apply, inTri_lower]
  split_ifs with hij
  · rfl
  · exact (h.1 i j (by rw [Fin.lt_def]; omega)).symm

/-- Solving with a lower triangular factor. -/
theorem solveLower_mat {l v x : Arr2 ℝ} (h : solveTriangular l v .lower = .ok x)
    (hl : HasShape l n n) (hp : LowerPos (toMat n n l)) (hv : HasShape v n m) :
    HasShape x n m ∧ toMat n n l * toMat n m x = toMat n m v := by
  obtain ⟨x', hx', sx, ex, -⟩ := C03_solve_triangular l v .lower hl hv
    (fun i hi => (hp.2 ⟨i, hi⟩).ne')
  rw [h] at hx'
  injection hx' with hx'
  subst hx'
  rw [triPart_lower_of_lowerPos hp] at ex
  exact ⟨sx, ex⟩

theorem gram_isSymm (V : Matrix (Fin n) (Fin m) ℝ) : (Vᵀ * V).IsSymm := by
  rw [Matrix.IsSymm, Matrix.transpose_mul, Matrix.transpose_transpose]

theorem lowerPos_orth {L : Matrix (Fin m) (Fin m) ℝ} {U V : Matrix (Fin n) (Fin m) ℝ} (hL : LowerPos L)
    (h1 : L * Lᵀ = Vᵀ * V) (h2 : L * Uᵀ = Vᵀ) : Uᵀ * U = 1 := by
  have hu := hL.isUnit
  have hV : V = U * Lᵀ := by
    rw [← Matrix.transpose_transpose V, ← h2, Matrix.transpose_mul, Matrix.transpose_transpose]
  have h3 : L * (Uᵀ * U * Lᵀ) = L * Lᵀ := by
    rw [h1]
    nth_rw 2 [hV]
    rw [← h2]
    simp only [Matrix.mul_assoc]
  have h4 : Uᵀ * U * Lᵀ = Lᵀ := matrix_mul_left_cancel hu h3
  have h5 : L * (Uᵀ * U)ᵀ = L * 1 := by
    rw [Matrix.mul_one]
    have := congrArg Matrix.transpose h4
    rwa [Matrix.transpose_mul, Matrix.transpose_transpose] at this
  have h6 := matrix_mul_left_cancel hu h5
  have h7 := congrArg Matrix.transpose h6
  rwa [Matrix.transpose_transpose, Matrix.transpose_one] at h7

/-- What `orthonormalize` returns. -/
theorem orthonormalize_mat {v u l : Arr2 ℝ} (h : orthonormalize v = .ok (u, l))
    (hv : HasShape v n m) :
    HasShape u n m ∧ HasShape l m m ∧ LowerPos (toMat m m l) ∧
      toMat m m l * (toMat n m u)ᵀ = (toMat n m v)ᵀ ∧ (toMat n m u)ᵀ * toMat n m u = 1 := by
  obtain ⟨gram, u0, h1, h2, h3, rfl, su⟩ := orthonormalize_inv h
  obtain ⟨sg, eg⟩ := tdot_mat h1 hv hv
  obtain ⟨sl, pl, el⟩ := C08_cholesky_factor gram l sg (by rw [eg]; exact gram_isSymm _) h2
  obtain ⟨sx, ex⟩ := solveLower_mat h3 sl pl hv.t
  refine ⟨⟨su.1.trans hv.1, su.2.trans hv.2⟩, sl, pl, ex, ?_⟩
  exact lowerPos_orth (V := toMat n m v) pl (by rw [el, eg]) ex

theorem gram_posDef {V : Matrix (Fin n) (Fin m) ℝ} :
    SymPosDef (Vᵀ * V) ↔ ∀ x, V.mulVec x = 0 → x = 0 := by
  have hx : ∀ x : Fin m → ℝ, x ⬝ᵥ (Vᵀ * V).mulVec x = V.mulVec x ⬝ᵥ V.mulVec x := by
    intro x
    rw [← Matrix.mulVec_mulVec, Matrix.dotProduct_mulVec, Matrix.vecMul_transpose]
  constructor
  · intro h x h0
    by_contra hne
    have := h.2 x hne
    rw [hx, h0, dotProduct_zero] at this
    exact lt_irrefl _ this
  · intro h
    refine ⟨gram_isSymm V, fun x hne => ?_⟩
    rw [hx]
    refine lt_of_le_of_ne (Finset.sum_nonneg fun i _ => mul_self_nonneg _) ?_
    intro h0
    exact hne (h x (dotProduct_self_eq_zero.1 h0.symm))

/-- `orthonormalize` succeeds exactly on matrices with independent columns. -/
theorem orthonormalize_cases {v : Arr2 ℝ} (hv : HasShape v n m) :
    ((∀ x, (toMat n m v).mulVec x = 0 → x = 0) → ∃ u l, orthonormalize v = .ok (u, l)) ∧
    (¬ (∀ x, (toMat n m v).mulVec x = 0 → x = 0) →
      orthonormalize v = .error (.err .notPositiveDefinite)) := by
  have hd : ∃ gram, v.t.dot v = .ok gram := by
    refine ⟨_, Arr2.dot_ok ?_⟩
    rfl
  obtain ⟨gram, hd⟩ := hd
  obtain ⟨sg, eg⟩ := tdot_mat hd hv hv
  obtain ⟨h1, h2⟩ := C09_cholesky_iff_posDef gram sg (by rw [eg]; exact gram_isSymm _)
  rw [eg, gram_posDef] at h1 h2
  constructor
  · intro h
    obtain ⟨l, hl⟩ := h1.2 h
    obtain ⟨sl, pl, el⟩ := C08_cholesky_factor gram l sg (by rw [eg]; exact gram_isSymm _) hl
    obtain ⟨x, hx, -⟩ := C03_solve_triangular l v.t .lower sl hv.t (fun i hi => (pl.2 ⟨i, hi⟩).ne')
    refine ⟨x.t, l, ?_⟩
    unfold orthonormalize
    rw [hd, ok_bind, hl, ok_bind, hx, ok_bind]
  · intro h
    unfold orthonormalize
    rw [hd, ok_bind, h2 h, error_bind]

/-- `apply_constraints` subtracts `Y L⁻¹ Yᵀ V`. -/
theorem applyConstraints_mat {v l y w : Arr2 ℝ} (h : applyConstraints v l y = .ok w)
    (hv : HasShape v n m) (hy : HasShape y n k) (hl : HasShape l k k) (hp : LowerPos (toMat k k l)) :
    ∃ X : Matrix (Fin k) (Fin m) ℝ, toMat k k l * X = (toMat n k y)ᵀ * toMat n m v ∧
      HasShape w n m ∧ toMat n m w = toMat n m v - toMat n k y * X := by
  unfold applyConstraints at h
  simp only [bind_eq_ok, unwrapM_eq_ok] at h
  obtain ⟨gram, h1, u, h2, h3⟩ := h
  obtain ⟨sg, eg⟩ := tdot_mat h1 hy hv
  obtain ⟨su, eu⟩ := solveLower_mat h2 hl hp sg
  obtain ⟨-, sw, ew⟩ := genMatMul_mat h3 hy hv
  exact ⟨toMat k m u, by rw [eu, eg], sw, ew⟩

/-- The columns of a matrix at the indices `idx`. -/
def colsAt (idx : List Nat) (v : Arr2 ℝ) (n b : Nat) : Matrix (Fin n) (Fin b) ℝ :=
  Matrix.of fun i j => v.get i (idx.getD j 0)

/-- Selecting columns commutes with multiplication from the left. -/
theorem colsAt_mul {idx : List Nat} {x y : Arr2 ℝ} {A : Matrix (Fin n) (Fin m) ℝ}
    (hidx : ∀ j ∈ idx, j < k) (hb : idx.length = b) (h : toMat n k y = A * toMat m k x) :
    colsAt idx y n b = A * colsAt idx x m b := by
  ext i j
  have hj : idx.getD j 0 < k := by
    have : (j : Nat) < idx.length := by rw [hb]; exact j.2
    rw [List.getD_eq_getElem?_getD, List.getElem?_eq_getElem this]
    exact hidx _ (List.getElem_mem _)
  have := congrFun (congrFun h i) ⟨idx.getD j 0, hj⟩
  simpa [Matrix.mul_apply, colsAt, toMat] using this

theorem maskIndices_lt (mask : List Bool) : ∀ j ∈ maskIndices mask, j < mask.length := by
  intro j hj
  simp only [maskIndices, List.mem_filter, List.mem_range] at hj
  exact hj.1

theorem ndarrayMask_mat {v w : Arr2 ℝ} {mask : List Bool} (h : ndarrayMask v mask = .ok w)
    (hv : HasShape v n k) :
    mask.length = k ∧ HasShape w n (maskIndices mask).length ∧
      toMat n (maskIndices mask).length w = colsAt (maskIndices mask) v n _ := by
  obtain ⟨h1, rfl⟩ := ndarrayMask_inv h
  exact ⟨h1.trans hv.2, ⟨hv.1, rfl⟩, rfl⟩

/-- Rows `off .. off + m` of a matrix. -/
def rowsFrom (off m k : Nat) (v : Arr2 ℝ) : Matrix (Fin m) (Fin k) ℝ :=
  Matrix.of fun i j => v.get (off + i) j

theorem slice_mat {v w : Arr2 ℝ} {r0 r1 : Nat} (h : v.slice r0 r1 0 v.nc = .ok w)
    (hm : w.nr = m) (hk : v.nc = k) :
    r0 + m = r1 ∧ r1 ≤ v.nr ∧ HasShape w m k ∧ toMat m k w = rowsFrom r0 m k v := by
  obtain ⟨h1, h2, -, -, rfl⟩ := Arr2.slice_inv h
  refine ⟨by simp only at hm; omega, h2, ⟨hm, by simpa using hk⟩, ?_⟩
  ext i j
  simp [rowsFrom, toMat]

/-- The pair `(P, AP)` chosen for the step, if any: orthonormal directions and their images. -/
theorem activePAP_mat {mask : List Bool} {pap : Option (Arr2 ℝ × Arr2 ℝ)} {p ap : Arr2 ℝ}
    (h : activePAP mask pap = .ok (some (p, ap)))
    (hs : ∀ q aq, pap = some (q, aq) → HasShape q n k ∧ HasShape aq n k) :
    ∃ q aq, ∃ L : Matrix (Fin (maskIndices mask).length) (Fin (maskIndices mask).length) ℝ,
      pap = some (q, aq) ∧ mask.length = k ∧ HasShape p n (maskIndices mask).length ∧
      HasShape ap n (maskIndices mask).length ∧ LowerPos L ∧
      toMat n _ p * Lᵀ = colsAt (maskIndices mask) q n _ ∧
      toMat n _ ap * Lᵀ = colsAt (maskIndices mask) aq n _ ∧
      (toMat n (maskIndices mask).length p)ᵀ * toMat n (maskIndices mask).length p = 1 := by
  rcases pap with _ | ⟨q, aq⟩
  · simp [activePAP] at h
  obtain ⟨sq, saq⟩ := hs q aq rfl
  unfold activePAP at h
  simp only [bind_eq_ok] at h
  obtain ⟨v, hv, av, hav, o, ho, h⟩ := h
  obtain ⟨hm, sv, ev⟩ := ndarrayMask_mat hv sq
  obtain ⟨-, sav, eav⟩ := ndarrayMask_mat hav saq
  rcases o with e | ⟨u, l⟩
  · simp at h
  rw [catchM_eq_ok] at ho
  simp only [bind_eq_ok] at h
  obtain ⟨o2, ho2, h⟩ := h
  rcases o2 with e | w
  · simp at h
  rw [catchM_eq_ok] at ho2
  simp only at h
  injection h with h
  simp only [Option.some.injEq, Prod.mk.injEq] at h
  obtain ⟨rfl, rfl⟩ := h
  obtain ⟨su, sl, pl, el, ou⟩ := orthonormalize_mat ho sv
  obtain ⟨sw, ew⟩ := solveLower_mat ho2 sl pl sav.t
  refine ⟨q, aq, toMat _ _ l, rfl, hm, su, sw.t, pl, ?_, ?_, ou⟩
  · rw [← ev, ← Matrix.transpose_transpose (toMat _ _ v), ← el, Matrix.transpose_mul,
      Matrix.transpose_transpose]
  · have := congrArg Matrix.transpose ew
    rw [Matrix.transpose_mul] at this
    rw [← eav]
    exact this

/-- The new directions are combinations of the old ones and the residual block. -/
theorem updatePAP_mat {sizeX block : Nat} {r ar vecs p' ap' : Arr2 ℝ}
    {pap : Option (Arr2 ℝ × Arr2 ℝ)} (h : updatePAP sizeX block r ar vecs pap = .ok (p', ap'))
    (hr : HasShape r n b) (har : HasShape ar n b) (hv : vecs.nc = k)
    (hs : ∀ q aq, pap = some (q, aq) → HasShape q n c ∧ HasShape aq n c) :
    HasShape p' n k ∧ HasShape ap' n k ∧
    ((pap = none ∧ vecs.nr = sizeX + b ∧
      toMat n k p' = toMat n b r * rowsFrom sizeX b k vecs ∧
      toMat n k ap' = toMat n b ar * rowsFrom sizeX b k vecs) ∨
    ∃ q aq, pap = some (q, aq) ∧ block = b ∧ vecs.nr = sizeX + b + c ∧
      toMat n k p' = toMat n b r * rowsFrom sizeX b k vecs +
        toMat n c q * rowsFrom (sizeX + b) c k vecs ∧
      toMat n k ap' = toMat n b ar * rowsFrom sizeX b k vecs +
        toMat n c aq * rowsFrom (sizeX + b) c k vecs) := by
  rcases pap with _ | ⟨q, aq⟩
  · unfold updatePAP at h
    simp only [bind_eq_ok] at h
    obtain ⟨alpha, h1, p, h2, ap, h3, h4⟩ := h
    injection h4 with h4
    simp only [Prod.mk.injEq] at h4
    obtain ⟨rfl, rfl⟩ := h4
    obtain ⟨e1, e2, sa, ea⟩ := slice_mat h1 ((Arr2.dot_inv h2).1.symm.trans hr.2) hv
    obtain ⟨sp, ep⟩ := dot_mat h2 hr sa
    obtain ⟨sap, eap⟩ := dot_mat h3 har sa
    exact ⟨sp, sap, Or.inl ⟨rfl, e1.symm, by rw [ep, ea], by rw [eap, ea]⟩⟩
  · obtain ⟨sq, saq⟩ := hs q aq rfl
    unfold updatePAP at h
    simp only [bind_eq_ok] at h
    obtain ⟨alpha, h1, gamma, h2, ra, h3, pg, h4, p, h5, ara, h6, apg, h7, ap, h8, h9⟩ := h
    injection h9 with h9
    simp only [Prod.mk.injEq] at h9
    obtain ⟨rfl, rfl⟩ := h9
    obtain ⟨e1, e2, sa, ea⟩ := slice_mat h1 ((Arr2.dot_inv h3).1.symm.trans hr.2) hv
    obtain ⟨e3, e4, sg, eg⟩ := slice_mat h2 ((Arr2.dot_inv h4).1.symm.trans sq.2) hv
    obtain ⟨s3, e3'⟩ := dot_mat h3 hr sa
    obtain ⟨s4, e4'⟩ := dot_mat h4 sq sg
    obtain ⟨-, s5, e5'⟩ := add_mat h5 s3
    obtain ⟨s6, e6'⟩ := dot_mat h6 har sa
    obtain ⟨s7, e7'⟩ := dot_mat h7 saq sg
    obtain ⟨-, s8, e8'⟩ := add_mat h8 s6
    have hbb : block = b := by omega
    subst hbb
    exact ⟨s5, s8, Or.inr ⟨q, aq, rfl, rfl, e3.symm, by rw [e5', e3', e4', ea, eg],
      by rw [e8', e6', e7', ea, eg]⟩⟩

end

/-- The operator is multiplication by `A`. -/
def IsOperator {n : Nat} (A : Matrix (Fin n) (Fin n) ℝ) (P : LobParams ℝ) : Prop :=
  ∀ call y z k, HasShape y n k → P.a call y = .ok z → HasShape z n k ∧ toMat n k z = A * toMat n k y

/-- The operator maps matrices with `n` rows to matrices of the same shape. -/
def OpShape (n : Nat) (P : LobParams ℝ) : Prop :=
  ∀ call y z k, HasShape y n k → P.a call y = .ok z → HasShape z n k

theorem IsOperator.opShape {n : Nat} {A : Matrix (Fin n) (Fin n) ℝ} {P : LobParams ℝ}
    (h : IsOperator A P) : OpShape n P := fun call y z k hy hz => (h call y z k hy hz).1

/-- Shapes of the loop variables. -/
structure SInv (n k : Nat) (st : LobState ℝ) : Prop where
  sx : HasShape st.x n k
  sax : HasShape st.ax n k
  len : st.lambda.len = k
  pap : ∀ p ap, st.pap = some (p, ap) → HasShape p n k ∧ HasShape ap n k

/-- What one update step computes, as equations between matrices. -/
structure TailMat (n k : Nat) (eig : EigSolver ℝ) (P : LobParams ℝ)
    (cholYY : Option (Arr2 ℝ)) (st st' : LobState ℝ) : Prop where
  run : ∃ (b : Nat) (w u r ar : Arr2 ℝ) (Z : Matrix (Fin n) (Fin b) ℝ) (Lr : Matrix (Fin b) (Fin b) ℝ)
      (eg : Bool) (g : XRGram ℝ) (pap pap' : Option (Arr2 ℝ × Arr2 ℝ)) (vecs gram : Arr2 ℝ)
      (p ap : Arr2 ℝ),
    b = (maskIndices st.mask).length ∧ HasShape w n b ∧ HasShape u n b ∧
    (P.constrain cholYY w = .ok u ∧ ∃ r0 norms v, lobResidual st = .ok (r0, norms) ∧
      ndarrayMask r0 st.mask = .ok v ∧ P.precondition v = .ok w) ∧
    Z = toMat n b u - toMat n k st.x * ((toMat n k st.x)ᵀ * toMat n b u) ∧
    HasShape r n b ∧ LowerPos Lr ∧ toMat n b r * Lrᵀ = Z ∧
    (toMat n b r)ᵀ * toMat n b r = 1 ∧
    HasShape ar n b ∧ P.a st.calls r = .ok ar ∧ (st.explicitGram = true → eg = true) ∧
    xrGram { st with calls := st.calls + 1, explicitGram := eg } r ar = .ok g ∧
    activePAP st.mask st.pap = .ok pap ∧
    lobEig eig P.order { st with calls := st.calls + 1, explicitGram := eg } r g pap =
      .ok (pap', .ok (st'.lambda, vecs, gram)) ∧
    vecs.nc = k ∧ st'.gram = some gram ∧ st'.pap = some (p, ap) ∧
    HasShape p n k ∧ HasShape ap n k ∧
    updatePAP st.x.nc st.blockSize r ar vecs pap' = .ok (p, ap) ∧
    HasShape st'.x n k ∧ HasShape st'.ax n k ∧
    toMat n k st'.x = toMat n k st.x * rowsFrom 0 k k vecs + toMat n k p ∧
    toMat n k st'.ax = toMat n k st.ax * rowsFrom 0 k k vecs + toMat n k ap ∧
    st'.explicitGram = eg

/-- The images of the basis vectors are tracked exactly. -/
structure AInv {n : Nat} (A : Matrix (Fin n) (Fin n) ℝ) (k : Nat) (st : LobState ℝ) : Prop
    extends SInv n k st where
  eq : toMat n k st.ax = A * toMat n k st.x
  eqp : ∀ p ap, st.pap = some (p, ap) → toMat n k ap = A * toMat n k p

theorem lobResidual_shape {st : LobState ℝ} {r : Arr2 ℝ} {norms : List ℝ}
    (h : lobResidual st = .ok (r, norms)) : HasShape r st.x.nr st.lambda.len := by
  obtain ⟨-, h2, h3, rfl, -⟩ := lobResidual_inv h
  exact ⟨h2, h3⟩

theorem lobEig_pap {eig : EigSolver ℝ} {order : Order} {st : LobState ℝ} {r : Arr2 ℝ} {g : XRGram ℝ}
    {pap pap' : Option (Arr2 ℝ × Arr2 ℝ)} {v : Arr1 ℝ × Arr2 ℝ × Arr2 ℝ}
    (h : lobEig eig order st r g pap = .ok (pap', .ok v)) : pap' = none ∨ pap' = pap := by
  rcases lobEig_inv h with ⟨p, ap, h1, h2, -⟩ | ⟨h1, -⟩
  · exact Or.inr (h2.trans h1.symm)
  · exact Or.inl h1

theorem lobTail_mat {n k : Nat} {eig : EigSolver ℝ} {P : LobParams ℝ}
    {cholYY : Option (Arr2 ℝ)} {st st' : LobState ℝ} {r0 : Arr2 ℝ} {norms : List ℝ}
    (hA : OpShape n P) (hI : SInv n k st) (hr : lobResidual st = .ok (r0, norms))
    (h : lobTail eig P cholYY st r0 norms = .ok (.ok st')) :
    TailMat n k eig P cholYY st st' := by
  obtain ⟨v, w, u, xv, z, r, l, ar, eg, g, pap, pap', lambda, vecs, gram, tau, p, ap, xt, x, axt, ax, h1,
    h2, h3, h4, h5, h6, h7, h8, h9, h10, h11, h12, h13, h14, h15, h16, h17, rfl⟩ := (lobTail_inv h).run
  have sr0 : HasShape r0 n k := by
    have := lobResidual_shape hr
    rwa [hI.sx.1, hI.len] at this
  obtain ⟨-, sv, -⟩ := ndarrayMask_mat h1 sr0
  have sw : HasShape w n (maskIndices st.mask).length := by
    unfold LobParams.precondition at h2
    simp only [bind_eq_ok] at h2
    obtain ⟨w', -, h2⟩ := h2
    split_ifs at h2 with hc
    injection h2 with h2
    subst h2
    exact ⟨hc.1.trans sv.1, hc.2.trans sv.2⟩
  have su : HasShape u n (maskIndices st.mask).length := by
    have := (constrain_inv h3).1
    rwa [sw.1, sw.2] at this
  obtain ⟨sxv, exv⟩ := tdot_mat h4 hI.sx su
  obtain ⟨-, sz, ez⟩ := genMatMul_mat h5 hI.sx su
  obtain ⟨sr, sl, pl, el, or⟩ := orthonormalize_mat h6 sz
  have h7' := unwrapM_eq_ok.1 h7
  have sar := hA _ _ _ _ sr h7'
  obtain ⟨e1, e2⟩ := lobEig_len h11
  have hvk : vecs.nc = k := e2.trans hI.sx.2
  have hpap' : ∀ q aq, pap' = some (q, aq) →
      HasShape q n (maskIndices st.mask).length ∧ HasShape aq n (maskIndices st.mask).length := by
    intro q aq hq
    rcases lobEig_pap h11 with h' | h'
    · rw [h'] at hq; cases hq
    · subst h'
      rw [hq] at h10
      obtain ⟨_, _, _, -, -, s1, s2, -⟩ :=
        activePAP_mat h10 hI.pap
      exact ⟨s1, s2⟩
  obtain ⟨sp, sap, -⟩ := updatePAP_mat h13 sr sar hvk hpap'
  have htau : tau.nr = k := (Arr2.dot_inv h14).1.symm.trans hI.sx.2
  obtain ⟨-, -, stau, etau⟩ := slice_mat h12 htau hvk
  obtain ⟨sxt, ext⟩ := dot_mat h14 hI.sx stau
  obtain ⟨-, sx, ex⟩ := add_mat h15 sxt
  obtain ⟨saxt, eaxt⟩ := dot_mat h16 hI.sax stau
  obtain ⟨-, sax, eax⟩ := add_mat h17 saxt
  refine ⟨_, w, u, r, ar, _, toMat _ _ l, eg, g, pap, pap', vecs, gram, p, ap, rfl, sw, su, ⟨h3, r0, norms, v, hr, h1, h2⟩, rfl, sr,
    pl, ?_, or, sar, h7', h8, h9, h10, h11, hvk, rfl, rfl, sp, sap, h13, sx, sax, ?_, ?_, rfl⟩
  · rw [← exv, ← ez, ← Matrix.transpose_transpose (toMat _ _ z), ← el, Matrix.transpose_mul,
      Matrix.transpose_transpose]
  · rw [ex, ext, etau]
  · rw [eax, eaxt, etau]

theorem lobTail_sInv {n k : Nat} {eig : EigSolver ℝ} {P : LobParams ℝ}
    {cholYY : Option (Arr2 ℝ)} {st st' : LobState ℝ} {r0 : Arr2 ℝ} {norms : List ℝ}
    (hA : OpShape n P) (hI : SInv n k st) (hr : lobResidual st = .ok (r0, norms))
    (h : lobTail eig P cholYY st r0 norms = .ok (.ok st')) : SInv n k st' := by
  have hlen : st'.lambda.len = k := (lobTail_len h).trans hI.sx.2
  obtain ⟨b, w, u, r, ar, Z, Lr, eg, g, pap, pap', vecs, gram, p, ap, -, -, -, -, -, -, -, -, -, -,
    -, -, -, -, -, -, -, hp, sp, sap, -, sx, sax, -, -, -⟩ := (lobTail_mat hA hI hr h).run
  refine ⟨sx, sax, hlen, ?_⟩
  intro p1 ap1 h1
  rw [hp] at h1
  simp only [Option.some.injEq, Prod.mk.injEq] at h1
  obtain ⟨rfl, rfl⟩ := h1
  exact ⟨sp, sap⟩

theorem lobTail_aInv {n k : Nat} {A : Matrix (Fin n) (Fin n) ℝ} {eig : EigSolver ℝ} {P : LobParams ℝ}
    {cholYY : Option (Arr2 ℝ)} {st st' : LobState ℝ} {r0 : Arr2 ℝ} {norms : List ℝ}
    (hA : IsOperator A P) (hI : AInv A k st) (hr : lobResidual st = .ok (r0, norms))
    (h : lobTail eig P cholYY st r0 norms = .ok (.ok st')) : AInv A k st' := by
  have hlen : st'.lambda.len = k := (lobTail_len h).trans hI.sx.2
  obtain ⟨b, w, u, r, ar, Z, Lr, eg, g, pap, pap', vecs, gram, p, ap, hb, sw, su, -, -, sr, -, -, -, sar,
    har, -, -, h10, h11, hvk, -, hp, sp, sap, hup, sx, sax, ex, eax, -⟩ :=
    (lobTail_mat hA.opShape hI.toSInv hr h).run
  subst hb
  have ear := (hA _ _ _ _ sr har).2
  -- the image of `P`
  have hpap : ∀ q aq, pap' = some (q, aq) → HasShape q n (maskIndices st.mask).length ∧
      HasShape aq n (maskIndices st.mask).length ∧
      toMat n (maskIndices st.mask).length aq = A * toMat n (maskIndices st.mask).length q := by
    intro q aq hq
    rcases lobEig_pap h11 with h' | h'
    · rw [h'] at hq; cases hq
    · subst h'
      rw [hq] at h10
      obtain ⟨q0, aq0, L, e0, hm, s1, s2, pL, e1, e2, -⟩ :=
        activePAP_mat h10 hI.pap
      refine ⟨s1, s2, ?_⟩
      have e3 := colsAt_mul (idx := maskIndices st.mask) (b := (maskIndices st.mask).length) (k := k)
        (fun j hj => hm ▸ maskIndices_lt _ j hj) rfl (hI.eqp q0 aq0 e0)
      rw [← e1, ← e2, ← Matrix.mul_assoc] at e3
      have e4 := congrArg Matrix.transpose e3
      rw [Matrix.transpose_mul, Matrix.transpose_mul, Matrix.transpose_transpose] at e4
      have e5 := matrix_mul_left_cancel pL.isUnit e4
      exact Matrix.transpose_injective e5
  have hap : toMat n k ap = A * toMat n k p := by
    obtain ⟨-, -, h'⟩ := updatePAP_mat hup sr sar hvk 
      (fun q aq h' => ⟨(hpap q aq h').1, (hpap q aq h').2.1⟩)
    rcases h' with ⟨-, -, e1, e2⟩ | ⟨q, aq, hq, -, -, e1, e2⟩
    · rw [e1, e2, ear, Matrix.mul_assoc]
    · rw [e1, e2, ear, (hpap q aq hq).2.2, Matrix.mul_add, Matrix.mul_assoc, Matrix.mul_assoc]
  refine ⟨⟨sx, sax, hlen, ?_⟩, ?_, ?_⟩
  · intro p1 ap1 h1
    rw [hp] at h1
    simp only [Option.some.injEq, Prod.mk.injEq] at h1
    obtain ⟨rfl, rfl⟩ := h1
    exact ⟨sp, sap⟩
  · rw [ex, eax, hI.eq, hap, Matrix.mul_add, Matrix.mul_assoc]
  · intro p1 ap1 h1
    rw [hp] at h1
    simp only [Option.some.injEq, Prod.mk.injEq] at h1
    obtain ⟨rfl, rfl⟩ := h1
    exact hap

/-- How the main loop is entered, as equations between matrices. -/
theorem StartRun.mat {n k : Nat} {eig : EigSolver ℝ} {P : LobParams ℝ}
    {x0 : Arr2 ℝ} {maxiter : Nat} {cholYY : Option (Arr2 ℝ)} {st : LobState ℝ}
    (hA : OpShape n P) (hx0 : HasShape x0 n k) (h : StartRun eig P x0 maxiter cholYY st) :
    ∃ (x1 x2 ax xax eb : Arr2 ℝ) (L : Matrix (Fin k) (Fin k) ℝ),
      P.constrain cholYY x0 = .ok x1 ∧ HasShape x1 n k ∧ HasShape x2 n k ∧ LowerPos L ∧
      toMat n k x2 * Lᵀ = toMat n k x1 ∧ (toMat n k x2)ᵀ * toMat n k x2 = 1 ∧
      P.a 0 x2 = .ok ax ∧ HasShape ax n k ∧
      HasShape xax k k ∧ toMat k k xax = (toMat n k x2)ᵀ * toMat n k ax ∧
      sortedEig eig xax none k P.order = .ok (st.lambda, eb) ∧ HasShape eb k k ∧
      toMat n k st.x = toMat n k x2 * toMat k k eb ∧
      toMat n k st.ax = toMat n k ax * toMat k k eb ∧ SInv n k st ∧ st.gram = none ∧
      st.explicitGram = true ∧ st.pap = none := by
  obtain ⟨x1, x2, l, ax, xax, lambda, eb, x, ax', -, -, h1, h2, h3, h4, h5, h6, h7, rfl⟩ := h.run
  have s1 : HasShape x1 n k := by
    have := (constrain_inv h1).1
    rwa [hx0.1, hx0.2] at this
  obtain ⟨s2, sl, pl, el, o2⟩ := orthonormalize_mat h2 s1
  have h3' := unwrapM_eq_ok.1 h3
  have s3 := hA _ _ _ _ s2 h3'
  obtain ⟨s4, e4⟩ := tdot_mat h4 s2 s3
  obtain ⟨e5, e5'⟩ := sortedEig_len h5
  rw [hx0.2] at h5 e5 e5'
  have seb : HasShape eb k k := ⟨(Arr2.dot_inv h6).1.symm.trans s2.2, e5'⟩
  obtain ⟨s6, e6⟩ := dot_mat h6 s2 seb
  obtain ⟨s7, e7⟩ := dot_mat h7 s3 seb
  refine ⟨x1, x2, ax, xax, eb, toMat k k l, h1, s1, s2, pl, ?_, o2, h3', s3, s4, e4, h5, seb, e6, e7,
    ⟨s6, s7, e5, fun _ _ h => by cases h⟩, rfl, rfl, rfl⟩
  rw [← Matrix.transpose_transpose (toMat _ _ x1), ← el, Matrix.transpose_mul,
    Matrix.transpose_transpose]

theorem StartRun.aInv {n k : Nat} {A : Matrix (Fin n) (Fin n) ℝ} {eig : EigSolver ℝ} {P : LobParams ℝ}
    {x0 : Arr2 ℝ} {maxiter : Nat} {cholYY : Option (Arr2 ℝ)} {st : LobState ℝ}
    (hA : IsOperator A P) (hx0 : HasShape x0 n k) (h : StartRun eig P x0 maxiter cholYY st) :
    AInv A k st := by
  obtain ⟨x1, x2, ax, xax, eb, L, -, -, s2, -, -, -, h3, -, -, -, -, -, e1, e2, hS, -, -, hp⟩ :=
    h.mat hA.opShape hx0
  refine ⟨hS, ?_, fun p ap h => by rw [hp] at h; cases h⟩
  rw [e1, e2, (hA _ _ _ _ s2 h3).2, Matrix.mul_assoc]

theorem lobHead_sInv {n k : Nat} {P : LobParams ℝ}
    {st st' : LobState ℝ} {r : Arr2 ℝ} {norms : List ℝ} (hI : SInv n k st)
    (h : lobHead P st = .ok (st', r, norms)) : SInv n k st' := by
  obtain ⟨-, rfl⟩ := lobHead_inv h
  exact ⟨hI.sx, hI.sax, hI.len, hI.pap⟩

theorem lobHead_aInv {n k : Nat} {A : Matrix (Fin n) (Fin n) ℝ} {P : LobParams ℝ}
    {st st' : LobState ℝ} {r : Arr2 ℝ} {norms : List ℝ} (hI : AInv A k st)
    (h : lobHead P st = .ok (st', r, norms)) : AInv A k st' := by
  obtain ⟨-, rfl⟩ := lobHead_inv h
  exact ⟨⟨hI.sx, hI.sax, hI.len, hI.pap⟩, hI.eq, hI.eqp⟩

end LinfaLinalg
