import Verif.Props.LobpcgRitz
import Verif.Proofs.ExactEig

/-! # C61, C62: the errors of `lobpcg` -/

set_option linter.unusedSectionVars false

namespace LinfaLinalg

open Matrix

/-- If the eigensolver does not fail, an update step can only fail in the orthonormalisation of the new
directions. -/
theorem lobTail_err {n k : Nat} {eig : EigSolver ℝ} (heig : EigTotal eig) {P : LobParams ℝ}
    (hP : ParamsTotal n P) {c : Option (Arr2 ℝ)} (hc : ConstraintShape n P c) {st : LobState ℝ}
    (hk : 1 ≤ k) (h : TotInv n k st) {r0 : Arr2 ℝ} (hr0 : HasShape r0 n k) {norms : List ℝ}
    {e : LinalgError} (he : lobTail eig P c st r0 norms = .ok (.error e)) :
    ∃ v w u xv z, ndarrayMask r0 st.mask = .ok v ∧ HasShape v n (st.mask.count true) ∧
      P.precondition v = .ok w ∧ P.m v = .ok w ∧ HasShape w n (st.mask.count true) ∧
      P.constrain c w = .ok u ∧ HasShape u n (st.mask.count true) ∧ st.x.t.dot u = .ok xv ∧
      genMatMul (-1) st.x xv 1 u = .ok z ∧ HasShape z n (st.mask.count true) ∧
      orthonormalize z = .error (.err e) := by
  obtain ⟨v, h1, s1⟩ := mask_shape hr0 h.mask
  obtain ⟨w, h2, s2⟩ := hP.m v _ s1
  have h2' : P.precondition v = .ok w := by
    unfold LobParams.precondition
    rw [h2]
    simp only [unwrapM, ok_bind]
    rw [if_pos ⟨s2.1.trans s1.1.symm, s2.2.trans s1.2.symm⟩]
  obtain ⟨u, h3, s3⟩ := constrain_shape hc s2
  obtain ⟨xv, h4, s4⟩ := dot_shape (shape_t h.sx) s3
  obtain ⟨z, h5, s5⟩ := genMatMul_shape (p := -1) (q := 1) h.sx s4 s3
  refine ⟨v, w, u, xv, z, h1, s1, h2', h2, s2, h3, s3, h4, h5, s5, ?_⟩
  unfold lobTail at he
  rw [h1, ok_bind, h2', ok_bind, h3, ok_bind, h4, ok_bind, h5, ok_bind] at he
  simp only [bind_eq_ok] at he
  obtain ⟨o, ho, he⟩ := he
  rcases o with e' | ⟨r, l⟩
  · simp only at he
    injection he with he
    injection he with he
    subst he
    exact catchM_eq_err.1 ho
  · exfalso
    rw [catchM_eq_ok] at ho
    have sr : HasShape r n (st.mask.count true) := by
      rcases orthonormalize_shape s5 with ⟨b, hb, sb, -⟩ | ⟨e', hb⟩
      · rw [ho] at hb
        injection hb with hb
        subst hb
        exact sb
      · rw [ho] at hb; cases hb
    simp only [bind_eq_ok] at he
    obtain ⟨ar, har, g, hg, pap, hpap, ⟨pap', res⟩, hres, he⟩ := he
    have s6 : HasShape ar n (st.mask.count true) := by
      obtain ⟨ar', h6, s6⟩ := hP.a st.calls r _ sr
      unfold LobParams.apply at har
      rw [h6] at har
      injection har with har
      subst har
      exact s6
    rcases res with e' | ⟨lambda, vecs, gram⟩
    · have hI1 : TotInv n k { st with
          calls := st.calls + 1
          explicitGram := NdFloat.le (norms.foldl NdFloat.max NdFloat.negInf) (if NdFloat.lt
            (NdFloat.ofRat (1 / 10 ^ 8)) (NdFloat.epsilon : ℝ) then NdFloat.ofRat 1
            else NdFloat.ofRat (1 / 10 ^ 8)) || st.explicitGram } :=
        ⟨h.sx, h.sax, h.len, h.mask, h.pap, by simp [h.gram]⟩
      have h7 := activePAP_total h.mask h.pap
      rw [hpap] at h7
      have h8 := lobEig_total heig (order := P.order) hk hI1 sr hg s6 h7
      rw [hres] at h8
      obtain ⟨v', hv', -⟩ := h8
      cases hv'
    · simp only [bind_eq_ok] at he
      obtain ⟨_, -, _, -, _, -, _, -, _, -, _, -, he⟩ := he
      injection he with he
      cases he

theorem constraintShape_of_chol {n : Nat} {P : LobParams ℝ} {c : Option (Arr2 ℝ)} (hco : CholOf P c)
    (hy : ∀ y, P.y = some y → y.nr = n) : ConstraintShape n P c := by
  intro y c' h1 h2
  unfold CholOf at hco
  rw [h1] at hco
  obtain ⟨yy, c'', g1, g2, rfl⟩ := hco
  injection h2 with h2
  subst h2
  have sy : HasShape y n y.nc := ⟨hy y h1, rfl⟩
  obtain ⟨g, hg, sg⟩ := dot_shape (shape_t sy) sy
  rw [g1] at hg
  injection hg with hg
  subst hg
  rcases cholesky_shape sg with ⟨l, hl, sl⟩ | hl
  · rw [g2] at hl
    injection hl with hl
    subst hl
    exact ⟨_, sy, sl⟩
  · rw [g2] at hl; cases hl

/-- The two ways in which `lobpcg` can return an error on a thin start matrix. -/
theorem lobpcgRun_err {n k : Nat} {eig : EigSolver ℝ} (heig : EigTotal eig) {P : LobParams ℝ}
    (hP : ParamsTotal n P) (hy : ∀ y, P.y = some y → y.nr = n) (hk : 1 ≤ k) {x0 : Arr2 ℝ}
    (hx0 : HasShape x0 n k) (hkn : k ≤ n) {maxiter : Nat} {e : LinalgError} {b : Option (Lobpcg ℝ)}
    {hist : List (Iterate ℝ)} (h : lobpcgRun eig P x0 maxiter = .ok (.error (e, b), hist)) :
    (hist = [] ∧ b = none ∧ ∃ c x1, CholOf P c ∧ P.constrain c x0 = .ok x1 ∧ HasShape x1 n k ∧
      orthonormalize x1 = .error (.err e)) ∨
    ((∃ b', b = some b') ∧ ∃ c st r norms m0 v w u xv z, CholOf P c ∧ TotInv n k st ∧ st.hist = hist ∧
      (∀ A : Matrix (Fin n) (Fin n) ℝ, IsOperator A P → AInv A k st) ∧
      lobResidual st = .ok (r, norms) ∧ HasShape r n k ∧
      hist.getLast? = some ⟨⟨st.lambda, st.x, norms⟩, st.mask, st.gram⟩ ∧
      st.mask = updateMask P.tol norms m0 ∧ st.mask.count true ≠ 0 ∧
      ndarrayMask r st.mask = .ok v ∧ HasShape v n (st.mask.count true) ∧
      P.m v = .ok w ∧ HasShape w n (st.mask.count true) ∧
      P.constrain c w = .ok u ∧ HasShape u n (st.mask.count true) ∧ st.x.t.dot u = .ok xv ∧
      genMatMul (-1) st.x xv 1 u = .ok z ∧ HasShape z n (st.mask.count true) ∧
      orthonormalize z = .error (.err e)) := by
  rcases lobpcgRun_inv h with ⟨e', h1, h2, rfl⟩ | ⟨c, st0, st, o, b', h1, h2, h3, rfl, h4⟩
  · left
    injection h2 with h2
    simp only [Prod.mk.injEq] at h2
    obtain ⟨rfl, rfl⟩ := h2
    refine ⟨rfl, rfl, ?_⟩
    cases h1 with
    | notThin h' => rw [hx0.1, hx0.2] at h'; omega
    | ortho c x1 _ _ hco hx1 h5 =>
      refine ⟨c, x1, hco, hx1, ?_, h5⟩
      have := (constrain_inv hx1).1
      rwa [hx0.1, hx0.2] at this
    | eigen c x1 x2 l ax xax _ _ hco hx1 h5 h6 h7 h8 =>
      exfalso
      have s1 := (constrain_inv hx1).1
      rw [hx0.1, hx0.2] at s1
      obtain ⟨s2, -⟩ := orthonormalize_mat h5 s1
      obtain ⟨ax', h9, s9⟩ := hP.a 0 x2 _ s2
      unfold LobParams.apply at h6
      rw [h9] at h6
      injection h6 with h6
      subst h6
      obtain ⟨xax', h10, s10⟩ := dot_shape (shape_t s2) s9
      rw [h7] at h10
      injection h10 with h10
      subst h10
      have := sortedEig_total heig hk s10 (b := none) (fun _ h => by cases h) (le_refl k) P.order
      rw [hx0.2] at h8
      rw [h8] at this
      cases this
  · right
    cases o with
    | none => cases h4
    | some e' =>
      injection h4 with h4
      simp only [Prod.mk.injEq] at h4
      obtain ⟨rfl, rfl⟩ := h4
      refine ⟨⟨b', rfl⟩, c, st, ?_⟩
      have hco : CholOf P c := by
        obtain ⟨x1, x2, l, ax, xax, lambda, eb, x, ax', -, hc, -⟩ := h1.run
        exact hc
      have hcs := constraintShape_of_chol hco hy
      have hop : OpShape n P := fun call y z k hy hz => by
        obtain ⟨z', g1, g2⟩ := hP.a call y k hy
        rw [hz] at g1
        injection g1 with g1
        subst g1
        exact g2
      obtain ⟨r, norms, ⟨hT, hA, hr, sr, hl, ⟨m0, hm⟩, hb⟩, hend⟩ := lobLoop_rule (P := P) (cholYY := c) (eig := eig)
        (I := fun st => TotInv n k st ∧ (∀ A : Matrix (Fin n) (Fin n) ℝ, IsOperator A P → AInv A k st))
        (J := fun st r norms => TotInv n k st ∧
          (∀ A : Matrix (Fin n) (Fin n) ℝ, IsOperator A P → AInv A k st) ∧
          lobResidual st = .ok (r, norms) ∧ HasShape r n k ∧
          st.hist.getLast? = some ⟨⟨st.lambda, st.x, norms⟩, st.mask, st.gram⟩ ∧
          (∃ m0, st.mask = updateMask P.tol norms m0) ∧ st.blockSize = st.mask.count true)
        (fun st st' r norms hI hh => by
          obtain ⟨st1, r1, norms1, g1, g2, g3, g4⟩ := lobHead_total (P := P) hI.1
          rw [hh] at g1
          injection g1 with g1
          simp only [Prod.mk.injEq] at g1
          obtain ⟨rfl, rfl, rfl⟩ := g1
          refine ⟨g2, fun A hA => lobHead_aInv (hI.2 A hA) hh, ?_⟩
          obtain ⟨hr, rfl⟩ := lobHead_inv hh
          exact ⟨hr, g3, by simp, ⟨st.mask, rfl⟩, g4⟩)
        (fun st st' r norms hJ _ _ ht => by
          have := lobTail_total heig hP hcs hk hJ.1 hJ.2.2.2.2.2.2 hJ.2.2.2.1 norms
          rw [ht] at this
          exact ⟨this st' rfl, fun A hA => lobTail_aInv hA (hJ.2.1 A hA) hJ.2.2.1 ht⟩)
        ⟨by
          obtain ⟨x1, x2, ax, xax, eb, L, -, -, s2, -, -, o2, h3, s3, s4, e4, h5, s5, e1, -, hS, g1, g2, g3⟩ :=
            h1.mat hop hx0
          refine ⟨hS.sx, hS.sax, hS.len, ?_, hS.pap, g2⟩
          obtain ⟨x1, x2, l, ax, xax, lambda, eb, x, ax', -, -, -, -, -, -, -, -, -, rfl⟩ := h1.run
          simp [hx0.2], fun A hA => h1.aInv hA hx0⟩ h2
      obtain ⟨v, w, u, xv, z, e1, e2, e3, e4, e5, e6, e7, e8, e9, e10, e11⟩ :=
        lobTail_err heig hP hcs hk hT sr hend.2.2
      exact ⟨r, norms, m0, v, w, u, xv, z, hco, hT, rfl, hA, hr, sr, hl, hm, by rw [← hb]; exact hend.1, e1, e2,
        e4, e5, e6, e7, e8, e9, e10, e11⟩

theorem orthonormalize_err {n m : Nat} {v : Arr2 ℝ} (hv : HasShape v n m) {e : LinalgError}
    (h : orthonormalize v = .error (.err e)) :
    e = .notPositiveDefinite ∧ ∃ x, (toMat n m v).mulVec x = 0 ∧ x ≠ 0 := by
  obtain ⟨h1, h2⟩ := orthonormalize_cases hv
  by_cases hi : ∀ x, (toMat n m v).mulVec x = 0 → x = 0
  · obtain ⟨u, l, hul⟩ := h1 hi
    rw [h] at hul
    cases hul
  · have := h2 hi
    rw [h] at this
    injection this with this
    injection this with this
    push Not at hi
    exact ⟨this, hi⟩

/-- **C61**: in exact arithmetic, with an eigensolver that does not fail, the only errors are `NotThin` for
a start matrix with more columns than rows, and `NotPositiveDefinite`. The latter carries no result exactly
when no iterate was computed. For every operator, preconditioner, constraint, tolerance and number of
iterations. -/
theorem C61_errors {n k : Nat} {eig : EigSolver ℝ} (heig : EigTotal eig) {P : LobParams ℝ}
    (hP : ParamsTotal n P) (hy : ∀ y, P.y = some y → y.nr = n) (hk : 1 ≤ k) {x0 : Arr2 ℝ}
    (hx0 : HasShape x0 n k) {maxiter : Nat} {e : LinalgError} {b : Option (Lobpcg ℝ)}
    {hist : List (Iterate ℝ)} (h : lobpcgRun eig P x0 maxiter = .ok (.error (e, b), hist)) :
    (n < k ∧ e = .notThin n k ∧ b = none) ∨
    (k ≤ n ∧ e = .notPositiveDefinite ∧ (b = none ↔ hist = [])) := by
  by_cases hkn : k ≤ n
  · right
    refine ⟨hkn, ?_⟩
    rcases lobpcgRun_err heig hP hy hk hx0 hkn h with ⟨rfl, rfl, c, x1, -, -, s1, h1⟩ |
      ⟨⟨b', rfl⟩, c, st, r, norms, m0, v, w, u, xv, z, -, -, -, -, -, -, hl, -, -, -, -, -, -, -, -, -, -, sz, h1⟩
    · exact ⟨(orthonormalize_err s1 h1).1, by simp⟩
    · refine ⟨(orthonormalize_err sz h1).1, ?_⟩
      constructor
      · intro h; cases h
      · intro h; rw [h] at hl; cases hl
  · left
    have h1 : lobpcgRun eig P x0 maxiter = .ok (.error (.notThin n k, none), []) := by
      unfold lobpcgRun
      simp only
      rw [if_pos (by rw [hx0.1, hx0.2]; omega), hx0.1, hx0.2]
    rw [h1] at h
    injection h with h
    simp only [Prod.mk.injEq] at h
    obtain ⟨h2, -⟩ := h
    injection h2 with h2
    simp only [Prod.mk.injEq] at h2
    exact ⟨by omega, h2.1.symm, h2.2.symm⟩

/-- C61, which start matrices are rejected: without constraints, those with dependent columns. -/
theorem C61_start {n k : Nat} {eig : EigSolver ℝ} (heig : EigTotal eig) {P : LobParams ℝ}
    (hP : ParamsTotal n P) (hy : P.y = none) (hk : 1 ≤ k) (hkn : k ≤ n) {x0 : Arr2 ℝ}
    (hx0 : HasShape x0 n k) {maxiter : Nat} {res : LobpcgResult ℝ} {hist : List (Iterate ℝ)}
    (h : lobpcgRun eig P x0 maxiter = .ok (res, hist)) :
    res = .error (.notPositiveDefinite, none) ↔ ¬ LinearIndependent ℝ (toMat n k x0).col := by
  have hli : LinearIndependent ℝ (toMat n k x0).col ↔ ∀ x, (toMat n k x0).mulVec x = 0 → x = 0 := by
    rw [← Matrix.mulVec_injective_iff]
    constructor
    · intro h x hx
      exact h (hx.trans (Matrix.mulVec_zero _).symm)
    · intro h x y hxy
      have := h (x - y) (by rw [Matrix.mulVec_sub, sub_eq_zero]; exact hxy)
      exact sub_eq_zero.1 this
  rw [hli]
  have hyn : ∀ y, P.y = some y → y.nr = n := fun y h => by rw [hy] at h; cases h
  have hcon : ∀ c x1, CholOf P c → P.constrain c x0 = .ok x1 → x1 = x0 := by
    intro c x1 hc h1
    unfold LobParams.constrain at h1
    rw [hy] at h1
    simp only at h1
    injection h1 with h1
    exact h1.symm
  constructor
  · rintro rfl
    rcases lobpcgRun_err heig hP hyn hk hx0 hkn h with ⟨-, -, c, x1, h1, h2, s1, h3⟩ | ⟨⟨b, hb⟩, -⟩
    · rw [hcon c x1 h1 h2] at h3
      obtain ⟨-, x, h4, h5⟩ := orthonormalize_err hx0 h3
      exact fun h6 => h5 (h6 x h4)
    · cases hb
  · intro hd
    have h1 := (orthonormalize_cases hx0).2 hd
    rcases lobpcgRun_inv h with ⟨e', h2, rfl, rfl⟩ | ⟨c, st0, st, o, b', h2, -⟩
    · cases h2 with
      | notThin h' => rw [hx0.1, hx0.2] at h'; omega
      | ortho c x1 _ _ hco hx1 h5 =>
        rw [hcon c x1 hco hx1, h1] at h5
        injection h5 with h5
        injection h5 with h5
        rw [h5]
      | eigen c x1 x2 l ax xax _ _ hco hx1 h5 h6 h7 h8 =>
        rw [hcon c x1 hco hx1, h1] at h5
        cases h5
    · obtain ⟨x1, x2, l, ax, xax, lambda, eb, x, ax', -, hc, h3, h4, -⟩ := h2.run
      rw [hcon c x1 hc h3, h1] at h4
      cases h4

/-- The preconditioner is multiplication by `M`. -/
def IsPreconditioner {n : Nat} (M : Matrix (Fin n) (Fin n) ℝ) (P : LobParams ℝ) : Prop :=
  ∀ y z k, HasShape y n k → P.m y = .ok z → toMat n k z = M * toMat n k y

theorem lobResidual_mat {n k : Nat} {A : Matrix (Fin n) (Fin n) ℝ} {st : LobState ℝ} (hI : AInv A k st)
    {r : Arr2 ℝ} {norms : List ℝ} (h : lobResidual st = .ok (r, norms)) :
    toMat n k r = A * toMat n k st.x - toMat n k st.x * Matrix.diagonal fun j : Fin k => st.lambda.get j := by
  obtain ⟨-, -, h3, rfl, rfl⟩ := lobResidual_inv h
  rw [← hI.eq]
  ext i j
  simp only [toMat_apply, Matrix.sub_apply, Matrix.mul_diagonal]
  congr 1
  rw [dotTo_eq, hI.sx.2, Finset.sum_eq_single j.val]
  · simp [Arr2.fromDiag]
  · intro k' _ hk'
    simp [Arr2.fromDiag, hk']
  · intro hj
    exact absurd (Finset.mem_range.2 j.2) hj

/-- **C62**: without constraints, with a positive definite preconditioner and an exact eigensolver for the
small problems, `lobpcg` breaks down after its start only if the residuals of the pairs that are still
active have become linearly dependent: a combination of active residuals, with coefficients not all zero,
vanishes at the last iterate. -/
theorem C62_breakdown {n k : Nat} {A : Matrix (Fin n) (Fin n) ℝ} (hs : A.IsSymm) {eig : EigSolver ℝ}
    (he : EigWithin 0 eig) (heig : EigTotal eig) {P : LobParams ℝ} (hP : ParamsTotal n P)
    (hA : IsOperator A P) (hy : P.y = none) {M : Matrix (Fin n) (Fin n) ℝ} (hM : IsPreconditioner M P)
    (hpos : ∀ x : Fin n → ℝ, x ≠ 0 → 0 < x ⬝ᵥ M.mulVec x) (hk : 1 ≤ k) (hkn : k ≤ n) {x0 : Arr2 ℝ}
    (hx0 : HasShape x0 n k) {maxiter : Nat} {e : LinalgError} {b : Lobpcg ℝ} {hist : List (Iterate ℝ)}
    (h : lobpcgRun eig P x0 maxiter = .ok (.error (e, some b), hist))
    (hc : ∀ it ∈ hist, ∀ B, it.gram = some B → WellConditioned condFloor B) :
    ∃ it, hist.getLast? = some it ∧ ∃ c : Fin k → ℝ, c ≠ 0 ∧
      (∀ j : Fin k, it.active[j.val]? ≠ some true → c j = 0) ∧
      A.mulVec ((toMat n k it.pairs.eigvecs).mulVec c) =
        (toMat n k it.pairs.eigvecs).mulVec (fun j => it.pairs.eigvals.get j * c j) := by
  have hyn : ∀ y, P.y = some y → y.nr = n := fun y h => by rw [hy] at h; cases h
  rcases lobpcgRun_err heig hP hyn hk hx0 hkn h with ⟨-, hb, -⟩ |
    ⟨-, c, st, r, norms, m0, v, w, u, xv, z, hco, hT, -, hAI, hr, sr, hl, -, hne, h1, s1, h2, s2, h3, s3, h4,
      h5, sz, h6⟩
  · cases hb
  refine ⟨_, hl, ?_⟩
  have hmem := List.mem_of_getLast? hl
  have hX := C45_orthonormal_partial hs he hA hx0 h _ hmem (hc _ hmem)
  obtain ⟨hR, -⟩ := iterate_ritz hs he hA hx0 h _ hmem
  simp only at hX hR ⊢
  have hres := lobResidual_mat (hAI A hA) hr
  have hXR : (toMat n k st.x)ᵀ * toMat n k r = 0 := by
    rw [hres, Matrix.mul_sub, ← Matrix.mul_assoc, hR, ← Matrix.mul_assoc, hX, Matrix.one_mul, sub_self]
  obtain ⟨hml, sv, ev⟩ := ndarrayMask_mat h1 sr
  have hlen : (maskIndices st.mask).length = st.mask.count true := sv.2.symm.trans s1.2
  rw [← hlen] at s1 s2 s3 sz
  have hu : u = w := by
    unfold LobParams.constrain at h3
    rw [hy] at h3
    simp only at h3
    injection h3 with h3
    exact h3.symm
  subst hu
  obtain ⟨-, x, hx1, hx2⟩ := orthonormalize_err sz h6
  obtain ⟨sxv, ez⟩ := tdot_mat h4 hT.sx s3
  obtain ⟨-, -, ez'⟩ := genMatMul_mat h5 hT.sx s3
  have hw := hM _ _ _ s1 h2
  have hvr := colsAt_mul (idx := maskIndices st.mask) (b := (maskIndices st.mask).length) (k := k)
    (y := ⟨k, k, fun _ _ => 0⟩) (x := r) (A := (toMat n k st.x)ᵀ)
    (fun j hj => hml ▸ maskIndices_lt _ j hj) rfl (by rw [hXR]; rfl)
  rw [← ev] at hvr
  have hvr0 : (toMat n k st.x)ᵀ * toMat n (maskIndices st.mask).length v = 0 := by
    rw [← hvr]; rfl
  -- the combination of the active residuals
  have hzero : (toMat n (maskIndices st.mask).length v).mulVec x = 0 := by
    by_contra hne0
    have h7 := hpos _ hne0
    have h8 : M.mulVec ((toMat n (maskIndices st.mask).length v).mulVec x) =
        (toMat n k st.x).mulVec ((toMat k (maskIndices st.mask).length xv).mulVec x) := by
      rw [Matrix.mulVec_mulVec, Matrix.mulVec_mulVec, ← hw, ← sub_eq_zero, ← Matrix.sub_mulVec, ← ez']
      exact hx1
    rw [h8, Matrix.dotProduct_mulVec, ← Matrix.mulVec_transpose, Matrix.mulVec_mulVec, hvr0,
      Matrix.zero_mulVec, zero_dotProduct] at h7
    exact lt_irrefl _ h7
  have hml' : ∀ j ∈ maskIndices st.mask, j < k := fun j hj => hml ▸ maskIndices_lt _ j hj
  have hnd : (maskIndices st.mask).Nodup := List.Nodup.filter _ List.nodup_range
  have hmt : ∀ j ∈ maskIndices st.mask, st.mask[j]? = some true := by
    intro j hj
    simp only [maskIndices, List.mem_filter, List.mem_range] at hj
    obtain ⟨h7, h8⟩ := hj
    rw [List.getD_eq_getElem?_getD, List.getElem?_eq_getElem h7, Option.getD_some] at h8
    rw [List.getElem?_eq_getElem h7, h8]
  clear hx1 hvr hvr0 hw ez ez' sxv sv sz s1 s2 s3 hlen
  generalize maskIndices st.mask = idx at *
  have hlt : ∀ t : Fin idx.length, idx[t] < k := fun t => hml' _ (List.getElem_mem _)
  let f : Fin idx.length → Fin k := fun t => ⟨idx[t], hlt t⟩
  have hf : Function.Injective f := by
    intro t t' htt
    have : idx[t] = idx[t'] := congrArg Fin.val htt
    exact Fin.ext ((List.Nodup.getElem_inj_iff hnd).1 this)
  refine ⟨fun j => ∑ t, if f t = j then x t else 0, ?_, ?_, ?_⟩
  · intro h0
    apply hx2
    funext t
    have := congrFun h0 (f t)
    simp only [hf.eq_iff, Finset.sum_ite_eq', Finset.mem_univ, if_true] at this
    exact this
  · intro j hj
    refine Finset.sum_eq_zero fun t _ => if_neg ?_
    rintro rfl
    apply hj
    exact hmt _ (List.getElem_mem _)
  · have h9 : (toMat n k r).mulVec (fun j => ∑ t, if f t = j then x t else 0) = 0 := by
      rw [← hzero, ev]
      funext i
      simp only [Matrix.mulVec, dotProduct, Finset.mul_sum]
      rw [Finset.sum_comm]
      refine Finset.sum_congr rfl fun t _ => ?_
      rw [Finset.sum_eq_single (f t)]
      · simp [colsAt, f, toMat]
      · intro j _ hj
        rw [if_neg (fun h => hj h.symm), mul_zero]
      · intro h; exact absurd (Finset.mem_univ _) h
    rw [hres, Matrix.sub_mulVec, sub_eq_zero, ← Matrix.mulVec_mulVec, ← Matrix.mulVec_mulVec] at h9
    rw [h9]
    congr 1
    funext j
    rw [Matrix.mulVec_diagonal]

/-- C62 for a single vector: the residual that is still active is not zero, so there is no breakdown, and
every start vector other than zero gives `Ok`. -/
theorem C62_single_vector {n : Nat} {A : Matrix (Fin n) (Fin n) ℝ} (hs : A.IsSymm) {eig : EigSolver ℝ}
    (he : EigWithin 0 eig) (heig : EigTotal eig) {P : LobParams ℝ} (hP : ParamsTotal n P)
    (hA : IsOperator A P) (hy : P.y = none) {M : Matrix (Fin n) (Fin n) ℝ} (hM : IsPreconditioner M P)
    (hpos : ∀ x : Fin n → ℝ, x ≠ 0 → 0 < x ⬝ᵥ M.mulVec x) (htol : 0 ≤ P.tol) {x0 : Arr2 ℝ}
    (hx0 : HasShape x0 n 1) (hne : ∃ i : Fin n, x0.get i 0 ≠ 0) {maxiter : Nat} {res : LobpcgResult ℝ}
    {hist : List (Iterate ℝ)} (h : lobpcgRun eig P x0 maxiter = .ok (res, hist))
    (hc : ∀ it ∈ hist, ∀ B, it.gram = some B → WellConditioned condFloor B) : ∃ b, res = .ok b := by
  obtain ⟨i0, hi0⟩ := hne
  have hn : 1 ≤ n := by have := i0.2; omega
  have hyn : ∀ y, P.y = some y → y.nr = n := fun y h => by rw [hy] at h; cases h
  rcases res with ⟨e, b⟩ | b
  · exfalso
    rcases C61_errors heig hP hyn le_rfl hx0 h with ⟨h1, -⟩ | ⟨-, rfl, -⟩
    · omega
    cases b with
    | none =>
      have h1 := (C61_start heig hP hy le_rfl hn hx0 h).1 rfl
      apply h1
      rw [linearIndependent_unique_iff]
      exact fun h2 => hi0 (congrFun h2 i0)
    | some b =>
      obtain ⟨it, h1, c, h2, h3, h4⟩ := C62_breakdown hs he heig hP hA hy hM hpos le_rfl hn hx0 h hc
      have hc0 : c 0 ≠ 0 := by
        intro h5
        apply h2
        funext j
        rw [Fin.fin_one_eq_zero j]
        exact h5
      have hact : it.active[0]? = some true := by
        by_contra h5
        exact hc0 (h3 0 h5)
      have hmem := List.mem_of_getLast? h1
      have h5 := iterate_residual A eig P hA x0 hx0 maxiter _ hist h it hmem 0
      obtain ⟨l, r, hlr⟩ := List.append_of_mem hmem
      obtain ⟨-, -, h6⟩ := C49_locked eig P x0 maxiter _ hist h l r it hlr
      obtain ⟨norm, h7, h8⟩ := (h6 0 (by rw [hx0.2]; omega)).1 hact it (by simp)
      rw [Fin.val_zero, h7, Option.some.injEq] at h5
      rw [real_lt, decide_eq_true_eq, h5] at h8
      have h9 : ∑ i : Fin n, (A.mulVec (fun i : Fin n => it.pairs.eigvecs.get i 0) i -
          it.pairs.eigvals.get 0 * it.pairs.eigvecs.get i 0) ^ 2 = 0 := by
        refine Finset.sum_eq_zero fun i _ => ?_
        have e1 : (toMat n 1 it.pairs.eigvecs).mulVec c = c 0 • fun i : Fin n => it.pairs.eigvecs.get i 0 := by
          funext i
          simp [Matrix.mulVec, dotProduct, mul_comm]
        have e2 : (toMat n 1 it.pairs.eigvecs).mulVec (fun j => it.pairs.eigvals.get j * c j) =
            c 0 • it.pairs.eigvals.get 0 • fun i : Fin n => it.pairs.eigvecs.get i 0 := by
          funext i
          simp [Matrix.mulVec, dotProduct]
          ring
        rw [e1, e2, Matrix.mulVec_smul] at h4
        have := congrFun (smul_right_injective _ hc0 h4) i
        rw [this]
        simp
      rw [h9, Real.sqrt_zero] at h8
      exact absurd h8 (not_lt.2 htol)
  · exact ⟨b, rfl⟩

/-! ## A concrete run with two iterates -/

/-- The first iterate is a combination of the start vectors. -/
theorem first_iterate_span {n k : Nat} {eig : EigSolver ℝ} {P : LobParams ℝ} (hop : OpShape n P)
    (hy : P.y = none) {x0 : Arr2 ℝ} (hx0 : HasShape x0 n k) {maxiter : Nat} {res : LobpcgResult ℝ}
    {hist : List (Iterate ℝ)} (h : lobpcgRun eig P x0 maxiter = .ok (res, hist)) (it : Iterate ℝ)
    (hit : hist.head? = some it) :
    ∃ C : Matrix (Fin k) (Fin k) ℝ, toMat n k it.pairs.eigvecs = toMat n k x0 * C := by
  refine (lobpcgRun_chain h (fun _ _ => True)
    (fun it => ∃ C : Matrix (Fin k) (Fin k) ℝ, toMat n k it.pairs.eigvecs = toMat n k x0 * C)
    (fun _ _ => True) ?_ (fun _ _ _ _ _ _ _ => trivial)
    (fun _ _ _ _ _ _ _ _ _ => ⟨trivial, fun _ _ => trivial⟩)).2 it hit
  intro c st h1
  refine ⟨trivial, fun _ _ => ?_⟩
  obtain ⟨x1, x2, ax, xax, eb, L, g1, g2, s2, g3, g4, o2, h3, s3, s4, e4, h5, s5, e1, -⟩ := h1.mat hop hx0
  unfold LobParams.constrain at g1
  rw [hy] at g1
  injection g1 with g1
  subst g1
  have hu : IsUnit Lᵀ.det := by
    rw [Matrix.det_transpose]
    exact (Matrix.isUnit_iff_isUnit_det _).1 g3.isUnit
  refine ⟨Lᵀ⁻¹ * toMat k k eb, ?_⟩
  rw [e1, ← g4, Matrix.mul_assoc, ← Matrix.mul_assoc Lᵀ, Matrix.mul_nonsing_inv _ hu, Matrix.one_mul]

/-- The operator `diag(1, 3)`, no preconditioner, no constraint, tolerance `0`, largest eigenvalues. -/
noncomputable def strictParams : LobParams ℝ := { demoParams with tol := 0 }

theorem strict_operator : IsOperator (toMat 2 2 (ofRows 2 2 [[1, 0], [0, 3]])) strictParams :=
  fun _ _ _ _ hy hz => dot_mat hz ⟨rfl, rfl⟩ hy

theorem strict_symm : (toMat 2 2 (ofRows 2 2 [[1, 0], [0, 3]])).IsSymm := by
  ext i j
  fin_cases i <;> fin_cases j <;> (simp [toMat, ofRows])

theorem strict_total : ParamsTotal 2 strictParams :=
  ⟨fun _ _ _ hy => dot_shape ⟨rfl, rfl⟩ hy, fun y _ hy => ⟨y, rfl, hy⟩⟩

theorem wellConditioned_one {B : Arr2 ℝ} (h : toMat B.nr B.nr B = 1) : WellConditioned condFloor B := by
  intro x
  rw [h, Matrix.one_mulVec]
  have h1 : 0 ≤ x ⬝ᵥ x := by
    rw [dotProduct]
    exact Finset.sum_nonneg fun i _ => mul_self_nonneg _
  have h2 : condFloor ≤ 1 := by norm_num [condFloor]
  nlinarith

/-- A run of `lobpcg` with an exact eigensolver for the small problems that makes one update step. It meets
the hypotheses of C45, C57 to C60 and C62. -/
theorem strict_run : ∃ b it0 it1,
    lobpcgRun exactEig strictParams (ofRows 2 1 [[1], [1]]) 1 = .ok (.ok b, [it0, it1]) ∧
      ∀ it ∈ [it0, it1], ∀ B, it.gram = some B → WellConditioned condFloor B := by
  have hx0 : HasShape (ofRows 2 1 [[1], [1]]) 2 1 := ⟨rfl, rfl⟩
  have hnf : lobpcgRun exactEig strictParams (ofRows 2 1 [[1], [1]]) 1 ≠ .error .fuel := by
    refine C43_terminates _ _ _ _ (fun a h => ?_) (fun k v h => ?_) (fun v h => by cases h)
    · obtain ⟨v, q, h1, -⟩ := exactEig_ok a
      rw [h1] at h; cases h
    · simp only [strictParams, demoParams, Arr2.dot] at h
      split_ifs at h <;> cases h
  obtain ⟨⟨res, hist⟩, h⟩ : ∃ r, lobpcgRun exactEig strictParams (ofRows 2 1 [[1], [1]]) 1 = .ok r := by
    rcases (lobpcgRun_total exactEig_total strict_total hx0 le_rfl (fun y h => by cases h) 1).cases with
      ⟨r, h, -⟩ | h
    · exact ⟨r, h⟩
    · exact absurd h hnf
  have hlen := C43_iteration_bound exactEig strictParams _ 1 res hist h
  have hgr := gram_two strict_symm exactEig_within.1 strict_operator hx0 h
  have hc : ∀ it ∈ hist, ∀ B, it.gram = some B → WellConditioned condFloor B := by
    intro it hit B hB
    obtain ⟨i, hi, rfl⟩ := List.mem_iff_getElem.1 hit
    have hi2 : i < 2 := by
      have : hist.length ≤ 2 := hlen
      omega
    rcases i with _ | _ | i
    · have := hgr.1 _ (List.getElem?_eq_getElem hi)
      rw [this] at hB; cases hB
    · obtain ⟨B', h1, h2⟩ := hgr.2 _ (List.getElem?_eq_getElem hi)
      rw [h1, Option.some.injEq] at hB
      subst hB
      exact wellConditioned_one h2
    · omega
  obtain ⟨b, rfl⟩ := C62_single_vector strict_symm exactEig_within exactEig_total strict_total strict_operator
    rfl (M := 1) (fun y z k hy hz => by injection hz with hz; rw [hz, Matrix.one_mul])
    (fun x hx => by
      rw [Matrix.one_mulVec]
      exact lt_of_le_of_ne (Finset.sum_nonneg fun i _ => mul_self_nonneg _)
        (fun h => hx (dotProduct_self_eq_zero.1 h.symm)))
    le_rfl hx0 ⟨0, by simp [ofRows]⟩ h hc
  obtain ⟨⟨it, hit, -⟩, -⟩ := C42_best_iterate exactEig strictParams _ 1 _ hist h b (Or.inl rfl)
  match hist, hlen, hit with
  | [it0], _, _ =>
    exfalso
    obtain ⟨it', h1, norm, h2, h3⟩ := C47_converged_partial exactEig strictParams _ 1 b _ h
      (by simp [ofRows]) 0 (by simp [ofRows])
    rw [List.mem_singleton] at h1
    subst h1
    have h4 := iterate_residual _ exactEig strictParams strict_operator _ hx0 1 _ _ h it' (by simp) 0
    obtain ⟨C, h5⟩ := first_iterate_span strict_operator.opShape rfl hx0 h it' rfl
    have h6 := C45_orthonormal_partial strict_symm exactEig_within strict_operator hx0 h it' (by simp)
      (hc it' (by simp))
    rw [Fin.val_zero, h2, Option.some.injEq] at h4
    have t0 := congrFun (congrFun h5 0) 0
    have t1 := congrFun (congrFun h5 1) 0
    have t2 := congrFun (congrFun h6 0) 0
    simp [toMat, Matrix.mul_apply, ofRows, Fin.sum_univ_two] at t0 t1 t2
    rw [t0, t1] at t2
    have h7 : norm = 0 := le_antisymm h3 (by rw [h4]; exact Real.sqrt_nonneg _)
    rw [h7, eq_comm, Real.sqrt_eq_zero (Finset.sum_nonneg fun i _ => sq_nonneg _)] at h4
    simp [toMat, Matrix.mulVec, dotProduct, ofRows, Fin.sum_univ_two, t0, t1] at h4
    generalize C 0 0 = t at *
    generalize it'.pairs.eigvals.get 0 = μ at *
    nlinarith [sq_nonneg (t - μ * t), sq_nonneg (3 * t - μ * t), sq_nonneg ((t - μ * t) + (3 * t - μ * t))]
  | [it0, it1], _, _ => exact ⟨b, it0, it1, h, hc⟩
  | _ :: _ :: _ :: _, hl, _ => exact absurd hl (by simp [ofRows])

end LinfaLinalg
