import Verif.Props.LobpcgScale

/-! # LOBPCG does not depend on the orthonormal basis

Let the columns of `Q` be orthonormal. If the operator, the preconditioner, the constraints and the start block of one run
are those of another run with all columns multiplied by `Q`, then in exact arithmetic both runs have the same values, residual
norms, masks, Gram matrices and errors, and the vectors of the one are those of the other multiplied by `Q`. The algorithm
looks at its blocks of `n` rows only through products of two of them. -/

set_option linter.unusedSectionVars false

namespace LinfaLinalg

open Matrix Par

/-- `v` has `n` rows, `v'` has `m` rows, and every column of `v'` is `Q` times the same column of `v`. -/
def Turned {m n : Nat} (Q : Matrix (Fin m) (Fin n) ℝ) (v v' : Arr2 ℝ) : Prop :=
  v.nr = n ∧ v'.nr = m ∧ v'.nc = v.nc ∧
    ∀ i : Fin m, ∀ j < v.nc, v'.get i j = ∑ l : Fin n, Q i l * v.get l j

/-- The same pairs, up to the basis. -/
def TurnedLobpcg {m n : Nat} (Q : Matrix (Fin m) (Fin n) ℝ) (p q : Lobpcg ℝ) : Prop :=
  SameArr1 p.eigvals q.eigvals ∧ Turned Q p.eigvecs q.eigvecs ∧ p.rnorm = q.rnorm

/-- The same iterates, up to the basis. -/
def TurnedIterate {m n : Nat} (Q : Matrix (Fin m) (Fin n) ℝ) (p q : Iterate ℝ) : Prop :=
  TurnedLobpcg Q p.pairs q.pairs ∧ p.active = q.active ∧ SameOpt SameArr p.gram q.gram

/-- The same outcome, up to the basis. -/
def TurnedResult {m n : Nat} (Q : Matrix (Fin m) (Fin n) ℝ) (r r' : LobpcgResult ℝ) : Prop :=
  (∃ l l', r = .ok l ∧ r' = .ok l' ∧ TurnedLobpcg Q l l') ∨
    ∃ e o o', r = .error (e, o) ∧ r' = .error (e, o') ∧ SameOpt (TurnedLobpcg Q) o o'

section
variable {m n k : Nat} {Q : Matrix (Fin m) (Fin n) ℝ}

theorem Turned.mat {v v' : Arr2 ℝ} (h : Turned Q v v') :
    HasShape v n v.nc ∧ HasShape v' m v.nc ∧ toMat m v.nc v' = Q * toMat n v.nc v := by
  refine ⟨⟨h.1, rfl⟩, ⟨h.2.1, h.2.2.1⟩, ?_⟩
  ext i j
  rw [toMat_apply, h.2.2.2 i j j.2, Matrix.mul_apply]
  rfl

theorem turned_of_mat {v v' : Arr2 ℝ} (hv : HasShape v n k) (hv' : HasShape v' m k)
    (h : toMat m k v' = Q * toMat n k v) : Turned Q v v' := by
  refine ⟨hv.1, hv'.1, hv'.2.trans hv.2.symm, fun i j hj => ?_⟩
  have := congrFun (congrFun h i) ⟨j, hv.2 ▸ hj⟩
  rw [toMat_apply, Matrix.mul_apply] at this
  exact this

theorem Turned.gram (hQ : Qᵀ * Q = 1) {k l : Nat} (V : Matrix (Fin n) (Fin k) ℝ) (W : Matrix (Fin n) (Fin l) ℝ) :
    (Q * V)ᵀ * (Q * W) = Vᵀ * W := by
  rw [Matrix.transpose_mul, Matrix.mul_assoc, ← Matrix.mul_assoc Qᵀ, hQ, Matrix.one_mul]

theorem turn_tdot (hQ : Qᵀ * Q = 1) {v v' w w' : Arr2 ℝ} (hv : Turned Q v v') (hw : Turned Q w w') :
    RelM (RelA2 (EqIn Any)) (v.t.dot w) (v'.t.dot w') := by
  obtain ⟨sv, sv', ev⟩ := hv.mat
  obtain ⟨sw, sw', ew⟩ := hw.mat
  have e1 := Arr2.dot_ok (a := v.t) (b := w) (sv.1.trans sw.1.symm)
  have e2 := Arr2.dot_ok (a := v'.t) (b := w') (sv'.1.trans sw'.1.symm)
  obtain ⟨s1, m1⟩ := tdot_mat e1 sv sw
  obtain ⟨s2, m2⟩ := tdot_mat e2 sv' sw'
  rw [e1, e2]
  exact rel_of_mat s1 s2 (by rw [m1, m2, ev, ew, Turned.gram hQ])

theorem turn_dot {v v' s s' : Arr2 ℝ} (hv : Turned Q v v') (hs : RelA2 (EqIn Any) s s') :
    RelM (Turned Q) (v.dot s) (v'.dot s') := by
  obtain ⟨sv, sv', ev⟩ := hv.mat
  by_cases hn : v.nc = s.nr
  · obtain ⟨ss', es⟩ := mat_of_rel hs (⟨hn.symm, rfl⟩ : HasShape s v.nc s.nc)
    have e1 := Arr2.dot_ok (a := v) (b := s) hn
    have e2 := Arr2.dot_ok (a := v') (b := s') (sv'.2.trans ss'.1.symm)
    obtain ⟨s1, m1⟩ := dot_mat e1 sv (⟨hn.symm, rfl⟩ : HasShape s v.nc s.nc)
    obtain ⟨s2, m2⟩ := dot_mat e2 sv' ss'
    rw [e1, e2]
    exact turned_of_mat s1 s2 (by rw [m1, m2, ev, es, Matrix.mul_assoc])
  · have e1 : v.dot s = .error .panic := if_neg hn
    have e2 : v'.dot s' = .error .panic := if_neg (by rw [sv'.2, ← hs.nr]; exact hn)
    rw [e1, e2]
    rfl

theorem turn_add {v v' w w' : Arr2 ℝ} (hv : Turned Q v v') (hw : Turned Q w w') :
    RelM (Turned Q) (v.add w) (v'.add w') := by
  unfold Arr2.add
  refine relM_ite ?_ (fun h => ⟨hv.1, hv.2.1, hv.2.2.1, fun i j hj => ?_⟩) fun _ => rfl
  · rw [hv.1, hw.1, hv.2.1, hw.2.1, hv.2.2.1, hw.2.2.1]
    simp
  · have hj' : j < v.nc := hj
    show v'.get i j + w'.get i j = ∑ l : Fin n, Q i l * (v.get l j + w.get l j)
    rw [hv.2.2.2 i j hj', hw.2.2.2 i j (h.2 ▸ hj'), ← Finset.sum_add_distrib]
    exact Finset.sum_congr rfl fun l _ => (mul_add _ _ _).symm

theorem turn_sub {v v' w w' : Arr2 ℝ} (hv : Turned Q v v') (hw : Turned Q w w') :
    RelM (Turned Q) (v.sub w) (v'.sub w') := by
  unfold Arr2.sub
  refine relM_ite ?_ (fun h => ⟨hv.1, hv.2.1, hv.2.2.1, fun i j hj => ?_⟩) fun _ => rfl
  · rw [hv.1, hw.1, hv.2.1, hw.2.1, hv.2.2.1, hw.2.2.1]
    simp
  · have hj' : j < v.nc := hj
    show v'.get i j - w'.get i j = ∑ l : Fin n, Q i l * (v.get l j - w.get l j)
    rw [hv.2.2.2 i j hj', hw.2.2.2 i j (h.2 ▸ hj'), ← Finset.sum_sub_distrib]
    exact Finset.sum_congr rfl fun l _ => (mul_sub _ _ _).symm

theorem turn_select {v v' : Arr2 ℝ} (hv : Turned Q v v') {l l' : List Nat} (hl : l = l') :
    RelM (Turned Q) (v.selectCols l) (v'.selectCols l') := by
  subst hl
  unfold Arr2.selectCols
  rw [hv.2.2.1]
  refine relM_ite Iff.rfl (fun h => ⟨hv.1, hv.2.1, rfl, fun i j hj => ?_⟩) fun _ => rfl
  have hj' : j < l.length := hj
  refine hv.2.2.2 i _ ?_
  have := List.all_eq_true.1 h (l.getD j 0) (by
    rw [List.getD_eq_getElem?_getD, List.getElem?_eq_getElem hj']
    exact List.getElem_mem hj')
  simpa using this

theorem turn_mask {v v' : Arr2 ℝ} (hv : Turned Q v v') {l l' : List Bool} (hl : l = l') :
    RelM (Turned Q) (ndarrayMask v l) (ndarrayMask v' l') := by
  subst hl
  unfold ndarrayMask
  rw [hv.2.2.1]
  exact relM_ite Iff.rfl (fun _ => turn_select hv rfl) fun _ => rfl

theorem turn_divide {v v' : Arr2 ℝ} (hv : Turned Q v v') {s s' : Arr1 ℝ} (hs : RelA1 (EqIn Any) s s') :
    Turned Q (divideCols v s) (divideCols v' s') := by
  refine ⟨hv.1, hv.2.1, hv.2.2.1, fun i j hj => ?_⟩
  have h := hv.2.2.2 i j hj
  have h1 := hs.len
  unfold divideCols
  dsimp only
  by_cases hj' : j < s.len
  · simp only [if_pos hj', if_pos (h1 ▸ hj')]
    rw [h, ← (hs.get j hj').1, Finset.sum_div]
    exact Finset.sum_congr rfl fun l _ => mul_div_assoc _ _ _
  · simp only [if_neg hj', if_neg (h1 ▸ hj')]
    exact h

theorem turn_gemm {x x' y y' v v' : Arr2 ℝ} (hx : Turned Q x x') (hy : RelA2 (EqIn Any) y y') (hv : Turned Q v v') :
    RelM (Turned Q) (genMatMul (-1) x y 1 v) (genMatMul (-1) x' y' 1 v') := by
  have h1 := hy.nr
  have h2 := hy.nc
  have hc : (x.nc = y.nr ∧ x.nr = v.nr ∧ y.nc = v.nc) ↔ (x'.nc = y'.nr ∧ x'.nr = v'.nr ∧ y'.nc = v'.nc) := by
    rw [hx.1, hv.1, hx.2.1, hv.2.1, hx.2.2.1, hv.2.2.1, h1, h2]
    simp
  by_cases hp : x.nc = y.nr ∧ x.nr = v.nr ∧ y.nc = v.nc
  · obtain ⟨sx, sx', ex⟩ := hx.mat
    obtain ⟨sv, sv', ev⟩ := hv.mat
    obtain ⟨sy', ey⟩ := mat_of_rel hy (⟨hp.1.symm, hp.2.2⟩ : HasShape y x.nc v.nc)
    have e1 : ∃ z, genMatMul (-1) x y 1 v = .ok z := ⟨_, if_pos hp⟩
    have e2 : ∃ z, genMatMul (-1) x' y' 1 v' = .ok z := ⟨_, if_pos (hc.1 hp)⟩
    obtain ⟨z, e1⟩ := e1
    obtain ⟨z', e2⟩ := e2
    rw [e1, e2]
    obtain ⟨-, s1, m1⟩ := genMatMul_mat e1 sx sv
    obtain ⟨-, s2, m2⟩ := genMatMul_mat e2 sx' sv'
    exact turned_of_mat s1 s2 (by rw [m1, m2, ex, ey, ev, Matrix.mul_sub, Matrix.mul_assoc])
  · have e1 : genMatMul (-1) x y 1 v = .error .panic := if_neg hp
    have e2 : genMatMul (-1) x' y' 1 v' = .error .panic := if_neg fun h => hp (hc.2 h)
    rw [e1, e2]
    rfl

theorem turn_solve {l l' v v' : Arr2 ℝ} (hl : RelA2 (EqIn Any) l l') (sl : HasShape l k k) (pl : LowerPos (toMat k k l))
    (hv : Turned Q v v') :
    RelM (fun u u' => Turned Q u.t u'.t) (solveTriangular l v.t .lower) (solveTriangular l' v'.t .lower) := by
  obtain ⟨sl', el⟩ := mat_of_rel hl sl
  by_cases hk : v.nc = k
  · subst hk
    obtain ⟨sv, sv', ev⟩ := hv.mat
    obtain ⟨x, hx, -⟩ := C03_solve_triangular l v.t .lower sl sv.t (fun i hi => (pl.2 ⟨i, hi⟩).ne')
    obtain ⟨x', hx', -⟩ := C03_solve_triangular l' v'.t .lower sl' sv'.t (fun i hi => by
      have := congrFun (congrFun el ⟨i, hi⟩) ⟨i, hi⟩
      simp only [toMat_apply] at this
      rw [this]
      exact (pl.2 ⟨i, hi⟩).ne')
    rw [hx, hx']
    obtain ⟨s1, m1⟩ := solveLower_mat hx sl pl sv.t
    obtain ⟨s2, m2⟩ := solveLower_mat hx' sl' (by rw [el]; exact pl) sv'.t
    refine turned_of_mat s1.t s2.t ?_
    have h1 : toMat v.nc v.nc l * toMat v.nc m x' = toMat v.nc v.nc l * (toMat v.nc n x * Qᵀ) := by
      rw [← Matrix.mul_assoc, m1, ← el, m2]
      show (toMat m v.nc v')ᵀ = (toMat n v.nc v)ᵀ * Qᵀ
      rw [ev, Matrix.transpose_mul]
    have h2 := congrArg Matrix.transpose (matrix_mul_left_cancel pl.isUnit h1)
    rw [Matrix.transpose_mul, Matrix.transpose_transpose] at h2
    exact h2
  · have key : ∀ (l : Arr2 ℝ) (v : Arr2 ℝ), HasShape l k k → v.nc ≠ k →
        solveTriangular l v.t .lower = .error (.err (.wrongRows k v.nc)) := by
      intro l v sl hv
      unfold solveTriangular solveTriangularSystem
      rw [checkSquare_ok (sl.1.trans sl.2.symm), ok_bind, if_pos (by rw [sl.1]; exact hv), sl.1]
      rfl
    rw [key l v sl hk, key l' v' sl' (by rw [hv.2.2.1]; exact hk), hv.2.2.1]
    rfl

theorem turn_norms (hQ : Qᵀ * Q = 1) {v v' : Arr2 ℝ} (hv : Turned Q v v') :
    List.Forall₂ (EqIn Any) ((List.range v.nc).map fun j => normL2 ((List.range v.nr).map fun i => v.get i j))
      ((List.range v'.nc).map fun j => normL2 ((List.range v'.nr).map fun i => v'.get i j)) := by
  refine forall₂_map_range hv.2.2.1.symm fun j hj => ⟨?_, trivial⟩
  obtain ⟨sv, sv', ev⟩ := hv.mat
  rw [normL2_map_range, normL2_map_range]
  have h := congrFun (congrFun (Turned.gram hQ (toMat n v.nc v) (toMat n v.nc v)) ⟨j, hj⟩) ⟨j, hj⟩
  rw [← ev, Matrix.mul_apply, Matrix.mul_apply] at h
  congr 1
  rw [hv.1, hv.2.1]
  simp only [Matrix.transpose_apply, toMat_apply] at h
  simp only [sq]
  exact h.symm

theorem turn_ortho (hQ : Qᵀ * Q = 1) {v v' : Arr2 ℝ} (hv : Turned Q v v') :
    RelM (fun p q => Turned Q p.1 q.1 ∧ RelA2 (EqIn Any) p.2 q.2 ∧ ∃ k, HasShape p.2 k k ∧ LowerPos (toMat k k p.2))
      (orthonormalize v) (orthonormalize v') := by
  obtain ⟨sv, sv', ev⟩ := hv.mat
  have hi : (∀ x, (toMat m v.nc v').mulVec x = 0 → x = 0) ↔ ∀ x, (toMat n v.nc v).mulVec x = 0 → x = 0 := by
    rw [ev]
    refine forall_congr' fun x => ?_
    rw [← Matrix.mulVec_mulVec]
    have : Q.mulVec ((toMat n v.nc v).mulVec x) = 0 ↔ (toMat n v.nc v).mulVec x = 0 := by
      refine ⟨fun h => ?_, fun h => by rw [h, Matrix.mulVec_zero]⟩
      have h2 := congrArg Qᵀ.mulVec h
      rwa [Matrix.mulVec_mulVec, hQ, Matrix.one_mulVec, Matrix.mulVec_zero] at h2
    rw [this]
  obtain ⟨h1, h2⟩ := orthonormalize_cases sv
  obtain ⟨h1', h2'⟩ := orthonormalize_cases sv'
  by_cases hc : ∀ x, (toMat n v.nc v).mulVec x = 0 → x = 0
  · obtain ⟨q, l, e⟩ := h1 hc
    obtain ⟨q', l', e'⟩ := h1' (hi.2 hc)
    obtain ⟨sq, sl, pl, el, oq⟩ := orthonormalize_mat e sv
    obtain ⟨sq', sl', pl', el', oq'⟩ := orthonormalize_mat e' sv'
    rw [e, e']
    have hg : ∀ {N : Nat} {V U : Matrix (Fin N) (Fin v.nc) ℝ} {L : Matrix (Fin v.nc) (Fin v.nc) ℝ}, L * Uᵀ = Vᵀ → Uᵀ * U = 1 →
        Vᵀ * V = L * Lᵀ := by
      intro N V U L h o
      have hV : V = U * Lᵀ := by
        rw [← Matrix.transpose_transpose V, ← h, Matrix.transpose_mul, Matrix.transpose_transpose]
      rw [← h, hV, Matrix.mul_assoc, ← Matrix.mul_assoc _ U, o, Matrix.one_mul]
    have g1 : toMat v.nc v.nc l' * (toMat v.nc v.nc l')ᵀ = toMat v.nc v.nc l * (toMat v.nc v.nc l)ᵀ := by
      rw [← hg el oq, ← hg el' oq', ev, Turned.gram hQ]
    have g2 := pl'.unique pl g1
    refine ⟨?_, rel_of_mat sl sl' g2.symm, v.nc, sl, pl⟩
    refine turned_of_mat sq sq' ?_
    have h3 : toMat v.nc v.nc l * (toMat m v.nc q')ᵀ = toMat v.nc v.nc l * ((toMat n v.nc q)ᵀ * Qᵀ) := by
      rw [← Matrix.mul_assoc, el, ← g2, el', ev, Matrix.transpose_mul]
    have h4 := congrArg Matrix.transpose (matrix_mul_left_cancel pl.isUnit h3)
    rwa [Matrix.transpose_mul, Matrix.transpose_transpose, Matrix.transpose_transpose, Matrix.transpose_transpose] at h4
  · rw [h2 hc, h2' fun h => hc (hi.1 h)]
    rfl

end

/-- The arguments of two runs in different orthonormal bases. -/
structure TurnParams {m n : Nat} (Q : Matrix (Fin m) (Fin n) ℝ) (P P' : LobParams ℝ) : Prop where
  a : ∀ k x y, Turned Q x y → RelM (Turned Q) (P.a k x) (P'.a k y)
  m : ∀ x y, Turned Q x y → RelM (Turned Q) (P.m x) (P'.m y)
  y : RelO (Turned Q) P.y P'.y
  tol : P.tol = P'.tol
  order : P.order = P'.order

section
variable {m n : Nat} {Q : Matrix (Fin m) (Fin n) ℝ}

theorem turn_precondition {P P' : LobParams ℝ} (h : TurnParams Q P P') {x x' : Arr2 ℝ} (hx : Turned Q x x') :
    RelM (Turned Q) (P.precondition x) (P'.precondition x') := by
  unfold LobParams.precondition
  refine relM_bind (relM_unwrap (h.m x x' hx)) fun w w' hw => ?_
  refine relM_ite ?_ (fun _ => hw) fun _ => rfl
  rw [hw.1, hx.1, hw.2.1, hx.2.1, hw.2.2.1, hx.2.2.1]
  simp

theorem turn_apply {P P' : LobParams ℝ} (h : TurnParams Q P P') (k : Nat) {x x' : Arr2 ℝ} (hx : Turned Q x x') :
    RelM (Turned Q) (P.apply k x) (P'.apply k x') :=
  relM_unwrap (h.a k x x' hx)

theorem turn_constrain (hQ : Qᵀ * Q = 1) {P P' : LobParams ℝ} {c c' : Option (Arr2 ℝ)}
    (hP : TurnParams Q P P') (hc : RelO (RelA2 (EqIn Any)) c c') {v v' : Arr2 ℝ}
    (h : Turned Q v v') : RelM (Turned Q) (P.constrain c v) (P'.constrain c' v') := by
  have hy := hP.y
  unfold LobParams.constrain
  revert hy
  rcases P.y with _ | y <;> rcases P'.y with _ | y' <;> intro hy
  · exact h
  · exact hy.elim
  · exact hy.elim
  · rcases c with _ | c <;> rcases c' with _ | c'
    · exact h
    · exact hc.elim
    · exact hc.elim
    · show RelM _ (applyConstraints v c y) (applyConstraints v' c' y')
      have hy' : Turned Q y y' := hy
      have hc' : RelA2 (EqIn Any) c c' := hc
      unfold applyConstraints
      refine relM_bind (turn_tdot hQ hy' h) fun g g' hgg => ?_
      refine relM_bind (relM_unwrap (rel_solveTriangular hc' hgg rfl)) fun u u' hu => ?_
      exact turn_gemm hy' hu h

/-- States of the main loop in different bases. -/
structure TurnState (Q : Matrix (Fin m) (Fin n) ℝ) (p q : LobState ℝ) : Prop where
  lambda : RelA1 (EqIn Any) p.lambda q.lambda
  x : Turned Q p.x q.x
  ax : Turned Q p.ax q.ax
  mask : p.mask = q.mask
  best : RelO (TurnedLobpcg Q) p.best q.best
  blockSize : p.blockSize = q.blockSize
  ident : RelA2 (EqIn Any) p.ident q.ident
  pap : RelO (RelP (Turned Q) (Turned Q)) p.pap q.pap
  explicitGram : p.explicitGram = q.explicitGram
  iter : p.iter = q.iter
  calls : p.calls = q.calls
  gram : RelO (RelA2 (EqIn Any)) p.gram q.gram
  hist : List.Forall₂ (TurnedIterate Q) p.hist q.hist

theorem turn_residual (hQ : Qᵀ * Q = 1) {p q : LobState ℝ} (h : TurnState Q p q) :
    RelM (RelP (Turned Q) (List.Forall₂ (EqIn Any))) (lobResidual p) (lobResidual q) := by
  unfold lobResidual
  refine relM_bind (turn_dot h.x (rel_fromDiag h.lambda)) fun a b hab => ?_
  refine relM_bind (turn_sub h.ax hab) fun a b hab => ?_
  exact ⟨hab, turn_norms hQ hab⟩

theorem turn_updateBest {o o' : Option (Lobpcg ℝ)} (ho : RelO (TurnedLobpcg Q) o o') {p q : Lobpcg ℝ}
    (h : TurnedLobpcg Q p q) : RelO (TurnedLobpcg Q) (updateBest o p) (updateBest o' q) := by
  unfold updateBest
  rcases o with _ | a <;> rcases o' with _ | b
  · exact h
  · exact ho.elim
  · exact ho.elim
  · have h2 : TurnedLobpcg Q a b := ho
    dsimp only
    rw [h.2.2, h2.2.2]
    split_ifs
    · exact h
    · exact h2

theorem turn_head (hQ : Qᵀ * Q = 1) {P P' : LobParams ℝ} (hP : TurnParams Q P P') {p q : LobState ℝ}
    (h : TurnState Q p q) :
    RelM (RelP (TurnState Q) (RelP (Turned Q) (List.Forall₂ (EqIn Any)))) (lobHead P p) (lobHead P' q) := by
  unfold lobHead
  refine relM_bind (turn_residual hQ h) ?_
  rintro ⟨r, l⟩ ⟨r', l'⟩ ⟨hr, hl⟩
  have hl' : l = l' := (forall₂_all_of hl).1
  subst hl'
  dsimp only
  rw [← hP.tol, ← h.mask, ← h.blockSize]
  have hcur : TurnedLobpcg Q ⟨p.lambda, p.x, l⟩ ⟨q.lambda, q.x, l⟩ := ⟨same_of_relA1 h.lambda, h.x, rfl⟩
  refine ⟨⟨h.lambda, h.x, h.ax, rfl, turn_updateBest h.best hcur, rfl, ?_, h.pap, h.explicitGram, h.iter, h.calls, h.gram,
    forall₂_append h.hist (.cons ⟨hcur, rfl, sameOpt_of_rel (fun _ _ => same_of_relA2) h.gram⟩ .nil)⟩, hr, hl⟩
  dsimp only
  split_ifs
  · exact ⟨rfl, rfl, fun _ _ _ _ => ⟨rfl, trivial⟩⟩
  · exact h.ident

theorem turn_xrGram (hQ : Qᵀ * Q = 1) {p q : LobState ℝ} (h : TurnState Q p q) {r ar r' ar' : Arr2 ℝ}
    (hr : Turned Q r r') (har : Turned Q ar ar') : RelM (RelXRGram (EqIn Any)) (xrGram p r ar) (xrGram q r' ar') := by
  unfold xrGram
  refine relM_bind (turn_tdot hQ h.x har) fun xar xar' hxar => ?_
  refine relM_bind (turn_tdot hQ hr har) fun rar rar' hrar => ?_
  refine relM_ite (by rw [h.explicitGram]) (fun _ => ?_) fun _ => ?_
  · refine relM_bind (rel_symmetrize hrar) fun rar rar' hrar => ?_
    refine relM_bind (turn_tdot hQ h.x h.ax) fun xax xax' hxax => ?_
    refine relM_bind (rel_symmetrize hxax) fun xax xax' hxax => ?_
    refine relM_bind (turn_tdot hQ h.x h.x) fun xx xx' hxx => ?_
    refine relM_bind (turn_tdot hQ hr hr) fun rr rr' hrr => ?_
    refine relM_bind (turn_tdot hQ h.x hr) fun xr xr' hxr => ?_
    exact ⟨hxax, hxar, hrar, hxx, hrr, hxr⟩
  · rw [h.x.2.2.1, h.blockSize]
    exact ⟨rel_fromDiag h.lambda, hxar, hrar, ⟨rfl, rfl, fun _ _ _ _ => ⟨rfl, trivial⟩⟩, h.ident,
      ⟨rfl, rfl, fun _ _ _ _ => ⟨rfl, trivial⟩⟩⟩

theorem turn_activePAP (hQ : Qᵀ * Q = 1) {l l' : List Bool} (hl : l = l') {o o' : Option (Arr2 ℝ × Arr2 ℝ)}
    (ho : RelO (RelP (Turned Q) (Turned Q)) o o') :
    RelM (RelO (RelP (Turned Q) (Turned Q))) (activePAP l o) (activePAP l' o') := by
  subst hl
  rcases o with _ | ⟨a, b⟩ <;> rcases o' with _ | ⟨a', b'⟩
  · trivial
  · exact ho.elim
  · exact ho.elim
  · obtain ⟨ha, hb⟩ : Turned Q a a' ∧ Turned Q b b' := ho
    unfold activePAP
    refine relM_bind (turn_mask ha rfl) fun a a' ha => ?_
    refine relM_bind (turn_mask hb rfl) fun b b' hb => ?_
    refine relM_bind (relM_catch (turn_ortho hQ ha)) fun o o' ho => ?_
    rcases o with o | ⟨a, l⟩ <;> rcases o' with o' | ⟨a', l'⟩
    · trivial
    · exact ho.elim
    · exact ho.elim
    · obtain ⟨ha, hl, k, sl, pl⟩ := ho
      dsimp only at ha hl sl pl ⊢
      refine relM_bind (relM_catch (turn_solve hl sl pl hb)) fun o o' ho => ?_
      rcases o with o | u <;> rcases o' with o' | u'
      · trivial
      · exact ho.elim
      · exact ho.elim
      · exact ⟨ha, ho⟩

theorem turn_eig3 (hQ : Qᵀ * Q = 1) {e e' : EigSolver ℝ} (he : RelSolver (EqIn Any) e e') {o o' : Order} (ho : o = o')
    {p q : LobState ℝ} (h : TurnState Q p q) {r r' : Arr2 ℝ} (hr : Turned Q r r')
    {g g' : XRGram ℝ} (hg : RelXRGram (EqIn Any) g g') {a b a' b' : Arr2 ℝ} (ha : Turned Q a a') (hb : Turned Q b b') :
    RelM (RelP (RelA1 (EqIn Any)) (RelP (RelA2 (EqIn Any)) (RelA2 (EqIn Any)))) (eig3 e o p r g a b)
      (eig3 e' o' q r' g' a' b') := by
  unfold eig3
  refine relM_bind (turn_tdot hQ h.x hb) fun xap xap' h1 => ?_
  refine relM_bind (turn_tdot hQ hr hb) fun rap rap' h2 => ?_
  refine relM_bind (turn_tdot hQ ha hb) fun pap pap' h3 => ?_
  refine relM_bind (turn_tdot hQ h.x ha) fun xp xp' h4 => ?_
  refine relM_bind (turn_tdot hQ hr ha) fun rp rp' h5 => ?_
  refine relM_bind (R := RelP (RelA2 (EqIn Any)) (RelA2 (EqIn Any))) ?_ ?_
  · refine relM_ite (by rw [h.explicitGram]) (fun _ => ?_) fun _ => ⟨h3, h.ident⟩
    refine relM_bind (rel_symmetrize h3) fun _ _ h3 => ?_
    exact relM_bind (turn_tdot hQ ha ha) fun _ _ h6 => ⟨h3, h6⟩
  · rintro ⟨pap, pp⟩ ⟨pap', pp'⟩ ⟨h3, h6⟩
    dsimp only at h3 h6 ⊢
    refine relM_bind (rel_block3 hg.xax hg.xar h1 hg.rar h2 h3) fun A A' hA => ?_
    refine relM_bind (rel_block3 hg.xx hg.xr h4 hg.rr h5 h6) fun B B' hB => ?_
    refine relM_bind (rel_sortedEig he hA (b := some B) (b' := some B') hB h.x.2.2.1.symm ho) ?_
    rintro ⟨a, b⟩ ⟨a', b'⟩ ⟨ha, hb⟩
    exact ⟨ha, hb, hB⟩

theorem turn_eig2 {e e' : EigSolver ℝ} (he : RelSolver (EqIn Any) e e') {o o' : Order} (ho : o = o')
    {p q : LobState ℝ} (h : TurnState Q p q) {g g' : XRGram ℝ} (hg : RelXRGram (EqIn Any) g g') :
    RelM (RelP (RelA1 (EqIn Any)) (RelP (RelA2 (EqIn Any)) (RelA2 (EqIn Any)))) (eig2 e o p g) (eig2 e' o' q g') := by
  unfold eig2
  refine relM_bind (rel_block2 hg.xax hg.xar hg.rar) fun A A' hA => ?_
  refine relM_bind (rel_block2 hg.xx hg.xr hg.rr) fun B B' hB => ?_
  refine relM_bind (rel_sortedEig he hA (b := some B) (b' := some B') hB h.x.2.2.1.symm ho) ?_
  rintro ⟨a, b⟩ ⟨a', b'⟩ ⟨ha, hb⟩
  exact ⟨ha, hb, hB⟩

theorem turn_lobEig (hQ : Qᵀ * Q = 1) {e e' : EigSolver ℝ} (he : RelSolver (EqIn Any) e e') {o o' : Order} (ho : o = o')
    {p q : LobState ℝ} (h : TurnState Q p q) {r r' : Arr2 ℝ} (hr : Turned Q r r')
    {g g' : XRGram ℝ} (hg : RelXRGram (EqIn Any) g g') {u u' : Option (Arr2 ℝ × Arr2 ℝ)}
    (hu : RelO (RelP (Turned Q) (Turned Q)) u u') :
    RelM (RelP (RelO (RelP (Turned Q) (Turned Q)))
        (RelE (RelP (RelA1 (EqIn Any)) (RelP (RelA2 (EqIn Any)) (RelA2 (EqIn Any))))))
      (lobEig e o p r g u) (lobEig e' o' q r' g' u') := by
  unfold lobEig
  refine relM_bind (R := RelE (RelP (RelA1 (EqIn Any)) (RelP (RelA2 (EqIn Any)) (RelA2 (EqIn Any))))) ?_ ?_
  · rcases u with _ | ⟨a, b⟩ <;> rcases u' with _ | ⟨a', b'⟩
    · rfl
    · exact hu.elim
    · exact hu.elim
    · obtain ⟨ha, hb⟩ : Turned Q a a' ∧ Turned Q b b' := hu
      exact relM_catch (turn_eig3 hQ he ho h hr hg ha hb)
  · intro f f' hf
    rcases f with f | f <;> rcases f' with f' | f'
    · exact relM_bind (relM_catch (turn_eig2 he ho h hg)) fun v v' hv => ⟨trivial, hv⟩
    · exact hf.elim
    · exact hf.elim
    · exact ⟨hu, hf⟩

theorem turn_updatePAP {k b : Nat} {r ar v r' ar' v' : Arr2 ℝ} (hr : Turned Q r r') (har : Turned Q ar ar')
    (hv : RelA2 (EqIn Any) v v') {u u' : Option (Arr2 ℝ × Arr2 ℝ)} (hu : RelO (RelP (Turned Q) (Turned Q)) u u') :
    RelM (RelP (Turned Q) (Turned Q)) (updatePAP k b r ar v u) (updatePAP k b r' ar' v' u') := by
  rcases u with _ | ⟨p, ap⟩ <;> rcases u' with _ | ⟨p', ap'⟩
  · unfold updatePAP
    rw [← hv.nr, ← hv.nc]
    refine relM_bind (rel_slice2 hv rfl rfl rfl rfl) fun al al' hal => ?_
    refine relM_bind (turn_dot hr hal) fun _ _ h1 => ?_
    exact relM_bind (turn_dot har hal) fun _ _ h2 => ⟨h1, h2⟩
  · exact hu.elim
  · exact hu.elim
  · obtain ⟨ha, hb⟩ : Turned Q p p' ∧ Turned Q ap ap' := hu
    unfold updatePAP
    rw [← hv.nr, ← hv.nc]
    refine relM_bind (rel_slice2 hv rfl rfl rfl rfl) fun al al' hal => ?_
    refine relM_bind (rel_slice2 hv rfl rfl rfl rfl) fun ga ga' hga => ?_
    refine relM_bind (turn_dot hr hal) fun _ _ h1 => ?_
    refine relM_bind (turn_dot ha hga) fun _ _ h2 => ?_
    refine relM_bind (turn_add h1 h2) fun _ _ h3 => ?_
    refine relM_bind (turn_dot har hal) fun _ _ h4 => ?_
    refine relM_bind (turn_dot hb hga) fun _ _ h5 => ?_
    exact relM_bind (turn_add h4 h5) fun _ _ h6 => ⟨h3, h6⟩

theorem turn_lobRest (hQ : Qᵀ * Q = 1) {e e' : EigSolver ℝ} (he : RelSolver (EqIn Any) e e') {P P' : LobParams ℝ}
    (hP : TurnParams Q P P') {p q : LobState ℝ} (h : TurnState Q p q) {r r' : Arr2 ℝ} (hr : Turned Q r r') (l : List ℝ) :
    RelM (RelE (TurnState Q)) (lobRest e P p l r) (lobRest e' P' q l r') := by
  unfold lobRest
  rw [← h.calls, ← hP.order]
  refine relM_bind (turn_apply hP _ hr) fun ar ar' har => ?_
  dsimp only
  have h' : TurnState Q { p with
      calls := p.calls + 1
      explicitGram := NdFloat.le (l.foldl NdFloat.max NdFloat.negInf)
        (if NdFloat.lt (NdFloat.ofRat (1 / 10 ^ 8)) (NdFloat.epsilon : ℝ) then NdFloat.ofRat 1
          else NdFloat.ofRat (1 / 10 ^ 8)) || p.explicitGram } { q with
      calls := p.calls + 1
      explicitGram := NdFloat.le (l.foldl NdFloat.max NdFloat.negInf)
        (if NdFloat.lt (NdFloat.ofRat (1 / 10 ^ 8)) (NdFloat.epsilon : ℝ) then NdFloat.ofRat 1
          else NdFloat.ofRat (1 / 10 ^ 8)) || q.explicitGram } :=
    ⟨h.lambda, h.x, h.ax, h.mask, h.best, h.blockSize, h.ident, h.pap, by dsimp only; rw [h.explicitGram], h.iter, rfl,
      h.gram, h.hist⟩
  refine relM_bind (turn_xrGram hQ h' hr har) fun g g' hg => ?_
  refine relM_bind (turn_activePAP hQ h.mask h.pap) fun u u' hu => ?_
  refine relM_bind (turn_lobEig hQ he rfl h' hr hg hu) ?_
  rintro ⟨u, o⟩ ⟨u', o'⟩ ⟨hu, ho⟩
  dsimp only at hu ho ⊢
  rcases o with o | ⟨lam, vec, gram⟩ <;> rcases o' with o' | ⟨lam', vec', gram'⟩
  · exact ho
  · exact ho.elim
  · exact ho.elim
  · obtain ⟨hlam, hvec, hgram⟩ := ho
    dsimp only at hlam hvec hgram ⊢
    rw [h.x.2.2.1, ← h.blockSize, ← hvec.nc]
    refine relM_bind (rel_slice2 hvec rfl rfl rfl rfl) fun tau tau' htau => ?_
    refine relM_bind (turn_updatePAP hr har hvec hu) ?_
    rintro ⟨p1, ap1⟩ ⟨p2, ap2⟩ ⟨hp, hap⟩
    dsimp only at hp hap ⊢
    refine relM_bind (turn_dot h.x htau) fun _ _ h1 => ?_
    refine relM_bind (turn_add h1 hp) fun _ _ h2 => ?_
    refine relM_bind (turn_dot h.ax htau) fun _ _ h3 => ?_
    refine relM_bind (turn_add h3 hap) fun _ _ h4 => ?_
    exact ⟨hlam, h2, h4, h.mask, h.best, rfl, h.ident, ⟨hp, hap⟩, by dsimp only; rw [h.explicitGram],
      by dsimp only; rw [h.iter], rfl, hgram, h.hist⟩

theorem turn_lobTail (hQ : Qᵀ * Q = 1) {e e' : EigSolver ℝ} (he : RelSolver (EqIn Any) e e') {P P' : LobParams ℝ}
    (hP : TurnParams Q P P') {c c' : Option (Arr2 ℝ)} (hc : RelO (RelA2 (EqIn Any)) c c') {p q : LobState ℝ}
    (h : TurnState Q p q) {r r' : Arr2 ℝ} (hr : Turned Q r r') {l l' : List ℝ}
    (hl : List.Forall₂ (EqIn Any) l l') :
    RelM (RelE (TurnState Q)) (lobTail e P c p r l) (lobTail e' P' c' q r' l') := by
  obtain rfl : l = l' := (forall₂_all_of hl).1
  rw [lobTail_rest, lobTail_rest]
  refine relM_bind (turn_mask hr h.mask) fun v v' hv => ?_
  refine relM_bind (turn_precondition hP hv) fun v v' hv => ?_
  refine relM_bind (turn_constrain hQ hP hc hv) fun v v' hv => ?_
  refine relM_bind (turn_tdot hQ h.x hv) fun xv xv' hxv => ?_
  refine relM_bind (turn_gemm h.x hxv hv) fun v v' hv => ?_
  refine relM_bind (relM_catch (turn_ortho hQ hv)) fun o o' ho => ?_
  rcases o with o | ⟨r, u⟩ <;> rcases o' with o' | ⟨r', u'⟩
  · exact ho
  · exact ho.elim
  · exact ho.elim
  · exact turn_lobRest hQ he hP h ho.1 l

theorem turn_lobLoop (hQ : Qᵀ * Q = 1) {e e' : EigSolver ℝ} (he : RelSolver (EqIn Any) e e') {P P' : LobParams ℝ}
    (hP : TurnParams Q P P') {c c' : Option (Arr2 ℝ)} (hc : RelO (RelA2 (EqIn Any)) c c') {k : Nat} {p q : LobState ℝ}
    (h : TurnState Q p q) :
    RelM (RelP (TurnState Q) (RelO Eq)) (lobLoop e P c k p) (lobLoop e' P' c' k q) := by
  induction k generalizing p q with
  | zero =>
    unfold lobLoop
    refine relM_bind (turn_head hQ hP h) fun o o' ho => ?_
    obtain ⟨st, r, l⟩ := o
    obtain ⟨st', r', l'⟩ := o'
    obtain ⟨hst, hr, hl⟩ := ho
    refine relM_ite ?_ (fun _ => ⟨hst, trivial⟩) fun _ => rfl
    rw [show st.blockSize = st'.blockSize from hst.blockSize, show st.iter = st'.iter from hst.iter]
  | succ k ih =>
    unfold lobLoop
    refine relM_bind (turn_head hQ hP h) fun o o' ho => ?_
    obtain ⟨st, r, l⟩ := o
    obtain ⟨st', r', l'⟩ := o'
    obtain ⟨hst, hr, hl⟩ := ho
    refine relM_ite ?_ (fun _ => ⟨hst, trivial⟩) fun _ => ?_
    · rw [show st.blockSize = st'.blockSize from hst.blockSize, show st.iter = st'.iter from hst.iter]
    · refine relM_bind (turn_lobTail hQ he hP hc hst hr hl) fun o o' ho => ?_
      rcases o with o | o <;> rcases o' with o' | o'
      · exact ⟨hst, show o = o' from ho⟩
      · exact ho.elim
      · exact ho.elim
      · exact ih ho

theorem turn_run (hQ : Qᵀ * Q = 1) {e e' : EigSolver ℝ} (he : RelSolver (EqIn Any) e e') {P P' : LobParams ℝ}
    (hP : TurnParams Q P P') {x x' : Arr2 ℝ} (hx : Turned Q x x') {maxiter : Nat} (ht : n < x.nc ↔ m < x.nc)
    (hsize : n < x.nc → n = m) (hi : min (n * 10) maxiter = min (m * 10) maxiter) :
    RelM (RelP (RelX (RelP Eq (RelO (TurnedLobpcg Q))) (TurnedLobpcg Q)) (List.Forall₂ (TurnedIterate Q)))
      (lobpcgRun e P x maxiter) (lobpcgRun e' P' x' maxiter) := by
  have h1 := hx.1
  have h2 := hx.2.1
  have h3 := hx.2.2.1
  unfold lobpcgRun
  dsimp only
  rw [h1, h2, h3, ← hP.order, ← hi]
  refine relM_ite ht (fun hh => ⟨⟨by rw [hsize hh], trivial⟩, .nil⟩) fun _ => ?_
  refine relM_bind (R := RelO (RelA2 (EqIn Any))) ?_ ?_
  · have hy := hP.y
    revert hy
    rcases P.y with _ | y <;> rcases P'.y with _ | y' <;> intro hy
    · trivial
    · exact hy.elim
    · exact hy.elim
    · have hy' : Turned Q y y' := hy
      refine relM_bind (turn_tdot hQ hy' hy') fun g g' hg => ?_
      exact relM_bind (relM_unwrap (rel_cholesky hg)) fun l l' hl => hl
  · intro c c' hc
    refine relM_bind (turn_constrain hQ hP hc hx) fun v v' hv => ?_
    refine relM_bind (relM_catch (turn_ortho hQ hv)) fun o o' ho => ?_
    rcases o with o | ⟨r, u⟩ <;> rcases o' with o' | ⟨r', u'⟩
    · obtain rfl : o = o' := ho
      exact ⟨⟨rfl, trivial⟩, .nil⟩
    · exact ho.elim
    · exact ho.elim
    · have hr : Turned Q r r' := ho.1
      dsimp only
      refine relM_bind (turn_apply hP 0 hr) fun ar ar' har => ?_
      refine relM_bind (turn_tdot hQ hr har) fun xax xax' hxax => ?_
      refine relM_bind (relM_catch (rel_sortedEig he hxax (b := none) (b' := none) trivial rfl rfl)) fun o o' ho => ?_
      rcases o with o | ⟨lam, vec⟩ <;> rcases o' with o' | ⟨lam', vec'⟩
      · obtain rfl : o = o' := ho
        exact ⟨⟨rfl, trivial⟩, .nil⟩
      · exact ho.elim
      · exact ho.elim
      · obtain ⟨hlam, hvec⟩ := ho
        dsimp only at hlam hvec ⊢
        refine relM_bind (turn_dot hr hvec) fun y y' hy => ?_
        refine relM_bind (turn_dot har hvec) fun ay ay' hay => ?_
        refine relM_bind (turn_lobLoop hQ he hP hc ⟨hlam, hy, hay, rfl, trivial, rfl, ?_, trivial, rfl, rfl, rfl, trivial, .nil⟩)
          fun o o' ho => ?_
        · exact ⟨rfl, rfl, fun i _ j _ => ⟨rfl, trivial⟩⟩
        · obtain ⟨st, f⟩ := o
          obtain ⟨st', f'⟩ := o'
          obtain ⟨hst, hf⟩ := ho
          dsimp only at hst hf ⊢
          have hb := hst.best
          revert hb
          rcases st.best with _ | b <;> rcases st'.best with _ | b' <;> intro hb
          · rfl
          · exact hb.elim
          · exact hb.elim
          · rcases f with _ | f <;> rcases f' with _ | f'
            · exact ⟨hb, hst.hist⟩
            · exact hf.elim
            · exact hf.elim
            · exact ⟨⟨hf, hb⟩, hst.hist⟩

theorem rows_le (hQ : Qᵀ * Q = 1) : n ≤ m := by
  have h : Function.Injective Q.mulVecLin := by
    intro x y hxy
    have h2 := congrArg Qᵀ.mulVec (show Q.mulVec x = Q.mulVec y from hxy)
    rwa [Matrix.mulVec_mulVec, Matrix.mulVec_mulVec, hQ, Matrix.one_mulVec, Matrix.one_mulVec] at h2
  have := LinearMap.finrank_le_finrank_of_injective h
  simpa using this

theorem turned_of_relX {r r' : LobpcgResult ℝ}
    (h : RelX (RelP Eq (RelO (TurnedLobpcg Q))) (TurnedLobpcg Q) r r') : TurnedResult Q r r' := by
  rcases r with ⟨e, o⟩ | l <;> rcases r' with ⟨e', o'⟩ | l'
  · obtain ⟨he, ho⟩ := h
    obtain rfl : e = e' := he
    exact .inr ⟨e, o, o', rfl, rfl, sameOpt_of_rel (fun _ _ h => h) ho⟩
  · exact h.elim
  · exact h.elim
  · exact .inl ⟨l, l', rfl, rfl, h⟩

theorem turn_main (hQ : Qᵀ * Q = 1) {P P' : LobParams ℝ} (hP : TurnParams Q P P') {x x' : Arr2 ℝ} (hx : Turned Q x x')
    {maxiter : Nat} (hn : n = m ∨ x.nc ≤ n ∧ maxiter ≤ n * 10) (fuel : Nat) :
    RelM (RelP (RelX (RelP Eq (RelO (TurnedLobpcg Q))) (TurnedLobpcg Q)) (List.Forall₂ (TurnedIterate Q)))
      (lobpcgRun (eighInto fuel) P x maxiter) (lobpcgRun (eighInto fuel) P' x' maxiter) := by
  have hm := rows_le hQ
  exact turn_run hQ (relSolver_eighInto fuel) hP hx (by omega) (by omega) (by omega)

/-- **C130**: two runs of LOBPCG whose operators, preconditioners, constraints and start blocks correspond to each other under
a matrix `Q` with orthonormal columns have the same outcome: the same values, residual norms and errors, and vectors that
correspond to each other. So do all the iterates, with the same masks and Gram matrices. -/
theorem C130_lobpcg (hQ : Qᵀ * Q = 1) {P P' : LobParams ℝ}
    (hA : ∀ k x y, Turned Q x y → SameRun (Turned Q) (P.a k x) (P'.a k y))
    (hM : ∀ x y, Turned Q x y → SameRun (Turned Q) (P.m x) (P'.m y)) (hY : SameOpt (Turned Q) P.y P'.y)
    (ht : P.tol = P'.tol) (ho : P.order = P'.order) {x x' : Arr2 ℝ} (hx : Turned Q x x') (fuel maxiter : Nat)
    (hn : n = m ∨ x.nc ≤ n ∧ maxiter ≤ n * 10) :
    SameRun (TurnedResult Q) (lobpcg fuel P x maxiter) (lobpcg fuel P' x' maxiter) ∧
    SameRun (fun r r' => TurnedResult Q r.1 r'.1 ∧ List.Forall₂ (TurnedIterate Q) r.2 r'.2)
      (lobpcgRun (eighInto fuel) P x maxiter) (lobpcgRun (eighInto fuel) P' x' maxiter) := by
  have hP : TurnParams Q P P' :=
    ⟨fun k x y h => (hA k x y h).rel fun _ _ h => h, fun x y h => (hM x y h).rel fun _ _ h => h, by
      rcases hY with ⟨h1, h2⟩ | ⟨y, y', h1, h2, h3⟩
      · rw [h1, h2]; trivial
      · rw [h1, h2]; exact h3, ht, ho⟩
  have h := turn_main hQ hP hx hn fuel
  refine ⟨?_, sameRun_of_rel h fun _ _ h => ⟨turned_of_relX h.1, h.2⟩⟩
  unfold lobpcg
  exact sameRun_of_rel (relM_bind (R' := RelX (RelP Eq (RelO (TurnedLobpcg Q))) (TurnedLobpcg Q)) h fun _ _ h => h.1)
    fun _ _ => turned_of_relX

theorem turned_matrix {r s : Nat} {W : Matrix (Fin s) (Fin r) ℝ} {a a' : Arr2 ℝ} (sa : HasShape a r n)
    (sa' : HasShape a' s m) (h : toMat s m a' * Q = W * toMat r n a) {x x' : Arr2 ℝ} (hx : Turned Q x x') :
    ∃ z z', a.dot x = .ok z ∧ a'.dot x' = .ok z' ∧ z.nc = x.nc ∧ Turned W z z' := by
  obtain ⟨sx, sx', ex⟩ := hx.mat
  have e1 := Arr2.dot_ok (a := a) (b := x) (sa.2.trans sx.1.symm)
  have e2 := Arr2.dot_ok (a := a') (b := x') (sa'.2.trans sx'.1.symm)
  obtain ⟨s1, m1⟩ := dot_mat e1 sa sx
  obtain ⟨s2, m2⟩ := dot_mat e2 sa' sx'
  exact ⟨_, _, e1, e2, rfl, turned_of_mat s1 s2 (by rw [m1, m2, ex, ← Matrix.mul_assoc, h, Matrix.mul_assoc])⟩

theorem turn_matrix {r s : Nat} {W : Matrix (Fin s) (Fin r) ℝ} {a a' : Arr2 ℝ} (sa : HasShape a r n)
    (sa' : HasShape a' s m) (h : toMat s m a' * Q = W * toMat r n a) {x x' : Arr2 ℝ} (hx : Turned Q x x') :
    RelM (Turned W) (a.dot x) (a'.dot x') := by
  obtain ⟨z, z', e1, e2, -, h3⟩ := turned_matrix sa sa' h hx
  rw [e1, e2]
  exact h3

/-- Square matrices that correspond to each other under `Q`. -/
def Conjugate (Q : Matrix (Fin m) (Fin n) ℝ) (a a' : Arr2 ℝ) : Prop :=
  HasShape a n n ∧ HasShape a' m m ∧ toMat m m a' * Q = Q * toMat n n a

/-- **C130**, for `TruncatedEig`: it finds the same eigenvalues for `A` and for `Q A Qᵀ`, and the same vectors up to `Q`, if
the start blocks correspond to each other. -/
theorem C130_truncated {ρ : Type} (hQ : Qᵀ * Q = 1) {g g' : RandomSource ℝ ρ} {t t' : TruncatedEig ℝ ρ}
    (hA : Conjugate Q t.problem t'.problem) (hM : SameOpt (Conjugate Q) t.preconditioner t'.preconditioner)
    (hY : SameOpt (Turned Q) t.constraints t'.constraints) (hp : t.precision = t'.precision) (ho : t.order = t'.order)
    (hi : t.maxiter = t'.maxiter) {num : Nat} (hnum : 0 < num) (hn : n = m ∨ num ≤ n ∧ t.maxiter ≤ n * 10)
    (hx : Turned Q (g.random t.problem.nr num t.rng).1 (g'.random t'.problem.nr num t'.rng).1) (fuel : Nat) :
    SameRun (fun r r' => TurnedResult Q r.1 r'.1) (t.decompose (eighInto fuel) g num)
      (t'.decompose (eighInto fuel) g' num) := by
  have hP : TurnParams Q t.params t'.params := by
    refine ⟨fun k x y h => ?_, fun x y h => ?_, ?_, hp, ho⟩
    · exact turn_matrix hA.1 hA.2.1 hA.2.2 h
    · rcases hM with ⟨h1, h2⟩ | ⟨p, p', h1, h2, h3⟩
      · simp only [TruncatedEig.params, h1, h2]
        exact h
      · simp only [TruncatedEig.params, h1, h2]
        obtain ⟨z, z', e1, e2, hc, hz⟩ := turned_matrix h3.1 h3.2.1 h3.2.2 h
        rw [e1, e2, ok_bind, ok_bind]
        have key : ∀ {N : Nat} {x z : Arr2 ℝ}, x.nr = N → z.nr = N → z.nc = x.nc → x.assign z = .ok ⟨x.nr, x.nc, z.get⟩ := by
          intro N x z h1 h2 h3
          unfold Arr2.assign
          rw [if_pos ⟨.inl (h2.trans h1.symm), .inl h3⟩]
          simp only [h2.trans h1.symm, h3, if_true]
        rw [key h.1 hz.1 hc, key h.2.1 hz.2.1 (by rw [hz.2.2.1, hc, h.2.2.1])]
        exact ⟨h.1, h.2.1, h.2.2.1, fun i j hj => hz.2.2.2 i j (by rw [hc]; exact hj)⟩
    · show RelO _ t.constraints t'.constraints
      rcases hY with ⟨h1, h2⟩ | ⟨y, y', h1, h2, h3⟩
      · rw [h1, h2]; trivial
      · rw [h1, h2]; exact h3
  unfold TruncatedEig.decompose
  rw [if_neg (by omega), if_neg (by omega), ← hi]
  refine sameRun_of_rel (S := fun a b => RelX (RelP Eq (RelO (TurnedLobpcg Q))) (TurnedLobpcg Q) a.1 b.1) ?_
    fun _ _ => turned_of_relX
  refine relM_bind (turn_main hQ hP hx hn fuel) ?_
  rintro ⟨a, b⟩ ⟨a', b'⟩ h
  exact h.1

end

section svd
variable {r c : Nat} {U : Matrix (Fin r) (Fin r) ℝ} {V : Matrix (Fin c) (Fin c) ℝ} [MagnitudeCorrection ℝ]

/-- The results of two decompositions. -/
structure TurnSvd (U : Matrix (Fin r) (Fin r) ℝ) (V : Matrix (Fin c) (Fin c) ℝ) (t t' : TruncatedSvdResult ℝ) : Prop where
  eigvals : RelA1 (EqIn Any) t.eigvals t'.eigvals
  right : t.ngm = true → Turned V t.eigvecs t'.eigvecs
  left : t.ngm = false → Turned U t.eigvecs t'.eigvecs
  shape : HasShape t.problem r c
  shape' : HasShape t'.problem r c
  problem : toMat r c t'.problem * V = U * toMat r c t.problem
  problem' : (toMat r c t'.problem)ᵀ * U = V * (toMat r c t.problem)ᵀ
  order : t.order = t'.order
  ngm : t.ngm = t'.ngm

theorem turn_valuesVectors {t t' : TruncatedSvdResult ℝ} (h : TurnSvd U V t t') :
    RelM (fun p q => Turned U p.1 q.1 ∧ RelA1 (EqIn Any) p.2.1 q.2.1 ∧ Turned V p.2.2.t q.2.2.t)
      t.valuesVectors t'.valuesVectors := by
  have hv : RelM (List.Forall₂ (RelP (EqIn Any) Eq)) t.valuesWithIndices t'.valuesWithIndices :=
    rel_valuesWithIndices (R := EqIn (Any : ℝ → Prop)) ⟨rfl, trivial⟩
      (t := { t with eigvecs := Arr2.zeros 0 0, problem := Arr2.zeros 0 0 })
      (t' := { t' with eigvecs := Arr2.zeros 0 0, problem := Arr2.zeros 0 0 })
      ⟨h.eigvals, ⟨rfl, rfl, fun _ _ _ _ => ⟨rfl, trivial⟩⟩, ⟨rfl, rfl, fun _ _ _ _ => ⟨rfl, trivial⟩⟩, h.order, h.ngm⟩
  unfold TruncatedSvdResult.valuesVectors
  refine relM_bind hv fun a b hab => ?_
  dsimp only
  refine relM_ite (by rw [h.ngm]) (fun hg => ?_) fun hg => ?_
  · refine relM_bind (turn_select (h.right hg) (forall₂_map_snd hab)) fun v v' hv => ?_
    refine relM_bind (turn_matrix h.shape h.shape' h.problem hv) fun u u' hu => ?_
    exact ⟨turn_divide hu (rel_valuesArray hab), rel_valuesArray hab, hv⟩
  · refine relM_bind (turn_select (h.left (by simpa using hg)) (forall₂_map_snd hab)) fun v v' hv => ?_
    refine relM_bind (turn_matrix h.shape.t h.shape'.t h.problem' hv) fun u u' hu => ?_
    exact ⟨hv, rel_valuesArray hab, turn_divide hu (rel_valuesArray hab)⟩

/-- **C130**, for `TruncatedSvd`: it finds the same singular values for `A` and for `U A Vᵀ`, and the singular vectors
correspond to each other, if the start blocks do. -/
theorem C130_svd {ρ : Type} (hU : Uᵀ * U = 1) (hV : Vᵀ * V = 1) {g g' : RandomSource ℝ ρ} {t t' : TruncatedSvd ℝ ρ}
    (hs : HasShape t.problem r c) (hs' : HasShape t'.problem r c)
    (hA : toMat r c t'.problem = U * toMat r c t.problem * Vᵀ) (hp : t.precision = t'.precision) (ho : t.order = t'.order)
    (hi : t.maxiter = t'.maxiter) {num : Nat} (hnum : 0 < num)
    (hx : c < r → Turned V (g.random c num t.rng).1 (g'.random c num t'.rng).1)
    (hx' : r ≤ c → Turned U (g.random r num t.rng).1 (g'.random r num t'.rng).1) (fuel : Nat) :
    SameRun (fun p q => Turned U p.1 q.1 ∧ SameArr1 p.2.1 q.2.1 ∧ Turned V p.2.2.t q.2.2.t)
      (do (← t.decompose (eighInto fuel) g num).valuesVectors)
      (do (← t'.decompose (eighInto fuel) g' num).valuesVectors) := by
  have h1 : toMat r c t'.problem * V = U * toMat r c t.problem := by
    rw [hA, Matrix.mul_assoc, hV, Matrix.mul_one]
  have h2 : (toMat r c t'.problem)ᵀ * U = V * (toMat r c t.problem)ᵀ := by
    rw [hA, Matrix.transpose_mul, Matrix.transpose_mul, Matrix.transpose_transpose, Matrix.mul_assoc, Matrix.mul_assoc, hU,
      Matrix.mul_one]
  have hD : RelM (TurnSvd U V) (t.decompose (eighInto fuel) g num) (t'.decompose (eighInto fuel) g' num) := by
    unfold TruncatedSvd.decompose
    rw [if_neg (by omega), if_neg (by omega), ← hi, hs.1, hs.2, hs'.1, hs'.2]
    by_cases hrc : c < r
    · have hP : TurnParams V t.params t'.params := by
        refine ⟨fun k x y h => ?_, fun x y h => h, trivial, by simp only [TruncatedSvd.params, hp], ho⟩
        simp only [TruncatedSvd.params]
        rw [if_pos (by rw [hs.1, hs.2]; exact hrc), if_pos (by rw [hs'.1, hs'.2]; exact hrc)]
        exact relM_bind (turn_matrix hs hs' h1 h) fun z z' hz => turn_matrix hs.t hs'.t h2 hz
      rw [show min r c = c by omega]
      refine relM_bind (turn_main hV hP (hx hrc) (.inl rfl) fuel) ?_
      rintro ⟨a, b⟩ ⟨a', b'⟩ ⟨h, -⟩
      have key : ∀ {l l' : Lobpcg ℝ}, TurnedLobpcg V l l' → TurnSvd U V
          ⟨l.eigvals, l.eigvecs, t.problem, t.order, decide (r > c)⟩ ⟨l'.eigvals, l'.eigvecs, t'.problem, t'.order, decide (r > c)⟩ := by
        intro l l' h
        exact ⟨⟨h.1.1, fun i hi => ⟨h.1.2 i hi, trivial⟩⟩, fun _ => h.2.1, fun hf => absurd hrc (by simpa using hf), hs, hs', h1,
          h2, ho, rfl⟩
      rcases a with ⟨e, _ | l⟩ | l <;> rcases a' with ⟨e', _ | l'⟩ | l'
      · obtain rfl : e = e' := h.1
        rfl
      · exact h.2.elim
      · exact h.elim
      · exact h.2.elim
      · exact key h.2
      · exact h.elim
      · exact h.elim
      · exact h.elim
      · exact key h
    · have hP : TurnParams U t.params t'.params := by
        refine ⟨fun k x y h => ?_, fun x y h => h, trivial, by simp only [TruncatedSvd.params, hp], ho⟩
        simp only [TruncatedSvd.params]
        rw [if_neg (by rw [hs.1, hs.2]; exact hrc), if_neg (by rw [hs'.1, hs'.2]; exact hrc)]
        exact relM_bind (turn_matrix hs.t hs'.t h2 h) fun z z' hz => turn_matrix hs hs' h1 hz
      rw [show min r c = r by omega]
      refine relM_bind (turn_main hU hP (hx' (by omega)) (.inl rfl) fuel) ?_
      rintro ⟨a, b⟩ ⟨a', b'⟩ ⟨h, -⟩
      have key : ∀ {l l' : Lobpcg ℝ}, TurnedLobpcg U l l' → TurnSvd U V
          ⟨l.eigvals, l.eigvecs, t.problem, t.order, decide (r > c)⟩ ⟨l'.eigvals, l'.eigvecs, t'.problem, t'.order, decide (r > c)⟩ := by
        intro l l' h
        exact ⟨⟨h.1.1, fun i hi => ⟨h.1.2 i hi, trivial⟩⟩, fun hf => absurd (by simpa using hf) hrc, fun _ => h.2.1, hs, hs', h1,
          h2, ho, rfl⟩
      rcases a with ⟨e, _ | l⟩ | l <;> rcases a' with ⟨e', _ | l'⟩ | l'
      · obtain rfl : e = e' := h.1
        rfl
      · exact h.2.elim
      · exact h.elim
      · exact h.2.elim
      · exact key h.2
      · exact h.elim
      · exact h.elim
      · exact h.elim
      · exact key h
  exact sameRun_of_rel (relM_bind hD fun _ _ h => turn_valuesVectors h) fun _ _ h => ⟨h.1, same_of_relA1 h.2.1, h.2.2⟩

end svd

/-- A plane turned by a right angle and put into space. -/
def exTurn : Matrix (Fin 3) (Fin 2) ℝ := !![0, -1; 1, 0; 0, 0]

/-- The hypotheses are met by a matrix, its image in space with a third eigenvalue that does not matter, and start blocks that
correspond to each other. -/
example : exTurnᵀ * exTurn = 1 ∧ Conjugate exTurn (ofRows 2 2 [[1, 0], [0, 2]]) (ofRows 3 3 [[2, 0, 0], [0, 1, 0], [0, 0, 7]]) ∧
    Turned exTurn (ofRows 2 1 [[1], [3]]) (ofRows 3 1 [[-3], [1], [0]]) ∧
    ∀ fuel, SameRun (TurnedResult exTurn)
      (lobpcg fuel ⟨fun _ x => (ofRows 2 2 [[1, 0], [0, 2]]).dot x, fun v => .ok v, none, 1 / 100, .smallest⟩
        (ofRows 2 1 [[1], [3]]) 20)
      (lobpcg fuel ⟨fun _ x => (ofRows 3 3 [[2, 0, 0], [0, 1, 0], [0, 0, 7]]).dot x, fun v => .ok v, none, 1 / 100, .smallest⟩
        (ofRows 3 1 [[-3], [1], [0]]) 20) := by
  have h1 : exTurnᵀ * exTurn = 1 := by
    ext i j
    fin_cases i <;> fin_cases j <;> simp [exTurn, Matrix.mul_apply, Fin.sum_univ_three]
  have h2 : Conjugate exTurn (ofRows 2 2 [[1, 0], [0, 2]]) (ofRows 3 3 [[2, 0, 0], [0, 1, 0], [0, 0, 7]]) := by
    refine ⟨⟨rfl, rfl⟩, ⟨rfl, rfl⟩, ?_⟩
    ext i j
    fin_cases i <;> fin_cases j <;> simp [exTurn, Matrix.mul_apply, Fin.sum_univ_three, Fin.sum_univ_two, toMat, ofRows]
  have h3 : Turned exTurn (ofRows 2 1 [[1], [3]]) (ofRows 3 1 [[-3], [1], [0]]) := by
    refine ⟨rfl, rfl, rfl, fun i j hj => ?_⟩
    obtain rfl : j = 0 := by
      have hj' : j < 1 := hj
      omega
    fin_cases i <;> simp [exTurn, Fin.sum_univ_two, ofRows]
  refine ⟨h1, h2, h3, fun fuel => (C130_lobpcg h1 (fun k x y h => ?_) (fun x y h => ?_) (.inl ⟨?_, ?_⟩) ?_ ?_ h3 fuel 20
    (.inr ⟨?_, ?_⟩)).1⟩
  · exact sameRun_of_rel (turn_matrix h2.1 h2.2.1 h2.2.2 h) fun _ _ h => h
  · exact sameRun_of_rel (show RelM (Turned exTurn) (.ok x) (.ok y) from h) fun _ _ h => h
  · rfl
  · rfl
  · rfl
  · rfl
  · show 1 ≤ 2
    omega
  · omega

end LinfaLinalg
