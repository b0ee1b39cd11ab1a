import Verif.Props.LobpcgRoom

/-! # C64: invariant subspaces -/

set_option linter.unusedSectionVars false

namespace LinfaLinalg

open Matrix

variable {n : Nat}

/-- All columns of a matrix lie in a subspace. -/
def ColsIn (V : Submodule ℝ (Fin n → ℝ)) {k : Nat} (X : Matrix (Fin n) (Fin k) ℝ) : Prop :=
  ∀ j, (fun i => X i j) ∈ V

theorem ColsIn.mul {V : Submodule ℝ (Fin n → ℝ)} {k m : Nat} {X : Matrix (Fin n) (Fin k) ℝ} (h : ColsIn V X)
    (C : Matrix (Fin k) (Fin m) ℝ) : ColsIn V (X * C) := by
  intro j
  have : (fun i => (X * C) i j) = ∑ t, C t j • fun i => X i t := by
    funext i
    simp [Matrix.mul_apply, mul_comm]
  rw [this]
  exact V.sum_mem fun t _ => V.smul_mem _ (h t)

theorem ColsIn.add {V : Submodule ℝ (Fin n → ℝ)} {k : Nat} {X Y : Matrix (Fin n) (Fin k) ℝ} (h : ColsIn V X)
    (h' : ColsIn V Y) : ColsIn V (X + Y) := fun j => V.add_mem (h j) (h' j)

theorem ColsIn.sub {V : Submodule ℝ (Fin n → ℝ)} {k : Nat} {X Y : Matrix (Fin n) (Fin k) ℝ} (h : ColsIn V X)
    (h' : ColsIn V Y) : ColsIn V (X - Y) := fun j => V.sub_mem (h j) (h' j)

theorem ColsIn.cancel {V : Submodule ℝ (Fin n → ℝ)} {k : Nat} {X Z : Matrix (Fin n) (Fin k) ℝ}
    {L : Matrix (Fin k) (Fin k) ℝ} (hL : LowerPos L) (h : X * Lᵀ = Z) (hZ : ColsIn V Z) : ColsIn V X := by
  have hu : IsUnit Lᵀ.det := by
    rw [Matrix.det_transpose]
    exact (Matrix.isUnit_iff_isUnit_det _).1 hL.isUnit
  have : X = Z * Lᵀ⁻¹ := by
    rw [← h, Matrix.mul_assoc, Matrix.mul_nonsing_inv _ hu, Matrix.mul_one]
  rw [this]
  exact hZ.mul _

theorem ColsIn.colsAt {V : Submodule ℝ (Fin n → ℝ)} {k : Nat} {x : Arr2 ℝ} {idx : List Nat}
    (hidx : ∀ j ∈ idx, j < k) (h : ColsIn V (toMat n k x)) : ColsIn V (colsAt idx x n idx.length) := by
  intro j
  have hj : idx.getD j 0 < k := by
    rw [List.getD_eq_getElem?_getD, List.getElem?_eq_getElem j.2]
    exact hidx _ (List.getElem_mem _)
  exact h ⟨idx.getD j 0, hj⟩

/-- The subspace `V` is kept by the operator and the preconditioner, and contains the constraints. -/
structure Keeps (V : Submodule ℝ (Fin n → ℝ)) (P : LobParams ℝ) : Prop where
  a : ∀ call y z k, HasShape y n k → P.a call y = .ok z →
    HasShape z n k ∧ (ColsIn V (toMat n k y) → ColsIn V (toMat n k z))
  m : ∀ y z k, HasShape y n k → HasShape z n k → P.m y = .ok z →
    ColsIn V (toMat n k y) → ColsIn V (toMat n k z)
  y : ∀ y, P.y = some y → y.nr = n ∧ ColsIn V (toMat n y.nc y)

theorem Keeps.opShape {V : Submodule ℝ (Fin n → ℝ)} {P : LobParams ℝ} (h : Keeps V P) : OpShape n P :=
  fun call y z k hy hz => (h.a call y z k hy hz).1

theorem Keeps.constrain {V : Submodule ℝ (Fin n → ℝ)} {P : LobParams ℝ} (h : Keeps V P)
    {c : Option (Arr2 ℝ)} {v w : Arr2 ℝ} {m : Nat} (sv : HasShape v n m) (hv : ColsIn V (toMat n m v))
    (hw : P.constrain c v = .ok w) : ColsIn V (toMat n m w) := by
  unfold LobParams.constrain at hw
  cases hy : P.y with
  | none =>
    rw [hy] at hw
    injection hw with hw
    subst hw
    exact hv
  | some y =>
    rw [hy] at hw
    cases c with
    | none =>
      injection hw with hw
      subst hw
      exact hv
    | some c =>
      obtain ⟨h1, h2⟩ := h.y y hy
      unfold applyConstraints at hw
      simp only [bind_eq_ok] at hw
      obtain ⟨g, hg, u, hu, hz⟩ := hw
      obtain ⟨-, -, ez⟩ := genMatMul_mat hz (⟨h1, rfl⟩ : HasShape y n y.nc) sv
      rw [ez]
      exact hv.sub (h2.mul _)

/-- The invariant. -/
structure VInv (V : Submodule ℝ (Fin n → ℝ)) (k : Nat) (st : LobState ℝ) : Prop extends SInv n k st where
  x : ColsIn V (toMat n k st.x)
  ax : ColsIn V (toMat n k st.ax)
  p : ∀ p ap, st.pap = some (p, ap) → ColsIn V (toMat n k p) ∧ ColsIn V (toMat n k ap)

theorem lobTail_vInv {V : Submodule ℝ (Fin n → ℝ)} {k : Nat} {eig : EigSolver ℝ} {P : LobParams ℝ}
    {cholYY : Option (Arr2 ℝ)} {st st' : LobState ℝ} {r0 : Arr2 ℝ} {norms : List ℝ}
    (hV : Keeps V P) (hI : VInv V k st) (hr : lobResidual st = .ok (r0, norms))
    (h : lobTail eig P cholYY st r0 norms = .ok (.ok st')) : VInv V k st' := by
  have hS := lobTail_sInv hV.opShape hI.toSInv hr h
  obtain ⟨v, w, u, xv, z, r, l, ar, eg, g, pap, pap', lambda, vecs, gram, tau, p, ap, xt, x, axt, ax, h1,
    h2, h3, h4, h5, h6, h7, h8, h9, h10, h11, h12, h13, h14, h15, h16, h17, rfl⟩ := (lobTail_inv h).run
  have sr0 : HasShape r0 n k := by
    have := lobResidual_shape hr
    rwa [hI.sx.1, hI.len] at this
  have hr0 : ColsIn V (toMat n k r0) := by
    have : toMat n k r0 = toMat n k st.ax - toMat n k st.x * Matrix.diagonal fun j : Fin k => st.lambda.get j := by
      obtain ⟨-, -, h3, rfl, rfl⟩ := lobResidual_inv hr
      ext i j
      simp only [toMat_apply, Matrix.sub_apply, Matrix.mul_diagonal]
      congr 1
      rw [dotTo_eq, hI.sx.2, Finset.sum_eq_single j.val]
      · simp [Arr2.fromDiag]
      · intro k' _ hk'
        simp [Arr2.fromDiag, hk']
      · intro hj
        exact absurd (Finset.mem_range.2 j.2) hj
    rw [this]
    exact hI.ax.sub (hI.x.mul _)
  obtain ⟨hm, sv, ev⟩ := ndarrayMask_mat h1 sr0
  have hidx : ∀ j ∈ maskIndices st.mask, j < k := fun j hj => hm ▸ maskIndices_lt _ j hj
  have vv : ColsIn V (toMat n (maskIndices st.mask).length v) := by
    rw [ev]
    exact hr0.colsAt hidx
  obtain ⟨sw, hw⟩ : HasShape w n (maskIndices st.mask).length ∧ P.m v = .ok w := by
    unfold LobParams.precondition at h2
    simp only [bind_eq_ok, unwrapM_eq_ok] at h2
    obtain ⟨w', hw', h2⟩ := h2
    split_ifs at h2 with hc
    injection h2 with h2
    subst h2
    exact ⟨⟨hc.1.trans sv.1, hc.2.trans sv.2⟩, hw'⟩
  have vw := hV.m _ _ _ sv sw hw vv
  have su : HasShape u n (maskIndices st.mask).length := by
    have := (constrain_inv h3).1
    rwa [sw.1, sw.2] at this
  have vu := hV.constrain sw vw h3
  obtain ⟨-, sz, ez⟩ := genMatMul_mat h5 hI.sx su
  have vz : ColsIn V (toMat n (maskIndices st.mask).length z) := by
    rw [ez]
    exact vu.sub (hI.x.mul _)
  obtain ⟨sr, sl, pl, el, -⟩ := orthonormalize_mat h6 sz
  have vr : ColsIn V (toMat n (maskIndices st.mask).length r) := by
    refine ColsIn.cancel pl ?_ vz
    rw [← Matrix.transpose_transpose (toMat _ _ z), ← el, Matrix.transpose_mul, Matrix.transpose_transpose]
  obtain ⟨sar, var⟩ := hV.a _ _ _ _ sr (unwrapM_eq_ok.1 h7)
  replace var := var vr
  have hvk : vecs.nc = k := (lobEig_len h11).2.trans hI.sx.2
  have hpap' : ∀ q aq, pap' = some (q, aq) →
      (HasShape q n (maskIndices st.mask).length ∧ HasShape aq n (maskIndices st.mask).length) ∧
      ColsIn V (toMat n (maskIndices st.mask).length q) ∧ ColsIn V (toMat n (maskIndices st.mask).length aq) := by
    intro q aq hq
    rcases lobEig_pap h11 with h' | h'
    · rw [h'] at hq; cases hq
    · subst h'
      rw [hq] at h10
      obtain ⟨q0, aq0, L, e0, hm, s1, s2, pL, e1, e2, -⟩ := activePAP_mat h10 hI.pap
      obtain ⟨g1, g2⟩ := hI.p q0 aq0 e0
      exact ⟨⟨s1, s2⟩, ColsIn.cancel pL e1 (g1.colsAt hidx), ColsIn.cancel pL e2 (g2.colsAt hidx)⟩
  obtain ⟨sp, sap, hcase⟩ := updatePAP_mat h13 sr sar hvk (fun q aq h => (hpap' q aq h).1)
  have vp : ColsIn V (toMat n k p) ∧ ColsIn V (toMat n k ap) := by
    rcases hcase with ⟨-, -, e1, e2⟩ | ⟨q, aq, hq, -, -, e1, e2⟩
    · rw [e1, e2]
      exact ⟨vr.mul _, var.mul _⟩
    · rw [e1, e2]
      obtain ⟨-, g1, g2⟩ := hpap' q aq hq
      exact ⟨(vr.mul _).add (g1.mul _), (var.mul _).add (g2.mul _)⟩
  have htau : tau.nr = k := (Arr2.dot_inv h14).1.symm.trans hI.sx.2
  obtain ⟨-, -, stau, etau⟩ := slice_mat h12 htau hvk
  obtain ⟨sxt, ext⟩ := dot_mat h14 hI.sx stau
  obtain ⟨-, -, ex⟩ := add_mat h15 sxt
  obtain ⟨saxt, eaxt⟩ := dot_mat h16 hI.sax stau
  obtain ⟨-, -, eax⟩ := add_mat h17 saxt
  refine ⟨hS, ?_, ?_, ?_⟩
  · simp only
    rw [ex, ext]
    exact (hI.x.mul _).add vp.1
  · simp only
    rw [eax, eaxt]
    exact (hI.ax.mul _).add vp.2
  · intro p1 ap1 hp1
    simp only [Option.some.injEq, Prod.mk.injEq] at hp1
    obtain ⟨rfl, rfl⟩ := hp1
    exact vp

/-- **C64**: if the operator and the preconditioner keep a subspace, and the start vectors and the
constraints lie in it, every vector of every iterate lies in it. So `lobpcg` cannot find an eigenvector
outside of an invariant subspace that contains the start vectors. For every eigensolver for the small
problems, tolerance and number of iterations. -/
theorem C64_invariant_subspace {k : Nat} (V : Submodule ℝ (Fin n → ℝ)) {eig : EigSolver ℝ} {P : LobParams ℝ}
    (hV : Keeps V P) {x0 : Arr2 ℝ} (hx0 : HasShape x0 n k) (hx0V : ColsIn V (toMat n k x0)) {maxiter : Nat}
    {res : LobpcgResult ℝ} {hist : List (Iterate ℝ)}
    (h : lobpcgRun eig P x0 maxiter = .ok (res, hist)) :
    (∀ it ∈ hist, ColsIn V (toMat n k it.pairs.eigvecs)) ∧
    ∀ b, Returned res b → ColsIn V (toMat n k b.eigvecs) := by
  have h1 : ∀ it ∈ hist, ColsIn V (toMat n k it.pairs.eigvecs) := by
    refine lobpcgRun_iterates h (fun _ st => VInv V k st) _ ?_ ?_ ?_ ?_
    · intro c st hs
      obtain ⟨x1, x2, ax, xax, eb, L, g1, g2, s2, g3, g4, o2, h3, s3, s4, e4, h5, s5, e1, e2, hS, -, -, hp⟩ :=
        hs.mat hV.opShape hx0
      have v1 := hV.constrain hx0 hx0V g1
      have v2 := ColsIn.cancel g3 g4 v1
      have v3 := (hV.a _ _ _ _ s2 h3).2 v2
      exact ⟨hS, by rw [e1]; exact v2.mul _, by rw [e2]; exact v3.mul _, fun p ap h => by rw [hp] at h; cases h⟩
    · intro c st r norms hI hr
      exact hI.x
    · intro c st st' r norms hI hh
      have hS := lobHead_sInv hI.toSInv hh
      obtain ⟨-, rfl⟩ := lobHead_inv hh
      exact ⟨hS, hI.x, hI.ax, hI.p⟩
    · intro c st st' r norms hI _ hr ht
      exact lobTail_vInv hV hI hr ht
  refine ⟨h1, fun b hb => ?_⟩
  obtain ⟨⟨it, hit, rfl⟩, -⟩ := C42_best_iterate eig P x0 maxiter res hist h b hb
  exact h1 it hit

/-- The multiples of the first unit vector. -/
def axis : Submodule ℝ (Fin 2 → ℝ) where
  carrier := {v | v 1 = 0}
  add_mem' := fun {a b} ha hb => by
    simp only [Set.mem_ofPred_eq, Pi.add_apply] at *
    rw [ha, hb, add_zero]
  zero_mem' := rfl
  smul_mem' := fun c v hv => by
    simp only [Set.mem_ofPred_eq, Pi.smul_apply, smul_eq_mul] at *
    rw [hv, mul_zero]

theorem axis_keeps : Keeps axis strictParams := by
  refine ⟨fun call y z k hy hz => ?_, fun y z k hy hz' hz hv => ?_, fun y hy => by cases hy⟩
  · obtain ⟨sz, ez⟩ := strict_operator call y z k hy hz
    refine ⟨sz, fun hv j => ?_⟩
    have h1 : toMat 2 k y 1 j = 0 := hv j
    change toMat 2 k z 1 j = 0
    rw [ez, Matrix.mul_apply, Fin.sum_univ_two, h1]
    simp [toMat, ofRows]
  · injection hz with hz
    rw [← hz]
    exact hv

/-- A concrete case: asked for the largest eigenvalue of `diag(1, 3)` with the start vector `e₁`, `lobpcg`
returns `Ok` with the value `1` after any number of iterations. -/
theorem axis_run (maxiter : Nat) : ∃ b hist,
    lobpcgRun exactEig strictParams (ofRows 2 1 [[1], [0]]) maxiter = .ok (.ok b, hist) ∧
      b.eigvals.get 0 = 1 := by
  have hx0 : HasShape (ofRows 2 1 [[1], [0]]) 2 1 := ⟨rfl, rfl⟩
  have hxV : ColsIn axis (toMat 2 1 (ofRows 2 1 [[1], [0]])) := by
    intro j
    change (ofRows 2 1 [[1], [0]]).get 1 j = 0
    fin_cases j
    simp [ofRows]
  have hnf : lobpcgRun exactEig strictParams (ofRows 2 1 [[1], [0]]) maxiter ≠ .error .fuel := by
    refine C43_terminates _ _ _ _ (fun a h => ?_) (fun k v h => ?_) (fun v h => by cases h)
    · obtain ⟨v, q, h1, -⟩ := exactEig_ok a
      rw [h1] at h; cases h
    · simp only [strictParams, demoParams, Arr2.dot] at h
      split_ifs at h <;> cases h
  obtain ⟨⟨res, hist⟩, h⟩ : ∃ r, lobpcgRun exactEig strictParams (ofRows 2 1 [[1], [0]]) maxiter = .ok r := by
    rcases (lobpcgRun_total exactEig_total strict_total hx0 le_rfl (fun y h => by cases h) maxiter).cases with
      ⟨r, h, -⟩ | h
    · exact ⟨r, h⟩
    · exact absurd h hnf
  obtain ⟨hV, -⟩ := C64_invariant_subspace axis axis_keeps hx0 hxV h
  have hgr := gram_two strict_symm exactEig_within.1 strict_operator hx0 h
  -- the first iterate
  have hfirst : ∀ it, hist[0]? = some it → it.pairs.eigvals.get 0 = 1 ∧ it.active.count true = 0 := by
    intro it hit
    have hmem := List.mem_of_getElem? hit
    have ho := C45_orthonormal_partial strict_symm exactEig_within strict_operator hx0 h it hmem
      (fun B hB => by rw [hgr.1 it hit] at hB; cases hB)
    have hr := (iterate_ritz strict_symm exactEig_within strict_operator hx0 h it hmem).1
    have t1 : it.pairs.eigvecs.get 1 0 = 0 := hV it hmem 0
    have t2 := congrFun (congrFun ho 0) 0
    have t3 := congrFun (congrFun hr 0) 0
    simp [toMat, Matrix.mul_apply, ofRows, Fin.sum_univ_two, t1] at t2 t3
    have hv : it.pairs.eigvals.get 0 = 1 := by rw [← t3, ← t2]
    refine ⟨hv, ?_⟩
    have hres := iterate_residual _ exactEig strictParams strict_operator _ hx0 maxiter _ _ h it hmem 0
    simp [toMat, Matrix.mulVec, dotProduct, ofRows, Fin.sum_univ_two, t1, hv] at hres
    cases hist with
    | nil => cases hit
    | cons it0 l =>
      simp only [List.getElem?_cons_zero, Option.some.injEq] at hit
      subst hit
      obtain ⟨-, g2, g3⟩ := C49_locked exactEig strictParams _ maxiter _ _ h [] l it0 rfl
      rw [List.count_eq_zero]
      intro ht
      obtain ⟨p, hp, hpt⟩ := List.mem_iff_getElem.1 ht
      have hp0 : p = 0 := by
        rw [g2] at hp
        simp [ofRows] at hp
        exact hp
      subst hp0
      obtain ⟨norm, h4, h5⟩ := (g3 0 (by simp [ofRows])).1 (by rw [List.getElem?_eq_getElem hp, hpt]) it0 (by simp)
      rw [h4, Option.some.injEq] at hres
      rw [hres] at h5
      simp [strictParams] at h5
  have hone : hist.length ≤ 1 := by
    by_contra hl
    push Not at hl
    have h1 := (C63_room strict_operator.opShape hx0 h 0 hist[0] hist[1]
      (List.getElem?_eq_getElem (by omega)) (List.getElem?_eq_getElem hl)).1
    have h2 := (hfirst hist[0] (List.getElem?_eq_getElem (by omega))).2
    omega
  obtain ⟨b, rfl⟩ := C62_single_vector strict_symm exactEig_within exactEig_total strict_total strict_operator
    rfl (M := 1) (fun y z k hy hz => by injection hz with hz; rw [hz, Matrix.one_mul])
    (fun x hx => by
      rw [Matrix.one_mulVec]
      exact lt_of_le_of_ne (Finset.sum_nonneg fun i _ => mul_self_nonneg _)
        (fun h => hx (dotProduct_self_eq_zero.1 h.symm)))
    le_rfl hx0 ⟨0, by simp [ofRows]⟩ h (by
      intro it hit B hB
      obtain ⟨i, hi, rfl⟩ := List.mem_iff_getElem.1 hit
      obtain rfl : i = 0 := by omega
      rw [hgr.1 _ (List.getElem?_eq_getElem hi)] at hB
      cases hB)
  refine ⟨b, hist, h, ?_⟩
  obtain ⟨⟨it, hit, rfl⟩, -⟩ := C42_best_iterate exactEig strictParams _ maxiter _ hist h b (Or.inl rfl)
  obtain ⟨i, hi, rfl⟩ := List.mem_iff_getElem.1 hit
  obtain rfl : i = 0 := by omega
  exact (hfirst _ (List.getElem?_eq_getElem hi)).1

end LinfaLinalg
