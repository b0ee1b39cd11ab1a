import Verif.Proofs.LobpcgHist
import Verif.Props.Cholesky
import Verif.Props.Eigh

/-! # Shapes in `lobpcg` -/

set_option linter.unusedSectionVars false

namespace LinfaLinalg

variable {α : Type} [Zero α] [One α] [Add α] [Sub α] [Mul α] [Div α] [Neg α] [NdFloat α]

theorem solveTriangular_inv {a b x : Arr2 α} {uplo : UPLO} (h : solveTriangular a b uplo = .ok x) :
    a.nr = a.nc ∧ b.nr = a.nr ∧ HasShape x b.nr b.nc := by
  obtain ⟨h1, h2, h3⟩ := C06_shape_errors a b uplo
  by_cases hs : a.nr = a.nc
  · by_cases hb : b.nr = a.nr
    · obtain ⟨y, hy, sy⟩ := h3 hs hb
      rw [h] at hy
      injection hy with hy
      subst hy
      exact ⟨hs, hb, sy⟩
    · rw [h2 hs hb] at h; cases h
  · rw [h1 hs] at h; cases h

theorem orthonormalize_inv {v u l : Arr2 α} (h : orthonormalize v = .ok (u, l)) :
    ∃ gram u0, v.t.dot v = .ok gram ∧ cholesky gram = .ok l ∧
      solveTriangular l v.t .lower = .ok u0 ∧ u = u0.t ∧ HasShape u v.nr v.nc := by
  unfold orthonormalize at h
  simp only [bind_eq_ok] at h
  obtain ⟨gram, h1, fac, h2, u0, h3, h4⟩ := h
  injection h4 with h4
  simp only [Prod.mk.injEq] at h4
  obtain ⟨rfl, rfl⟩ := h4
  obtain ⟨-, -, h5⟩ := solveTriangular_inv h3
  exact ⟨gram, u0, h1, h2, h3, rfl, h5.2, h5.1⟩

theorem constrain_inv {P : LobParams α} {cholYY : Option (Arr2 α)} {v w : Arr2 α}
    (h : P.constrain cholYY v = .ok w) :
    HasShape w v.nr v.nc ∧ ((w = v ∧ (P.y = none ∨ cholYY = none)) ∨
      ∃ y c, P.y = some y ∧ cholYY = some c ∧ applyConstraints v c y = .ok w) := by
  unfold LobParams.constrain at h
  cases hy : P.y with
  | none =>
    rw [hy] at h
    simp only at h
    injection h with h
    exact ⟨by rw [h]; exact ⟨rfl, rfl⟩, Or.inl ⟨h.symm, Or.inl rfl⟩⟩
  | some y =>
    cases hc : cholYY with
    | none =>
      rw [hy, hc] at h
      simp only at h
      injection h with h
      exact ⟨by rw [h]; exact ⟨rfl, rfl⟩, Or.inl ⟨h.symm, Or.inr rfl⟩⟩
    | some c =>
      rw [hy, hc] at h
      simp only at h
      refine ⟨?_, Or.inr ⟨y, c, rfl, rfl, h⟩⟩
      unfold applyConstraints at h
      simp only [bind_eq_ok] at h
      obtain ⟨_, -, _, -, h⟩ := h
      obtain ⟨-, -, -, rfl⟩ := genMatMul_inv h
      exact ⟨rfl, rfl⟩

/-- The block of approximate eigenvectors keeps its shape. -/
def XShape (n k : Nat) (st : LobState α) : Prop := HasShape st.x n k ∧ st.lambda.len = k

theorem StartRun.xShape {eig : EigSolver α} {P : LobParams α} {x0 : Arr2 α} {maxiter : Nat}
    {cholYY : Option (Arr2 α)} {st : LobState α} (h : StartRun eig P x0 maxiter cholYY st) :
    XShape x0.nr x0.nc st := by
  obtain ⟨x1, x2, l, ax, xax, lambda, eb, x, ax', -, -, h1, h2, -, -, h3, h4, -, rfl⟩ := h.run
  obtain ⟨_, _, -, -, -, -, s2⟩ := orthonormalize_inv h2
  obtain ⟨s1, -⟩ := constrain_inv h1
  obtain ⟨e1, e2⟩ := sortedEig_len h3
  obtain ⟨-, rfl⟩ := Arr2.dot_inv h4
  exact ⟨⟨s2.1.trans s1.1, e2⟩, e1⟩

theorem lobTail_xShape {eig : EigSolver α} {P : LobParams α} {cholYY : Option (Arr2 α)}
    {st st' : LobState α} {r0 : Arr2 α} {norms : List α}
    (h : lobTail eig P cholYY st r0 norms = .ok (.ok st')) {n k : Nat} (hs : XShape n k st) :
    XShape n k st' := by
  obtain ⟨v, w, u, xv, z, r, l, ar, eg, g, pap, pap', lambda, vecs, gram, tau, p, ap, xt, x, axt, ax, -, -,
    -, -, -, -, -, -, -, -, hl, htau, -, hxt, hx, -, -, rfl⟩ := (lobTail_inv h).run
  obtain ⟨e1, e2⟩ := lobEig_len hl
  obtain ⟨-, -, -, -, rfl⟩ := Arr2.slice_inv htau
  obtain ⟨-, rfl⟩ := Arr2.dot_inv hxt
  obtain ⟨-, -, rfl⟩ := Arr2.add_inv hx
  refine ⟨⟨hs.1.1, ?_⟩, e1.trans hs.1.2⟩
  simp only [Nat.sub_zero]
  exact e2.trans hs.1.2

/-- A pair of blocks of eigenvalues and eigenvectors of the right shapes, with as many residuals. -/
def PairShape (n k : Nat) (b : Lobpcg α) : Prop :=
  b.eigvals.len = k ∧ HasShape b.eigvecs n k ∧ b.rnorm.length = k

/-- An invariant of the loop states which is carried to every iterate visited. -/
theorem lobpcgRun_iterates {eig : EigSolver α} {P : LobParams α} {x0 : Arr2 α} {maxiter : Nat}
    {res : LobpcgResult α} {hist : List (Iterate α)}
    (h : lobpcgRun eig P x0 maxiter = .ok (res, hist))
    (I : Option (Arr2 α) → LobState α → Prop) (Q : Iterate α → Prop)
    (hstart : ∀ c st, StartRun eig P x0 maxiter c st → I c st)
    (hQ : ∀ c st r norms, I c st → lobResidual st = .ok (r, norms) →
      Q ⟨⟨st.lambda, st.x, norms⟩, updateMask P.tol norms st.mask, st.gram⟩)
    (hhead : ∀ c st st' r norms, I c st → lobHead P st = .ok (st', r, norms) → I c st')
    (htail : ∀ c st st' r norms, I c st → (∀ it ∈ st.hist, Q it) → lobResidual st = .ok (r, norms) →
      lobTail eig P c st r norms = .ok (.ok st') → I c st') :
    ∀ it ∈ hist, Q it := by
  rcases lobpcgRun_inv h with ⟨e, -, -, rfl⟩ | ⟨c, st0, st, o, b, h1, h2, -, rfl, -⟩
  · intro it hit; cases hit
  · obtain ⟨r, norms, ⟨-, hq, -⟩, -⟩ := lobLoop_rule (P := P) (cholYY := c) (eig := eig)
      (I := fun st => I c st ∧ ∀ it ∈ st.hist, Q it)
      (J := fun st r norms => I c st ∧ (∀ it ∈ st.hist, Q it) ∧ lobResidual st = .ok (r, norms))
      (fun st st' r norms hI hh => by
        refine ⟨hhead c _ _ _ _ hI.1 hh, ?_⟩
        obtain ⟨hr, rfl⟩ := lobHead_inv hh
        refine ⟨?_, hr⟩
        intro it hit
        rcases List.mem_append.1 hit with hit | hit
        · exact hI.2 it hit
        · rw [List.mem_singleton] at hit
          subst hit
          exact hQ c _ _ _ hI.1 hr)
      (fun st st' r norms hJ _ _ ht => by
        refine ⟨htail c _ _ _ _ hJ.1 hJ.2.1 hJ.2.2 ht, ?_⟩
        rw [(lobTail_frame ht).1]
        exact hJ.2.1)
      ⟨hstart _ _ h1, by
        obtain ⟨x1, x2, l, ax, xax, lambda, eb, x, ax', -, -, -, -, -, -, -, -, -, rfl⟩ := h1.run
        intro it hit; cases hit⟩ h2
    exact hq

theorem lobpcgRun_shapes {eig : EigSolver α} {P : LobParams α} {x0 : Arr2 α} {maxiter : Nat}
    {res : LobpcgResult α} {hist : List (Iterate α)}
    (h : lobpcgRun eig P x0 maxiter = .ok (res, hist)) :
    ∀ it ∈ hist, PairShape x0.nr x0.nc it.pairs := by
  refine lobpcgRun_iterates h (fun _ st => XShape x0.nr x0.nc st)
    (fun it => PairShape x0.nr x0.nc it.pairs) (fun c st hs => hs.xShape) ?_ ?_ ?_
  · intro c st r norms hI hr
    exact ⟨hI.2, hI.1, (LobState.norms_length hr).trans hI.2⟩
  · intro c st st' r norms hI hh
    obtain ⟨-, rfl⟩ := lobHead_inv hh
    exact hI
  · intro c st st' r norms hI _ _ ht
    exact lobTail_xShape ht hI

/-- Errors which a computation does not return. -/
def NeverErr {β : Type} (p : LinalgError → Prop) (m : M β) : Prop := ∀ e, m = .error (.err e) → ¬ p e

theorem NeverErr.bind {β γ : Type} {p : LinalgError → Prop} {m : M β} {f : β → M γ}
    (h : NeverErr p m) (hf : ∀ b, NeverErr p (f b)) : NeverErr p (m >>= f) := by
  intro e he
  cases m with
  | error f' =>
    rw [error_bind] at he
    injection he with he
    subst he
    exact h e rfl
  | ok b => rw [ok_bind] at he; exact hf b e he

theorem NeverErr.ok {β : Type} {p : LinalgError → Prop} (b : β) : NeverErr p (.ok b : M β) := by
  intro e he; cases he

theorem NeverErr.panic {β : Type} {p : LinalgError → Prop} : NeverErr p (.error .panic : M β) := by
  intro e he; cases he

/-- The error is `NotThin`. -/
def IsNotThin (e : LinalgError) : Prop := ∃ r c, e = .notThin r c

theorem neverErr_dot {p : LinalgError → Prop} (a b : Arr2 α) : NeverErr p (a.dot b) := by
  unfold Arr2.dot; split_ifs
  · exact .ok _
  · exact .panic

theorem neverErr_scaleCols {p : LinalgError → Prop} (a : Arr2 α) (s : Arr1 α) :
    NeverErr p (a.scaleCols s) := by
  unfold Arr2.scaleCols; split_ifs
  · exact .ok _
  · exact .panic

theorem neverErr_slice1 {p : LinalgError → Prop} (a : Arr1 α) (i j : Nat) :
    NeverErr p (a.slice i j) := by
  unfold Arr1.slice; split_ifs
  · exact .ok _
  · exact .panic

theorem neverErr_slice {p : LinalgError → Prop} (a : Arr2 α) (i j k l : Nat) :
    NeverErr p (a.slice i j k l) := by
  unfold Arr2.slice; split_ifs
  · exact .ok _
  · exact .panic

theorem neverErr_sortEig {p : LinalgError → Prop} (vals : Arr1 α) (vecs : Arr2 α) (order : Order) :
    NeverErr p (sortEig vals vecs order) := by
  unfold sortEig
  refine .bind ?_ fun l => .bind ?_ fun _ => .ok _
  · unfold sortBy
    split_ifs
    · exact .panic
    · exact .ok _
  · unfold permuteCols
    have := wp_forRange (lo := 0) (hi := l.length) (s := (Arr2.zeros vecs.nr vecs.nc : Arr2 α))
      (f := fun k out =>
        match l[k]? with
        | none => .ok out
        | some (idx, _) => do
          let c ← vecs.colSlice 0 vecs.nr idx
          if k < out.nc then .ok (out.putCol 0 k c) else .error .panic)
      (E := fun e => e = .panic) (fun _ _ => True) (Nat.zero_le _) trivial ?_
    · intro e he
      have h2 := wp_elim_error this he
      cases h2
    · intro k out _ _ _
      rcases l[k]? with _ | ⟨idx, a⟩
      · trivial
      · simp only
        rw [wp_bind]
        unfold Arr2.colSlice
        split_ifs <;> first | trivial | rfl

theorem neverErr_orthonormalize (v : Arr2 α) : NeverErr IsNotThin (orthonormalize v) := by
  unfold orthonormalize
  intro e he
  rcases hd : v.t.dot v with f | gram
  · rw [hd, error_bind] at he
    injection he with he
    subst he
    exact neverErr_dot _ _ e hd
  rw [hd, ok_bind] at he
  have hsq : gram.nr = gram.nc := by
    obtain ⟨-, rfl⟩ := Arr2.dot_inv hd
    rfl
  rcases cholesky_cases gram hsq with ⟨b, hb, -⟩ | ⟨hb, -⟩
  · rw [hb, ok_bind] at he
    obtain ⟨h1, h2, h3⟩ := C06_shape_errors (cleanLower b) v.t .lower
    rintro ⟨r, c, rfl⟩
    by_cases hs : (cleanLower b).nr = (cleanLower b).nc
    · by_cases hq : v.t.nr = (cleanLower b).nr
      · obtain ⟨x, hx, -⟩ := h3 hs hq; rw [hx] at he; cases he
      · rw [h2 hs hq, error_bind] at he; cases he
    · rw [h1 hs, error_bind] at he; cases he
  · rw [hb, error_bind] at he
    rintro ⟨r, c, rfl⟩
    cases he

theorem neverErr_eighInto (fuel : Nat) (a : Arr2 α) : NeverErr IsNotThin (eighInto fuel a) := by
  intro e he
  rintro ⟨r, c, rfl⟩
  obtain ⟨h1, -, h3⟩ := C31_eigh_shapes fuel a
  by_cases hs : a.nr = a.nc
  · have := h3 hs
    unfold eigh at this
    rw [he] at this
    exact this
  · have := h1 hs
    unfold eigh at this
    rw [he] at this
    cases this

theorem neverErr_sortedEig {eig : EigSolver α} (heig : ∀ a, NeverErr IsNotThin (eig a)) (a : Arr2 α)
    (b : Option (Arr2 α)) (size : Nat) (order : Order) :
    NeverErr IsNotThin (sortedEig eig a b size order) := by
  unfold sortedEig
  refine .bind ?_ fun v => .bind (neverErr_sortEig _ _ _) fun w => ?_
  · cases b with
    | none => exact heig a
    | some b =>
      unfold generalizedEig
      exact .bind (heig b) fun _ => .bind (neverErr_scaleCols _ _) fun _ => .bind (neverErr_dot _ _)
        fun _ => .bind (neverErr_dot _ _) fun _ => .bind (heig _) fun _ => .bind (neverErr_dot _ _)
        fun _ => .ok _
  · simp only
    split_ifs
    · exact .panic
    · exact .bind (neverErr_scaleCols _ _) fun _ => .bind (neverErr_slice1 _ _ _) fun _ =>
        .bind (neverErr_slice _ _ _ _ _) fun _ => .ok _

end LinfaLinalg
