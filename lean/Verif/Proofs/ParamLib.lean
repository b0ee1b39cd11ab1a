import Verif.Proofs.Param

/-! # Every function respects relations between scalars -/

set_option linter.unusedSectionVars false

namespace LinfaLinalg.Par

variable {α : Type} [Zero α] [One α] [Add α] [Sub α] [Mul α] [Div α] [Neg α] [NdFloat α]
variable {β : Type} [Zero β] [One β] [Add β] [Sub β] [Mul β] [Div β] [Neg β] [NdFloat β]
variable {R : α → β → Prop} [hR : ScalarRel R]

/-! ### Triangular systems and the Cholesky decomposition -/

@[rel_rule] theorem rel_triangularInplace {a : Arr2 α} {b : Arr2 β} (h : RelA2 R a b) {uplo uplo' : UPLO}
    (hu : uplo = uplo') : RelM (RelA2 R) (triangularInplace a uplo) (triangularInplace b uplo') := by
  subst hu
  unfold triangularInplace
  rel

@[rel_rule] theorem rel_intoTriangular {a : Arr2 α} {b : Arr2 β} (h : RelA2 R a b) {uplo uplo' : UPLO}
    (hu : uplo = uplo') : RelM (RelA2 R) (intoTriangular a uplo) (intoTriangular b uplo') :=
  rel_triangularInplace h hu

theorem rel_rowAllZero {a : Arr2 α} {b : Arr2 β} (h : RelA2 R a b) (i : Nat) (js : List Nat) :
    RelM Eq (rowAllZero a i js) (rowAllZero b i js) := by
  induction js with
  | nil => rfl
  | cons j js ih =>
    unfold rowAllZero
    rel

theorem rel_rowsAllZero {a : Arr2 α} {b : Arr2 β} (h : RelA2 R a b) (cols : Nat → List Nat) (is : List Nat) :
    RelM Eq (rowsAllZero a cols is) (rowsAllZero b cols is) := by
  induction is with
  | nil => rfl
  | cons i is ih =>
    unfold rowsAllZero
    refine relM_bind (rel_rowAllZero h i _) ?_
    rel

theorem rel_isTriangular {a : Arr2 α} {b : Arr2 β} (h : RelA2 R a b) (uplo : UPLO) :
    RelM Eq (isTriangular a uplo) (isTriangular b uplo) := by
  unfold isTriangular
  have hc := rel_checkSquare h
  revert hc
  rcases checkSquare a with e | n <;> rcases checkSquare b with e' | n' <;> intro hc
  · rfl
  · exact hc.elim
  · exact hc.elim
  · obtain rfl : n = n' := hc
    dsimp only
    split_ifs
    · exact rel_rowsAllZero h _ _
    · exact rel_rowsAllZero h _ _

theorem rel_solveStep {a : Arr2 α} {a' : Arr2 β} (ha : RelA2 R a a') {diag : Nat → M α} {diag' : Nat → M β}
    (hd : ∀ i, RelM R (diag i) (diag' i)) (rows : Nat → Nat × Nat) (k i : Nat) {b : Arr2 α} {b' : Arr2 β}
    (hb : RelA2 R b b') : RelM (RelA2 R) (solveStep a diag rows k i b) (solveStep a' diag' rows k i b') := by
  unfold solveStep
  have h1 := ha.nr
  have h2 := hb.nr
  rel
  all_goals exact ⟨by simp only [*], by simp only [*]⟩

@[rel_rule] theorem rel_solveTriangularSystem {a : Arr2 α} {a' : Arr2 β} (ha : RelA2 R a a') {b : Arr2 α} {b' : Arr2 β}
    (hb : RelA2 R b b') {uplo uplo' : UPLO} (hu : uplo = uplo') {diag : Nat → M α} {diag' : Nat → M β}
    (hd : ∀ i, RelM R (diag i) (diag' i)) :
    RelM (RelA2 R) (solveTriangularSystem a b uplo diag) (solveTriangularSystem a' b' uplo' diag') := by
  subst hu
  have h1 := hb.nr
  have h2 := hb.nc
  unfold solveTriangularSystem
  rel
  · exact rel_solveStep ha hd _ _ _ ‹_›
  · exact rel_solveStep ha hd _ _ _ ‹_›

@[rel_rule] theorem rel_solveTriangular {a : Arr2 α} {a' : Arr2 β} (ha : RelA2 R a a') {b : Arr2 α} {b' : Arr2 β}
    (hb : RelA2 R b b') {uplo uplo' : UPLO} (hu : uplo = uplo') :
    RelM (RelA2 R) (solveTriangular a b uplo) (solveTriangular a' b' uplo') := by
  unfold solveTriangular
  rel

@[rel_rule] theorem rel_cholDot {a : Arr2 α} {b : Arr2 β} (h : RelA2 R a b) {k k' j j' : Nat} (hk : k = k') (hj : j = j') :
    RelM R (cholDot a k j) (cholDot b k' j') := by
  unfold cholDot
  rel

@[rel_rule] theorem rel_cholRow {a : Arr2 α} {b : Arr2 β} (h : RelA2 R a b) {j j' : Nat} (hj : j = j') :
    RelM (RelP (RelA2 R) R) (cholRow j a) (cholRow j' b) := by
  unfold cholRow
  rel

@[rel_rule] theorem rel_cholLoop {a : Arr2 α} {b : Arr2 β} (h : RelA2 R a b) {js js' : List Nat} (hj : js = js') :
    RelM (RelP (RelA2 R) (RelO Eq)) (cholLoop js a) (cholLoop js' b) := by
  subst hj
  induction js generalizing a b with
  | nil => unfold cholLoop; rel
  | cons j js ih => unfold cholLoop; rel

@[rel_rule] theorem rel_choleskyInplaceDirty {a : Arr2 α} {b : Arr2 β} (h : RelA2 R a b) :
    RelM (RelP (RelA2 R) (RelO Eq)) (choleskyInplaceDirty a) (choleskyInplaceDirty b) := by
  unfold choleskyInplaceDirty
  have hc := rel_checkSquare h
  revert hc
  rcases checkSquare a with e | n <;> rcases checkSquare b with e' | n' <;> intro hc
  · obtain rfl : e = e' := hc
    cases e <;> dsimp only <;> rel
  · exact hc.elim
  · exact hc.elim
  · obtain rfl : n = n' := hc
    dsimp only
    rel

@[rel_rule] theorem rel_choleskyInplace {a : Arr2 α} {b : Arr2 β} (h : RelA2 R a b) :
    RelM (RelP (RelA2 R) (RelO Eq)) (choleskyInplace a) (choleskyInplace b) := by
  unfold choleskyInplace
  rel

@[rel_rule] theorem rel_choleskyDirty {a : Arr2 α} {b : Arr2 β} (h : RelA2 R a b) :
    RelM (RelA2 R) (choleskyDirty a) (choleskyDirty b) := by
  unfold choleskyDirty
  rel

@[rel_rule] theorem rel_cholesky {a : Arr2 α} {b : Arr2 β} (h : RelA2 R a b) :
    RelM (RelA2 R) (cholesky a) (cholesky b) := by
  unfold cholesky
  rel

@[rel_rule] theorem rel_solvec {a : Arr2 α} {a' : Arr2 β} (ha : RelA2 R a a') {b : Arr2 α} {b' : Arr2 β}
    (hb : RelA2 R b b') : RelM (RelA2 R) (solvec a b) (solvec a' b') := by
  unfold solvec
  rel

@[rel_rule] theorem rel_invc {a : Arr2 α} {b : Arr2 β} (h : RelA2 R a b) : RelM (RelA2 R) (invc a) (invc b) := by
  have h1 := h.nr
  unfold invc
  rel

@[rel_rule] theorem rel_solveTriangularInplace {a : Arr2 α} {a' : Arr2 β} (ha : RelA2 R a a') {b : Arr2 α} {b' : Arr2 β}
    (hb : RelA2 R b b') {uplo uplo' : UPLO} (hu : uplo = uplo') :
    RelM (RelP (RelA2 R) (RelO Eq)) (solveTriangularInplace a b uplo) (solveTriangularInplace a' b' uplo') := by
  unfold solveTriangularInplace
  have hc := rel_solveTriangular ha hb hu
  revert hc
  rcases solveTriangular a b uplo with e | n <;> rcases solveTriangular a' b' uplo' with e' | n' <;> intro hc
  · obtain rfl : e = e' := hc
    cases e <;> dsimp only <;> rel
  · exact hc.elim
  · exact hc.elim
  · exact ⟨hc, trivial⟩

@[rel_rule] theorem rel_solvecInplace {a : Arr2 α} {a' : Arr2 β} (ha : RelA2 R a a') {b : Arr2 α} {b' : Arr2 β}
    (hb : RelA2 R b b') :
    RelM (RelP (RelA2 R) (RelP (RelA2 R) (RelO Eq))) (solvecInplace a b) (solvecInplace a' b') := by
  unfold solvecInplace
  rel

@[rel_rule] theorem rel_invcInplace {a : Arr2 α} {b : Arr2 β} (h : RelA2 R a b) :
    RelM (RelP (RelA2 R) (RelE (RelA2 R))) (invcInplace a) (invcInplace b) := by
  have h1 := h.nr
  unfold invcInplace
  rel

/-! ### Householder reflections and the QR decomposition -/

@[rel_rule] theorem rel_reflectCols {x : Arr1 α} {y : Arr1 β} (hx : RelA1 R x y) {k : α} {l : β} (hk : R k l)
    {a : Arr2 α} {b : Arr2 β} (h : RelA2 R a b) : RelM (RelA2 R) (reflectCols x k a) (reflectCols y l b) := by
  have h1 := h.nc
  unfold reflectCols
  rel

@[rel_rule] theorem rel_reflectRows {x : Arr1 α} {y : Arr1 β} (hx : RelA1 R x y) {k : α} {l : β} (hk : R k l)
    {a : Arr2 α} {b : Arr2 β} (h : RelA2 R a b) : RelM (RelA2 R) (reflectRows x k a) (reflectRows y l b) := by
  unfold reflectRows
  rel

@[rel_rule] theorem rel_reflectionAxisMut {x : Arr1 α} {y : Arr1 β} (hx : RelA1 R x y) :
    RelM (RelP (RelA1 R) (RelO R)) (reflectionAxisMut x) (reflectionAxisMut y) := by
  unfold reflectionAxisMut
  rel

@[rel_rule] theorem rel_clearColumn {a : Arr2 α} {b : Arr2 β} (h : RelA2 R a b) {i i' s s' : Nat} (hi : i = i')
    (hs : s = s') : RelM (RelP (RelA2 R) R) (clearColumn a i s) (clearColumn b i' s') := by
  have h1 := h.nr
  have h2 := h.nc
  unfold clearColumn
  rel

@[rel_rule] theorem rel_clearRow {a : Arr2 α} {b : Arr2 β} (h : RelA2 R a b) {i i' s s' : Nat} (hi : i = i')
    (hs : s = s') : RelM (RelP (RelA2 R) R) (clearRow a i s) (clearRow b i' s') := by
  unfold clearRow
  rel

@[rel_rule] theorem rel_assembleQ {a : Arr2 α} {b : Arr2 β} (h : RelA2 R a b) {s s' : Nat} (hs : s = s')
    {f : Nat → M α} {g : Nat → M β} (hf : ∀ i, RelM R (f i) (g i)) :
    RelM (RelA2 R) (assembleQ a s f) (assembleQ b s' g) := by
  have h1 := h.nr
  have h2 := h.nc
  unfold assembleQ
  rel

/-- Related QR decompositions. -/
structure RelQRDecomp (R : α → β → Prop) (p : QRDecomp α) (q : QRDecomp β) : Prop where
  qr : RelA2 R p.qr q.qr
  diag : RelA1 R p.diag q.diag

@[rel_rule] theorem relQRDecomp_mk {a : Arr2 α} {b : Arr2 β} {d : Arr1 α} {e : Arr1 β} (h : RelA2 R a b) (h' : RelA1 R d e) :
    RelQRDecomp R ⟨a, d⟩ ⟨b, e⟩ := ⟨h, h'⟩

@[rel_rule] theorem rel_qrInto {a : Arr2 α} {b : Arr2 β} (h : RelA2 R a b) :
    RelM (RelQRDecomp R) (qrInto a) (qrInto b) := by
  have h1 := h.nr
  have h2 := h.nc
  unfold qrInto
  rel

attribute [rel_rule] RelQRDecomp.qr RelQRDecomp.diag

@[rel_rule] theorem rel_qrGenerateQ {p : QRDecomp α} {q : QRDecomp β} (h : RelQRDecomp R p q) :
    RelM (RelA2 R) p.generateQ q.generateQ := by
  unfold QRDecomp.generateQ
  rel

@[rel_rule] theorem rel_assignDiag {a : Arr2 α} {b : Arr2 β} (h : RelA2 R a b) {d : Arr1 α} {e : Arr1 β}
    (hd : RelA1 R d e) : RelM (RelA2 R) (a.assignDiag d) (b.assignDiag e) := by
  have h1 := h.nr
  have h2 := h.nc
  have h3 := hd.len
  unfold Arr2.assignDiag
  refine relM_ite (by rw [h1, h2, h3]) (fun _ => ⟨h1, h2, fun i hi j hj => ?_⟩) (fun _ => rfl)
  exact rel_ite (by rw [h3]) (fun h => hd.get i h.2) (fun _ => h.get i hi j hj)

@[rel_rule] theorem rel_intoR {p : QRDecomp α} {q : QRDecomp β} (h : RelQRDecomp R p q) :
    RelM (RelA2 R) p.intoR q.intoR := by
  unfold QRDecomp.intoR
  rel

@[rel_rule] theorem rel_intoDecomp {p : QRDecomp α} {q : QRDecomp β} (h : RelQRDecomp R p q) :
    RelM (RelP (RelA2 R) (RelA2 R)) p.intoDecomp q.intoDecomp := by
  unfold QRDecomp.intoDecomp
  rel

@[rel_rule] theorem rel_qtMul {p : QRDecomp α} {q : QRDecomp β} (h : RelQRDecomp R p q) {a : Arr2 α} {b : Arr2 β}
    (hb : RelA2 R a b) : RelM (RelA2 R) (p.qtMul a) (q.qtMul b) := by
  unfold QRDecomp.qtMul
  rel

theorem forall₂_all {A B : Type} {S : A → B → Prop} {l : List A} {l' : List B} (h : List.Forall₂ S l l') {p : A → Bool}
    {q : B → Bool} (hp : ∀ a b, S a b → p a = q b) : l.all p = l'.all q := by
  induction h with
  | nil => rfl
  | cons hab _ ih => rw [List.all_cons, List.all_cons, hp _ _ hab, ih]

theorem forall₂_any {A B : Type} {S : A → B → Prop} {l : List A} {l' : List B} (h : List.Forall₂ S l l') {p : A → Bool}
    {q : B → Bool} (hp : ∀ a b, S a b → p a = q b) : l.any p = l'.any q := by
  induction h with
  | nil => rfl
  | cons hab _ ih => rw [List.any_cons, List.any_cons, hp _ _ hab, ih]

@[rel_rule] theorem rel_isInvertible {p : QRDecomp α} {q : QRDecomp β} (h : RelQRDecomp R p q) :
    p.isInvertible = q.isInvertible :=
  forall₂_all (rel_toList1 h.diag) fun _ _ hab => by rw [ScalarRel.isZero hab]

@[rel_rule] theorem rel_absDiag {p : QRDecomp α} {q : QRDecomp β} (h : RelQRDecomp R p q) {i i' : Nat} (hi : i = i') :
    RelM R (p.absDiag i) (q.absDiag i') := by
  unfold QRDecomp.absDiag
  rel

@[rel_rule] theorem rel_solveInto {p : QRDecomp α} {q : QRDecomp β} (h : RelQRDecomp R p q) {a : Arr2 α} {b : Arr2 β}
    (hb : RelA2 R a b) : RelM (RelA2 R) (p.solveInto a) (q.solveInto b) := by
  have h1 := h.qr.nr
  have h2 := hb.nr
  unfold QRDecomp.solveInto
  rel

@[rel_rule] theorem rel_solveTrInto {p : QRDecomp α} {q : QRDecomp β} (h : RelQRDecomp R p q) {a : Arr2 α} {b : Arr2 β}
    (hb : RelA2 R a b) : RelM (RelA2 R) (p.solveTrInto a) (q.solveTrInto b) := by
  have h1 := h.qr.nc
  have h2 := hb.nr
  unfold QRDecomp.solveTrInto
  rel

@[rel_rule] theorem rel_inverse {p : QRDecomp α} {q : QRDecomp β} (h : RelQRDecomp R p q) :
    RelM (RelA2 R) p.inverse q.inverse := by
  have h1 := h.diag.len
  unfold QRDecomp.inverse
  rel

@[rel_rule] theorem rel_leastSquares {a : Arr2 α} {a' : Arr2 β} (ha : RelA2 R a a') {b : Arr2 α} {b' : Arr2 β}
    (hb : RelA2 R b b') : RelM (RelA2 R) (leastSquares a b) (leastSquares a' b') := by
  have h1 := ha.nr
  have h2 := ha.nc
  unfold leastSquares
  rel

/-! ### Givens rotations -/

/-- Related rotations. -/
structure RelGivensRotation (R : α → β → Prop) (p : GivensRotation α) (q : GivensRotation β) : Prop where
  c : R p.c q.c
  s : R p.s q.s

@[rel_rule] theorem relGivensRotation_mk {c s : α} {c' s' : β} (h : R c c') (h' : R s s') :
    RelGivensRotation R ⟨c, s⟩ ⟨c', s'⟩ := ⟨h, h'⟩
attribute [rel_rule] RelGivensRotation.c RelGivensRotation.s

@[rel_rule] theorem rel_cancelY {x y : α} {x' y' : β} (hx : R x x') (hy : R y y') :
    RelO (RelP (RelGivensRotation R) R) (GivensRotation.cancelY x y) (GivensRotation.cancelY x' y') := by
  unfold GivensRotation.cancelY
  rel

@[rel_rule] theorem relO_map {A B C D : Type} {S : A → B → Prop} {T : C → D → Prop} {f : A → C} {g : B → D} {o : Option A}
    {o' : Option B} (h : RelO S o o') (hf : ∀ a b, S a b → T (f a) (g b)) : RelO T (o.map f) (o'.map g) := by
  cases o <;> cases o'
  · trivial
  · exact h.elim
  · exact h.elim
  · exact hf _ _ h

@[rel_rule] theorem relO_getD {A B : Type} {S : A → B → Prop} {o : Option A} {o' : Option B} (h : RelO S o o') {a : A}
    {b : B} (hab : S a b) : S (o.getD a) (o'.getD b) := by
  cases o <;> cases o'
  · exact hab
  · exact h.elim
  · exact h.elim
  · exact h

@[rel_rule] theorem rel_cancelX {x y : α} {x' y' : β} (hx : R x x') (hy : R y y') :
    RelO (RelP (RelGivensRotation R) R) (GivensRotation.cancelX x y) (GivensRotation.cancelX x' y') := by
  unfold GivensRotation.cancelX
  rel

@[rel_rule] theorem rel_identity :
    RelGivensRotation R (GivensRotation.identity : GivensRotation α) (GivensRotation.identity : GivensRotation β) := by
  unfold GivensRotation.identity
  rel

@[rel_rule] theorem rel_tryNew {c s e : α} {c' s' e' : β} (hc : R c c') (hs : R s s') (he : R e e') :
    RelO (RelP (RelGivensRotation R) R) (GivensRotation.tryNew c s e) (GivensRotation.tryNew c' s' e') := by
  unfold GivensRotation.tryNew
  rel

@[rel_rule] theorem rel_new {c s : α} {c' s' : β} (hc : R c c') (hs : R s s') :
    RelP (RelGivensRotation R) R (GivensRotation.new c s) (GivensRotation.new c' s') := by
  unfold GivensRotation.new
  exact relO_getD (rel_tryNew hc hs ScalarRel.zero) (relP_mk rel_identity ScalarRel.zero)

@[rel_rule] theorem rel_givensInverse {p : GivensRotation α} {q : GivensRotation β} (h : RelGivensRotation R p q) :
    RelGivensRotation R p.inverse q.inverse := ⟨h.c, ScalarRel.neg h.s⟩

@[rel_rule] theorem rel_rotateRows {p : GivensRotation α} {q : GivensRotation β} (h : RelGivensRotation R p q)
    {a : Arr2 α} {b : Arr2 β} (hb : RelA2 R a b) : RelM (RelA2 R) (p.rotateRows a) (q.rotateRows b) := by
  have h1 := hb.nr
  have h2 := hb.nc
  unfold GivensRotation.rotateRows
  rel

@[rel_rule] theorem rel_rotateCols {p : GivensRotation α} {q : GivensRotation β} (h : RelGivensRotation R p q)
    {a : Arr2 α} {b : Arr2 β} (hb : RelA2 R a b) : RelM (RelA2 R) (p.rotateCols a) (q.rotateCols b) := by
  unfold GivensRotation.rotateCols
  have hc := rel_rotateRows (rel_givensInverse h) (rel_t hb)
  revert hc
  rcases p.inverse.rotateRows a.t with e | n <;> rcases q.inverse.rotateRows b.t with e' | n' <;> intro hc
  · obtain rfl : e = e' := hc
    rcases e with e | _ | _ | _
    · cases e <;> rfl
    · rfl
    · rfl
    · rfl
  · exact hc.elim
  · exact hc.elim
  · exact rel_t hc

/-! ### Tridiagonal form and eigenvalues -/

/-- Related tridiagonal decompositions. -/
structure RelTridiagonalDecomp (R : α → β → Prop) (p : TridiagonalDecomp α) (q : TridiagonalDecomp β) : Prop where
  diagMatrix : RelA2 R p.diagMatrix q.diagMatrix
  offDiagonal : RelA1 R p.offDiagonal q.offDiagonal

@[rel_rule] theorem relTridiagonalDecomp_mk {a : Arr2 α} {b : Arr2 β} {d : Arr1 α} {e : Arr1 β} (h : RelA2 R a b)
    (h' : RelA1 R d e) : RelTridiagonalDecomp R ⟨a, d⟩ ⟨b, e⟩ := ⟨h, h'⟩
attribute [rel_rule] RelTridiagonalDecomp.diagMatrix RelTridiagonalDecomp.offDiagonal

@[rel_rule] theorem rel_matVecMul {k : α} {k' : β} (hk : R k k') {m : Arr2 α} {m' : Arr2 β} (hm : RelA2 R m m')
    {x y : Arr1 α} {x' y' : Arr1 β} (hx : RelA1 R x x') (hy : RelA1 R y y') :
    RelM (RelA1 R) (matVecMul k m x y) (matVecMul k' m' x' y') := by
  have h1 := hm.nr
  have h2 := hm.nc
  have h3 := hx.len
  have h4 := hy.len
  unfold matVecMul
  refine relM_ite (by omega) (fun h => ⟨h4, fun i hi => ?_⟩) (fun _ => rfl)
  exact ScalarRel.mul (rel_dotTo h2 (fun j hj => hm.get i (by simp only at hi; omega) j hj)
    fun j hj => hx.get j (by omega)) hk

@[rel_rule] theorem rel_rankOneUpdate {k : α} {k' : β} (hk : R k k') {x y : Arr1 α} {x' y' : Arr1 β} (hx : RelA1 R x x')
    (hy : RelA1 R y y') {m : Arr2 α} {m' : Arr2 β} (hm : RelA2 R m m') :
    RelM (RelA2 R) (rankOneUpdate k x y m) (rankOneUpdate k' x' y' m') := by
  have h1 := hm.nr
  have h2 := hm.nc
  have h3 := hx.len
  have h4 := hy.len
  unfold rankOneUpdate
  refine relM_ite (by omega) (fun h => ⟨h1, h2, fun i hi j hj => ?_⟩) (fun _ => rfl)
  simp only at hi hj
  exact ScalarRel.add (hm.get i hi j hj) (ScalarRel.mul hk (ScalarRel.mul (hx.get i (by omega)) (hy.get j (by omega))))

@[rel_rule] theorem relO_isSome {A B : Type} {S : A → B → Prop} {o : Option A} {o' : Option B} (h : RelO S o o') :
    o.isSome = o'.isSome := by
  cases o <;> cases o'
  · rfl
  · exact h.elim
  · exact h.elim
  · rfl

@[rel_rule] theorem rel_tridiagStep {i i' : Nat} (hi : i = i') {a : Arr2 α} {a' : Arr2 β} (ha : RelA2 R a a')
    {off p : Arr1 α} {off' p' : Arr1 β} (ho : RelA1 R off off') (hp : RelA1 R p p') :
    RelM (RelP (RelA2 R) (RelP (RelA1 R) (RelA1 R))) (tridiagStep i a off p) (tridiagStep i' a' off' p') := by
  have h1 := ha.nr
  have h2 := ha.nc
  have h3 := hp.len
  unfold tridiagStep
  rel

@[rel_rule] theorem rel_symTridiagonal {a : Arr2 α} {b : Arr2 β} (h : RelA2 R a b) :
    RelM (RelTridiagonalDecomp R) (symTridiagonal a) (symTridiagonal b) := by
  unfold symTridiagonal
  rel

@[rel_rule] theorem rel_triGenerateQ {p : TridiagonalDecomp α} {q : TridiagonalDecomp β} (h : RelTridiagonalDecomp R p q) :
    RelM (RelA2 R) p.generateQ q.generateQ := by
  unfold TridiagonalDecomp.generateQ
  rel

@[rel_rule] theorem rel_triIntoDiagonals {p : TridiagonalDecomp α} {q : TridiagonalDecomp β}
    (h : RelTridiagonalDecomp R p q) : RelP (RelA1 R) (RelA1 R) p.intoDiagonals q.intoDiagonals := by
  unfold TridiagonalDecomp.intoDiagonals
  rel

@[rel_rule] theorem rel_intoTridiagMatrix {p : TridiagonalDecomp α} {q : TridiagonalDecomp β}
    (h : RelTridiagonalDecomp R p q) : RelM (RelA2 R) p.intoTridiagMatrix q.intoTridiagMatrix := by
  unfold TridiagonalDecomp.intoTridiagMatrix
  have h1 := h.offDiagonal.len
  rel
  · exact h.offDiagonal.get _ ‹_›
  · exact h.offDiagonal.get _ ‹_›

@[rel_rule] theorem rel_amax {a : Arr2 α} {b : Arr2 β} (h : RelA2 R a b) : R a.amax b.amax := by
  unfold Arr2.amax
  exact forall₂_foldl (forall₂_map (rel_toList2 h) fun _ _ h => ScalarRel.abs h) ScalarRel.negInf
    fun _ _ h _ _ h' => ScalarRel.max h h'

@[rel_rule] theorem rel_scaleDown {a : Arr2 α} {b : Arr2 β} (h : RelA2 R a b) {k : α} {l : β} (hk : R k l) :
    RelA2 R (a.scaleDown k) (b.scaleDown l) := by
  unfold Arr2.scaleDown
  rel

@[rel_rule] theorem rel_delimitEnd {d o : Arr1 α} {d' o' : Arr1 β} (hd : RelA1 R d d') (ho : RelA1 R o o') {e : α} {e' : β}
    (he : R e e') {n n' : Nat} (hn : n = n') : RelM Eq (delimitEnd d o e n) (delimitEnd d' o' e' n') := by
  subst hn
  induction n with
  | zero => rfl
  | succ m ih => unfold delimitEnd; rel

@[rel_rule] theorem rel_delimitStart {d o : Arr1 α} {d' o' : Arr1 β} (hd : RelA1 R d d') {e : α} {e' : β}
    (he : R e e') (ho : RelA1 R o o') {n n' : Nat} (hn : n = n') :
    RelM (RelP (RelA1 R) Eq) (delimitStart d e o n) (delimitStart d' e' o' n') := by
  subst hn
  induction n with
  | zero => exact ⟨ho, rfl⟩
  | succ m ih => unfold delimitStart; rel

@[rel_rule] theorem rel_delimitSubproblem {d o : Arr1 α} {d' o' : Arr1 β} (hd : RelA1 R d d') (ho : RelA1 R o o')
    {n n' : Nat} (hn : n = n') {e : α} {e' : β} (he : R e e') :
    RelM (RelP (RelA1 R) (RelP Eq Eq)) (delimitSubproblem d o n e) (delimitSubproblem d' o' n' e') := by
  subst hn
  unfold delimitSubproblem
  rel

@[rel_rule] theorem rel_wilkinsonShift {a b c : α} {a' b' c' : β} (ha : R a a') (hb : R b b') (hc : R c c') :
    R (wilkinsonShift a b c) (wilkinsonShift a' b' c') := by
  unfold wilkinsonShift
  rel

@[rel_rule] theorem rel_compute2x2Eigvals {a b c d : α} {a' b' c' d' : β} (ha : R a a') (hb : R b b') (hc : R c c')
    (hd : R d d') : RelO (RelP R R) (compute2x2Eigvals a b c d) (compute2x2Eigvals a' b' c' d') := by
  unfold compute2x2Eigvals
  rel

/-- Related states of the eigenvalue iteration. -/
structure RelEigState (R : α → β → Prop) (st : EigState α) (st' : EigState β) : Prop where
  diag : RelA1 R st.diag st'.diag
  off : RelA1 R st.off st'.off
  q : RelO (RelA2 R) st.q st'.q
  start : st.start = st'.start
  «end» : st.end = st'.end

theorem facts_RelEigState {T : EigState α → EigState β → Prop}
    (h : ∀ a b, RelEigState R a b → a.start = b.start → a.end = b.end → T a b) : ∀ a b, RelEigState R a b → T a b :=
  fun a b hab => h a b hab hab.start hab.end

@[rel_rule] theorem relEigState_mk {d o : Arr1 α} {d' o' : Arr1 β} {q : Option (Arr2 α)} {q' : Option (Arr2 β)}
    {s s' e e' : Nat} (hd : RelA1 R d d') (ho : RelA1 R o o') (hq : RelO (RelA2 R) q q') (hs : s = s') (he : e = e') :
    RelEigState R ⟨d, o, q, s, e⟩ ⟨d', o', q', s', e'⟩ := ⟨hd, ho, hq, hs, he⟩
attribute [rel_rule] RelEigState.diag RelEigState.off RelEigState.q RelEigState.start RelEigState.end

/-- Related states of the sweep. -/
structure RelSweepState (R : α → β → Prop) (st : SweepState α) (st' : SweepState β) : Prop where
  diag : RelA1 R st.diag st'.diag
  off : RelA1 R st.off st'.off
  q : RelO (RelA2 R) st.q st'.q
  x : R st.x st'.x
  y : R st.y st'.y

@[rel_rule] theorem relSweepState_mk {d o : Arr1 α} {d' o' : Arr1 β} {q : Option (Arr2 α)} {q' : Option (Arr2 β)}
    {x y : α} {x' y' : β} (hd : RelA1 R d d') (ho : RelA1 R o o') (hq : RelO (RelA2 R) q q') (hx : R x x') (hy : R y y') :
    RelSweepState R ⟨d, o, q, x, y⟩ ⟨d', o', q', x', y'⟩ := ⟨hd, ho, hq, hx, hy⟩
attribute [rel_rule] RelSweepState.diag RelSweepState.off RelSweepState.q RelSweepState.x RelSweepState.y

@[rel_rule] theorem rel_rotateColsPair {g : GivensRotation α} {g' : GivensRotation β} (hg : RelGivensRotation R g g')
    {c c' : Nat} (hc : c = c') {q : Option (Arr2 α)} {q' : Option (Arr2 β)} (hq : RelO (RelA2 R) q q') :
    RelM (RelO (RelA2 R)) (rotateColsPair g c q) (rotateColsPair g' c' q') := by
  subst hc
  rcases q with _ | a <;> rcases q' with _ | b
  · trivial
  · exact hq.elim
  · exact hq.elim
  · have h : RelA2 R a b := hq
    have h1 := h.nr
    unfold rotateColsPair
    rel

@[rel_rule] theorem rel_sweepStep {s s' n n' i i' : Nat} (hs : s = s') (hn : n = n') (hi : i = i') {p : SweepState α}
    {q : SweepState β} (h : RelSweepState R p q) :
    RelM (RelStep (RelSweepState R)) (sweepStep s n i p) (sweepStep s' n' i' q) := by
  unfold sweepStep
  rel

@[rel_rule] theorem rel_eigSweep {e : α} {e' : β} (he : R e e') {p : EigState α} {q : EigState β} (h : RelEigState R p q) :
    RelM (RelEigState R) (eigSweep e p) (eigSweep e' q) := by
  have h1 := h.start
  have h2 := h.end
  unfold eigSweep
  rel

@[rel_rule] theorem rel_eig2x2 {e : α} {e' : β} (he : R e e') {p : EigState α} {q : EigState β} (h : RelEigState R p q) :
    RelM (RelEigState R) (eig2x2 e p) (eig2x2 e' q) := by
  have h1 := h.start
  have h2 := h.end
  unfold eig2x2
  rel

@[rel_rule] theorem rel_eigStep {e : α} {e' : β} (he : R e e') {p : EigState α} {q : EigState β} (h : RelEigState R p q) :
    RelM (RelEigState R) (eigStep e p) (eigStep e' q) := by
  have h1 := h.start
  have h2 := h.end
  unfold eigStep
  rel

@[rel_rule] theorem rel_eigLoop {e : α} {e' : β} (he : R e e') {n n' : Nat} (hn : n = n') {p : EigState α} {q : EigState β}
    (h : RelEigState R p q) : RelM (RelEigState R) (eigLoop e n p) (eigLoop e' n' q) := by
  subst hn
  have h1 := h.start
  have h2 := h.end
  induction n generalizing p q with
  | zero => unfold eigLoop; rel
  | succ m ih => unfold eigLoop; rel

@[rel_rule] theorem rel_symmetricEig {n n' : Nat} (hn : n = n') {a : Arr2 α} {b : Arr2 β} (h : RelA2 R a b) {v v' : Bool}
    (hv : v = v') {e : α} {e' : β} (he : R e e') :
    RelM (RelP (RelA1 R) (RelO (RelA2 R))) (symmetricEig n a v e) (symmetricEig n' b v' e') := by
  subst hv
  unfold symmetricEig
  rel

@[rel_rule] theorem rel_eighInto {n n' : Nat} (hn : n = n') {a : Arr2 α} {b : Arr2 β} (h : RelA2 R a b) :
    RelM (RelP (RelA1 R) (RelA2 R)) (eighInto n a) (eighInto n' b) := by
  unfold eighInto
  rel

@[rel_rule] theorem rel_eigh {n n' : Nat} (hn : n = n') {a : Arr2 α} {b : Arr2 β} (h : RelA2 R a b) :
    RelM (RelP (RelA1 R) (RelA2 R)) (eigh n a) (eigh n' b) := rel_eighInto hn h

@[rel_rule] theorem rel_eigvalshInto {n n' : Nat} (hn : n = n') {a : Arr2 α} {b : Arr2 β} (h : RelA2 R a b) :
    RelM (RelA1 R) (eigvalshInto n a) (eigvalshInto n' b) := by
  unfold eigvalshInto
  rel

@[rel_rule] theorem rel_eigvalsh {n n' : Nat} (hn : n = n') {a : Arr2 α} {b : Arr2 β} (h : RelA2 R a b) :
    RelM (RelA1 R) (eigvalsh n a) (eigvalsh n' b) := rel_eigvalshInto hn h

end LinfaLinalg.Par
