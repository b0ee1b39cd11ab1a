import Verif.Proofs.MemoryEntry
import Verif.Props.Cholesky
import Verif.Props.CholeskySide

/-! # C118: the functions that work in place, on views of memory with arbitrary strides

Every theorem has the form: if the memory holds the array `a` in the view `v`, then the function on memory goes like the
function on arrays of the other modules, the view holds the resulting array afterwards, and no other address was
written. The order in which elementwise operations visit the entries is arbitrary. -/

set_option linter.unusedSectionVars false

namespace LinfaLinalg

variable {α : Type} [Zero α] [One α] [Add α] [Sub α] [Mul α] [Div α] [Neg α] [NdFloat α]

theorem Follows.of {A B : Type} {R : A → B → Prop} {p : M A} {q : M B} (h : RelM R p q) : Follows R p q := by
  cases p <;> cases q
  · have h : _ = _ := h
    subst h
    exact ⟨fun x hx => (by cases hx), fun e he => by cases he; rfl⟩
  · exact h.elim
  · exact h.elim
  · exact ⟨fun x hx => ⟨_, rfl, by cases hx; exact h⟩, fun e he => (by cases he)⟩

/-- **C118, `triangular_inplace`**. -/
theorem C118_triangular (v : View2) (hv : v.Inj) (mem : Mem α) (a : Arr2 α) (h : Holds v mem a) (uplo : UPLO) :
    Follows (Writes v mem) (triangularInplaceMem v uplo mem) (triangularInplace a uplo) :=
  .of (relM_triangularInplace hv h uplo)

/-- **C118, `cholesky_inplace_dirty` and `cholesky_inplace`**: also what is left in the view when an error is returned. -/
theorem C118_cholesky (v : View2) (hv : v.Inj) (mem : Mem α) (a : Arr2 α) (h : Holds v mem a) :
    Follows (fun p q => Writes v mem p.1 q.1 ∧ p.2 = q.2) (choleskyInplaceDirtyMem v mem) (choleskyInplaceDirty a) ∧
    Follows (fun p q => Writes v mem p.1 q.1 ∧ p.2 = q.2) (choleskyInplaceMem v mem) (choleskyInplace a) :=
  ⟨.of (relM_choleskyInplaceDirty hv h), .of (relM_choleskyInplace hv h)⟩

/-- **C118, `cholesky_inplace` in exact arithmetic**: the memory, which held a symmetric positive definite matrix in the
view, afterwards holds its Cholesky factor there, and is unchanged elsewhere. -/
theorem C118_cholesky_factor {n : Nat} (v : View2) (hv : v.Inj) (hr : v.nr = n) (hc : v.nc = n) (mem : Mem ℝ)
    (hpd : SymPosDef (toMat n n (v.load mem))) :
    ∃ mem', choleskyInplaceMem v mem = .ok (mem', none) ∧ LowerPos (toMat n n (v.load mem')) ∧
      toMat n n (v.load mem') * (toMat n n (v.load mem')).transpose = toMat n n (v.load mem) ∧ Frame v.In mem mem' := by
  have hs : HasShape (v.load mem) n n := ⟨hr, hc⟩
  obtain ⟨l, hl⟩ := (C09_cholesky_iff_posDef _ hs hpd.1).1.2 hpd
  obtain ⟨-, f1, f2⟩ := C08_cholesky_factor _ l hs hpd.1 hl
  have hrel := relM_choleskyInplace hv (m := mem) (a := v.load mem) ⟨rfl, rfl, fun _ _ _ _ => rfl⟩
  have hin : choleskyInplace (v.load mem) = .ok (l, none) := by
    unfold cholesky at hl
    cases hx : choleskyInplace (v.load mem) with
    | error e => rw [hx] at hl; cases hl
    | ok p =>
      obtain ⟨b, e⟩ := p
      rw [hx] at hl
      cases e with
      | some e => cases hl
      | none => cases hl; rfl
  rw [hin] at hrel
  cases hy : choleskyInplaceMem v mem with
  | error e => rw [hy] at hrel; exact hrel.elim
  | ok p =>
    obtain ⟨mem', e⟩ := p
    rw [hy] at hrel
    obtain ⟨⟨hw, hf⟩, he⟩ := hrel
    have he : e = none := he
    subst he
    have e1 : toMat n n (v.load mem') = toMat n n l := by
      ext i j
      exact (hw.get i j (by omega) (by omega)).symm
    exact ⟨mem', rfl, by rw [e1]; exact f1, by rw [e1]; exact f2, hf⟩

/-- **C118, `solve_triangular_inplace`**: the matrix, in a view apart from that of the right-hand sides, is only read. -/
theorem C118_solve_triangular (tr : Traversal) (a b : View2) (hb : b.Inj) (hd : Apart a.In b.In) (mem : Mem α)
    (A B : Arr2 α) (hA : Holds a mem A) (hB : Holds b mem B) (uplo : UPLO) :
    Follows (fun p q => Writes b mem p.1 q.1 ∧ p.2 = q.2) (solveTriangularInplaceMem tr a b uplo mem)
      (solveTriangularInplace A B uplo) :=
  .of (relM_solveTriangularInplace tr hb hd hA hB uplo)

/-- **C118, `solvec_inplace`**: both views end up with what the function on arrays leaves, nothing else changes. -/
theorem C118_solvec (tr : Traversal) (a b : View2) (ha : a.Inj) (hb : b.Inj) (hd : Apart a.In b.In) (mem : Mem α)
    (A B : Arr2 α) (hA : Holds a mem A) (hB : Holds b mem B) :
    Follows (fun p q => Holds a p.1 q.1 ∧ Holds b p.1 q.2.1 ∧ Frame (fun x => a.In x ∨ b.In x) mem p.1 ∧ p.2 = q.2.2)
      (solvecInplaceMem tr a b mem) (solvecInplace A B) :=
  .of (relM_solvecInplace tr ha hb hd hA hB)

/-- **C118, `solvec_inplace` in exact arithmetic**: the view of the right-hand sides ends up with the solution. -/
theorem C118_solvec_solution {n k : Nat} (tr : Traversal) (a b : View2) (ha : a.Inj) (hb : b.Inj)
    (hd : Apart a.In b.In) (hr : a.nr = n) (hc : a.nc = n) (hbr : b.nr = n) (hbc : b.nc = k) (mem : Mem ℝ)
    (hpd : SymPosDef (toMat n n (a.load mem))) :
    ∃ mem', solvecInplaceMem tr a b mem = .ok (mem', none) ∧
      toMat n n (a.load mem) * toMat n k (b.load mem') = toMat n k (b.load mem) ∧
      Frame (fun x => a.In x ∨ b.In x) mem mem' := by
  obtain ⟨x, hx, -, h1, -⟩ := C13_solvec (a.load mem) (b.load mem) ⟨hr, hc⟩ ⟨hbr, hbc⟩ hpd
  obtain ⟨a', b', e, he, -, -, e1, e2⟩ := C91_solvec_inplace (a.load mem) (b.load mem)
  have he0 : e = none := by
    cases e with
    | none => rfl
    | some err => rw [(e2 err rfl).1] at hx; cases hx
  subst he0
  rw [e1 rfl] at hx
  cases hx
  have hrel := relM_solvecInplace tr ha hb hd (m := mem) (A := a.load mem) (B := b.load mem)
    ⟨rfl, rfl, fun _ _ _ _ => rfl⟩ ⟨rfl, rfl, fun _ _ _ _ => rfl⟩
  rw [he] at hrel
  cases hy : solvecInplaceMem tr a b mem with
  | error e => rw [hy] at hrel; exact hrel.elim
  | ok p =>
    obtain ⟨mem', e⟩ := p
    rw [hy] at hrel
    obtain ⟨-, hB, hf, he⟩ := hrel
    have he : e = none := he
    subst he
    refine ⟨mem', rfl, ?_, hf⟩
    rw [← h1]
    congr 1
    ext i j
    exact (hB.get i j (by omega) (by omega)).symm

/-- **C118, `reflect_cols` and `reflect_rows`**, with an axis apart from the matrix. -/
theorem C118_reflect (tr : Traversal) (axis : View1) (v : View2) (hv : v.Inj) (hd : Apart axis.In v.In) (mem : Mem α)
    (w : Arr1 α) (a : Arr2 α) (hw : Holds1 axis mem w) (ha : Holds v mem a) (bias : α) :
    Follows (Writes v mem) (reflectColsMem tr axis bias v mem) (reflectCols w bias a) ∧
    Follows (Writes v mem) (reflectRowsMem tr axis bias v mem) (reflectRows w bias a) :=
  ⟨.of (relM_reflectCols tr hv hd hw ha bias), .of (relM_reflectRows tr hv hd hw ha bias)⟩

/-- **C118, `rotate_rows` and `rotate_cols`**. -/
theorem C118_givens (g : GivensRotation α) (v : View2) (hv : v.Inj) (mem : Mem α) (a : Arr2 α) (ha : Holds v mem a) :
    Follows (Writes v mem) (g.rotateRowsMem v mem) (g.rotateRows a) ∧
    Follows (Writes v mem) (g.rotateColsMem v mem) (g.rotateCols a) :=
  ⟨.of (relM_rotateRows g hv ha), .of (relM_rotateCols g hv ha)⟩

/-- **C118, `reflection_axis_mut`, `clear_column` and `clear_row`**: the axis and the rows to reflect are two views of
one matrix. -/
theorem C118_householder (tr : Traversal) (v : View2) (hv : v.Inj) (mem : Mem α) (a : Arr2 α) (ha : Holds v mem a)
    (w : View1) (hw : w.Inj) (x : Arr1 α) (hx : Holds1 w mem x) (i shift : Nat) :
    Follows (fun p q => (Holds1 w p.1 q.1 ∧ Frame w.In mem p.1) ∧ p.2 = q.2) (reflectionAxisMutMem tr w mem)
      (reflectionAxisMut x) ∧
    Follows (fun p q => Writes v mem p.1 q.1 ∧ p.2 = q.2) (clearColumnMem tr v i shift mem) (clearColumn a i shift) ∧
    Follows (fun p q => Writes v mem p.1 q.1 ∧ p.2 = q.2) (clearRowMem tr v i shift mem) (clearRow a i shift) :=
  ⟨.of (relM_reflectionAxisMut tr hw hx), .of (relM_clearColumn tr hv ha i shift),
    .of (relM_clearRow tr hv ha i shift)⟩

/-- **C118, `qr_into`, `bidiagonal` and `sym_tridiagonal`** on a matrix with arbitrary strides. -/
theorem C118_decompositions (tr : Traversal) (v : View2) (hv : v.Inj) (mem : Mem α) (a : Arr2 α) (ha : Holds v mem a) :
    Follows (fun p q => Writes v mem p.1 q.qr ∧ p.2 = q.diag) (qrIntoMem tr v mem) (qrInto a) ∧
    Follows (fun p q => Writes v mem p.1 q.uv ∧ p.2 = (q.offDiagonal, q.diagonal, q.upperDiag)) (bidiagonalMem tr v mem)
      (bidiagonal a) ∧
    Follows (fun p q => Writes v mem p.1 q.diagMatrix ∧ p.2 = q.offDiagonal) (symTridiagonalMem tr v mem)
      (symTridiagonal a) :=
  ⟨.of (relM_qrInto tr hv ha), .of (relM_bidiagonal tr hv ha), .of (relM_symTridiagonal tr hv ha)⟩

/-- **C118, the rest of `qr.rs`**: `into_r` and `solve_into` leave their result in a part of the view they were given,
`solve_tr_into` returns a new array; the decomposition itself is only read by the solvers. -/
theorem C118_qr (tr : Traversal) (v b : View2) (hv : v.Inj) (hb : b.Inj) (hd : Apart v.In b.In) (mem : Mem α)
    (q : QRDecomp α) (B : Arr2 α) (hq : Holds v mem q.qr) (hB : Holds b mem B) :
    Follows (fun p r => Holds p.2 p.1 r ∧ Frame v.In mem p.1 ∧ ∀ x, p.2.In x → v.In x) (qrIntoRMem v q.diag mem) q.intoR ∧
    Follows (fun p x => Holds p.2 p.1 x ∧ Frame b.In mem p.1 ∧ ∀ x, p.2.In x → b.In x) (qrSolveIntoMem tr v q.diag b mem)
      (q.solveInto B) ∧
    Follows (fun p x => SameArr p.2 x ∧ Frame b.In mem p.1) (qrSolveTrIntoMem tr v q.diag b mem) (q.solveTrInto B) :=
  ⟨.of (relM_qrIntoR hv hq), .of (relM_qrSolveInto tr hb hd hq hB), .of (relM_qrSolveTrInto tr hb hd hq hB)⟩

/-- **C118, `least_squares_into`**: tall and wide matrices, the latter through reversed axes. -/
theorem C118_least_squares (tr : Traversal) (a b : View2) (ha : a.Inj) (hb : b.Inj) (hd : Apart a.In b.In) (mem : Mem α)
    (A B : Arr2 α) (hA : Holds a mem A) (hB : Holds b mem B) :
    Follows (fun p x => SameArr p.2 x ∧ Frame (fun x => a.In x ∨ b.In x) mem p.1) (leastSquaresIntoMem tr a b mem)
      (leastSquares A B) :=
  .of (relM_leastSquaresInto tr ha hb hd hA hB)

/-- **C118, `eigh_into`, `eigvalsh_into` and `svd_into`**: the result is that for the entries of the view, and only the
view is overwritten. -/
theorem C118_spectral (tr : Traversal) (fuel : Nat) (v : View2) (hv : v.Inj) (mem : Mem α) (a : Arr2 α)
    (ha : Holds v mem a) (vec cu cv : Bool) (eps : α) :
    Follows (fun p q => SameArr1 p.2.1 q.1 ∧ SameOpt SameArr p.2.2 q.2 ∧ Frame v.In mem p.1)
      (symmetricEigMem tr fuel v vec eps mem) (symmetricEig fuel a vec eps) ∧
    Follows (fun p q => SameOpt SameArr p.2.1 q.1 ∧ SameArr1 p.2.2.1 q.2.1 ∧ SameOpt SameArr p.2.2.2 q.2.2 ∧
      Frame v.In mem p.1) (svdGoMem tr fuel v cu cv eps mem) (svdGo fuel a cu cv eps) :=
  ⟨.of (relM_mono (relM_symmetricEig tr fuel hv ha vec eps) fun _ _ h =>
      ⟨same_of_relA1 h.1.1, sameOpt_of_rel (fun _ _ => same_of_relA2) h.1.2, h.2⟩),
    .of (relM_mono (relM_svdGo tr fuel hv ha cu cv eps) fun _ _ h =>
      ⟨sameOpt_of_rel (fun _ _ => same_of_relA2) h.1.1, same_of_relA1 h.1.2.1,
        sameOpt_of_rel (fun _ _ => same_of_relA2) h.1.2.2, h.2⟩)⟩

/-- **C118, the layout does not matter**: on two memories holding the same matrix in views with whatever base, strides
and order of visiting, the decompositions fail alike or leave the same entries and return the same diagonals. -/
theorem C118_layout (tr tr' : Traversal) (v v' : View2) (hv : v.Inj) (hv' : v'.Inj) (mem mem' : Mem α) (a : Arr2 α)
    (ha : Holds v mem a) (ha' : Holds v' mem' a) :
    Follows (fun p q => (∃ b, Holds v p.1 b ∧ Holds v' q.1 b) ∧ p.2 = q.2) (choleskyInplaceMem v mem)
      (choleskyInplaceMem v' mem') ∧
    Follows (fun p q => (∃ b, Holds v p.1 b ∧ Holds v' q.1 b) ∧ p.2 = q.2) (qrIntoMem tr v mem) (qrIntoMem tr' v' mem') ∧
    Follows (fun p q => (∃ b, Holds v p.1 b ∧ Holds v' q.1 b) ∧ p.2 = q.2) (bidiagonalMem tr v mem)
      (bidiagonalMem tr' v' mem') ∧
    Follows (fun p q => (∃ b, Holds v p.1 b ∧ Holds v' q.1 b) ∧ p.2 = q.2) (symTridiagonalMem tr v mem)
      (symTridiagonalMem tr' v' mem') := by
  have key : ∀ {A B C : Type} {R : A → C → Prop} {S : B → C → Prop} {T : A → B → Prop} {p : M A} {q : M B} {r : M C},
      RelM R p r → RelM S q r → (∀ x y z, R x z → S y z → T x y) → RelM T p q := by
    intro A B C R S T p q r h1 h2 h
    cases p <;> cases q <;> cases r <;> first
      | exact h1.elim
      | exact h2.elim
      | exact h _ _ _ h1 h2
      | exact (show _ = _ from h1).trans (show _ = _ from h2).symm
  exact ⟨.of (key (relM_choleskyInplace hv ha) (relM_choleskyInplace hv' ha')
      fun x y z h1 h2 => ⟨⟨_, h1.1.1, h2.1.1⟩, h1.2.trans h2.2.symm⟩),
    .of (key (relM_qrInto tr hv ha) (relM_qrInto tr' hv' ha')
      fun x y z h1 h2 => ⟨⟨_, h1.1.1, h2.1.1⟩, h1.2.trans h2.2.symm⟩),
    .of (key (relM_bidiagonal tr hv ha) (relM_bidiagonal tr' hv' ha')
      fun x y z h1 h2 => ⟨⟨_, h1.1.1, h2.1.1⟩, h1.2.trans h2.2.symm⟩),
    .of (key (relM_symTridiagonal tr hv ha) (relM_symTridiagonal tr' hv' ha')
      fun x y z h1 h2 => ⟨⟨_, h1.1.1, h2.1.1⟩, h1.2.trans h2.2.symm⟩)⟩

/-- **C118, `sort_eig` of values**: it panics on every array of at least two entries that are not next to each other in
order, and otherwise sorts in place. -/
theorem C118_sort (v : View1) (order : Order) (mem : Mem α) (a : Arr1 α) (ha : Holds1 v mem a) :
    (2 ≤ v.len ∧ v.stride ≠ 1 → sortEigValsMem v order mem = .error .panic) ∧
    (¬ (2 ≤ v.len ∧ v.stride ≠ 1) →
      Follows (fun mem' b => Holds1 v mem' b ∧ Frame v.In mem mem') (sortEigValsMem v order mem) (sortEigVals a order)) := by
  constructor
  · rintro ⟨h1, h2⟩
    unfold sortEigValsMem View1.isStandard
    rw [decide_eq_false (by omega), decide_eq_false h2]
    rfl
  · intro h
    have hst : v.isStandard = true := by
      unfold View1.isStandard
      by_cases h1 : v.len ≤ 1
      · rw [decide_eq_true h1]; rfl
      · rw [decide_eq_true (p := v.stride = 1) (by by_contra h2; exact h ⟨by omega, h2⟩), Bool.or_true]
    have haddr : ∀ i, i < v.len → v.addr i = v.base + i := fun i hi => by
      unfold View1.addr
      by_cases h1 : v.stride = 1
      · rw [h1, mul_one]
      · have : i = 0 := by
          by_contra h2
          exact h ⟨by omega, h1⟩
        subst this
        simp
    have hl : (v.load mem).toList = a.toList := by
      unfold Arr1.toList
      rw [ha.len]
      refine List.map_congr_left fun k hk => ?_
      exact (ha.get k (List.mem_range.1 hk)).symm
    refine .of ?_
    unfold sortEigValsMem sortEigVals
    rw [if_pos hst, hl]
    refine relM_bind (relM_eqRefl _) ?_
    rintro l _ rfl
    refine ⟨⟨ha.len, fun i hi => ?_⟩, fun x hx => if_neg fun hb => hx ⟨(x - v.base).toNat, by omega, ?_⟩⟩
    · show l.getD i (a.get i) = if _ then _ else _
      rw [haddr i hi, if_pos (by omega), ha.get i hi, haddr i hi]
      congr 1
      omega
    · rw [haddr _ (by omega)]
      omega

/-! ## The hypotheses are met -/

/-- A 2×2 view with row stride 2 and column stride 6 of a larger memory, and one between its entries. -/
def exView : View2 := ⟨2, 2, 10, 2, 6⟩

/-- The right-hand sides, stored between the entries of `exView`. -/
def exBetween : View2 := ⟨2, 1, 11, 2, 1⟩

theorem exView_inj : exView.Inj := by
  intro i j i' j' hi hj hi' hj' h
  simp only [exView, View2.addr] at *
  omega

theorem exBetween_inj : exBetween.Inj := by
  intro i j i' j' hi hj hi' hj' h
  simp only [exBetween, View2.addr] at *
  omega

theorem exApart : Apart exView.In exBetween.In := by
  rintro x ⟨i, j, hi, hj, rfl⟩ ⟨i', j', hi', hj', h⟩
  simp only [exView, exBetween, View2.addr] at *
  omega

/-- A memory that holds `exSpd` in `exView` and 7 everywhere else. -/
noncomputable def exMem : Mem ℝ := fun x =>
  if x = 10 then exSpd.get 0 0 else if x = 12 then exSpd.get 1 0 else if x = 16 then exSpd.get 0 1
  else if x = 18 then exSpd.get 1 1 else 7

theorem exMem_toMat : toMat 2 2 (exView.load exMem) = toMat 2 2 exSpd := by
  ext i j
  fin_cases i <;> fin_cases j <;> simp [toMat, View2.load, exView, View2.addr, exMem]

/-- C118: Cholesky and the solver succeed on these views in every order of visiting; the memory at address 13, the last
right-hand side, is written by the solver, address 14 by neither. -/
example (tr : Traversal) : ∃ m m', choleskyInplaceMem exView exMem = .ok (m, none) ∧ m 13 = 7 ∧
    solvecInplaceMem tr exView exBetween exMem = .ok (m', none) ∧ m' 14 = 7 := by
  obtain ⟨m, h1, -, -, h2⟩ := C118_cholesky_factor (n := 2) exView exView_inj rfl rfl exMem
    (by rw [exMem_toMat]; exact exSpd_posDef)
  obtain ⟨m', h3, -, h4⟩ := C118_solvec_solution (n := 2) (k := 1) tr exView exBetween exView_inj exBetween_inj exApart
    rfl rfl rfl rfl exMem (by rw [exMem_toMat]; exact exSpd_posDef)
  refine ⟨m, m', h1, ?_, h3, ?_⟩
  · rw [h2 13 (by
      rintro ⟨i, j, hi, hj, h⟩
      simp only [exView, View2.addr] at *
      omega)]
    simp [exMem]
  · rw [h4 14 (by
      rintro (⟨i, j, hi, hj, h⟩ | ⟨i, j, hi, hj, h⟩) <;> simp only [exView, exBetween, View2.addr] at * <;> omega)]
    simp [exMem]

/-- There are orders of visiting. -/
example : Nonempty Traversal :=
  ⟨⟨fun v => (List.range v.len).reverse, fun v => (List.range v.nr).product (List.range v.nc),
    fun _ => List.reverse_perm _, fun _ => List.Perm.refl _⟩⟩

/-- C118: the panic of `sort_eig` does occur, on every reversed view of two values; on a contiguous one it does not. -/
example : sortEigValsMem ⟨2, 1, -1⟩ .largest (fun _ => (0 : ℝ)) = .error .panic :=
  (C118_sort _ _ _ (View1.load ⟨2, 1, -1⟩ _) ⟨rfl, fun _ _ => rfl⟩).1 ⟨le_refl 2, by decide⟩

end LinfaLinalg
