import Verif.Proofs.MemoryFns
import Verif.Props.Closed

/-! # The entry points on memory do what the entry points on arrays do -/

set_option linter.unusedSectionVars false

namespace LinfaLinalg
open Par

variable {α : Type} [Zero α] [One α] [Add α] [Sub α] [Mul α] [Div α] [Neg α] [NdFloat α]

theorem Holds.rel {v : View2} {m : Mem α} {a : Arr2 α} (h : Holds v m a) : RelA2 (EqIn Any) (v.load m) a :=
  SameArr.rel ⟨h.nr.symm, h.nc.symm, fun i j hi hj => (h.get i j hi hj).symm⟩

theorem relA1_refl (a : Arr1 α) : RelA1 (EqIn Any) a a := ⟨rfl, fun _ _ => ⟨rfl, trivial⟩⟩

theorem eqIn_refl (x : α) : EqIn Any x x := ⟨rfl, trivial⟩

theorem relM_okLeft {A B C : Type} {R : C → B → Prop} {S : A → B → Prop} {p : M A} {q : M B} (g : A → C)
    (h : RelM S p q) (hRS : ∀ x y, S x y → R (g x) y) : RelM R (p >>= fun x => .ok (g x)) q := by
  cases p <;> cases q
  · exact h
  · exact h.elim
  · exact h.elim
  · exact hRS _ _ h

theorem relM_unwrapM {A B : Type} {R : A → B → Prop} {p : M A} {q : M B} (h : RelM R p q) :
    RelM R (unwrapM p) (unwrapM q) := by
  cases p with
  | error e =>
    cases q with
    | ok _ => exact h.elim
    | error e' =>
      have h : e = e' := h
      subst h
      cases e <;> rfl
  | ok x =>
    cases q with
    | ok _ => exact h
    | error _ => exact h.elim

theorem relM_qrIntoR {v : View2} (hv : v.Inj) {m : Mem α} {q : QRDecomp α} (hq : Holds v m q.qr) :
    RelM (fun p r => Holds p.2 p.1 r ∧ Frame v.In m p.1 ∧ ∀ x, p.2.In x → v.In x) (qrIntoRMem v q.diag m) q.intoR := by
  unfold qrIntoRMem QRDecomp.intoR
  simp only
  rw [hq.nc]
  refine relM_bind (relM_slice hq 0 v.nc 0 v.nc) ?_
  rintro r R ⟨⟨-, r2, -, r4⟩, rfl, rfl⟩
  have hI := hv.sub (r0 := 0) (c0 := 0) r2 r4
  refine relM_bind (relM_unwrapM (relM_triangularInplace hI (hq.sub (r0 := 0) (c0 := 0) r2 r4) .upper)) ?_
  intro m1 R1 h1
  unfold Arr2.assignDiag
  rw [h1.1.nr, h1.1.nc]
  show RelM _ (if min (v.sub 0 v.nc 0 v.nc).nr (v.sub 0 v.nc 0 v.nc).nc = q.diag.len then _ else _) (if _ = q.diag.len then _ else _)
  by_cases hl : min (v.sub 0 v.nc 0 v.nc).nr (v.sub 0 v.nc 0 v.nc).nc = q.diag.len
  · rw [if_pos hl, if_pos hl]
    have hlt : ∀ i, i < q.diag.len → i < (v.sub 0 v.nc 0 v.nc).nr ∧ i < (v.sub 0 v.nc 0 v.nc).nc := fun i hi => by omega
    obtain ⟨u1, u2⟩ := updateAll_spec m1 (List.range q.diag.len) (fun i => (v.sub 0 v.nc 0 v.nc).addr i i)
      (fun i _ => NdFloat.abs (q.diag.get i)) List.nodup_range
      (fun i hi j hj e => by
        have hi := hlt i (List.mem_range.1 hi)
        have hj := hlt j (List.mem_range.1 hj)
        exact (hI _ _ _ _ hi.1 hi.2 hj.1 hj.2 e).1)
      (fun _ _ _ _ _ => rfl)
    refine ⟨⟨rfl, rfl, fun i j hi hj => ?_⟩, fun x hx => ?_, fun x => View2.sub_in r2 r4 x⟩
    · show (if i = j ∧ i < q.diag.len then NdFloat.abs (q.diag.get i) else R1.get i j) = _
      by_cases hij : i = j ∧ i < q.diag.len
      · rw [if_pos hij]
        obtain ⟨rfl, hi'⟩ := hij
        exact (u1 i (List.mem_range.2 hi')).symm
      · rw [if_neg hij, h1.1.get i j hi hj]
        refine (u2 _ fun k hk e => ?_).symm
        have hk := hlt k (List.mem_range.1 hk)
        have := hI _ _ _ _ hk.1 hk.2 hi hj e
        exact hij ⟨by omega, by omega⟩
    · have hx' : ¬ (v.sub 0 v.nc 0 v.nc).In x := fun h => hx (View2.sub_in r2 r4 x h)
      exact (u2 x fun k hk e => hx' ⟨k, k, (hlt k (List.mem_range.1 hk)).1, (hlt k (List.mem_range.1 hk)).2, e⟩).trans
        (h1.2 x hx')
  · rw [if_neg hl, if_neg hl]
    rfl

theorem relM_qtMul (tr : Traversal) {v b : View2} (hb : b.Inj) (hd : Apart v.In b.In) {m : Mem α} {q : QRDecomp α}
    {B : Arr2 α} (hq : Holds v m q.qr) (hB : Holds b m B) :
    RelM (Writes b m) (qtMulMem tr v q.diag b m) (q.qtMul B) := by
  unfold qtMulMem QRDecomp.qtMul
  rw [hq.nc, hq.nr]
  refine relM_forRange ⟨hB, Frame.refl _ _⟩ fun i _ _ m1 C hst => ?_
  have hq1 : Holds v m1 q.qr := hq.frame hst.2 hd
  rw [show C.nr = b.nr from hst.1.nr, show C.nc = b.nc from hst.1.nc]
  refine relM_bind (relM_colSlice hq1 i v.nr i) ?_
  rintro x X ⟨⟨q1, q2, q3⟩, rfl, rfl⟩
  refine relM_bind (relM_slice hst.1 i b.nr 0 b.nc) ?_
  rintro r R ⟨⟨r1, r2, r3, r4⟩, rfl, rfl⟩
  have hI := hb.sub (r0 := i) (c0 := 0) r2 r4
  have hap : Apart (v.col i v.nr i).In (b.sub i b.nr 0 b.nc).In :=
    hd.mono (fun x => View2.col_in q2 q3 x) (fun x => View2.sub_in r2 r4 x)
  refine relM_bind (relM_reflectCols tr hI hap (hq1.col (r0 := i) q2 q3) (hst.1.sub (r0 := i) (c0 := 0) r2 r4) 0) ?_
  intro m2 R2 h2
  refine relM_bind (relM_eqRefl _) ?_
  rintro d _ rfl
  have h3 := holds_mapInplace2 tr hI h2.1 (fun x => x * NdFloat.signum d)
  exact (hst.1.put hb r1 r2 r3 r4 (h3.trans h2.2)).trans hst.2

theorem relM_qrSolveInto (tr : Traversal) {v b : View2} (hb : b.Inj) (hd : Apart v.In b.In) {m : Mem α}
    {q : QRDecomp α} {B : Arr2 α} (hq : Holds v m q.qr) (hB : Holds b m B) :
    RelM (fun p x => Holds p.2 p.1 x ∧ Frame b.In m p.1 ∧ ∀ x, p.2.In x → b.In x) (qrSolveIntoMem tr v q.diag b m)
      (q.solveInto B) := by
  unfold qrSolveIntoMem QRDecomp.solveInto QRDecomp.isInvertible
  rw [hq.nr, hB.nr]
  split
  · rfl
  split
  · rfl
  refine relM_bind (relM_qtMul tr hb hd hq hB) ?_
  intro m1 B1 h1
  simp only
  rw [show B1.nc = b.nc from h1.1.nc, hq.nc]
  have hq1 : Holds v m1 q.qr := hq.frame h1.2 hd
  refine relM_bind (relM_slice h1.1 0 v.nc 0 b.nc) ?_
  rintro x X ⟨⟨-, q2, -, q4⟩, rfl, rfl⟩
  refine relM_bind (relM_slice hq1 0 v.nc 0 v.nc) ?_
  rintro r R ⟨⟨-, r2, -, r4⟩, rfl, rfl⟩
  have hap : Apart (v.sub 0 v.nc 0 v.nc).In (b.sub 0 v.nc 0 b.nc).In :=
    hd.mono (fun x => View2.sub_in r2 r4 x) (fun x => View2.sub_in q2 q4 x)
  have h := relM_solveTriangularSystem tr (hb.sub (r0 := 0) (c0 := 0) q2 q4) hap (hq1.sub (r0 := 0) (c0 := 0) r2 r4)
    (h1.1.sub (r0 := 0) (c0 := 0) q2 q4) .upper (fun i _ => do .ok (NdFloat.abs (← q.diag.at i))) q.absDiag
    (fun i m' _ => relM_eqRefl _)
  exact relM_okLeft (fun m2 => (m2, b.sub 0 v.nc 0 b.nc)) h fun m2 x h => ⟨h.1,
    h1.2.trans (h.2.mono fun x => View2.sub_in q2 q4 x), fun x => View2.sub_in q2 q4 x⟩

theorem relM_qrSolveTrInto (tr : Traversal) {v b : View2} (hb : b.Inj) (hd : Apart v.In b.In) {m : Mem α}
    {q : QRDecomp α} {B : Arr2 α} (hq : Holds v m q.qr) (hB : Holds b m B) :
    RelM (fun p x => SameArr p.2 x ∧ Frame b.In m p.1) (qrSolveTrIntoMem tr v q.diag b m) (q.solveTrInto B) := by
  unfold qrSolveTrIntoMem QRDecomp.solveTrInto QRDecomp.isInvertible
  rw [hq.nc, hB.nr]
  split
  · rfl
  split
  · rfl
  simp only
  refine relM_bind (relM_slice hq 0 v.nc 0 v.nc) ?_
  rintro r R ⟨⟨-, r2, -, r4⟩, rfl, rfl⟩
  have hap : Apart (v.sub 0 v.nc 0 v.nc).t.In b.In :=
    hd.mono (fun x h => View2.sub_in r2 r4 x (((v.sub 0 v.nc 0 v.nc).t_in x).1 h)) (fun x h => h)
  refine relM_bind (relM_solveTriangularSystem tr hb hap (hq.sub (r0 := 0) (c0 := 0) r2 r4).t hB .lower
    (fun i _ => do .ok (NdFloat.abs (← q.diag.at i))) q.absDiag (fun i m' _ => relM_eqRefl _)) ?_
  intro m1 B1 h1
  have hq1 : Holds v m1 q.qr := hq.frame h1.2 hd
  refine relM_bind (R := RelA2 (EqIn Any)) (rel_assembleQ hq1.rel rfl fun i => ?_) ?_
  · cases q.diag.idx i
    · rfl
    · exact eqIn_refl _
  intro Q Q' hQ
  have h := rel_dot2 hQ h1.1.rel
  exact relM_okLeft (fun x => (m1, x)) h fun x y h => ⟨same_of_relA2 h, h1.2⟩

theorem relM_leastSquaresInto (tr : Traversal) {a b : View2} (ha : a.Inj) (hb : b.Inj) (hd : Apart a.In b.In)
    {m : Mem α} {A B : Arr2 α} (hA : Holds a m A) (hB : Holds b m B) :
    RelM (fun p x => SameArr p.2 x ∧ Frame (fun x => a.In x ∨ b.In x) m p.1) (leastSquaresIntoMem tr a b m)
      (leastSquares A B) := by
  unfold leastSquaresIntoMem leastSquares
  rw [hA.nr, hA.nc]
  split
  · refine relM_bind (relM_qrInto tr ha hA) ?_
    rintro ⟨m1, d⟩ q ⟨hw, hd'⟩
    simp only at hw hd' ⊢
    subst hd'
    have h := relM_qrSolveInto tr hb hd hw.1 (hB.frame hw.2 hd.symm)
    exact relM_okLeft (fun p : Mem α × View2 => (p.1, p.2.load p.1)) h fun x y h => (show _ ∧ _ from ⟨same_of_relA2 h.1.rel,
      (hw.2.mono fun _ h => Or.inl h).trans (h.2.1.mono fun _ h => Or.inr h)⟩)
  · refine relM_bind (relM_qrInto tr ha.t hA.t) ?_
    rintro ⟨m1, d⟩ q ⟨hw, hd'⟩
    simp only at hw hd' ⊢
    subst hd'
    have hdt : Apart a.t.In b.In := hd.mono (fun x => (a.t_in x).1) fun x h => h
    have h := relM_qrSolveTrInto tr hb hdt hw.1 (hB.frame hw.2 hdt.symm)
    exact relM_mono h fun x y h => ⟨h.1, (hw.2.mono fun x h => Or.inl ((a.t_in x).1 h)).trans
      (h.2.mono fun _ h => Or.inr h)⟩

theorem holds_scaleDown (tr : Traversal) {v : View2} (hv : v.Inj) {m : Mem α} {a : Arr2 α} (ha : Holds v m a) (k : α) :
    Writes v m (v.scaleDown tr k m) (a.scaleDown k) := by
  unfold View2.scaleDown Arr2.scaleDown
  split
  · exact ⟨ha, Frame.refl _ _⟩
  · exact holds_mapInplace2 tr hv ha _

theorem relM_symmetricEig (tr : Traversal) (fuel : Nat) {v : View2} (hv : v.Inj) {m : Mem α} {a : Arr2 α}
    (ha : Holds v m a) (vec : Bool) (eps : α) :
    RelM (fun p q => RelP (RelA1 (EqIn Any)) (RelO (RelA2 (EqIn Any))) p.2 q ∧ Frame v.In m p.1)
      (symmetricEigMem tr fuel v vec eps m) (symmetricEig fuel a vec eps) := by
  unfold symmetricEigMem symmetricEig
  refine relM_bind (relM_checkSquare ha) ?_
  rintro n _ rfl
  split
  · refine ⟨⟨relA1_refl _, ?_⟩, Frame.refl _ _⟩
    cases vec
    · exact trivial
    · exact ⟨rfl, rfl, fun i hi => absurd hi (Nat.not_lt_zero _)⟩
  have hmax : (v.load m).amax = a.amax := (rel_amax ha.rel).1
  simp only
  rw [hmax]
  have hs := holds_scaleDown tr hv ha a.amax
  refine relM_bind (relM_symTridiagonal tr hv hs.1) ?_
  rintro ⟨m1, off⟩ t ⟨hw, ho⟩
  simp only at hw ho ⊢
  subst ho
  have hf : Frame v.In m m1 := hs.2.trans hw.2
  have ht : RelTridiagonalDecomp (EqIn Any) ⟨v.load m1, t.offDiagonal⟩ t := ⟨hw.1.rel, relA1_refl _⟩
  refine relM_bind (R := RelO (RelA2 (EqIn Any))) ?_ ?_
  · cases vec
    · exact trivial
    · exact relM_bind (rel_triGenerateQ ht) fun _ _ h => h
  intro Q Q' hQ
  have hdg := rel_triIntoDiagonals ht
  split
  · exact ⟨⟨⟨hdg.1.len, fun i hi => ⟨by
      show _ * _ = _ * _
      rw [(hdg.1.get i hi).1], trivial⟩⟩, hQ⟩, hf⟩
  refine relM_bind (rel_delimitSubproblem hdg.1 hdg.2 rfl (eqIn_refl eps)) ?_
  rintro ⟨o, s, e⟩ ⟨o', s', e'⟩ ⟨h1, h2, h3⟩
  refine relM_bind (rel_eigLoop (eqIn_refl eps) rfl (q := ⟨t.intoDiagonals.1, o', Q', s', e'⟩) ⟨hdg.1, h1, hQ, h2, h3⟩) ?_
  intro st st' h
  exact ⟨⟨⟨h.diag.len, fun i hi => ⟨by
      show _ * _ = _ * _
      rw [(h.diag.get i hi).1], trivial⟩⟩, h.q⟩, hf⟩

theorem relM_svdGo (tr : Traversal) (fuel : Nat) {v : View2} (hv : v.Inj) {m : Mem α} {a : Arr2 α}
    (ha : Holds v m a) (cu cv : Bool) (eps : α) :
    RelM (fun p q => RelP (RelO (RelA2 (EqIn Any))) (RelP (RelA1 (EqIn Any)) (RelO (RelA2 (EqIn Any)))) p.2 q ∧
        Frame v.In m p.1)
      (svdGoMem tr fuel v cu cv eps m) (svdGo fuel a cu cv eps) := by
  unfold svdGoMem svdGo
  rw [ha.nr, ha.nc]
  split
  · rfl
  have hmax : (v.load m).amax = a.amax := (rel_amax ha.rel).1
  simp only
  rw [hmax]
  have hs := holds_scaleDown tr hv ha a.amax
  refine relM_bind (relM_bidiagonal tr hv hs.1) ?_
  rintro ⟨m1, off, dg, up⟩ t ⟨hw, ho⟩
  simp only [Prod.mk.injEq] at hw ho ⊢
  obtain ⟨rfl, rfl, rfl⟩ := ho
  have hf : Frame v.In m m1 := hs.2.trans hw.2
  have ht : RelBidiagonalDecomp (EqIn Any) ⟨v.load m1, t.offDiagonal, t.diagonal, t.upperDiag⟩ t :=
    ⟨hw.1.rel, relA1_refl _, relA1_refl _, rfl⟩
  refine relM_bind (R := RelO (RelA2 (EqIn Any))) ?_ ?_
  · cases cu
    · exact trivial
    · exact relM_bind (rel_generateU ht) fun _ _ h => h
  intro U U' hU
  refine relM_bind (R := RelO (RelA2 (EqIn Any))) ?_ ?_
  · cases cv
    · exact trivial
    · exact relM_bind (rel_generateVt ht) fun _ _ h => h
  intro V V' hV
  have hdg : RelP (RelA1 (EqIn Any)) (RelA1 (EqIn Any))
      (BidiagonalDecomp.intoDiagonals ⟨v.load m1, t.offDiagonal, t.diagonal, t.upperDiag⟩) t.intoDiagonals := rel_bidIntoDiagonals ht
  refine relM_bind (rel_svdDelimit rfl rfl (eqIn_refl eps) (q := ⟨t.intoDiagonals.1, t.intoDiagonals.2, U', V'⟩)
    ⟨hdg.1, hdg.2, hU, hV⟩) ?_
  rintro ⟨o, s, e⟩ ⟨o', s', e'⟩ ⟨h1, h2, h3⟩
  refine relM_bind (rel_svdLoop rfl rfl rfl (eqIn_refl eps) rfl (q := ⟨o', s', e'⟩) ⟨h1, h2, h3⟩) ?_
  intro st st' h
  have hdm : RelA1 (EqIn Any) (st.s.diag.map fun x => x * a.amax) (st'.s.diag.map fun x => x * a.amax) :=
    ⟨h.s.diag.len, fun i hi => ⟨by
      show _ * _ = _ * _
      rw [(h.s.diag.get i hi).1], trivial⟩⟩
  refine relM_bind (rel_fixSigns rfl hdm h.s.u) ?_
  rintro ⟨d, u⟩ ⟨d', u'⟩ ⟨h4, h5⟩
  exact ⟨⟨h5, h4, h.s.vt⟩, hf⟩

end LinfaLinalg
