import Verif.Proofs.Memory
import Verif.Spec.Real

/-! # The functions on memory do what the functions on arrays do, function by function -/

set_option linter.unusedSectionVars false

namespace LinfaLinalg

variable {α : Type} [Zero α] [One α] [Add α] [Sub α] [Mul α] [Div α] [Neg α] [NdFloat α]

/-- The relation kept by a loop that works in place on `v`. -/
theorem relM_writes {v : View2} {m0 m : Mem α} {x : M (Mem α)} {y : M (Arr2 α)} (hf : Frame v.In m0 m)
    (h : RelM (Writes v m) x y) : RelM (Writes v m0) x y := by
  cases x <;> cases y <;> first | exact h | exact Writes.trans hf h

theorem relM_triangularInplace {v : View2} (hv : v.Inj) {m : Mem α} {a : Arr2 α} (h : Holds v m a) (uplo : UPLO) :
    RelM (Writes v m) (triangularInplaceMem v uplo m) (triangularInplace a uplo) := by
  unfold triangularInplaceMem triangularInplace
  refine relM_bind (relM_checkSquare h) ?_
  rintro n _ rfl
  have h0 : Writes v m m a := ⟨h, Frame.refl _ _⟩
  split
  · refine relM_forRange h0 fun i _ _ s t hst => relM_forRange hst fun j _ _ s t hst => ?_
    exact relM_writes hst.2 (relM_atm hv hst.1 i j 0)
  · refine relM_forRange h0 fun i _ _ s t hst => relM_forRange hst fun j _ _ s t hst => ?_
    exact relM_writes hst.2 (relM_atm hv hst.1 i j 0)

theorem cholDotMem_eq {v : View2} {m : Mem α} {a : Arr2 α} (h : Holds v m a) (k j : Nat) :
    RelM (fun x y => x = y) (cholDotMem v k j m) (cholDot a k j) := by
  unfold cholDotMem cholDot
  refine relM_forRange rfl fun i _ _ s t hst => ?_
  subst hst
  refine relM_bind (relM_at h k i) ?_
  rintro x _ rfl
  refine relM_bind (relM_at h j i) ?_
  rintro y _ rfl
  rfl

theorem relM_cholRow {v : View2} (hv : v.Inj) {m : Mem α} {a : Arr2 α} (h : Holds v m a) (j : Nat) :
    RelM (fun p q => Writes v m p.1 q.1 ∧ p.2 = q.2) (cholRowMem v j m) (cholRow j a) := by
  unfold cholRowMem cholRow
  refine relM_forRange (R := fun (p : Mem α × α) (q : Arr2 α × α) => Writes v m p.1 q.1 ∧ p.2 = q.2)
    ⟨⟨h, Frame.refl _ _⟩, rfl⟩ ?_
  rintro k _ _ ⟨m', d⟩ ⟨b, d'⟩ ⟨hw, hd⟩
  simp only at hw hd ⊢
  subst hd
  refine relM_bind (cholDotMem_eq hw.1 k j) ?_
  rintro s _ rfl
  refine relM_bind (relM_at hw.1 j k) ?_
  rintro x _ rfl
  refine relM_bind (relM_at hw.1 k k) ?_
  rintro y _ rfl
  refine relM_bind (relM_writes hw.2 (relM_atm hv hw.1 j k _)) ?_
  intro m'' b' hw'
  exact ⟨hw', rfl⟩

theorem relM_cholLoop {v : View2} (hv : v.Inj) {m : Mem α} : ∀ (js : List Nat) {m' : Mem α} {a : Arr2 α},
    Writes v m m' a → RelM (fun p q => Writes v m p.1 q.1 ∧ p.2 = q.2) (cholLoopMem v js m') (cholLoop js a) := by
  intro js
  induction js with
  | nil => intro m' a h; exact ⟨h, rfl⟩
  | cons j js ih =>
    intro m' a h
    unfold cholLoopMem cholLoop
    refine relM_bind (relM_cholRow hv h.1 j) ?_
    rintro ⟨m1, d⟩ ⟨b, d'⟩ ⟨hw, hd⟩
    simp only at hw hd ⊢
    subst hd
    refine relM_bind (relM_at hw.1 j j) ?_
    rintro x _ rfl
    split
    · exact ⟨hw.trans h.2, rfl⟩
    · refine relM_bind (relM_writes (h.2.trans hw.2) (relM_atm hv hw.1 j j _)) ?_
      intro m2 b' hw'
      exact ih hw'

theorem relM_choleskyInplaceDirty {v : View2} (hv : v.Inj) {m : Mem α} {a : Arr2 α} (h : Holds v m a) :
    RelM (fun p q => Writes v m p.1 q.1 ∧ p.2 = q.2) (choleskyInplaceDirtyMem v m) (choleskyInplaceDirty a) := by
  unfold choleskyInplaceDirtyMem choleskyInplaceDirty View2.checkSquare checkSquare
  rw [h.nr, h.nc]
  have h0 : Writes v m m a := ⟨h, Frame.refl _ _⟩
  by_cases hs : v.nr = v.nc
  · rw [if_neg (not_not.2 hs)]
    exact relM_cholLoop hv _ h0
  · rw [if_pos hs]
    exact ⟨h0, rfl⟩

theorem relM_choleskyInplace {v : View2} (hv : v.Inj) {m : Mem α} {a : Arr2 α} (h : Holds v m a) :
    RelM (fun p q => Writes v m p.1 q.1 ∧ p.2 = q.2) (choleskyInplaceMem v m) (choleskyInplace a) := by
  unfold choleskyInplaceMem choleskyInplace
  refine relM_bind (relM_choleskyInplaceDirty hv h) ?_
  rintro ⟨m1, e⟩ ⟨b, e'⟩ ⟨hw, he⟩
  simp only at hw he ⊢
  subst he
  cases e with
  | some e => exact ⟨hw, rfl⟩
  | none =>
    refine relM_bind (relM_writes hw.2 (relM_triangularInplace hv hw.1 .lower)) ?_
    intro m2 b' hw'
    exact ⟨hw', rfl⟩

/-! ## Triangular systems -/

/-- One step of the solver; the matrix `a` is only read and lies elsewhere. -/
theorem relM_solveStep (tr : Traversal) {a b : View2} (hb : b.Inj) (hd : Apart a.In b.In) {m0 m : Mem α} {A B : Arr2 α}
    (hA : Holds a m A) (hB : Writes b m0 m B) (dm : Nat → Mem α → M α) (da : Nat → M α)
    (rows : Nat → Nat × Nat) (k i : Nat) (hdiag : RelM (fun x y => x = y) (dm i m) (da i)) :
    RelM (Writes b m0) (solveStepMem tr a b dm rows k i m) (solveStep A da rows k i B) := by
  unfold solveStepMem solveStep
  refine relM_bind hdiag ?_
  rintro d _ rfl
  refine relM_bind (relM_at hB.1 i k) ?_
  rintro bik _ rfl
  refine relM_bind (relM_atm hb hB.1 i k _) ?_
  intro m1 B1 hw
  have hA1 : Holds a m1 A := hA.frame hw.2 hd
  rw [show B1.nr = b.nr from hw.1.nr, show A.nr = a.nr from hA.nr]
  refine relM_bind (relM_colSlice hw.1 _ _ k) ?_
  rintro x X ⟨⟨q1, q2, q3⟩, rfl, rfl⟩
  refine relM_bind (relM_colSlice hA1 _ _ i) ?_
  rintro y Y ⟨⟨r1, r2, r3⟩, rfl, rfl⟩
  have hdis : Apart (a.col (rows a.nr).1 (rows a.nr).2 i).In (b.col (rows b.nr).1 (rows b.nr).2 k).In :=
    hd.mono (fun x => View2.col_in r2 r3 x) (fun x => View2.col_in q2 q3 x)
  have hsc := relM_scaledAdd tr (hb.col q2 q3) hdis (hw.1.col (r0 := (rows b.nr).1) q2 q3)
    (hA1.col (r0 := (rows a.nr).1) r2 r3) (-(bik / d))
  have := relM_bind (R' := Writes b m0) (f := fun x => .ok x)
    (g := fun x => .ok (B1.putCol (rows b.nr).1 k x)) hsc (fun m2 X' h2 => by
      have h3 := hw.1.putCol hb q1 q2 q3 h2.1 h2.2
      exact h3.trans (hB.2.trans hw.2))
  rwa [show ∀ z : M (Mem α), (z >>= fun x => .ok x) = z from fun z => by cases z <;> rfl] at this

theorem relM_solveTriangularSystem (tr : Traversal) {a b : View2} (hb : b.Inj) (hd : Apart a.In b.In) {m : Mem α}
    {A B : Arr2 α} (hA : Holds a m A) (hB : Holds b m B) (uplo : UPLO) (dm : Nat → Mem α → M α) (da : Nat → M α)
    (hdiag : ∀ i m', Frame b.In m m' → RelM (fun x y => x = y) (dm i m') (da i)) :
    RelM (Writes b m) (solveTriangularSystemMem tr a b uplo dm m) (solveTriangularSystem A B uplo da) := by
  unfold solveTriangularSystemMem solveTriangularSystem
  refine relM_bind (relM_checkSquare hA) ?_
  rintro n _ rfl
  rw [hB.nr, hB.nc]
  have h0 : Writes b m m B := ⟨hB, Frame.refl _ _⟩
  split
  · rfl
  · split
    · refine relM_forRange h0 fun k _ _ s t hst => relM_forRev hst fun i _ _ s t hst => ?_
      exact relM_solveStep tr hb hd (hA.frame hst.2 hd) hst dm da _ k i (hdiag i s hst.2)
    · refine relM_forRange h0 fun k _ _ s t hst => relM_forRange hst fun i _ _ s t hst => ?_
      exact relM_solveStep tr hb hd (hA.frame hst.2 hd) hst dm da _ k i (hdiag i s hst.2)

theorem relM_solveTriangular (tr : Traversal) {a b : View2} (hb : b.Inj) (hd : Apart a.In b.In) {m : Mem α}
    {A B : Arr2 α} (hA : Holds a m A) (hB : Holds b m B) (uplo : UPLO) :
    RelM (Writes b m) (solveTriangularMem tr a b uplo m) (solveTriangular A B uplo) :=
  relM_solveTriangularSystem tr hb hd hA hB uplo _ _ fun i _ hf => relM_at (hA.frame hf hd) i i

theorem relM_solveTriangularInplace (tr : Traversal) {a b : View2} (hb : b.Inj) (hd : Apart a.In b.In) {m : Mem α}
    {A B : Arr2 α} (hA : Holds a m A) (hB : Holds b m B) (uplo : UPLO) :
    RelM (fun p q => Writes b m p.1 q.1 ∧ p.2 = q.2) (solveTriangularInplaceMem tr a b uplo m)
      (solveTriangularInplace A B uplo) := by
  have h := relM_solveTriangular tr hb hd hA hB uplo
  unfold solveTriangularInplaceMem solveTriangularInplace
  revert h
  generalize solveTriangularMem tr a b uplo m = x
  generalize solveTriangular A B uplo = y
  intro h
  cases x with
  | ok x =>
    cases y with
    | ok y => exact ⟨h, rfl⟩
    | error e => exact h.elim
  | error e =>
    cases y with
    | ok y => exact h.elim
    | error e' =>
      have h : e = e' := h
      subst h
      cases e with
      | err e => exact ⟨⟨hB, Frame.refl _ _⟩, rfl⟩
      | panic => rfl
      | oob => rfl
      | fuel => rfl

theorem relM_solvecInplace (tr : Traversal) {a b : View2} (ha : a.Inj) (hb : b.Inj) (hd : Apart a.In b.In) {m : Mem α}
    {A B : Arr2 α} (hA : Holds a m A) (hB : Holds b m B) :
    RelM (fun p q => Holds a p.1 q.1 ∧ Holds b p.1 q.2.1 ∧ Frame (fun x => a.In x ∨ b.In x) m p.1 ∧ p.2 = q.2.2)
      (solvecInplaceMem tr a b m) (solvecInplace A B) := by
  unfold solvecInplaceMem solvecInplace
  refine relM_bind (relM_choleskyInplaceDirty ha hA) ?_
  rintro ⟨m1, e⟩ ⟨C, e'⟩ ⟨hw, he⟩
  simp only at hw he ⊢
  subst he
  have hB1 : Holds b m1 B := hB.frame hw.2 hd.symm
  have hf1 : Frame (fun x => a.In x ∨ b.In x) m m1 := hw.2.mono fun x h => Or.inl h
  cases e with
  | some e => exact ⟨hw.1, hB1, hf1, rfl⟩
  | none =>
    refine relM_bind (relM_solveTriangularInplace tr hb hd hw.1 hB1 .lower) ?_
    rintro ⟨m2, e⟩ ⟨X, e'⟩ ⟨hw2, he⟩
    simp only at hw2 he ⊢
    subst he
    have hC2 : Holds a m2 C := hw.1.frame hw2.2 hd
    have hf2 : Frame (fun x => a.In x ∨ b.In x) m m2 := hf1.trans (hw2.2.mono fun x h => Or.inr h)
    cases e with
    | some e => exact ⟨hC2, hw2.1, hf2, rfl⟩
    | none =>
      have hdt : Apart a.t.In b.In := hd.mono (fun x => (a.t_in x).1) fun x h => h
      have h3 := relM_solveTriangularInplace tr hb hdt hC2.t hw2.1 .upper
      have := relM_bind (R' := fun p q => Holds a p.1 q.1 ∧ Holds b p.1 q.2.1 ∧
          Frame (fun x => a.In x ∨ b.In x) m p.1 ∧ p.2 = q.2.2) (f := fun x => .ok x)
        (g := fun p => .ok (C, p.1, p.2)) h3 (by
          rintro ⟨m3, e⟩ ⟨Y, e'⟩ ⟨hw3, he⟩
          exact ⟨hC2.frame hw3.2 hd, hw3.1, hf2.trans (hw3.2.mono fun x h => Or.inr h), he⟩)
      rwa [show ∀ z : M (Mem α × Option LinalgError), (z >>= fun x => .ok x) = z from fun z => by cases z <;> rfl] at this

/-! ## Reflections and rotations -/

theorem relM_reflectCols (tr : Traversal) {axis : View1} {v : View2} (hv : v.Inj) (hd : Apart axis.In v.In) {m : Mem α}
    {w : Arr1 α} {a : Arr2 α} (hw : Holds1 axis m w) (ha : Holds v m a) (bias : α) :
    RelM (Writes v m) (reflectColsMem tr axis bias v m) (reflectCols w bias a) := by
  unfold reflectColsMem reflectCols
  rw [ha.nc]
  refine relM_forRange ⟨ha, Frame.refl _ _⟩ fun i _ _ m1 b hst => ?_
  have hw1 : Holds1 axis m1 w := hw.frame hst.2 hd
  rw [show b.nr = v.nr from hst.1.nr]
  refine relM_bind (relM_colSlice hst.1 0 v.nr i) ?_
  rintro x X ⟨⟨q1, q2, q3⟩, rfl, rfl⟩
  have hc := hst.1.col (r0 := 0) q2 q3
  refine relM_bind (R := fun x y => x = y) (by
    rw [dot_load hw1 hc]
    generalize Arr1.dot w _ = z
    cases z <;> rfl) ?_
  rintro dt _ rfl
  have hdis : Apart axis.In (v.col 0 v.nr i).In := hd.mono (fun _ h => h) fun x => View2.col_in q2 q3 x
  have hsc := relM_scaledAdd tr (hv.col q2 q3) hdis hc hw1 ((dt - bias) * NdFloat.ofRat (-2))
  have := relM_bind (R' := Writes v m) (f := fun x => .ok x) (g := fun x => .ok (b.putCol 0 i x)) hsc (fun m2 X' h2 =>
    (hst.1.putCol hv q1 q2 q3 h2.1 h2.2).trans hst.2)
  rwa [show ∀ z : M (Mem α), (z >>= fun x => .ok x) = z from fun z => by cases z <;> rfl] at this

theorem relM_reflectRows (tr : Traversal) {axis : View1} {v : View2} (hv : v.Inj) (hd : Apart axis.In v.In) {m : Mem α}
    {w : Arr1 α} {a : Arr2 α} (hw : Holds1 axis m w) (ha : Holds v m a) (bias : α) :
    RelM (Writes v m) (reflectRowsMem tr axis bias v m) (reflectRows w bias a) := by
  unfold reflectRowsMem reflectRows
  have h := relM_reflectCols tr hv.t (hd.mono (fun _ h => h) fun x => (v.t_in x).1) hw ha.t bias
  have := relM_bind (R' := Writes v m) (f := fun x => .ok x) (g := fun x => .ok x.t) h
    (fun m2 X' (h2 : Writes v.t m m2 X') => (show RelM (Writes v m) (.ok m2) (.ok X'.t) from Writes.t h2))
  rwa [show ∀ z : M (Mem α), (z >>= fun x => .ok x) = z from fun z => by cases z <;> rfl] at this

theorem relM_rotateRows (g : GivensRotation α) {v : View2} (hv : v.Inj) {m : Mem α} {a : Arr2 α} (ha : Holds v m a) :
    RelM (Writes v m) (g.rotateRowsMem v m) (g.rotateRows a) := by
  unfold GivensRotation.rotateRowsMem GivensRotation.rotateRows
  rw [ha.nc, ha.nr]
  split
  · rfl
  · refine relM_forRange ⟨ha, Frame.refl _ _⟩ fun i _ _ m1 b hst => ?_
    refine relM_bind (relM_at hst.1 i 0) ?_
    rintro x _ rfl
    refine relM_bind (relM_at hst.1 i 1) ?_
    rintro y _ rfl
    refine relM_bind (relM_writes hst.2 (relM_atm hv hst.1 i 0 _)) ?_
    intro m2 c hc
    exact relM_writes hc.2 (relM_atm hv hc.1 i 1 _)

theorem relM_rotateCols (g : GivensRotation α) {v : View2} (hv : v.Inj) {m : Mem α} {a : Arr2 α} (ha : Holds v m a) :
    RelM (Writes v m) (g.rotateColsMem v m) (g.rotateCols a) := by
  have h := relM_rotateRows g.inverse hv.t ha.t
  unfold GivensRotation.rotateColsMem GivensRotation.rotateCols
  revert h
  generalize g.inverse.rotateRowsMem v.t m = x
  generalize g.inverse.rotateRows a.t = y
  intro h
  cases x with
  | ok x =>
    cases y with
    | ok y => exact Writes.t h
    | error e => exact h.elim
  | error e =>
    cases y with
    | ok y => exact h.elim
    | error e' =>
      have h : e = e' := h
      subst h
      cases e with
      | err e => cases e <;> rfl
      | panic => rfl
      | oob => rfl
      | fuel => rfl

theorem relM_reflectionAxisMut (tr : Traversal) {v : View1} (hv : v.Inj) {m : Mem α} {a : Arr1 α} (ha : Holds1 v m a) :
    RelM (fun p q => (Holds1 v p.1 q.1 ∧ Frame v.In m p.1) ∧ p.2 = q.2) (reflectionAxisMutMem tr v m)
      (reflectionAxisMut a) := by
  unfold reflectionAxisMutMem reflectionAxisMut
  refine relM_bind (R := fun x y => x = y) (by
    rw [dot_load ha ha]
    generalize Arr1.dot a a = z
    cases z <;> rfl) ?_
  rintro nsq _ rfl
  by_cases h0 : v.len = 0
  · rw [if_pos h0]
    unfold Arr1.idx
    rw [if_neg (by rw [ha.len]; omega)]
    rfl
  · rw [if_neg h0]
    have hl : 0 < v.len := by omega
    rw [Arr1.idx_ok (by rw [ha.len]; exact hl)]
    simp only [ok_bind]
    rw [Arr1.idxSet_ok (by rw [ha.len]; exact hl)]
    simp only [ok_bind]
    rw [ha.get 0 hl]
    have hset : ∀ x, Holds1 v (m.set (v.addr 0) x) (a.upd 0 x) ∧ Frame v.In m (m.set (v.addr 0) x) := fun x => by
      refine ⟨⟨ha.len, fun k hk => ?_⟩, fun y hy => if_neg fun e => hy ⟨0, hl, e.symm⟩⟩
      simp only [Arr1.upd, Mem.set]
      by_cases e : k = 0
      · rw [if_pos e, if_pos (by rw [e])]
      · rw [if_neg e, if_neg (fun e' => e (hv _ _ hk hl e')), ha.get k hk]
    split
    · have h1 := hset (m (v.addr 0) + NdFloat.signum (m (v.addr 0)) * NdFloat.sqrt nsq)
      have h2 := holds_mapInplace1 tr hv h1.1
        (fun x => x / NdFloat.sqrt ((nsq + NdFloat.abs (m (v.addr 0)) * NdFloat.sqrt nsq) * NdFloat.ofRat 2))
      exact ⟨⟨h2.1, h1.2.trans h2.2⟩, rfl⟩
    · exact ⟨hset _, rfl⟩

theorem relM_clearColumn (tr : Traversal) {v : View2} (hv : v.Inj) {m : Mem α} {a : Arr2 α} (ha : Holds v m a)
    (icol shift : Nat) :
    RelM (fun p q => Writes v m p.1 q.1 ∧ p.2 = q.2) (clearColumnMem tr v icol shift m) (clearColumn a icol shift) := by
  unfold clearColumnMem clearColumn
  rw [show a.nr = v.nr from ha.nr]
  refine relM_bind (relM_colSlice ha (icol + shift) v.nr icol) ?_
  rintro x X ⟨⟨q1, q2, q3⟩, rfl, rfl⟩
  refine relM_bind (relM_reflectionAxisMut tr (hv.col q2 q3) (ha.col (r0 := icol + shift) q2 q3)) ?_
  rintro ⟨m1, n⟩ ⟨w, n'⟩ ⟨⟨h1, hf1⟩, hn⟩
  simp only at h1 hf1 hn ⊢
  subst hn
  have hw1 := ha.putCol hv q1 q2 q3 h1 hf1
  cases n with
  | none => exact ⟨hw1, rfl⟩
  | some n =>
    simp only
    rw [show (a.putCol (icol + shift) icol w).nr = v.nr from hw1.1.nr,
      show (a.putCol (icol + shift) icol w).nc = v.nc from hw1.1.nc]
    refine relM_bind (relM_slice hw1.1 (icol + shift) v.nr (icol + 1) v.nc) ?_
    rintro r R ⟨⟨r1, r2, r3, r4⟩, rfl, rfl⟩
    have hap : Apart (v.col (icol + shift) v.nr icol).In (v.sub (icol + shift) v.nr (icol + 1) v.nc).In :=
      hv.apart q2 (by omega) r2 r4 q3
    have hs := hw1.1.sub (r0 := icol + shift) (c0 := icol + 1) r2 r4
    refine relM_bind (relM_reflectCols tr (hv.sub r2 r4) hap h1 hs 0) ?_
    intro m2 R' h2
    have h3 := holds_mapInplace2 tr (hv.sub r2 r4) h2.1 (fun x => x * NdFloat.signum n)
    exact ⟨(hw1.1.put hv r1 r2 r3 r4 (h3.trans h2.2)).trans hw1.2, rfl⟩

theorem relM_clearRow (tr : Traversal) {v : View2} (hv : v.Inj) {m : Mem α} {a : Arr2 α} (ha : Holds v m a)
    (irow shift : Nat) :
    RelM (fun p q => Writes v m p.1 q.1 ∧ p.2 = q.2) (clearRowMem tr v irow shift m) (clearRow a irow shift) := by
  unfold clearRowMem clearRow
  have := relM_bind (R' := fun p q => Writes v m p.1 q.1 ∧ p.2 = q.2) (f := fun x => .ok x)
    (g := fun p => .ok (p.1.t, p.2)) (relM_clearColumn tr hv.t ha.t irow shift)
    (fun p q h => ⟨Writes.t h.1, h.2⟩)
  rwa [show ∀ z : M (Mem α × α), (z >>= fun x => .ok x) = z from fun z => by cases z <;> rfl] at this

/-! ## The decompositions -/

theorem relM_pair {v : View2} {m0 m : Mem α} {x : M (Mem α × α)} {y : M (Arr2 α × α)} (hf : Frame v.In m0 m)
    (h : RelM (fun p q => Writes v m p.1 q.1 ∧ p.2 = q.2) x y) :
    RelM (fun p q => Writes v m0 p.1 q.1 ∧ p.2 = q.2) x y := by
  cases x <;> cases y <;> first | exact h | exact ⟨Writes.trans hf h.1, h.2⟩

theorem relM_eqRefl {β : Type} (x : M β) : RelM (fun a b => a = b) x x := by cases x <;> rfl

theorem relM_qrInto (tr : Traversal) {v : View2} (hv : v.Inj) {m : Mem α} {a : Arr2 α} (ha : Holds v m a) :
    RelM (fun p q => Writes v m p.1 q.qr ∧ p.2 = q.diag) (qrIntoMem tr v m) (qrInto a) := by
  unfold qrIntoMem qrInto
  rw [ha.nr, ha.nc]
  split
  · rfl
  · have := relM_bind (R' := fun (p : Mem α × Arr1 α) (q : QRDecomp α) => Writes v m p.1 q.qr ∧ p.2 = q.diag)
      (f := fun x => .ok x) (g := fun p => .ok ⟨p.1, p.2⟩)
      (relM_forRange (R := fun (p : Mem α × Arr1 α) (q : Arr2 α × Arr1 α) => Writes v m p.1 q.1 ∧ p.2 = q.2)
        (lo := 0) (hi := v.nc) (s := (m, Arr1.zeros v.nc)) (t := (a, Arr1.zeros v.nc))
        (f := fun i (mem, diag) => do
          let (mem, d) ← clearColumnMem tr v i 0 mem
          let diag ← diag.idxSet i d
          .ok (mem, diag))
        (g := fun i (a, diag) => do
          let (a, d) ← clearColumn a i 0
          let diag ← diag.idxSet i d
          .ok (a, diag)) ⟨⟨ha, Frame.refl _ _⟩, rfl⟩ (by
        rintro i _ _ ⟨m1, d⟩ ⟨b, d'⟩ ⟨hw, hd⟩
        simp only at hw hd ⊢
        subst hd
        refine relM_bind (relM_pair hw.2 (relM_clearColumn tr hv hw.1 i 0)) ?_
        rintro ⟨m2, x⟩ ⟨c, x'⟩ ⟨hw', hx⟩
        simp only at hw' hx ⊢
        subst hx
        refine relM_bind (relM_eqRefl _) ?_
        rintro d1 _ rfl
        exact ⟨hw', rfl⟩)) (fun p q h => (show RelM (fun (p : Mem α × Arr1 α) (q : QRDecomp α) =>
          Writes v m p.1 q.qr ∧ p.2 = q.diag) (.ok p) (.ok ⟨q.1, q.2⟩) from h))
    rwa [show ∀ z : M (Mem α × Arr1 α), (z >>= fun x => .ok x) = z from fun z => by cases z <;> rfl] at this

theorem relM_bidiagonal (tr : Traversal) {v : View2} (hv : v.Inj) {m : Mem α} {a : Arr2 α} (ha : Holds v m a) :
    RelM (fun p q => Writes v m p.1 q.uv ∧ p.2 = (q.offDiagonal, q.diagonal, q.upperDiag)) (bidiagonalMem tr v m)
      (bidiagonal a) := by
  unfold bidiagonalMem bidiagonal
  rw [ha.nr, ha.nc]
  simp only
  split
  · rfl
  split
  · refine relM_bind (R := fun (p : Mem α × Arr1 α × Arr1 α) (q : Arr2 α × Arr1 α × Arr1 α) =>
      Writes v m p.1 q.1 ∧ p.2 = q.2) (relM_forRange ⟨⟨ha, Frame.refl _ _⟩, rfl⟩ ?_) ?_
    · rintro i _ _ ⟨m1, d⟩ ⟨b, d'⟩ ⟨hw, hd⟩
      simp only at hw hd ⊢
      subst hd
      refine relM_bind (relM_pair hw.2 (relM_clearColumn tr hv hw.1 i 0)) ?_
      rintro ⟨m2, x⟩ ⟨c, x'⟩ ⟨hw2, hx⟩
      simp only at hw2 hx ⊢
      subst hx
      refine relM_bind (relM_eqRefl _) ?_
      rintro d1 _ rfl
      refine relM_bind (relM_pair hw2.2 (relM_clearRow tr hv hw2.1 i 1)) ?_
      rintro ⟨m3, x⟩ ⟨c, x'⟩ ⟨hw3, hx⟩
      simp only at hw3 hx ⊢
      subst hx
      refine relM_bind (relM_eqRefl _) ?_
      rintro d1 _ rfl
      exact ⟨hw3, rfl⟩
    · rintro ⟨m1, d⟩ ⟨b, d'⟩ ⟨hw, hd⟩
      simp only at hw hd ⊢
      subst hd
      refine relM_bind (relM_pair hw.2 (relM_clearColumn tr hv hw.1 _ 0)) ?_
      rintro ⟨m2, x⟩ ⟨c, x'⟩ ⟨hw2, hx⟩
      simp only at hw2 hx ⊢
      subst hx
      refine relM_bind (relM_eqRefl _) ?_
      rintro d1 _ rfl
      exact ⟨hw2, rfl⟩
  · refine relM_bind (R := fun (p : Mem α × Arr1 α × Arr1 α) (q : Arr2 α × Arr1 α × Arr1 α) =>
      Writes v m p.1 q.1 ∧ p.2 = q.2) (relM_forRange ⟨⟨ha, Frame.refl _ _⟩, rfl⟩ ?_) ?_
    · rintro i _ _ ⟨m1, d⟩ ⟨b, d'⟩ ⟨hw, hd⟩
      simp only at hw hd ⊢
      subst hd
      refine relM_bind (relM_pair hw.2 (relM_clearRow tr hv hw.1 i 0)) ?_
      rintro ⟨m2, x⟩ ⟨c, x'⟩ ⟨hw2, hx⟩
      simp only at hw2 hx ⊢
      subst hx
      refine relM_bind (relM_eqRefl _) ?_
      rintro d1 _ rfl
      refine relM_bind (relM_pair hw2.2 (relM_clearColumn tr hv hw2.1 i 1)) ?_
      rintro ⟨m3, x⟩ ⟨c, x'⟩ ⟨hw3, hx⟩
      simp only at hw3 hx ⊢
      subst hx
      refine relM_bind (relM_eqRefl _) ?_
      rintro d1 _ rfl
      exact ⟨hw3, rfl⟩
    · rintro ⟨m1, d⟩ ⟨b, d'⟩ ⟨hw, hd⟩
      simp only at hw hd ⊢
      subst hd
      refine relM_bind (relM_pair hw.2 (relM_clearRow tr hv hw.1 _ 0)) ?_
      rintro ⟨m2, x⟩ ⟨c, x'⟩ ⟨hw2, hx⟩
      simp only at hw2 hx ⊢
      subst hx
      refine relM_bind (relM_eqRefl _) ?_
      rintro d1 _ rfl
      exact ⟨hw2, rfl⟩

/-- An operand holds a vector. -/
def OpHolds (u : Operand α) (m : Mem α) (x : Arr1 α) : Prop := u.len = x.len ∧ ∀ i, i < x.len → u.read m i = x.get i

/-- Nothing the operand reads is in `P`. -/
def OpApart (u : Operand α) (P : Int → Prop) : Prop :=
  match u with
  | .own _ => True
  | .view v => Apart v.In P

theorem OpHolds.frame {u : Operand α} {m m' : Mem α} {x : Arr1 α} {P : Int → Prop} (h : OpHolds u m x)
    (hf : Frame P m m') (hd : OpApart u P) : OpHolds u m' x := by
  refine ⟨h.1, fun i hi => ?_⟩
  rw [← h.2 i hi]
  cases u with
  | own a => rfl
  | view v => exact hf _ (hd _ ⟨i, by have : v.len = x.len := h.1; omega, rfl⟩)

theorem relM_rankOne (tr : Traversal) (alpha : α) {u w : Operand α} {v : View2} (hv : v.Inj) {m0 m : Mem α} {x y : Arr1 α}
    {a : Arr2 α} (hu : OpHolds u m x) (hw : OpHolds w m y) (du : OpApart u v.In) (dw : OpApart w v.In)
    (ha : Writes v m0 m a) : RelM (Writes v m0) (rankOneUpdateMem tr alpha u w v m) (rankOneUpdate alpha x y a) := by
  unfold rankOneUpdateMem rankOneUpdate
  rw [ha.1.nr, ha.1.nc, hu.1, hw.1]
  split
  · rename_i hl
    obtain ⟨h1, h2⟩ := update_two tr hv m (fun p mem => mem (v.addr p.1 p.2) + alpha * (u.read mem p.1 * w.read mem p.2))
      (fun i j hi hj m' h h' => by
        have hu' := hu.frame h' du
        have hw' := hw.frame h' dw
        simp only
        rw [h, hu'.2 i (by omega), hw'.2 j (by omega), hu.2 i (by omega), hw.2 j (by omega)])
    refine ⟨⟨rfl, rfl, fun i j hi hj => ?_⟩, ha.2.trans h2⟩
    show a.get i j + alpha * (x.get i * y.get j) = _
    rw [h1 i j hi hj]
    simp only
    rw [ha.1.get i j hi hj, hu.2 i (by omega), hw.2 j (by omega)]
  · rfl

theorem matVecMul_load {v : View2} {w : View1} {m : Mem α} {a : Arr2 α} {x : Arr1 α} (ha : Holds v m a)
    (hx : Holds1 w m x) (alpha : α) (y : Arr1 α) :
    RelM (fun p q => p.len = q.len ∧ ∀ i, i < p.len → p.get i = q.get i) (matVecMul alpha (v.load m) (w.load m) y)
      (matVecMul alpha a x y) := by
  unfold matVecMul
  rw [ha.nr, ha.nc, hx.len]
  show RelM _ (if v.nc = w.len ∧ v.nr = y.len then _ else _) _
  by_cases h : v.nc = w.len ∧ v.nr = y.len
  · rw [if_pos h, if_pos h]
    refine ⟨rfl, fun i hi => ?_⟩
    have hi : i < y.len := hi
    show NdFloat.dot _ * alpha = NdFloat.dot _ * alpha
    congr 2
    refine List.map_congr_left fun k hk => ?_
    have hk : k < v.nc := List.mem_range.1 hk
    show (m (v.addr i k), m (w.addr k)) = _
    rw [← ha.get i k (by omega) hk, ← hx.get k (by omega)]
  · rw [if_neg h, if_neg h]
    rfl

theorem holds_load1 (v : View1) (m : Mem α) : Holds1 v m (v.load m) := ⟨rfl, fun _ _ => rfl⟩

theorem sameArr1_slice {p q : Arr1 α} (h : SameArr1 p q) (k0 k1 : Nat) :
    RelM SameArr1 (p.slice k0 k1) (q.slice k0 k1) := by
  unfold Arr1.slice
  rw [← h.1]
  by_cases hk : k0 ≤ k1 ∧ k1 ≤ p.len
  · rw [if_pos hk, if_pos hk]
    exact ⟨rfl, fun i (hi : i < k1 - k0) => h.2 _ (by omega)⟩
  · rw [if_neg hk, if_neg hk]
    rfl

theorem sameArr1_put {p q x y : Arr1 α} (h : SameArr1 p q) (hx : SameArr1 x y) (k0 : Nat) :
    SameArr1 (p.put k0 x) (q.put k0 y) := by
  refine ⟨h.1, fun i (hi : i < p.len) => ?_⟩
  show (if k0 ≤ i ∧ i < k0 + x.len then _ else _) = (if k0 ≤ i ∧ i < k0 + y.len then _ else _)
  rw [← hx.1]
  by_cases hk : k0 ≤ i ∧ i < k0 + x.len
  · rw [if_pos hk, if_pos hk]
    exact hx.2 _ (by omega)
  · rw [if_neg hk, if_neg hk]
    exact h.2 i hi

theorem matVecMul_same {v : View2} {w : View1} {m : Mem α} {a : Arr2 α} {x : Arr1 α} (ha : Holds v m a)
    (hx : Holds1 w m x) (alpha : α) {y y' : Arr1 α} (hy : SameArr1 y y') :
    RelM SameArr1 (matVecMul alpha (v.load m) (w.load m) y) (matVecMul alpha a x y') := by
  have h := matVecMul_load ha hx alpha y
  have e : matVecMul alpha a x y = matVecMul alpha a x y' := by
    unfold matVecMul
    rw [hy.1]
  rwa [e] at h

theorem dot_same {w : View1} {m : Mem α} {x y y' : Arr1 α} (hx : Holds1 w m x) (hy : SameArr1 y y') :
    (w.load m).dot y = x.dot y' := by
  unfold Arr1.dot
  rw [hx.len, ← hy.1]
  show (if w.len = y.len then _ else _) = _
  by_cases h : w.len = y.len
  · rw [if_pos h, if_pos h]
    show Except.ok (NdFloat.dot _) = Except.ok (NdFloat.dot _)
    congr 2
    refine List.map_congr_left fun k hk => ?_
    have hk : k < w.len := List.mem_range.1 hk
    show (m (w.addr k), _) = _
    rw [← hx.get k hk, hy.2 k (by omega)]
  · rw [if_neg h, if_neg h]

theorem opHolds_view {v : View1} {m : Mem α} {x : Arr1 α} (h : Holds1 v m x) : OpHolds (.view v) m x :=
  ⟨h.len.symm, fun i hi => (h.get i (by rw [← h.len]; exact hi)).symm⟩

theorem opHolds_own {x y : Arr1 α} (h : SameArr1 x y) (m : Mem α) : OpHolds (.own x) m y :=
  ⟨h.1, fun i hi => h.2 i (by rw [h.1]; exact hi)⟩

theorem relM_tridiagStep (tr : Traversal) {v : View2} (hv : v.Inj) {m0 m : Mem α} {a : Arr2 α} (ha : Writes v m0 m a)
    (i : Nat) (off : Arr1 α) {p q : Arr1 α} (hp : SameArr1 p q) :
    RelM (fun x y => Writes v m0 x.1 y.1 ∧ x.2.1 = y.2.1 ∧ SameArr1 x.2.2 y.2.2) (tridiagStepMem tr v i m off p)
      (tridiagStep i a off q) := by
  unfold tridiagStepMem tridiagStep
  rw [ha.1.nr, ha.1.nc]
  refine relM_bind (relM_colSlice ha.1 (i + 1) v.nr i) ?_
  rintro x X ⟨⟨q1, q2, q3⟩, rfl, rfl⟩
  refine relM_bind (relM_slice ha.1 (i + 1) v.nr (i + 1) v.nc) ?_
  rintro r R ⟨⟨r1, r2, r3, r4⟩, rfl, rfl⟩
  have hs := ha.1.sub (r0 := i + 1) (c0 := i + 1) r2 r4
  have hap : Apart (v.col (i + 1) v.nr i).In (v.sub (i + 1) v.nr (i + 1) v.nc).In :=
    hv.apart q2 (by omega) r2 r4 q3
  refine relM_bind (relM_reflectionAxisMut tr (hv.col q2 q3) (ha.1.col (r0 := i + 1) q2 q3)) ?_
  rintro ⟨m1, n⟩ ⟨w, n'⟩ ⟨⟨h1, hf1⟩, hn⟩
  simp only at h1 hf1 hn ⊢
  subst hn
  have hw1 := ha.1.putCol hv q1 q2 q3 h1 hf1
  have hs1 := hs.frame hf1 hap.symm
  refine relM_bind (relM_eqRefl _) ?_
  rintro off' _ rfl
  cases n with
  | none => exact ⟨hw1.trans ha.2, rfl, hp⟩
  | some n =>
    rw [show p.len = q.len from hp.1]
    simp only [Option.isSome_some, if_true]
    refine relM_bind (sameArr1_slice hp i q.len) ?_
    intro pv pv' hpv
    refine relM_bind (matVecMul_same hs1 h1 _ hpv) ?_
    intro y y' hy
    refine relM_bind (R := fun x y => x = y) (by
      rw [dot_same h1 hy]
      exact relM_eqRefl _) ?_
    rintro d _ rfl
    have hI := hv.sub (r0 := i + 1) (c0 := i + 1) r2 r4
    refine relM_bind (relM_rankOne tr (-1) hI (opHolds_own hy m1) (opHolds_view h1) trivial hap
      ⟨hs1, Frame.refl _ _⟩) ?_
    intro m2 R2 h2
    refine relM_bind (relM_rankOne tr (-1) hI (opHolds_view (h1.frame h2.2 hap)) (opHolds_own hy m2) hap trivial
      h2) ?_
    intro m3 R3 h3
    refine relM_bind (relM_rankOne tr (d + d) hI (opHolds_view (h1.frame h3.2 hap))
      (opHolds_view (h1.frame h3.2 hap)) hap hap h3) ?_
    intro m4 R4 h4
    exact ⟨(hw1.1.put hv r1 r2 r3 r4 h4).trans (ha.2.trans hw1.2), rfl, sameArr1_put hp hy i⟩

theorem relM_symTridiagonal (tr : Traversal) {v : View2} (hv : v.Inj) {m : Mem α} {a : Arr2 α} (ha : Holds v m a) :
    RelM (fun p q => Writes v m p.1 q.diagMatrix ∧ p.2 = q.offDiagonal) (symTridiagonalMem tr v m)
      (symTridiagonal a) := by
  unfold symTridiagonalMem symTridiagonal
  refine relM_bind (relM_checkSquare ha) ?_
  rintro n _ rfl
  split
  · rfl
  · refine relM_bind (R := fun (x : Mem α × Arr1 α × Arr1 α) (y : Arr2 α × Arr1 α × Arr1 α) =>
      Writes v m x.1 y.1 ∧ x.2.1 = y.2.1 ∧ SameArr1 x.2.2 y.2.2) (relM_forRange
        ⟨⟨ha, Frame.refl _ _⟩, rfl, rfl, fun _ _ => rfl⟩ ?_) ?_
    · rintro i _ _ ⟨m1, o, p⟩ ⟨b, o', q⟩ ⟨hw, ho, hp⟩
      simp only at hw ho hp ⊢
      subst ho
      exact relM_tridiagStep tr hv hw i o hp
    · rintro ⟨m1, o, p⟩ ⟨b, o', q⟩ ⟨hw, ho, hp⟩
      exact ⟨hw, ho⟩

end LinfaLinalg
