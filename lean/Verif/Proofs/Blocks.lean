import Verif.Proofs.Qr
import Verif.Proofs.Bidiagonal
import Verif.Proofs.Cholesky

/-! # Householder reductions column by column -/

set_option linter.unusedSectionVars false

namespace LinfaLinalg

variable {α : Type} [Zero α] [One α] [Add α] [Sub α] [Mul α] [Div α] [Neg α] [NdFloat α]

/-- An entry of the reflected and rescaled block. -/
def blockEntry (axis : Arr1 α) (s : α) (p : Nat) (a : Arr2 α) (i j : Nat) : α :=
  (a.get i j + ((dotTo axis.len axis.get fun k => a.get (p + k) j) - 0) * NdFloat.ofRat (-2) * axis.get (i - p)) * s

/-- The block of `a` from row `p` and column `c0` on, reflected and rescaled. -/
def reflBlock (axis : Arr1 α) (s : α) (p c0 : Nat) (a : Arr2 α) : Arr2 α :=
  ⟨a.nr, a.nc, fun i j => if p ≤ i ∧ i < a.nr ∧ c0 ≤ j ∧ j < a.nc then blockEntry axis s p a i j else a.get i j⟩

theorem block_eq {β : Type} (axis : Arr1 α) (s : α) (p c0 : Nat) (a : Arr2 α) (hp : p ≤ a.nr) (hc : c0 ≤ a.nc)
    (hl : axis.len = a.nr - p) (g : Arr2 α → M β) :
    (do
      let rows ← a.slice p a.nr c0 a.nc
      let rows ← reflectCols axis 0 rows
      g (a.put p c0 (rows.map fun x => x * s))) = g (reflBlock axis s p c0 a) := by
  rw [Arr2.slice_ok hp le_rfl hc le_rfl]
  simp only [ok_bind]
  rw [reflectCols_eq _ _ _ (by exact hl)]
  simp only [ok_bind]
  congr 1
  refine Arr2.ext' rfl rfl ?_
  intro i j
  by_cases h : p ≤ i ∧ i < a.nr ∧ c0 ≤ j ∧ j < a.nc
  · refine (if_pos ⟨h.1, ?_, h.2.2.1, ?_⟩).trans (Eq.trans ?_ (if_pos h).symm)
    · simp only [Arr2.map]
      rw [if_pos (by omega)]
      unfold reflEntry blockEntry
      simp only
      rw [show p + (i - p) = i by omega, show c0 + (j - c0) = j by omega]
    · change i < p + (a.nr - p); omega
    · change j < c0 + (a.nc - c0); omega
  · refine (if_neg ?_).trans (if_neg h).symm
    change ¬ (p ≤ i ∧ i < p + (a.nr - p) ∧ c0 ≤ j ∧ j < c0 + (a.nc - c0))
    omega

/-- The columns of `a` and `b` whose numbers are related by `P` are equal. -/
structure ColRel (P : Nat → Nat → Prop) (a b : Arr2 α) : Prop where
  nr : a.nr = b.nr
  lt : ∀ j j', P j j' → j < a.nc ∧ j' < b.nc
  get : ∀ j j', P j j' → ∀ i, a.get i j = b.get i j'

theorem ColRel.reflBlock {P : Nat → Nat → Prop} {a b : Arr2 α} (h : ColRel P a b) (axis : Arr1 α) (s : α)
    (p c0 : Nat) (hc : ∀ j j', P j j' → (c0 ≤ j ↔ c0 ≤ j')) :
    ColRel P (reflBlock axis s p c0 a) (reflBlock axis s p c0 b) := by
  refine ⟨h.nr, h.lt, fun j j' hP i => ?_⟩
  have := h.lt j j' hP
  unfold LinfaLinalg.reflBlock blockEntry
  simp only [h.nr, hc j j' hP, this, h.get j j' hP]

/-- The tail of `clear_column` after the axis has been computed. -/
theorem clearColumn_eq (a : Arr2 α) (i : Nat) (hi : i < a.nr) (hc : i < a.nc) :
    clearColumn a i 0 = (do
      let (axis, o) ← reflectionAxisMut ⟨a.nr - i, fun r => a.get (i + r) i⟩
      match o with
      | some d => .ok (reflBlock axis (NdFloat.signum d) i (i + 1) (a.putCol i i axis), d)
      | none => .ok (a.putCol i i axis, 0)) := by
  unfold clearColumn
  rw [Nat.add_zero, Arr2.colSlice_ok hi.le le_rfl hc]
  simp only [ok_bind]
  obtain ⟨w, o, hw, hl⟩ := reflectionAxisMut_ok
    (⟨a.nr - i, fun r => a.get (i + r) i⟩ : Arr1 α) (by simp; omega)
  rw [hw]
  simp only [ok_bind]
  cases o with
  | none => rfl
  | some d =>
    simp only
    exact block_eq w (NdFloat.signum d) i (i + 1) (a.putCol i i w) (by exact hi.le) (by exact hc) (by exact hl)
      (fun x => .ok (x, d))

theorem ColRel.clearColumn {k : Nat} {a b : Arr2 α} (h : ColRel (fun j j' => j = j' ∧ j < k) a b) (i : Nat) (hi : i < k)
    (hr : i < a.nr) :
    RelM (fun x y => ColRel (fun j j' => j = j' ∧ j < k) x.1 y.1 ∧ x.2 = y.2) (clearColumn a i 0) (clearColumn b i 0) := by
  have hc := h.lt i i ⟨rfl, hi⟩
  rw [clearColumn_eq a i hr hc.1, clearColumn_eq b i (by rw [← h.nr]; exact hr) hc.2]
  have e : (⟨a.nr - i, fun r => a.get (i + r) i⟩ : Arr1 α) = ⟨b.nr - i, fun r => b.get (i + r) i⟩ := by
    rw [h.nr]
    congr 1
    funext r
    exact h.get i i ⟨rfl, hi⟩ _
  rw [e]
  refine relM_bind (R := fun x y => x = y) (relM_refl (fun _ => rfl) _) ?_
  rintro ⟨w, o⟩ _ rfl
  have hp : ColRel (fun j j' => j = j' ∧ j < k) (a.putCol i i w) (b.putCol i i w) := by
    refine ⟨h.nr, h.lt, ?_⟩
    rintro j _ ⟨rfl, hj⟩ r
    simp only [Arr2.putCol, h.get j j ⟨rfl, hj⟩]
  cases o with
  | none => exact ⟨hp, rfl⟩
  | some d => exact ⟨hp.reflBlock w _ i (i + 1) (fun j j' hj => by rw [hj.1]), rfl⟩

/-- `clear_column` leaves the columns before it alone. -/
theorem clearColumn_before (a : Arr2 α) (i : Nat) (hr : i < a.nr) (hc : i < a.nc) :
    Succeeds (clearColumn a i 0) fun x => x.1.nr = a.nr ∧ x.1.nc = a.nc ∧ ∀ r j, j < i → x.1.get r j = a.get r j := by
  rw [clearColumn_eq a i hr hc]
  obtain ⟨w, o, hw, hl⟩ := reflectionAxisMut_ok
    (⟨a.nr - i, fun r => a.get (i + r) i⟩ : Arr1 α) (by simp; omega)
  rw [hw]
  simp only [ok_bind]
  have hp : ∀ r j, j < i → (a.putCol i i w).get r j = a.get r j := by
    intro r j hj
    simp only [Arr2.putCol]
    rw [if_neg (by omega)]
  cases o with
  | none => exact ⟨rfl, rfl, hp⟩
  | some d =>
    refine ⟨rfl, rfl, fun r j hj => ?_⟩
    change (reflBlock _ _ _ _ _).get r j = _
    unfold reflBlock
    simp only
    rw [if_neg (by omega)]
    exact hp r j hj

/-- The first `k` columns. -/
def firstCols (a : Arr2 α) (k : Nat) : Arr2 α := ⟨a.nr, k, a.get⟩

theorem forRange_split {σ : Type} {k n : Nat} (hk : k ≤ n) (s : σ) (f : Nat → σ → M σ) :
    forRange 0 n s f = forRange 0 k s f >>= fun s => forRange k n s f := by
  unfold forRange
  rw [← loopM_append]
  congr 1
  rw [Nat.sub_zero, Nat.sub_zero]
  have := List.range'_append (s := 0) (m := k) (n := n - k) (step := 1)
  rw [show 0 + 1 * k = k by omega, show k + (n - k) = n by omega] at this
  exact this.symm

theorem forRev_split {σ : Type} {k n : Nat} (hk : k ≤ n) (s : σ) (f : Nat → σ → M σ) :
    forRev 0 n s f = forRev k n s f >>= fun s => forRev 0 k s f := by
  unfold forRev
  rw [← loopM_append, ← List.reverse_append]
  congr 2
  rw [Nat.sub_zero, Nat.sub_zero]
  have := List.range'_append (s := 0) (m := k) (n := n - k) (step := 1)
  rw [show 0 + 1 * k = k by omega, show k + (n - k) = n by omega] at this
  exact this.symm

/-- The decomposition of the first `k` columns. -/
theorem qrInto_first (a : Arr2 α) (k : Nat) (hk : k ≤ a.nc) (h : a.nc ≤ a.nr) :
    ∃ q q', qrInto a = .ok q ∧ qrInto (firstCols a k) = .ok q' ∧ QRShape a.nr a.nc q ∧ QRShape a.nr k q' ∧
      (∀ i j, j < k → q'.qr.get i j = q.qr.get i j) ∧ ∀ j, j < k → q'.diag.get j = q.diag.get j := by
  obtain ⟨q, hq, hs⟩ := qrInto_ok a h
  obtain ⟨q', hq', hs'⟩ := qrInto_ok (firstCols a k) (hk.trans h)
  refine ⟨q, q', hq, hq', hs, hs', ?_⟩
  unfold qrInto at hq hq'
  rw [if_neg (by omega)] at hq
  rw [if_neg (by unfold firstCols; simp only; omega)] at hq'
  change (forRange 0 k (firstCols a k, Arr1.zeros k) _ >>= _) = _ at hq'
  rw [forRange_split hk] at hq
  have hrel : RelM (fun (x y : Arr2 α × Arr1 α) => ColRel (fun j j' => j = j' ∧ j < k) x.1 y.1 ∧ x.1.nr = a.nr ∧
      y.1.nc = a.nc ∧ x.2.len = k ∧ y.2.len = a.nc ∧ ∀ j, j < k → x.2.get j = y.2.get j)
      (forRange 0 k (firstCols a k, (Arr1.zeros k : Arr1 α)) fun i (a, diag) => do
        let (a, d) ← clearColumn a i 0
        let diag ← diag.idxSet i d
        .ok (a, diag))
      (forRange 0 k (a, (Arr1.zeros a.nc : Arr1 α)) fun i (a, diag) => do
        let (a, d) ← clearColumn a i 0
        let diag ← diag.idxSet i d
        .ok (a, diag)) := by
    refine relM_forRange ⟨⟨rfl, ?_, ?_⟩, rfl, rfl, rfl, rfl, fun _ _ => rfl⟩ ?_
    · rintro j _ ⟨rfl, hj⟩; exact ⟨hj, by change j < a.nc; omega⟩
    · rintro j _ ⟨rfl, hj⟩ i; rfl
    · rintro i - hi ⟨x, dx⟩ ⟨y, dy⟩ ⟨h1, h2, h3, h4, h5, h6⟩
      simp only at h1 h2 h3 h4 h5 h6 ⊢
      have h7 := clearColumn_before y i (by rw [← h1.nr]; omega) (by omega)
      obtain ⟨⟨y', d⟩, ey, hy1, hy2, -⟩ := succeeds_iff.1 h7
      have h8 := h1.clearColumn i hi (by omega)
      rw [ey] at h8 ⊢
      obtain ⟨⟨x', d'⟩, ex, h9, h10⟩ := relM_ok_left h8 rfl
      rw [ex]
      simp only at h9 h10 hy1 hy2 ⊢
      subst h10
      simp only [ok_bind]
      rw [Arr1.idxSet_ok (by omega), Arr1.idxSet_ok (by omega)]
      simp only [ok_bind, relM_ok]
      refine ⟨h9, by rw [h9.nr, hy1, ← h1.nr, h2], by omega, h4, h5, fun j hj => ?_⟩
      simp only [Arr1.upd, h6 j hj]
  have hsec : ∀ y : Arr2 α × Arr1 α, y.1.nr = a.nr → y.1.nc = a.nc → y.2.len = a.nc →
      Succeeds (forRange k a.nc y fun i (a, diag) => do
        let (a, d) ← clearColumn a i 0
        let diag ← diag.idxSet i d
        .ok (a, diag)) fun z => (∀ i j, j < k → z.1.get i j = y.1.get i j) ∧ ∀ j, j < k → z.2.get j = y.2.get j := by
    intro y y1 y2 y3
    refine wp_conseq (wp_forRange (fun _ (z : Arr2 α × Arr1 α) => z.1.nr = a.nr ∧ z.1.nc = a.nc ∧ z.2.len = a.nc ∧
      (∀ i j, j < k → z.1.get i j = y.1.get i j) ∧ ∀ j, j < k → z.2.get j = y.2.get j) hk
      ⟨y1, y2, y3, fun _ _ _ => rfl, fun _ _ => rfl⟩ ?_) (fun z hz => ⟨hz.2.2.2.1, hz.2.2.2.2⟩)
    rintro i ⟨z, dz⟩ hki hi ⟨h1, h2, h3, h4, h5⟩
    simp only at h1 h2 h3 h4 h5 ⊢
    obtain ⟨⟨z', d⟩, ez, hz1, hz2, hz3⟩ := succeeds_iff.1 (clearColumn_before z i (by omega) (by omega))
    rw [ez]
    simp only [ok_bind]
    rw [Arr1.idxSet_ok (by omega)]
    simp only [ok_bind, wp_ok] at hz1 hz2 hz3 ⊢
    refine ⟨by omega, by omega, h3, fun r j hj => ?_, fun j hj => ?_⟩
    · rw [hz3 r j (by omega), h4 r j hj]
    · simp only [Arr1.upd]
      rw [if_neg (by omega), h5 j hj]
  cases e1 : forRange 0 k (firstCols a k, (Arr1.zeros k : Arr1 α)) (fun i (a, diag) => do
        let (a, d) ← clearColumn a i 0
        let diag ← diag.idxSet i d
        .ok (a, diag)) with
  | error e => rw [e1] at hq'; cases hq'
  | ok x =>
    rw [e1] at hrel hq'
    cases e2 : forRange 0 k (a, (Arr1.zeros a.nc : Arr1 α)) (fun i (a, diag) => do
        let (a, d) ← clearColumn a i 0
        let diag ← diag.idxSet i d
        .ok (a, diag)) with
    | error e => rw [e2] at hrel; exact hrel.elim
    | ok y =>
      rw [e2] at hrel hq
      obtain ⟨h1, h2, h3, h4, h5, h6⟩ := hrel
      obtain ⟨z, ez, hz1, hz2⟩ := succeeds_iff.1 (hsec y (by rw [← h1.nr, h2]) h3 h5)
      simp only [ok_bind] at hq hq'
      rw [ez] at hq
      obtain rfl := Except.ok.inj hq
      obtain rfl := Except.ok.inj hq'
      exact ⟨fun i j hj => (h1.get j j ⟨rfl, hj⟩ i).trans (hz1 i j hj).symm, fun j hj => (h6 j hj).trans (hz2 j hj).symm⟩

/-- One step of `assemble_q` or `qt_mul`. -/
theorem qStep_eq {m n : Nat} {q : QRDecomp α} (h : QRShape m n q) (i c0 : Nat) (hi : i < n) (hm : i ≤ m) (res : Arr2 α)
    (hr : res.nr = m) (hc : c0 ≤ res.nc) :
    (do
      let axis ← q.qr.colSlice i q.qr.nr i
      let rows ← res.slice i res.nr c0 res.nc
      let rows ← reflectCols axis 0 rows
      let d ← q.diag.idx i
      let rows := rows.map fun x => x * NdFloat.signum d
      (.ok (res.put i c0 rows) : M (Arr2 α))) =
    .ok (reflBlock ⟨m - i, fun r => q.qr.get (i + r) i⟩ (NdFloat.signum (q.diag.get i)) i c0 res) := by
  rw [Arr2.colSlice_ok (by rw [h.nr]; exact hm) le_rfl (by rw [h.nc]; exact hi), Arr1.idx_ok (by rw [h.len]; exact hi), h.nr]
  simp only [ok_bind]
  exact block_eq _ _ i c0 res (by omega) hc (by rw [hr]) (fun x => .ok x)

/-- The columns of `Q`: each depends only on the reflections up to its own. -/
theorem generateQ_first {m n k : Nat} {q q' : QRDecomp α} (h : QRShape m n q) (h' : QRShape m k q') (hnm : n ≤ m)
    (hk : k ≤ n) (hqr : ∀ i j, j < k → q'.qr.get i j = q.qr.get i j) (hd : ∀ j, j < k → q'.diag.get j = q.diag.get j) :
    ∃ Q Q', q.generateQ = .ok Q ∧ q'.generateQ = .ok Q' ∧ HasShape Q m n ∧ HasShape Q' m k ∧
      ∀ i j, j < k → Q'.get i j = Q.get i j := by
  obtain ⟨Q, e, s1, s2⟩ := h.generateQ_ok hnm
  obtain ⟨Q', e', s1', s2'⟩ := h'.generateQ_ok (hk.trans hnm)
  refine ⟨Q, Q', e, e', ⟨s1, s2⟩, ⟨s1', s2'⟩, ?_⟩
  unfold QRDecomp.generateQ assembleQ at e e'
  simp only [Nat.add_zero, Nat.sub_zero, h.nr, h.nc, h'.nr, h'.nc, min_eq_right hnm, min_eq_right (hk.trans hnm),
    not_lt_zero, if_false] at e e'
  rw [forRev_split hk] at e
  have hA : Succeeds (forRev k n (Arr2.eye m n : Arr2 α) fun i res => do
      let axis ← q.qr.colSlice i m i
      let rows ← res.slice i res.nr i res.nc
      let rows ← reflectCols axis 0 rows
      let d ← q.diag.idx i
      Except.ok (res.put i i (rows.map fun x => x * NdFloat.signum d))) fun r => r.nr = m ∧ r.nc = n ∧
        ∀ i j, j < k → r.get i j = (Arr2.eye m k : Arr2 α).get i j := by
    refine wp_forRev (fun _ (r : Arr2 α) => r.nr = m ∧ r.nc = n ∧
        ∀ i j, j < k → r.get i j = (Arr2.eye m k : Arr2 α).get i j) hk ⟨rfl, rfl, fun _ _ _ => rfl⟩ ?_
    rintro i r h1 h2 ⟨h3, h4, h5⟩
    have := qStep_eq h i i h2 (by omega) r h3 (by omega)
    rw [h.nr] at this
    rw [this]
    refine ⟨h3, h4, fun a j hj => ?_⟩
    rw [← h5 a j hj]
    unfold reflBlock
    simp only
    rw [if_neg (by omega)]
  obtain ⟨r, er, h1, h2, h3⟩ := succeeds_iff.1 hA
  rw [er] at e
  simp only [ok_bind] at e
  have hrel : RelM (fun (x y : Arr2 α) => ColRel (fun j j' => j = j' ∧ j < k) x y ∧ x.nr = m ∧ y.nc = n ∧ x.nc = k)
      (.ok Q') (.ok Q) := by
    rw [← e, ← e']
    refine relM_forRev ⟨⟨h1.symm, ?_, ?_⟩, rfl, h2, rfl⟩ ?_
    · rintro j _ ⟨rfl, hj⟩; exact ⟨hj, by omega⟩
    · rintro j _ ⟨rfl, hj⟩ i; exact (h3 i j hj).symm
    · rintro i - hi x y ⟨g1, g2, g3, g4⟩
      have t1 := qStep_eq h i i (by omega) (by omega) y (by rw [← g1.nr, g2]) (by omega)
      have t2 := qStep_eq h' i i hi (by omega) x g2 (by omega)
      rw [h.nr] at t1
      rw [h'.nr] at t2
      rw [t1, t2, relM_ok]
      have e1 : (⟨m - i, fun r => q'.qr.get (i + r) i⟩ : Arr1 α) = ⟨m - i, fun r => q.qr.get (i + r) i⟩ := by
        congr 1; funext r; exact hqr _ i hi
      rw [e1, hd i hi]
      exact ⟨g1.reflBlock _ _ i i (fun j j' hj => by rw [hj.1]), g2, g3, g4⟩
  intro i j hj
  exact hrel.1.get j j ⟨rfl, hj⟩ i

/-- `qt_mul` works column by column. -/
theorem qtMul_col {m n : Nat} {q : QRDecomp α} (h : QRShape m n q) (hnm : n ≤ m) {P : Nat → Nat → Prop} {b b' : Arr2 α}
    (hb : b.nr = m) (hP : ColRel P b b') : RelM (fun x y => ColRel P x y ∧ x.nr = m ∧ x.nc = b.nc ∧ y.nc = b'.nc)
      (q.qtMul b) (q.qtMul b') := by
  unfold QRDecomp.qtMul
  rw [h.nc]
  refine relM_forRange ⟨hP, hb, rfl, rfl⟩ ?_
  rintro i - hi x y ⟨h1, h2, h3, h4⟩
  rw [qStep_eq h i 0 hi (by omega) x h2 (by omega), qStep_eq h i 0 hi (by omega) y (by rw [← h1.nr, h2]) (by omega), relM_ok]
  exact ⟨h1.reflBlock _ _ i 0 (fun j j' hj => by simp), h2, h3, h4⟩

theorem ColRel.solveTriangularSystem {P : Nat → Nat → Prop} {b b' : Arr2 α} (h : ColRel P b b') (a : Arr2 α) (uplo : UPLO)
    (diag : Nat → M α) (d : Nat → α) (ha : a.nr = a.nc) (hb : b.nr = a.nr) (hd : ∀ i, i < a.nr → diag i = .ok (d i)) :
    RelM (fun x y => ColRel P x y ∧ x.nr = b.nr ∧ x.nc = b.nc ∧ y.nc = b'.nc) (solveTriangularSystem a b uplo diag)
      (solveTriangularSystem a b' uplo diag) := by
  rw [solveTriangularSystem_eq a b uplo diag d ha hb hd,
    solveTriangularSystem_eq a b' uplo diag d ha (by rw [← h.nr, hb]) hd, relM_ok]
  refine ⟨⟨h.nr, h.lt, fun j j' hP i => ?_⟩, rfl, rfl, rfl⟩
  have := h.lt j j' hP
  simp only [this, if_true]
  rw [show (fun r => b.get r j) = fun r => b'.get r j' from funext (h.get j j' hP)]

theorem ColRel.dot {P : Nat → Nat → Prop} {b b' : Arr2 α} (h : ColRel P b b') (a : Arr2 α) :
    RelM (fun x y => ColRel P x y ∧ x.nr = a.nr ∧ x.nc = b.nc ∧ y.nc = b'.nc) (a.dot b) (a.dot b') := by
  unfold Arr2.dot
  rw [h.nr]
  by_cases hc : a.nc = b'.nr
  · rw [if_pos hc, if_pos hc, relM_ok]
    refine ⟨⟨rfl, h.lt, fun j j' hP i => ?_⟩, rfl, rfl, rfl⟩
    exact dotTo_congr (fun _ _ => rfl) (fun k _ => h.get j j' hP k)
  · rw [if_neg hc, if_neg hc]; rfl

theorem solvec_col {P : Nat → Nat → Prop} {b b' : Arr2 α} (h : ColRel P b b') (a : Arr2 α) :
    RelM (fun x y => ColRel P x y ∧ x.nr = b.nr ∧ x.nc = b.nc ∧ y.nc = b'.nc) (solvec a b) (solvec a b') := by
  unfold solvec
  refine relM_bind (R := fun x y => x = y ∧ x.nr = x.nc) ?_ ?_
  · by_cases hs : a.nr = a.nc
    · rcases choleskyDirty_cases a hs with ⟨l, e, hl, -⟩ | ⟨e, -⟩
      · rw [e]; exact ⟨rfl, by rw [hl.nr, hl.nc, hs]⟩
      · rw [e]; rfl
    · rw [choleskyDirty_notSquare a hs]; rfl
  · rintro l _ ⟨rfl, hl⟩
    by_cases hb : b.nr = l.nr
    · refine relM_bind (h.solveTriangularSystem l .lower _ _ hl hb fun i hi => Arr2.at_ok hi (hl ▸ hi)) ?_
      rintro x y ⟨h1, h2, h3, h4⟩
      refine relM_mono (h1.solveTriangularSystem l.t .upper _ _ hl.symm (by rw [h2, hb, hl]; rfl)
        fun i hi => Arr2.at_ok hi (by rw [Arr2.t] at hi ⊢; simp only at hi ⊢; omega)) ?_
      rintro x' y' ⟨g1, g2, g3, g4⟩
      exact ⟨g1, by omega, by omega, by omega⟩
    · unfold solveTriangular
      rw [solveTriangularSystem_wrongRows l b .lower _ hl hb,
        solveTriangularSystem_wrongRows l b' .lower _ hl (by rw [← h.nr]; exact hb), h.nr]
      rfl

theorem solveInto_col {P : Nat → Nat → Prop} {b b' : Arr2 α} (h : ColRel P b b') {m n : Nat} {q : QRDecomp α}
    (hq : QRShape m n q) (hnm : n ≤ m) :
    RelM (fun x y => ColRel P x y ∧ x.nr = n ∧ x.nc = b.nc ∧ y.nc = b'.nc) (q.solveInto b) (q.solveInto b') := by
  obtain ⟨c1, c2, c3⟩ := hq.solveInto_cases hnm b
  obtain ⟨d1, d2, d3⟩ := hq.solveInto_cases hnm b'
  by_cases hb : b.nr = m
  · by_cases hi : q.isInvertible = true
    · obtain ⟨c, x, e1, s1, s2, e2, e3, -⟩ := c3 hb hi
      obtain ⟨c', x', e1', s1', s2', e2', e3', -⟩ := d3 (by rw [← h.nr, hb]) hi
      have hrel := qtMul_col hq hnm hb h
      rw [e1, e1', relM_ok] at hrel
      rw [e3, e3', ← e2, ← e2']
      have hc : ColRel P (⟨n, b.nc, c.get⟩ : Arr2 α) ⟨n, b'.nc, c'.get⟩ := ⟨rfl, h.lt, hrel.1.get⟩
      exact hc.solveTriangularSystem ⟨n, n, q.qr.get⟩ .upper q.absDiag _ rfl rfl (fun i hi => hq.absDiag_ok i hi)
    · rw [c2 hb (by simpa using hi), d2 (by rw [← h.nr, hb]) (by simpa using hi)]; rfl
  · rw [c1 hb, d1 (by rw [← h.nr]; exact hb), h.nr]; rfl

theorem solveTrInto_col {P : Nat → Nat → Prop} {b b' : Arr2 α} (h : ColRel P b b') {m n : Nat} {q : QRDecomp α}
    (hq : QRShape m n q) (hnm : n ≤ m) :
    RelM (fun x y => ColRel P x y ∧ x.nr = m ∧ x.nc = b.nc ∧ y.nc = b'.nc) (q.solveTrInto b) (q.solveTrInto b') := by
  obtain ⟨c1, c2, c3⟩ := hq.solveTrInto_cases hnm b
  obtain ⟨d1, d2, d3⟩ := hq.solveTrInto_cases hnm b'
  by_cases hb : b.nr = n
  · by_cases hi : q.isInvertible = true
    · obtain ⟨y, r, x, e1, e2, s1, s2, e3, e4, -⟩ := c3 hb hi
      obtain ⟨y', r', x', e1', e2', -, -, e3', e4', -⟩ := d3 (by rw [← h.nr, hb]) hi
      obtain rfl := Except.ok.inj (e2.symm.trans e2')
      have hrel := h.solveTriangularSystem ⟨n, n, fun i j => q.qr.get j i⟩ .lower q.absDiag _ rfl hb
        (fun i hi => hq.absDiag_ok i hi)
      rw [e1, e1', relM_ok] at hrel
      rw [e4, e4', ← e3, ← e3']
      refine relM_mono (hrel.1.dot r) ?_
      rintro x y ⟨g1, g2, g3, g4⟩
      exact ⟨g1, by omega, by omega, by omega⟩
    · rw [c2 hb (by simpa using hi), d2 (by rw [← h.nr, hb]) (by simpa using hi)]; rfl
  · rw [c1 hb, d1 (by rw [← h.nr]; exact hb), h.nr]; rfl

end LinfaLinalg
