import Verif.Proofs.ParamLib
import Verif.Model.Svd
import Verif.Model.SortOrder

/-! # The singular value decomposition and the sorts respect relations between scalars -/

set_option linter.unusedSectionVars false

namespace LinfaLinalg.Par

variable {α : Type} [Zero α] [One α] [Add α] [Sub α] [Mul α] [Div α] [Neg α] [NdFloat α]
variable {β : Type} [Zero β] [One β] [Add β] [Sub β] [Mul β] [Div β] [Neg β] [NdFloat β]
variable {R : α → β → Prop} [hR : ScalarRel R]

/-! ### Bidiagonal form -/

/-- Related bidiagonal decompositions. -/
structure RelBidiagonalDecomp (R : α → β → Prop) (p : BidiagonalDecomp α) (q : BidiagonalDecomp β) : Prop where
  uv : RelA2 R p.uv q.uv
  offDiagonal : RelA1 R p.offDiagonal q.offDiagonal
  diagonal : RelA1 R p.diagonal q.diagonal
  upperDiag : p.upperDiag = q.upperDiag

theorem facts_RelBidiagonalDecomp {T : BidiagonalDecomp α → BidiagonalDecomp β → Prop}
    (h : ∀ a b, RelBidiagonalDecomp R a b → a.upperDiag = b.upperDiag → T a b) : ∀ a b, RelBidiagonalDecomp R a b → T a b :=
  fun a b hab => h a b hab hab.upperDiag

@[rel_rule] theorem relBidiagonalDecomp_mk {a : Arr2 α} {b : Arr2 β} {d o : Arr1 α} {d' o' : Arr1 β} {u u' : Bool}
    (h : RelA2 R a b) (ho : RelA1 R o o') (hd : RelA1 R d d') (hu : u = u') :
    RelBidiagonalDecomp R ⟨a, o, d, u⟩ ⟨b, o', d', u'⟩ := ⟨h, ho, hd, hu⟩
attribute [rel_rule] RelBidiagonalDecomp.uv RelBidiagonalDecomp.offDiagonal RelBidiagonalDecomp.diagonal
  RelBidiagonalDecomp.upperDiag

@[rel_rule] theorem rel_bidiagonal {a : Arr2 α} {b : Arr2 β} (h : RelA2 R a b) :
    RelM (RelBidiagonalDecomp R) (bidiagonal a) (bidiagonal b) := by
  have h1 := h.nr
  have h2 := h.nc
  unfold bidiagonal
  rel

@[rel_rule] theorem rel_generateU {p : BidiagonalDecomp α} {q : BidiagonalDecomp β} (h : RelBidiagonalDecomp R p q) :
    RelM (RelA2 R) p.generateU q.generateU := by
  unfold BidiagonalDecomp.generateU
  rel

@[rel_rule] theorem rel_generateVt {p : BidiagonalDecomp α} {q : BidiagonalDecomp β} (h : RelBidiagonalDecomp R p q) :
    RelM (RelA2 R) p.generateVt q.generateVt := by
  unfold BidiagonalDecomp.generateVt
  rel

@[rel_rule] theorem rel_bidIntoDiagonals {p : BidiagonalDecomp α} {q : BidiagonalDecomp β}
    (h : RelBidiagonalDecomp R p q) : RelP (RelA1 R) (RelA1 R) p.intoDiagonals q.intoDiagonals := by
  unfold BidiagonalDecomp.intoDiagonals
  rel

@[rel_rule] theorem rel_fromDiag {a : Arr1 α} {b : Arr1 β} (h : RelA1 R a b) : RelA2 R (Arr2.fromDiag a) (Arr2.fromDiag b) :=
  ⟨h.len, h.len, fun i hi _ _ => rel_ite Iff.rfl (fun _ => h.get i hi) (fun _ => ScalarRel.zero)⟩

@[rel_rule] theorem rel_intoB {p : BidiagonalDecomp α} {q : BidiagonalDecomp β} (h : RelBidiagonalDecomp R p q) :
    RelM (RelA2 R) p.intoB q.intoB := by
  have h1 := h.diagonal.len
  have h2 := h.upperDiag
  unfold BidiagonalDecomp.intoB
  rw [← h2]
  rel

/-! ### Singular values -/

@[rel_rule] theorem rel_colsStep {a : Arr2 α} {b : Arr2 β} (h : RelA2 R a b) {c0 c1 s c0' c1' s' : Nat} (h0 : c0 = c0')
    (h1 : c1 = c1') (h2 : s = s') : RelM (RelA2 R) (a.colsStep c0 c1 s) (b.colsStep c0' c1' s') := by
  subst h0 h1 h2
  have g1 := h.nr
  have g2 := h.nc
  unfold Arr2.colsStep
  refine relM_ite (by rw [g2]) (fun hc => ⟨g1, rfl, fun i hi j hj => h.get i hi _ ?_⟩) (fun _ => rfl)
  simp only at hi hj
  have hs : 0 < s := Nat.pos_of_ne_zero hc.1
  have h3 : j * s + s ≤ c1 - c0 + (s - 1) := by
    have := (Nat.le_div_iff_mul_le hs).1 (Nat.succ_le_of_lt hj)
    rwa [Nat.succ_mul] at this
  omega

@[rel_rule] theorem rel_putColsStep {a : Arr2 α} {b : Arr2 β} (h : RelA2 R a b) {c0 s c0' s' : Nat} (h0 : c0 = c0')
    (h2 : s = s') {v : Arr2 α} {w : Arr2 β} (hv : RelA2 R v w) : RelA2 R (a.putColsStep c0 s v) (b.putColsStep c0' s' w) := by
  subst h0 h2
  refine ⟨h.nr, h.nc, fun i hi j hj => ?_⟩
  exact rel_ite (by rw [hv.nr, hv.nc]) (fun hc => hv.get _ hc.1 _ hc.2.2.2) (fun _ => h.get i hi j hj)

@[rel_rule] theorem rel_rotateUCols {g : GivensRotation α} {g' : GivensRotation β} (hg : RelGivensRotation R g g')
    {c0 c1 s c0' c1' s' : Nat} (h0 : c0 = c0') (h1 : c1 = c1') (h2 : s = s') {q : Option (Arr2 α)} {q' : Option (Arr2 β)}
    (hq : RelO (RelA2 R) q q') : RelM (RelO (RelA2 R)) (rotateUCols g c0 c1 s q) (rotateUCols g' c0' c1' s' q') := by
  subst h0 h1 h2
  rcases q with _ | a <;> rcases q' with _ | b
  · trivial
  · exact hq.elim
  · exact hq.elim
  · have h : RelA2 R a b := hq
    unfold rotateUCols
    rel

@[rel_rule] theorem rel_rotateVtRows {g : GivensRotation α} {g' : GivensRotation β} (hg : RelGivensRotation R g g')
    {c0 c1 s c0' c1' s' : Nat} (h0 : c0 = c0') (h1 : c1 = c1') (h2 : s = s') {q : Option (Arr2 α)} {q' : Option (Arr2 β)}
    (hq : RelO (RelA2 R) q q') : RelM (RelO (RelA2 R)) (rotateVtRows g c0 c1 s q) (rotateVtRows g' c0' c1' s' q') := by
  subst h0 h1 h2
  rcases q with _ | a <;> rcases q' with _ | b
  · trivial
  · exact hq.elim
  · exact hq.elim
  · have h : RelA2 R a b := hq
    unfold rotateVtRows
    rel

/-- Related data of the singular value iteration. -/
structure RelSvdData (R : α → β → Prop) (p : SvdData α) (q : SvdData β) : Prop where
  diag : RelA1 R p.diag q.diag
  off : RelA1 R p.off q.off
  u : RelO (RelA2 R) p.u q.u
  vt : RelO (RelA2 R) p.vt q.vt

@[rel_rule] theorem relSvdData_mk {d o : Arr1 α} {d' o' : Arr1 β} {u v : Option (Arr2 α)} {u' v' : Option (Arr2 β)}
    (hd : RelA1 R d d') (ho : RelA1 R o o') (hu : RelO (RelA2 R) u u') (hv : RelO (RelA2 R) v v') :
    RelSvdData R ⟨d, o, u, v⟩ ⟨d', o', u', v'⟩ := ⟨hd, ho, hu, hv⟩
attribute [rel_rule] RelSvdData.diag RelSvdData.off RelSvdData.u RelSvdData.vt

/-- Related states of the loops that cancel an element. -/
structure RelCancelState (R : α → β → Prop) (p : CancelState α) (q : CancelState β) : Prop where
  s : RelSvdData R p.s q.s
  v0 : R p.v0 q.v0
  v1 : R p.v1 q.v1

@[rel_rule] theorem relCancelState_mk {s : SvdData α} {s' : SvdData β} {x y : α} {x' y' : β} (hs : RelSvdData R s s')
    (hx : R x x') (hy : R y y') : RelCancelState R ⟨s, x, y⟩ ⟨s', x', y'⟩ := ⟨hs, hx, hy⟩
attribute [rel_rule] RelCancelState.s RelCancelState.v0 RelCancelState.v1

@[rel_rule] theorem rel_cancelHStep {up up' : Bool} (hup : up = up') {i i' e e' k k' : Nat} (hi : i = i') (he : e = e')
    (hk : k = k') {p : CancelState α} {q : CancelState β} (h : RelCancelState R p q) :
    RelM (RelStep (RelCancelState R)) (cancelHStep up i e k p) (cancelHStep up' i' e' k' q) := by
  subst hup hi he hk
  unfold cancelHStep
  rel

@[rel_rule] theorem rel_cancelH {up up' : Bool} (hup : up = up') {i i' e e' : Nat} (hi : i = i') (he : e = e')
    {p : SvdData α} {q : SvdData β} (h : RelSvdData R p q) :
    RelM (RelSvdData R) (cancelH up i e p) (cancelH up' i' e' q) := by
  subst hup hi he
  unfold cancelH
  rel

@[rel_rule] theorem rel_cancelVStep {up up' : Bool} (hup : up = up') {i i' k k' : Nat} (hi : i = i') (hk : k = k')
    {p : CancelState α} {q : CancelState β} (h : RelCancelState R p q) :
    RelM (RelStep (RelCancelState R)) (cancelVStep up i k p) (cancelVStep up' i' k' q) := by
  subst hup hi hk
  unfold cancelVStep
  rel

@[rel_rule] theorem rel_cancelV {up up' : Bool} (hup : up = up') {i i' : Nat} (hi : i = i')
    {p : SvdData α} {q : SvdData β} (h : RelSvdData R p q) :
    RelM (RelSvdData R) (cancelV up i p) (cancelV up' i' q) := by
  subst hup hi
  unfold cancelV
  rel

@[rel_rule] theorem rel_svdDelimitEnd {up up' : Bool} (hup : up = up') {e : α} {e' : β} (he : R e e') {n n' : Nat}
    (hn : n = n') {p : SvdData α} {q : SvdData β} (h : RelSvdData R p q) :
    RelM (RelP (RelSvdData R) Eq) (svdDelimitEnd up e n p) (svdDelimitEnd up' e' n' q) := by
  subst hup hn
  induction n generalizing p q with
  | zero => exact ⟨h, rfl⟩
  | succ m ih => unfold svdDelimitEnd; rel

@[rel_rule] theorem rel_svdDelimitStart {up up' : Bool} (hup : up = up') {e : α} {e' : β} (he : R e e') {n n' m m' : Nat}
    (hn : n = n') (hm : m = m') {p : SvdData α} {q : SvdData β} (h : RelSvdData R p q) :
    RelM (RelP (RelSvdData R) Eq) (svdDelimitStart up e n m p) (svdDelimitStart up' e' n' m' q) := by
  subst hup hn hm
  induction m generalizing p q with
  | zero => exact ⟨h, rfl⟩
  | succ m ih => unfold svdDelimitStart; rel

@[rel_rule] theorem rel_svdDelimit {up up' : Bool} (hup : up = up') {n n' : Nat} (hn : n = n') {e : α} {e' : β} (he : R e e')
    {p : SvdData α} {q : SvdData β} (h : RelSvdData R p q) :
    RelM (RelP (RelSvdData R) (RelP Eq Eq)) (svdDelimit up n e p) (svdDelimit up' n' e' q) := by
  subst hup hn
  unfold svdDelimit
  rel

@[rel_rule] theorem rel_compute2x2UptrigSvd {a b c : α} {a' b' c' : β} (ha : R a a') (hb : R b b') (hc : R c c')
    {u u' v v' : Bool} (hu : u = u') (hv : v = v') :
    RelP R (RelP R (RelP (RelO (RelGivensRotation R)) (RelO (RelGivensRotation R))))
      (compute2x2UptrigSvd a b c u v) (compute2x2UptrigSvd a' b' c' u' v') := by
  subst hu hv
  unfold compute2x2UptrigSvd
  rel

/-- Related states of the main loop. -/
structure RelSvdState (R : α → β → Prop) (p : SvdState α) (q : SvdState β) : Prop where
  s : RelSvdData R p.s q.s
  start : p.start = q.start
  «end» : p.end = q.end

theorem facts_RelSvdState {T : SvdState α → SvdState β → Prop}
    (h : ∀ a b, RelSvdState R a b → a.start = b.start → a.end = b.end → T a b) : ∀ a b, RelSvdState R a b → T a b :=
  fun a b hab => h a b hab hab.start hab.end

@[rel_rule] theorem relSvdState_mk {d : SvdData α} {d' : SvdData β} {s s' e e' : Nat} (hd : RelSvdData R d d') (hs : s = s')
    (he : e = e') : RelSvdState R ⟨d, s, e⟩ ⟨d', s', e'⟩ := ⟨hd, hs, he⟩
attribute [rel_rule] RelSvdState.s RelSvdState.start RelSvdState.end

/-- Related states of the sweep. -/
structure RelSvdSweep (R : α → β → Prop) (p : SvdSweep α) (q : SvdSweep β) : Prop where
  s : RelSvdData R p.s q.s
  x : R p.x q.x
  y : R p.y q.y

@[rel_rule] theorem relSvdSweep_mk {s : SvdData α} {s' : SvdData β} {x y : α} {x' y' : β} (hs : RelSvdData R s s')
    (hx : R x x') (hy : R y y') : RelSvdSweep R ⟨s, x, y⟩ ⟨s', x', y'⟩ := ⟨hs, hx, hy⟩
attribute [rel_rule] RelSvdSweep.s RelSvdSweep.x RelSvdSweep.y

@[rel_rule] theorem relA2_mk {r c r' c' : Nat} {f : Nat → Nat → α} {g : Nat → Nat → β} (hr : r = r') (hc : c = c')
    (hf : ∀ i < r, ∀ j < c, R (f i j) (g i j)) : RelA2 R ⟨r, c, f⟩ ⟨r', c', g⟩ := ⟨hr, hc, hf⟩

@[rel_rule] theorem relA1_mk {r r' : Nat} {f : Nat → α} {g : Nat → β} (hr : r = r')
    (hf : ∀ i < r, R (f i) (g i)) : RelA1 R ⟨r, f⟩ ⟨r', g⟩ := ⟨hr, hf⟩

@[rel_rule] theorem rel_svdSweepStep {up up' : Bool} (hup : up = up') {s s' n n' k k' : Nat} (hs : s = s') (hn : n = n')
    (hk : k = k') {p : SvdSweep α} {q : SvdSweep β} (h : RelSvdSweep R p q) :
    RelM (RelStep (RelSvdSweep R)) (svdSweepStep up s n k p) (svdSweepStep up' s' n' k' q) := by
  subst hup hs hn hk
  unfold svdSweepStep
  rel

@[rel_rule] theorem rel_svdSweep {up up' : Bool} (hup : up = up') {p : SvdState α} {q : SvdState β} (h : RelSvdState R p q) :
    RelM (RelSvdState R) (svdSweep up p) (svdSweep up' q) := by
  subst hup
  have h1 := h.start
  have h2 := h.end
  unfold svdSweep
  rel

@[rel_rule] theorem rel_svdRotU {o : Option (GivensRotation α)} {o' : Option (GivensRotation β)}
    (ho : RelO (RelGivensRotation R) o o') {s s' : Nat} (hs : s = s') {q : Option (Arr2 α)} {q' : Option (Arr2 β)}
    (hq : RelO (RelA2 R) q q') : RelM (RelO (RelA2 R)) (svdRotU o s q) (svdRotU o' s' q') := by
  subst hs
  rcases q with _ | a <;> rcases q' with _ | b
  · trivial
  · exact hq.elim
  · exact hq.elim
  · rcases o with _ | a <;> rcases o' with _ | b
    · rfl
    · exact ho.elim
    · exact ho.elim
    · exact rel_rotateUCols ho rfl rfl rfl hq

@[rel_rule] theorem rel_svdRotVt {o : Option (GivensRotation α)} {o' : Option (GivensRotation β)}
    (ho : RelO (RelGivensRotation R) o o') {s s' : Nat} (hs : s = s') {q : Option (Arr2 α)} {q' : Option (Arr2 β)}
    (hq : RelO (RelA2 R) q q') : RelM (RelO (RelA2 R)) (svdRotVt o s q) (svdRotVt o' s' q') := by
  subst hs
  rcases q with _ | a <;> rcases q' with _ | b
  · trivial
  · exact hq.elim
  · exact hq.elim
  · rcases o with _ | a <;> rcases o' with _ | b
    · rfl
    · exact ho.elim
    · exact ho.elim
    · exact rel_rotateVtRows (rel_givensInverse ho) rfl rfl rfl hq

@[rel_rule] theorem rel_svd2x2 {up up' u u' v v' : Bool} (hup : up = up') (hu : u = u') (hv : v = v') {p : SvdState α}
    {q : SvdState β} (h : RelSvdState R p q) : RelM (RelSvdState R) (svd2x2 up u v p) (svd2x2 up' u' v' q) := by
  subst hup hu hv
  have h1 := h.start
  have h2 := h.end
  unfold svd2x2
  rel

@[rel_rule] theorem rel_svdStep {up up' u u' v v' : Bool} (hup : up = up') (hu : u = u') (hv : v = v') {e : α} {e' : β}
    (he : R e e') {p : SvdState α} {q : SvdState β} (h : RelSvdState R p q) :
    RelM (RelSvdState R) (svdStep up u v e p) (svdStep up' u' v' e' q) := by
  subst hup hu hv
  have h1 := h.start
  have h2 := h.end
  unfold svdStep
  rel

@[rel_rule] theorem rel_svdLoop {up up' u u' v v' : Bool} (hup : up = up') (hu : u = u') (hv : v = v') {e : α} {e' : β}
    (he : R e e') {n n' : Nat} (hn : n = n') {p : SvdState α} {q : SvdState β} (h : RelSvdState R p q) :
    RelM (RelSvdState R) (svdLoop up u v e n p) (svdLoop up' u' v' e' n' q) := by
  subst hup hu hv hn
  have h1 := h.start
  have h2 := h.end
  induction n generalizing p q with
  | zero => unfold svdLoop; rel
  | succ m ih => unfold svdLoop; rel

@[rel_rule] theorem rel_scaleCol {i i' : Nat} (hi : i = i') {k : α} {l : β} (hk : R k l) {q : Option (Arr2 α)}
    {q' : Option (Arr2 β)} (hq : RelO (RelA2 R) q q') : RelM (RelO (RelA2 R)) (scaleCol i k q) (scaleCol i' l q') := by
  subst hi
  rcases q with _ | a <;> rcases q' with _ | b
  · trivial
  · exact hq.elim
  · exact hq.elim
  · have h : RelA2 R a b := hq
    unfold scaleCol
    refine relM_ite (by rw [h.nc]) (fun _ => relO_some ⟨h.nr, h.nc, fun r hr c hc => ?_⟩) (fun _ => rfl)
    exact rel_ite Iff.rfl (fun _ => ScalarRel.mul (h.get r hr c hc) hk) (fun _ => h.get r hr c hc)

@[rel_rule] theorem rel_fixSigns {n n' : Nat} (hn : n = n') {d : Arr1 α} {d' : Arr1 β} (hd : RelA1 R d d')
    {q : Option (Arr2 α)} {q' : Option (Arr2 β)} (hq : RelO (RelA2 R) q q') :
    RelM (RelP (RelA1 R) (RelO (RelA2 R))) (fixSigns n d q) (fixSigns n' d' q') := by
  subst hn
  unfold fixSigns
  rel

@[rel_rule] theorem rel_svdGo {n n' : Nat} (hn : n = n') {a : Arr2 α} {b : Arr2 β} (h : RelA2 R a b) {u u' v v' : Bool}
    (hu : u = u') (hv : v = v') {e : α} {e' : β} (he : R e e') :
    RelM (RelP (RelO (RelA2 R)) (RelP (RelA1 R) (RelO (RelA2 R)))) (svdGo n a u v e) (svdGo n' b u' v' e') := by
  subst hn hu hv
  have h1 := h.nr
  have h2 := h.nc
  unfold svdGo
  rel

@[rel_rule] theorem rel_svdInto {n n' : Nat} (hn : n = n') {a : Arr2 α} {b : Arr2 β} (h : RelA2 R a b) {u u' v v' : Bool}
    (hu : u = u') (hv : v = v') :
    RelM (RelP (RelO (RelA2 R)) (RelP (RelA1 R) (RelO (RelA2 R)))) (svdInto n a u v) (svdInto n' b u' v') := by
  unfold svdInto
  rel

@[rel_rule] theorem rel_svd {n n' : Nat} (hn : n = n') {a : Arr2 α} {b : Arr2 β} (h : RelA2 R a b) {u u' v v' : Bool}
    (hu : u = u') (hv : v = v') :
    RelM (RelP (RelO (RelA2 R)) (RelP (RelA1 R) (RelO (RelA2 R)))) (svd n a u v) (svd n' b u' v') := by
  unfold svd
  rel

/-! ### Norms and sorts -/

@[rel_rule] theorem rel_normL1 {l : List α} {l' : List β} (h : List.Forall₂ R l l') : R (normL1 l) (normL1 l') :=
  forall₂_foldl (forall₂_map h fun _ _ h => ScalarRel.abs h) ScalarRel.zero fun _ _ h _ _ h' => ScalarRel.add h h'

@[rel_rule] theorem rel_normL2 {l : List α} {l' : List β} (h : List.Forall₂ R l l') : R (normL2 l) (normL2 l') :=
  ScalarRel.sqrt (forall₂_foldl (S := R) (forall₂_map h fun _ _ h => ScalarRel.mul h h) ScalarRel.zero
    fun _ _ h _ _ h' => ScalarRel.add h h')

@[rel_rule] theorem rel_normMax {l : List α} {l' : List β} (h : List.Forall₂ R l l') : R (normMax l) (normMax l') :=
  forall₂_foldl h ScalarRel.zero fun _ _ h _ _ h' => ScalarRel.max (ScalarRel.abs h') h

@[rel_rule] theorem rel_isNaN {a : α} {b : β} (h : R a b) : isNaN a = isNaN b := by
  unfold isNaN
  rel

@[rel_rule] theorem rel_leOrd {o o' : Order} (ho : o = o') {a a' : α} {b b' : β} (h : R a b) (h' : R a' b') :
    leOrd o a a' = leOrd o' b b' := by
  subst ho
  cases o
  · exact ScalarRel.le h' h
  · exact ScalarRel.le h h'

theorem rel_stableInsert {A B : Type} {S : A → B → Prop} {le : A → A → Bool} {le' : B → B → Bool}
    (hle : ∀ a b, S a b → ∀ a' b', S a' b' → le a a' = le' b b') {x : A} {y : B} (hx : S x y) {l : List A} {l' : List B}
    (h : List.Forall₂ S l l') : List.Forall₂ S (stableInsert le x l) (stableInsert le' y l') := by
  induction h with
  | nil => exact .cons hx .nil
  | cons hab hl ih =>
    unfold stableInsert
    refine rel_ite (by rw [hle _ _ hx _ _ hab]) (fun _ => .cons hx (.cons hab hl)) (fun _ => .cons hab ih)

theorem rel_stableSort {A B : Type} {S : A → B → Prop} {le : A → A → Bool} {le' : B → B → Bool}
    (hle : ∀ a b, S a b → ∀ a' b', S a' b' → le a a' = le' b b') {l : List A} {l' : List B}
    (h : List.Forall₂ S l l') : List.Forall₂ S (stableSort le l) (stableSort le' l') := by
  induction h with
  | nil => exact .nil
  | cons hab hl ih => exact rel_stableInsert hle hab ih

@[rel_rule] theorem rel_sortBy {A B : Type} {S : A → B → Prop} {key : A → α} {key' : B → β}
    (hk : ∀ a b, S a b → R (key a) (key' b)) {o o' : Order} (ho : o = o') {l : List A} {l' : List B}
    (h : List.Forall₂ S l l') : RelM (List.Forall₂ S) (sortBy key o l) (sortBy key' o' l') := by
  unfold sortBy
  refine relM_ite ?_ (fun _ => rfl) (fun _ => ?_)
  · rw [h.length_eq, forall₂_any h (q := fun x => isNaN (key' x)) fun a b hab => rel_isNaN (hk a b hab)]
  · exact rel_stableSort (fun a b hab a' b' hab' => rel_leOrd ho (hk a b hab) (hk a' b' hab')) h

@[rel_rule] theorem rel_enumerate {a : Arr1 α} {b : Arr1 β} (h : RelA1 R a b) :
    List.Forall₂ (RelP Eq R) a.enumerate b.enumerate :=
  forall₂_map_range h.len fun i hi => ⟨rfl, h.get i hi⟩

theorem forall₂_getElem? {A B : Type} {S : A → B → Prop} {l : List A} {l' : List B} (h : List.Forall₂ S l l') (i : Nat) :
    RelO S l[i]? l'[i]? := by
  induction h generalizing i with
  | nil => trivial
  | cons hab hl ih =>
    cases i with
    | zero => exact hab
    | succ i => exact ih i

theorem forall₂_getD {A B : Type} {S : A → B → Prop} {l : List A} {l' : List B} (h : List.Forall₂ S l l') (i : Nat)
    {a : A} {b : B} (hab : S a b) : S (l.getD i a) (l'.getD i b) := by
  rw [List.getD_eq_getElem?_getD, List.getD_eq_getElem?_getD]
  exact relO_getD (forall₂_getElem? h i) hab

@[rel_rule] theorem rel_assignSnd {a : Arr1 α} {b : Arr1 β} (h : RelA1 R a b) {l : List (Nat × α)} {l' : List (Nat × β)}
    (hl : List.Forall₂ (RelP Eq R) l l') : RelA1 R (a.assignSnd l) (b.assignSnd l') := by
  refine ⟨h.len, fun i hi => ?_⟩
  have h2 := forall₂_getElem? hl i
  show R (match l[i]? with | some p => p.2 | none => a.get i) (match l'[i]? with | some p => p.2 | none => b.get i)
  revert h2
  rcases l[i]? with _ | p <;> rcases l'[i]? with _ | q <;> intro h2
  · exact h.get i hi
  · exact h2.elim
  · exact h2.elim
  · exact h2.2

@[rel_rule] theorem rel_permuteCols {a : Arr2 α} {b : Arr2 β} (h : RelA2 R a b) {l : List (Nat × α)} {l' : List (Nat × β)}
    (hl : List.Forall₂ (RelP Eq R) l l') : RelM (RelA2 R) (permuteCols a l) (permuteCols b l') := by
  have h1 := h.nr
  have h2 := h.nc
  have h3 := hl.length_eq
  unfold permuteCols
  refine rel_forRange rfl h3 (rel_zeros2 h1 h2) fun i _ _ s t hst => ?_
  have h4 := hst.nc
  have h2 := forall₂_getElem? hl i
  revert h2
  rcases l[i]? with _ | p <;> rcases l'[i]? with _ | q <;> intro h2
  · exact hst
  · exact h2.elim
  · exact h2.elim
  · have h5 : p.1 = q.1 := h2.1
    dsimp only
    rel

@[rel_rule] theorem rel_sortEigVals {a : Arr1 α} {b : Arr1 β} (h : RelA1 R a b) {o o' : Order} (ho : o = o') :
    RelM (RelA1 R) (sortEigVals a o) (sortEigVals b o') := by
  unfold sortEigVals
  refine relM_bind (rel_sortBy (S := R) (fun _ _ h => h) ho (rel_toList1 h)) fun l l' hl => ?_
  exact ⟨h.len, fun i hi => forall₂_getD hl i (h.get i hi)⟩

@[rel_rule] theorem rel_sortEig {d : Arr1 α} {d' : Arr1 β} (hd : RelA1 R d d') {a : Arr2 α} {b : Arr2 β} (h : RelA2 R a b)
    {o o' : Order} (ho : o = o') : RelM (RelP (RelA1 R) (RelA2 R)) (sortEig d a o) (sortEig d' b o') := by
  unfold sortEig
  rel

@[rel_rule] theorem rel_permuteColsOpt {l : List (Nat × α)} {l' : List (Nat × β)} (hl : List.Forall₂ (RelP Eq R) l l')
    {q : Option (Arr2 α)} {q' : Option (Arr2 β)} (hq : RelO (RelA2 R) q q') :
    RelM (RelO (RelA2 R)) (permuteColsOpt l q) (permuteColsOpt l' q') := by
  rcases q with _ | a <;> rcases q' with _ | b
  · trivial
  · exact hq.elim
  · exact hq.elim
  · have h : RelA2 R a b := hq
    unfold permuteColsOpt
    rel

@[rel_rule] theorem rel_permuteRowsOpt {l : List (Nat × α)} {l' : List (Nat × β)} (hl : List.Forall₂ (RelP Eq R) l l')
    {q : Option (Arr2 α)} {q' : Option (Arr2 β)} (hq : RelO (RelA2 R) q q') :
    RelM (RelO (RelA2 R)) (permuteRowsOpt l q) (permuteRowsOpt l' q') := by
  rcases q with _ | a <;> rcases q' with _ | b
  · trivial
  · exact hq.elim
  · exact hq.elim
  · have h : RelA2 R a b := hq
    unfold permuteRowsOpt
    rel

@[rel_rule] theorem rel_sortSvd {u v : Option (Arr2 α)} {u' v' : Option (Arr2 β)} (hu : RelO (RelA2 R) u u') {d : Arr1 α}
    {d' : Arr1 β} (hd : RelA1 R d d') (hv : RelO (RelA2 R) v v') {o o' : Order} (ho : o = o') :
    RelM (RelP (RelO (RelA2 R)) (RelP (RelA1 R) (RelO (RelA2 R)))) (sortSvd u d v o) (sortSvd u' d' v' o') := by
  unfold sortSvd
  rel

end LinfaLinalg.Par
