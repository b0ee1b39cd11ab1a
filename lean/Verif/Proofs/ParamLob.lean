import Verif.Proofs.ParamSvd
import Verif.Model.TruncatedSvd

/-! # LOBPCG and the truncated decompositions respect relations between scalars -/

set_option linter.unusedSectionVars false

namespace LinfaLinalg.Par

variable {α : Type} [Zero α] [One α] [Add α] [Sub α] [Mul α] [Div α] [Neg α] [NdFloat α]
variable {β : Type} [Zero β] [One β] [Add β] [Sub β] [Mul β] [Div β] [Neg β] [NdFloat β]
variable {R : α → β → Prop} [hR : ScalarRel R]

@[rel_rule] theorem rel_scaleCols {a : Arr2 α} {b : Arr2 β} (h : RelA2 R a b) {d : Arr1 α} {e : Arr1 β} (hd : RelA1 R d e) :
    RelM (RelA2 R) (a.scaleCols d) (b.scaleCols e) := by
  have h1 := h.nr
  have h2 := h.nc
  have h3 := hd.len
  unfold Arr2.scaleCols
  refine relM_ite (by rw [h2, h3]) (fun hc => ⟨h1, h2, fun i hi j hj => ?_⟩) (fun _ => rfl)
  exact ScalarRel.mul (h.get i hi j hj) (hd.get j (hc ▸ hj))

@[rel_rule] theorem rel_add {a a' : Arr2 α} {b b' : Arr2 β} (h : RelA2 R a b) (h' : RelA2 R a' b') :
    RelM (RelA2 R) (a.add a') (b.add b') := by
  have h1 := h.nr
  have h2 := h.nc
  have h3 := h'.nr
  have h4 := h'.nc
  unfold Arr2.add
  refine relM_ite (by omega) (fun hc => ⟨h1, h2, fun i hi j hj => ?_⟩) (fun _ => rfl)
  exact ScalarRel.add (h.get i hi j hj) (h'.get i (hc.1 ▸ hi) j (hc.2 ▸ hj))

@[rel_rule] theorem rel_sub {a a' : Arr2 α} {b b' : Arr2 β} (h : RelA2 R a b) (h' : RelA2 R a' b') :
    RelM (RelA2 R) (a.sub a') (b.sub b') := by
  have h1 := h.nr
  have h2 := h.nc
  have h3 := h'.nr
  have h4 := h'.nc
  unfold Arr2.sub
  refine relM_ite (by omega) (fun hc => ⟨h1, h2, fun i hi j hj => ?_⟩) (fun _ => rfl)
  exact ScalarRel.sub (h.get i hi j hj) (h'.get i (hc.1 ▸ hi) j (hc.2 ▸ hj))

@[rel_rule] theorem rel_hcat {a a' : Arr2 α} {b b' : Arr2 β} (h : RelA2 R a b) (h' : RelA2 R a' b') :
    RelM (RelA2 R) (a.hcat a') (b.hcat b') := by
  have h1 := h.nr
  have h2 := h.nc
  have h3 := h'.nr
  have h4 := h'.nc
  unfold Arr2.hcat
  refine relM_ite (by omega) (fun hc => relA2_mk h1 (by omega) fun i hi j hj => ?_) (fun _ => rfl)
  refine rel_ite (by omega) (fun hj => h.get i hi j hj) (fun _ => ?_)
  rw [← h2]
  exact h'.get i (by omega) _ (by omega)

@[rel_rule] theorem rel_vcat {a a' : Arr2 α} {b b' : Arr2 β} (h : RelA2 R a b) (h' : RelA2 R a' b') :
    RelM (RelA2 R) (a.vcat a') (b.vcat b') := by
  have h1 := h.nr
  have h2 := h.nc
  have h3 := h'.nr
  have h4 := h'.nc
  unfold Arr2.vcat
  refine relM_ite (by omega) (fun hc => relA2_mk (by omega) h2 fun i hi j hj => ?_) (fun _ => rfl)
  refine rel_ite (by omega) (fun hi => h.get i hi j hj) (fun _ => ?_)
  rw [← h1]
  exact h'.get _ (by omega) j (by omega)

@[rel_rule] theorem rel_selectCols {a : Arr2 α} {b : Arr2 β} (h : RelA2 R a b) {l l' : List Nat} (hl : l = l') :
    RelM (RelA2 R) (a.selectCols l) (b.selectCols l') := by
  subst hl
  have h2 := h.nc
  unfold Arr2.selectCols
  refine relM_ite (by rw [h2]) (fun hc => relA2_mk h.nr rfl fun i hi j hj => h.get i hi _ ?_) (fun _ => rfl)
  rw [List.all_eq_true] at hc
  have := hc (l.getD j 0) (by rw [List.getD_eq_getElem?_getD, List.getElem?_eq_getElem hj]; exact List.getElem_mem hj)
  simpa using this

@[rel_rule] theorem rel_genMatMul {k l : α} {k' l' : β} (hk : R k k') {a b c : Arr2 α} {a' b' c' : Arr2 β} (ha : RelA2 R a a')
    (hb : RelA2 R b b') (hl : R l l') (hc : RelA2 R c c') :
    RelM (RelA2 R) (genMatMul k a b l c) (genMatMul k' a' b' l' c') := by
  have h1 := ha.nr
  have h2 := ha.nc
  have h3 := hb.nr
  have h4 := hb.nc
  have h5 := hc.nr
  have h6 := hc.nc
  unfold genMatMul
  refine relM_ite (by omega) (fun hh => relA2_mk h5 h6 fun i hi j hj => ?_) (fun _ => rfl)
  exact ScalarRel.add (ScalarRel.mul hk (rel_dotTo h2 (fun m hm => ha.get i (by omega) m hm)
    fun m hm => hb.get m (by omega) j (by omega))) (ScalarRel.mul hl (hc.get i hi j hj))

/-- Related eigensolvers. -/
def RelSolver (R : α → β → Prop) (e : EigSolver α) (e' : EigSolver β) : Prop :=
  ∀ a b, RelA2 R a b → RelM (RelP (RelA1 R) (RelA2 R)) (e a) (e' b)

@[rel_rule] theorem rel_generalizedEig {e : EigSolver α} {e' : EigSolver β}
    (he : RelSolver R e e') {a b : Arr2 α} {a' b' : Arr2 β} (ha : RelA2 R a a') (hb : RelA2 R b b') :
    RelM (RelP (RelA1 R) (RelA2 R)) (generalizedEig e a b) (generalizedEig e' a' b') := by
  unfold RelSolver at he
  unfold generalizedEig
  rel

@[rel_rule] theorem rel_sortedEig {e : EigSolver α} {e' : EigSolver β}
    (he : RelSolver R e e') {a : Arr2 α} {a' : Arr2 β} (ha : RelA2 R a a')
    {b : Option (Arr2 α)} {b' : Option (Arr2 β)} (hb : RelO (RelA2 R) b b') {n n' : Nat} (hn : n = n') {o o' : Order}
    (ho : o = o') : RelM (RelP (RelA1 R) (RelA2 R)) (sortedEig e a b n o) (sortedEig e' a' b' n' o') := by
  unfold sortedEig
  refine relM_bind (R := RelP (RelA1 R) (RelA2 R)) ?_ ?_
  · rcases b with _ | b <;> rcases b' with _ | b'
    · exact he _ _ ha
    · exact hb.elim
    · exact hb.elim
    · exact rel_generalizedEig he ha hb
  · rel
    exact RelA2.get (by assumption) _ (by omega) _ (by assumption)

@[rel_rule] theorem rel_ndarrayMask {a : Arr2 α} {b : Arr2 β} (h : RelA2 R a b) {l l' : List Bool} (hl : l = l') :
    RelM (RelA2 R) (ndarrayMask a l) (ndarrayMask b l') := by
  subst hl
  have h2 := h.nc
  unfold ndarrayMask
  rel

@[rel_rule] theorem rel_applyConstraints {v c y : Arr2 α} {v' c' y' : Arr2 β} (hv : RelA2 R v v') (hc : RelA2 R c c')
    (hy : RelA2 R y y') : RelM (RelA2 R) (applyConstraints v c y) (applyConstraints v' c' y') := by
  unfold applyConstraints
  rel

@[rel_rule] theorem rel_orthonormalize {v : Arr2 α} {v' : Arr2 β} (hv : RelA2 R v v') :
    RelM (RelP (RelA2 R) (RelA2 R)) (orthonormalize v) (orthonormalize v') := by
  unfold orthonormalize
  rel

/-- Related results. -/
structure RelLobpcg (R : α → β → Prop) (p : Lobpcg α) (q : Lobpcg β) : Prop where
  eigvals : RelA1 R p.eigvals q.eigvals
  eigvecs : RelA2 R p.eigvecs q.eigvecs
  rnorm : List.Forall₂ R p.rnorm q.rnorm

@[rel_rule] theorem relLobpcg_mk {a : Arr1 α} {a' : Arr1 β} {b : Arr2 α} {b' : Arr2 β} {l : List α} {l' : List β}
    (ha : RelA1 R a a') (hb : RelA2 R b b') (hl : List.Forall₂ R l l') : RelLobpcg R ⟨a, b, l⟩ ⟨a', b', l'⟩ := ⟨ha, hb, hl⟩
attribute [rel_rule] RelLobpcg.eigvals RelLobpcg.eigvecs RelLobpcg.rnorm

/-- Related values of a type with errors of any kind. -/
def RelX {A B C D : Type} (S : A → B → Prop) (T : C → D → Prop) (o : Except A C) (o' : Except B D) : Prop :=
  match o, o' with
  | .ok a, .ok b => T a b
  | .error e, .error e' => S e e'
  | _, _ => False

theorem forall_RelX {A B C D : Type} {S : A → B → Prop} {U : C → D → Prop} {T : Except A C → Except B D → Prop}
    (he : ∀ a b, S a b → T (.error a) (.error b)) (h : ∀ a b, U a b → T (.ok a) (.ok b)) : ∀ p q, RelX S U p q → T p q := by
  intro p q hpq
  cases p <;> cases q
  · exact he _ _ hpq
  · exact hpq.elim
  · exact hpq.elim
  · exact h _ _ hpq

@[rel_rule] theorem relX_ok {A B C D : Type} {S : A → B → Prop} {T : C → D → Prop} {a : C} {b : D} (h : T a b) :
    RelX S T (.ok a : Except A C) (.ok b : Except B D) := h
@[rel_rule] theorem relX_error {A B C D : Type} {S : A → B → Prop} {T : C → D → Prop} {a : A} {b : B} (h : S a b) :
    RelX S T (.error a : Except A C) (.error b : Except B D) := h

@[rel_rule] theorem rel_sumList {l : List α} {l' : List β} (h : List.Forall₂ R l l') : R (sumList l) (sumList l') :=
  forall₂_foldl h ScalarRel.zero fun _ _ h _ _ h' => ScalarRel.add h h'

/-- Related iterates. -/
structure RelIterate (R : α → β → Prop) (p : Iterate α) (q : Iterate β) : Prop where
  pairs : RelLobpcg R p.pairs q.pairs
  active : p.active = q.active
  gram : RelO (RelA2 R) p.gram q.gram

@[rel_rule] theorem relIterate_mk {a : Lobpcg α} {a' : Lobpcg β} {l l' : List Bool} {g : Option (Arr2 α)}
    {g' : Option (Arr2 β)} (ha : RelLobpcg R a a') (hl : l = l') (hg : RelO (RelA2 R) g g') :
    RelIterate R ⟨a, l, g⟩ ⟨a', l', g'⟩ := ⟨ha, hl, hg⟩

/-- Related arguments of `lobpcg`. -/
structure RelLobParams (R : α → β → Prop) (p : LobParams α) (q : LobParams β) : Prop where
  a : ∀ k x y, RelA2 R x y → RelM (RelA2 R) (p.a k x) (q.a k y)
  m : ∀ x y, RelA2 R x y → RelM (RelA2 R) (p.m x) (q.m y)
  y : RelO (RelA2 R) p.y q.y
  tol : R p.tol q.tol
  order : p.order = q.order
attribute [rel_rule] RelLobParams.y RelLobParams.tol RelLobParams.order

@[rel_rule] theorem rel_lobApply {p : LobParams α} {q : LobParams β} (h : RelLobParams R p q) {k k' : Nat} (hk : k = k')
    {x : Arr2 α} {y : Arr2 β} (hx : RelA2 R x y) : RelM (RelA2 R) (p.apply k x) (q.apply k' y) := by
  subst hk
  exact relM_unwrap (h.a k x y hx)

@[rel_rule] theorem rel_precondition {p : LobParams α} {q : LobParams β} (h : RelLobParams R p q) {x : Arr2 α} {y : Arr2 β}
    (hx : RelA2 R x y) : RelM (RelA2 R) (p.precondition x) (q.precondition y) := by
  have h1 := hx.nr
  have h2 := hx.nc
  have hm := h.m
  unfold LobParams.precondition
  rel

@[rel_rule] theorem rel_constrain {p : LobParams α} {q : LobParams β} (h : RelLobParams R p q) {c : Option (Arr2 α)}
    {c' : Option (Arr2 β)} (hc : RelO (RelA2 R) c c') {x : Arr2 α} {y : Arr2 β} (hx : RelA2 R x y) :
    RelM (RelA2 R) (p.constrain c x) (q.constrain c' y) := by
  have hy := h.y
  unfold LobParams.constrain
  revert hy
  rcases p.y with _ | u <;> rcases q.y with _ | u' <;> intro hy
  · exact hx
  · exact hy.elim
  · exact hy.elim
  · rcases c with _ | c <;> rcases c' with _ | c'
    · exact hx
    · exact hc.elim
    · exact hc.elim
    · exact rel_applyConstraints hx hc hy

/-- Related states of the main loop. -/
structure RelLobState (R : α → β → Prop) (p : LobState α) (q : LobState β) : Prop where
  lambda : RelA1 R p.lambda q.lambda
  x : RelA2 R p.x q.x
  ax : RelA2 R p.ax q.ax
  mask : p.mask = q.mask
  best : RelO (RelLobpcg R) p.best q.best
  blockSize : p.blockSize = q.blockSize
  ident : RelA2 R p.ident q.ident
  pap : RelO (RelP (RelA2 R) (RelA2 R)) p.pap q.pap
  explicitGram : p.explicitGram = q.explicitGram
  iter : p.iter = q.iter
  calls : p.calls = q.calls
  gram : RelO (RelA2 R) p.gram q.gram
  hist : List.Forall₂ (RelIterate R) p.hist q.hist

theorem facts_RelLobState {T : LobState α → LobState β → Prop}
    (h : ∀ a b, RelLobState R a b → a.blockSize = b.blockSize → a.iter = b.iter → a.calls = b.calls → a.x.nc = b.x.nc →
      T a b) : ∀ a b, RelLobState R a b → T a b :=
  fun a b hab => h a b hab hab.blockSize hab.iter hab.calls hab.x.nc

@[rel_rule] theorem relLobState_mk {l : Arr1 α} {l' : Arr1 β} (hl : RelA1 R l l') {x ax : Arr2 α} {x' ax' : Arr2 β}
    (hx : RelA2 R x x') (hax : RelA2 R ax ax') {m m' : List Bool} (hm : m = m') {b : Option (Lobpcg α)}
    {b' : Option (Lobpcg β)} (hb : RelO (RelLobpcg R) b b') {s s' : Nat} (hs : s = s') {i : Arr2 α} {i' : Arr2 β}
    (hi : RelA2 R i i') {p : Option (Arr2 α × Arr2 α)} {p' : Option (Arr2 β × Arr2 β)}
    (hp : RelO (RelP (RelA2 R) (RelA2 R)) p p') {e e' : Bool} (he : e = e') {n n' c c' : Nat} (hn : n = n') (hc : c = c')
    {g : Option (Arr2 α)} {g' : Option (Arr2 β)} (hg : RelO (RelA2 R) g g') {h : List (Iterate α)} {h' : List (Iterate β)}
    (hh : List.Forall₂ (RelIterate R) h h') :
    RelLobState R ⟨l, x, ax, m, b, s, i, p, e, n, c, g, h⟩ ⟨l', x', ax', m', b', s', i', p', e', n', c', g', h'⟩ :=
  ⟨hl, hx, hax, hm, hb, hs, hi, hp, he, hn, hc, hg, hh⟩
attribute [rel_rule] RelLobState.lambda RelLobState.x RelLobState.ax RelLobState.mask RelLobState.best RelLobState.blockSize
  RelLobState.ident RelLobState.pap RelLobState.explicitGram RelLobState.iter RelLobState.calls RelLobState.gram
  RelLobState.hist

@[rel_rule] theorem forall₂_append {A B : Type} {S : A → B → Prop} {l m : List A} {l' m' : List B} (h : List.Forall₂ S l l')
    (h' : List.Forall₂ S m m') : List.Forall₂ S (l ++ m) (l' ++ m') := List.rel_append h h'

@[rel_rule] theorem forall₂_cons {A B : Type} {S : A → B → Prop} {a : A} {b : B} {l : List A} {l' : List B} (h : S a b)
    (h' : List.Forall₂ S l l') : List.Forall₂ S (a :: l) (b :: l') := .cons h h'

@[rel_rule] theorem forall₂_nil {A B : Type} {S : A → B → Prop} : List.Forall₂ S ([] : List A) ([] : List B) := .nil

@[rel_rule] theorem rel_lobResidual {p : LobState α} {q : LobState β} (h : RelLobState R p q) :
    RelM (RelP (RelA2 R) (List.Forall₂ R)) (lobResidual p) (lobResidual q) := by
  unfold lobResidual
  refine relM_bind (rel_dot2 h.x (rel_fromDiag h.lambda)) fun a b hab => ?_
  refine relM_bind (rel_sub h.ax hab) fun a b hab => ?_
  exact ⟨hab, forall₂_map_range hab.nc fun j hj => rel_normL2 (forall₂_map_range hab.nr fun i hi => hab.get i hi j hj)⟩

@[rel_rule] theorem rel_updateBest {o : Option (Lobpcg α)} {o' : Option (Lobpcg β)} (ho : RelO (RelLobpcg R) o o')
    {p : Lobpcg α} {q : Lobpcg β} (h : RelLobpcg R p q) : RelO (RelLobpcg R) (updateBest o p) (updateBest o' q) := by
  unfold updateBest
  rcases o with _ | a <;> rcases o' with _ | b
  · exact h
  · exact ho.elim
  · exact ho.elim
  · have h2 : RelLobpcg R a b := ho
    dsimp only
    rel

@[rel_rule] theorem rel_updateMask {t : α} {t' : β} (ht : R t t') {l : List α} {l' : List β} (hl : List.Forall₂ R l l')
    {m m' : List Bool} (hm : m = m') : updateMask t l m = updateMask t' l' m' := by
  subst hm
  unfold updateMask
  induction hl generalizing m with
  | nil => rfl
  | cons hab _ ih =>
    cases m with
    | nil => rfl
    | cons b m => rw [List.zipWith_cons_cons, List.zipWith_cons_cons, ScalarRel.lt ht hab, ih]

@[rel_rule] theorem rel_lobHead {P : LobParams α} {Q : LobParams β} (hP : RelLobParams R P Q) {p : LobState α}
    {q : LobState β} (h : RelLobState R p q) :
    RelM (RelP (RelLobState R) (RelP (RelA2 R) (List.Forall₂ R))) (lobHead P p) (lobHead Q q) := by
  unfold lobHead
  refine relM_bind (rel_lobResidual h) ?_
  rintro ⟨r, l⟩ ⟨r', l'⟩ ⟨hr, hl⟩
  have h1 : updateMask P.tol l p.mask = updateMask Q.tol l' q.mask := rel_updateMask hP.tol hl h.mask
  have h2 := h.blockSize
  dsimp only
  rw [← h1, ← h2]
  rel

@[rel_rule] theorem rel_symmetrize {v : Arr2 α} {v' : Arr2 β} (hv : RelA2 R v v') :
    RelM (RelA2 R) (symmetrize v) (symmetrize v') := by
  unfold symmetrize
  rel

/-- Related Gram matrices. -/
structure RelXRGram (R : α → β → Prop) (p : XRGram α) (q : XRGram β) : Prop where
  xax : RelA2 R p.xax q.xax
  xar : RelA2 R p.xar q.xar
  rar : RelA2 R p.rar q.rar
  xx : RelA2 R p.xx q.xx
  rr : RelA2 R p.rr q.rr
  xr : RelA2 R p.xr q.xr

@[rel_rule] theorem relXRGram_mk {a b c d e f : Arr2 α} {a' b' c' d' e' f' : Arr2 β} (ha : RelA2 R a a') (hb : RelA2 R b b')
    (hc : RelA2 R c c') (hd : RelA2 R d d') (he : RelA2 R e e') (hf : RelA2 R f f') :
    RelXRGram R ⟨a, b, c, d, e, f⟩ ⟨a', b', c', d', e', f'⟩ := ⟨ha, hb, hc, hd, he, hf⟩
attribute [rel_rule] RelXRGram.xax RelXRGram.xar RelXRGram.rar RelXRGram.xx RelXRGram.rr RelXRGram.xr

@[rel_rule] theorem rel_xrGram {p : LobState α} {q : LobState β} (h : RelLobState R p q) {r ar : Arr2 α} {r' ar' : Arr2 β}
    (hr : RelA2 R r r') (har : RelA2 R ar ar') : RelM (RelXRGram R) (xrGram p r ar) (xrGram q r' ar') := by
  have h1 := h.explicitGram
  have h2 := h.x.nc
  have h3 := h.blockSize
  unfold xrGram
  rel

@[rel_rule] theorem rel_activePAP {m m' : List Bool} (hm : m = m') {o : Option (Arr2 α × Arr2 α)}
    {o' : Option (Arr2 β × Arr2 β)} (ho : RelO (RelP (RelA2 R) (RelA2 R)) o o') :
    RelM (RelO (RelP (RelA2 R) (RelA2 R))) (activePAP m o) (activePAP m' o') := by
  subst hm
  rcases o with _ | ⟨a, b⟩ <;> rcases o' with _ | ⟨a', b'⟩
  · trivial
  · exact ho.elim
  · exact ho.elim
  · obtain ⟨ha, hb⟩ : RelA2 R a a' ∧ RelA2 R b b' := ho
    unfold activePAP
    rel

@[rel_rule] theorem rel_block2 {a b c : Arr2 α} {a' b' c' : Arr2 β} (ha : RelA2 R a a') (hb : RelA2 R b b')
    (hc : RelA2 R c c') : RelM (RelA2 R) (block2 a b c) (block2 a' b' c') := by
  unfold block2
  rel

@[rel_rule] theorem rel_block3 {a b c d e f : Arr2 α} {a' b' c' d' e' f' : Arr2 β} (ha : RelA2 R a a') (hb : RelA2 R b b')
    (hc : RelA2 R c c') (hd : RelA2 R d d') (he : RelA2 R e e') (hf : RelA2 R f f') :
    RelM (RelA2 R) (block3 a b c d e f) (block3 a' b' c' d' e' f') := by
  unfold block3
  rel

@[rel_rule] theorem rel_eig3 {e : EigSolver α} {e' : EigSolver β} (he : RelSolver R e e') {o o' : Order} (ho : o = o')
    {p : LobState α} {q : LobState β} (h : RelLobState R p q) {r : Arr2 α} {r' : Arr2 β} (hr : RelA2 R r r')
    {g : XRGram α} {g' : XRGram β} (hg : RelXRGram R g g') {a b : Arr2 α} {a' b' : Arr2 β} (ha : RelA2 R a a')
    (hb : RelA2 R b b') :
    RelM (RelP (RelA1 R) (RelP (RelA2 R) (RelA2 R))) (eig3 e o p r g a b) (eig3 e' o' q r' g' a' b') := by
  have h1 := h.explicitGram
  have h2 := h.x.nc
  unfold eig3
  rel

@[rel_rule] theorem rel_eig2 {e : EigSolver α} {e' : EigSolver β} (he : RelSolver R e e') {o o' : Order} (ho : o = o')
    {p : LobState α} {q : LobState β} (h : RelLobState R p q) {g : XRGram α} {g' : XRGram β} (hg : RelXRGram R g g') :
    RelM (RelP (RelA1 R) (RelP (RelA2 R) (RelA2 R))) (eig2 e o p g) (eig2 e' o' q g') := by
  have h2 := h.x.nc
  unfold eig2
  rel

@[rel_rule] theorem rel_lobEig {e : EigSolver α} {e' : EigSolver β} (he : RelSolver R e e') {o o' : Order} (ho : o = o')
    {p : LobState α} {q : LobState β} (h : RelLobState R p q) {r : Arr2 α} {r' : Arr2 β} (hr : RelA2 R r r')
    {g : XRGram α} {g' : XRGram β} (hg : RelXRGram R g g') {u : Option (Arr2 α × Arr2 α)} {u' : Option (Arr2 β × Arr2 β)}
    (hu : RelO (RelP (RelA2 R) (RelA2 R)) u u') :
    RelM (RelP (RelO (RelP (RelA2 R) (RelA2 R))) (RelE (RelP (RelA1 R) (RelP (RelA2 R) (RelA2 R)))))
      (lobEig e o p r g u) (lobEig e' o' q r' g' u') := by
  unfold lobEig
  refine relM_bind (R := RelE (RelP (RelA1 R) (RelP (RelA2 R) (RelA2 R)))) ?_ ?_
  · rcases u with _ | ⟨a, b⟩ <;> rcases u' with _ | ⟨a', b'⟩
    · rfl
    · exact hu.elim
    · exact hu.elim
    · obtain ⟨ha, hb⟩ : RelA2 R a a' ∧ RelA2 R b b' := hu
      dsimp only
      rel
  · rel

@[rel_rule] theorem rel_updatePAP {n n' b b' : Nat} (hn : n = n') (hb : b = b') {r ar v : Arr2 α} {r' ar' v' : Arr2 β}
    (hr : RelA2 R r r') (har : RelA2 R ar ar') (hv : RelA2 R v v') {u : Option (Arr2 α × Arr2 α)}
    {u' : Option (Arr2 β × Arr2 β)} (hu : RelO (RelP (RelA2 R) (RelA2 R)) u u') :
    RelM (RelP (RelA2 R) (RelA2 R)) (updatePAP n b r ar v u) (updatePAP n' b' r' ar' v' u') := by
  have h1 := hv.nr
  have h2 := hv.nc
  rcases u with _ | ⟨a, b⟩ <;> rcases u' with _ | ⟨a', b'⟩
  · unfold updatePAP
    rel
  · exact hu.elim
  · exact hu.elim
  · obtain ⟨ha, hb⟩ : RelA2 R a a' ∧ RelA2 R b b' := hu
    unfold updatePAP
    rel

theorem rel_foldMax {l : List α} {l' : List β} (h : List.Forall₂ R l l') {a : α} {b : β} (hab : R a b) :
    R (l.foldl NdFloat.max a) (l'.foldl NdFloat.max b) :=
  forall₂_foldl h hab fun _ _ h _ _ h' => ScalarRel.max h h'

@[rel_rule] theorem rel_lobTail {e : EigSolver α} {e' : EigSolver β} (he : RelSolver R e e') {P : LobParams α}
    {Q : LobParams β} (hP : RelLobParams R P Q) {c : Option (Arr2 α)} {c' : Option (Arr2 β)} (hc : RelO (RelA2 R) c c')
    {p : LobState α} {q : LobState β} (h : RelLobState R p q) {r : Arr2 α} {r' : Arr2 β} (hr : RelA2 R r r')
    {l : List α} {l' : List β} (hl : List.Forall₂ R l l') :
    RelM (RelE (RelLobState R)) (lobTail e P c p r l) (lobTail e' Q c' q r' l') := by
  have h1 := h.x.nc
  have h2 := h.calls
  have h3 := h.blockSize
  have h4 := h.iter
  have h5 : NdFloat.lt (NdFloat.ofRat (1 / 10 ^ 8)) (NdFloat.epsilon : α)
    = NdFloat.lt (NdFloat.ofRat (1 / 10 ^ 8)) (NdFloat.epsilon : β) :=
    ScalarRel.lt (R := R) (ScalarRel.ofRat _) ScalarRel.epsilon
  have h6 : NdFloat.le (l.foldl NdFloat.max NdFloat.negInf) (if NdFloat.lt (NdFloat.ofRat (1 / 10 ^ 8))
      (NdFloat.epsilon : α) then NdFloat.ofRat 1 else NdFloat.ofRat (1 / 10 ^ 8))
    = NdFloat.le (l'.foldl NdFloat.max NdFloat.negInf) (if NdFloat.lt (NdFloat.ofRat (1 / 10 ^ 8))
      (NdFloat.epsilon : β) then NdFloat.ofRat 1 else NdFloat.ofRat (1 / 10 ^ 8)) := by
    refine ScalarRel.le (R := R) (rel_foldMax hl ScalarRel.negInf) ?_
    rel
  unfold lobTail
  rel

@[rel_rule] theorem rel_lobLoop {e : EigSolver α} {e' : EigSolver β} (he : RelSolver R e e') {P : LobParams α}
    {Q : LobParams β} (hP : RelLobParams R P Q) {c : Option (Arr2 α)} {c' : Option (Arr2 β)} (hc : RelO (RelA2 R) c c')
    {n n' : Nat} (hn : n = n') {p : LobState α} {q : LobState β} (h : RelLobState R p q) :
    RelM (RelP (RelLobState R) (RelO Eq)) (lobLoop e P c n p) (lobLoop e' Q c' n' q) := by
  subst hn
  induction n generalizing p q with
  | zero => unfold lobLoop; rel
  | succ n ih => unfold lobLoop; rel

@[rel_rule] theorem rel_lobpcgRun {e : EigSolver α} {e' : EigSolver β} (he : RelSolver R e e') {P : LobParams α}
    {Q : LobParams β} (hP : RelLobParams R P Q) {x : Arr2 α} {x' : Arr2 β} (hx : RelA2 R x x') {n n' : Nat} (hn : n = n') :
    RelM (RelP (RelX (RelP Eq (RelO (RelLobpcg R))) (RelLobpcg R)) (List.Forall₂ (RelIterate R)))
      (lobpcgRun e P x n) (lobpcgRun e' Q x' n') := by
  have h1 := hx.nr
  have h2 := hx.nc
  have h3 := hP.y
  unfold lobpcgRun
  rel

theorem rel_lobpcgResult {o : LobpcgResult α} {o' : LobpcgResult β}
    (h : RelX (RelP Eq (RelO (RelLobpcg R))) (RelLobpcg R) o o') :
    RelO (RelLobpcg R) (LobpcgResult.result o) (LobpcgResult.result o') := by
  rcases o with ⟨e, l⟩ | l <;> rcases o' with ⟨e', l'⟩ | l'
  · exact h.2
  · exact h.elim
  · exact h.elim
  · exact h

/-- The internal eigensolver of the code. -/
theorem relSolver_eighInto (fuel : Nat) : RelSolver R (eighInto fuel) (eighInto fuel) :=
  fun _ _ h => rel_eighInto rfl h

theorem rel_lobpcg (fuel : Nat) {P : LobParams α} {Q : LobParams β} (hP : RelLobParams R P Q) {x : Arr2 α} {x' : Arr2 β}
    (hx : RelA2 R x x') (n : Nat) :
    RelM (RelX (RelP Eq (RelO (RelLobpcg R))) (RelLobpcg R)) (lobpcg fuel P x n) (lobpcg fuel Q x' n) := by
  unfold lobpcg
  exact relM_bind (rel_lobpcgRun (relSolver_eighInto fuel) hP hx rfl) fun _ _ h => h.1

/-! ## Truncated eigenvalues -/

variable {ρ : Type}

/-- Related random number generators: the same stream of states, related entries. -/
def RelSource (R : α → β → Prop) (g : RandomSource α ρ) (g' : RandomSource β ρ) : Prop :=
  ∀ r c st, (∀ i, i < r → ∀ j, j < c → R ((g.gen r c st).1 i j) ((g'.gen r c st).1 i j)) ∧
    (g.gen r c st).2 = (g'.gen r c st).2

theorem rel_random {g : RandomSource α ρ} {g' : RandomSource β ρ} (hg : RelSource R g g') (r c : Nat) (st : ρ) :
    RelA2 R (g.random r c st).1 (g'.random r c st).1 := ⟨rfl, rfl, (hg r c st).1⟩

/-- Related problems. -/
structure RelTruncatedEig (R : α → β → Prop) (t : TruncatedEig α ρ) (t' : TruncatedEig β ρ) : Prop where
  order : t.order = t'.order
  problem : RelA2 R t.problem t'.problem
  constraints : RelO (RelA2 R) t.constraints t'.constraints
  preconditioner : RelO (RelA2 R) t.preconditioner t'.preconditioner
  precision : R t.precision t'.precision
  maxiter : t.maxiter = t'.maxiter
  rng : t.rng = t'.rng

theorem relTruncatedEig_new {a : Arr2 α} {b : Arr2 β} (h : RelA2 R a b) (o : Order) (r : ρ) :
    RelTruncatedEig R (TruncatedEig.new a o r) (TruncatedEig.new b o r) :=
  ⟨rfl, h, trivial, trivial, ScalarRel.ofRat _, by simp [TruncatedEig.new, h.nr], rfl⟩

theorem rel_assign {y z : Arr2 α} {y' z' : Arr2 β} (hy : RelA2 R y y') (hz : RelA2 R z z') :
    RelM (RelA2 R) (y.assign z) (y'.assign z') := by
  have h1 := hy.nr
  have h2 := hy.nc
  have h3 := hz.nr
  have h4 := hz.nc
  unfold Arr2.assign
  refine relM_ite (by rw [h1, h2, h3, h4]) (fun hc => ⟨h1, h2, fun i hi j hj => ?_⟩) (fun _ => rfl)
  dsimp only at hi hj ⊢
  rw [← h1, ← h2, ← h3, ← h4]
  apply hz.get <;> split_ifs <;> omega

theorem relLobParams_eig {t : TruncatedEig α ρ} {t' : TruncatedEig β ρ} (h : RelTruncatedEig R t t') :
    RelLobParams R t.params t'.params where
  a := fun _ _ _ hx => rel_dot2 h.problem hx
  m := fun x y hx => by
    have hp := h.preconditioner
    unfold TruncatedEig.params
    dsimp only
    revert hp
    rcases t.preconditioner with _ | p <;> rcases t'.preconditioner with _ | p' <;> intro hp
    · exact hx
    · exact hp.elim
    · exact hp.elim
    · exact relM_bind (rel_dot2 hp hx) fun _ _ hz => rel_assign hx hz
  y := h.constraints
  tol := h.precision
  order := h.order

theorem rel_decompose {e : EigSolver α} {e' : EigSolver β} (he : RelSolver R e e') {g : RandomSource α ρ}
    {g' : RandomSource β ρ} (hg : RelSource R g g') {t : TruncatedEig α ρ} {t' : TruncatedEig β ρ}
    (h : RelTruncatedEig R t t') (num : Nat) :
    RelM (RelP (RelX (RelP Eq (RelO (RelLobpcg R))) (RelLobpcg R)) (RelTruncatedEig R))
      (t.decompose e g num) (t'.decompose e' g' num) := by
  have h1 := h.problem.nr
  have h2 := h.rng
  have h3 := h.maxiter
  unfold TruncatedEig.decompose
  refine relM_ite Iff.rfl (fun _ => ⟨relLobpcg_mk (rel_zeros1 rfl) (rel_zeros2 rfl rfl) .nil, h⟩) fun _ => ?_
  rw [← h1, ← h2, ← h3]
  refine relM_bind (rel_lobpcgRun he (relLobParams_eig h) (rel_random hg _ _ _) rfl) fun a b hab => ?_
  exact ⟨hab.1, ⟨h.order, h.problem, h.constraints, h.preconditioner, h.precision, rfl, (hg _ _ _).2⟩⟩

/-- Related iterators. -/
structure RelTruncatedEigIterator (R : α → β → Prop) (t : TruncatedEigIterator α ρ) (t' : TruncatedEigIterator β ρ) :
    Prop where
  stepSize : t.stepSize = t'.stepSize
  remaining : t.remaining = t'.remaining
  eig : RelTruncatedEig R t.eig t'.eig

theorem rel_intoIter {t : TruncatedEig α ρ} {t' : TruncatedEig β ρ} (h : RelTruncatedEig R t t') :
    RelTruncatedEigIterator R t.intoIter t'.intoIter := ⟨rfl, h.problem.nr, h⟩

theorem rel_intoIterStepSize {t : TruncatedEig α ρ} {t' : TruncatedEig β ρ} (h : RelTruncatedEig R t t') (n : Nat) :
    RelM (RelTruncatedEigIterator R) (t.intoIterStepSize n) (t'.intoIterStepSize n) := by
  unfold TruncatedEig.intoIterStepSize
  exact relM_ite Iff.rfl (fun _ => rfl) fun _ => ⟨rfl, h.problem.nr, h⟩

theorem rel_stackCols {c v : Arr2 α} {c' v' : Arr2 β} (hc : RelA2 R c c') (hv : RelA2 R v v') :
    RelM (RelA2 R) (stackCols c v) (stackCols c' v') := by
  have h1 := hc.nr
  have h2 := hc.nc
  have h3 := hv.nr
  have h4 := hv.nc
  unfold stackCols
  refine relM_ite (by omega) (fun _ => rfl) fun h5 => relM_ite (by omega) (fun _ => rfl) fun h6 => ?_
  refine relA2_mk (by rw [h1, h2, h3]) (by omega) fun i hi j hj => ?_
  refine rel_ite (by omega) (fun hj => ?_) (fun hj => ?_)
  · rw [if_neg (by omega)] at hi
    exact hc.get i hi j hj
  · rw [← h2]
    refine hv.get i ?_ _ (by omega)
    split_ifs at hi <;> omega

theorem rel_next {e : EigSolver α} {e' : EigSolver β} (he : RelSolver R e e') {g : RandomSource α ρ}
    {g' : RandomSource β ρ} (hg : RelSource R g g') {t : TruncatedEigIterator α ρ} {t' : TruncatedEigIterator β ρ}
    (h : RelTruncatedEigIterator R t t') :
    RelM (RelP (RelO (RelP (RelA1 R) (RelA2 R))) (RelTruncatedEigIterator R)) (t.next e g) (t'.next e' g') := by
  have h1 := h.stepSize
  have h2 := h.remaining
  unfold TruncatedEigIterator.next
  refine relM_ite (by omega) (fun _ => ⟨trivial, h⟩) fun _ => ?_
  rw [← h1, ← h2]
  refine relM_bind (rel_decompose he hg h.eig _) ?_
  rintro ⟨a, s⟩ ⟨b, s'⟩ ⟨hab, hs⟩
  have hr := rel_lobpcgResult hab
  dsimp only
  revert hr
  rcases LobpcgResult.result a with _ | l <;> rcases LobpcgResult.result b with _ | l' <;> intro hr
  · exact ⟨trivial, rfl, rfl, hs⟩
  · exact hr.elim
  · exact hr.elim
  have hr : RelLobpcg R l l' := hr
  have h3 : l.rnorm.any (fun r => NdFloat.lt (NdFloat.ofRat (1 / 10)) r)
      = l'.rnorm.any (fun r => NdFloat.lt (NdFloat.ofRat (1 / 10)) r) := by
    have h4 := hr.rnorm
    generalize l.rnorm = u at h4
    generalize l'.rnorm = v at h4
    induction h4 with
    | nil => rfl
    | cons hab _ ih => rw [List.any_cons, List.any_cons, ih, ScalarRel.lt (ScalarRel.ofRat (R := R) _) hab]
  dsimp only
  refine relM_ite (by rw [h3]) (fun _ => ⟨trivial, rfl, rfl, hs⟩) fun _ => ?_
  refine relM_bind (R := RelA2 R) ?_ fun c c' hc => ⟨⟨hr.eigvals, hr.eigvecs⟩, rfl, rfl, ⟨hs.order, hs.problem, hc,
    hs.preconditioner, hs.precision, hs.maxiter, hs.rng⟩⟩
  have hc : RelO (RelA2 R) s.constraints s'.constraints := hs.constraints
  revert hc
  rcases s.constraints with _ | c <;> rcases s'.constraints with _ | c' <;> intro hc
  · exact hr.eigvecs
  · exact hc.elim
  · exact hc.elim
  · exact rel_stackCols hc hr.eigvecs

/-! ## Truncated singular values -/

variable [MagnitudeCorrection α] [MagnitudeCorrection β]

/-- The constant of `MagnitudeCorrection` is related. -/
def RelCorrection (R : α → β → Prop) : Prop :=
  R MagnitudeCorrection.correction MagnitudeCorrection.correction

/-- Related results. -/
structure RelTruncatedSvdResult (R : α → β → Prop) (t : TruncatedSvdResult α) (t' : TruncatedSvdResult β) : Prop where
  eigvals : RelA1 R t.eigvals t'.eigvals
  eigvecs : RelA2 R t.eigvecs t'.eigvecs
  problem : RelA2 R t.problem t'.problem
  order : t.order = t'.order
  ngm : t.ngm = t'.ngm

theorem forall₂_map_fst {l : List (α × Nat)} {l' : List (β × Nat)} (h : List.Forall₂ (RelP R Eq) l l') :
    List.Forall₂ R (l.map Prod.fst) (l'.map Prod.fst) := by
  induction h with
  | nil => exact .nil
  | cons hab _ ih => exact .cons hab.1 ih

theorem forall₂_map_snd {l : List (α × Nat)} {l' : List (β × Nat)} (h : List.Forall₂ (RelP R Eq) l l') :
    l.map Prod.snd = l'.map Prod.snd := by
  induction h with
  | nil => rfl
  | cons hab _ ih => rw [List.map_cons, List.map_cons, hab.2, ih]

theorem rel_valuesArray {l : List (α × Nat)} {l' : List (β × Nat)} (h : List.Forall₂ (RelP R Eq) l l') :
    RelA1 R ⟨l.length, fun i => (l.map Prod.fst).getD i 0⟩ ⟨l'.length, fun i => (l'.map Prod.fst).getD i 0⟩ :=
  ⟨h.length_eq, fun i _ => forall₂_getD (forall₂_map_fst h) i ScalarRel.zero⟩

theorem rel_valuesWithIndices (hm : RelCorrection R) {t : TruncatedSvdResult α} {t' : TruncatedSvdResult β}
    (h : RelTruncatedSvdResult R t t') : RelM (List.Forall₂ (RelP R Eq)) t.valuesWithIndices t'.valuesWithIndices := by
  have hs : ∀ o, RelM (List.Forall₂ (RelP Eq R)) (sortBy Prod.snd o t.eigvals.enumerate)
      (sortBy Prod.snd o t'.eigvals.enumerate) := fun o => by
    have := h.eigvals
    rel
  have hq : ∀ {a : List (Nat × α)} {b : List (Nat × β)}, List.Forall₂ (RelP Eq R) a b →
      List.Forall₂ (RelP R Eq) (a.map fun q => (NdFloat.sqrt q.2, q.1)) (b.map fun q => (NdFloat.sqrt q.2, q.1)) := by
    intro a b h
    induction h with
    | nil => exact .nil
    | cons hab _ ih => exact .cons ⟨ScalarRel.sqrt hab.2, hab.1⟩ ih
  unfold TruncatedSvdResult.valuesWithIndices
  rw [← h.order]
  rcases t.order with _ | _
  · refine relM_bind (hs _) fun a b hab => ?_
    cases hab with
    | nil => rfl
    | @cons p q a b hpq hab =>
      refine hq ?_
      have hc : R (NdFloat.epsilon * MagnitudeCorrection.correction * p.2)
          (NdFloat.epsilon * MagnitudeCorrection.correction * q.2) :=
        ScalarRel.mul (ScalarRel.mul ScalarRel.epsilon hm) hpq.2
      have hl : List.Forall₂ (RelP Eq R) (p :: a) (q :: b) := .cons hpq hab
      generalize NdFloat.epsilon * MagnitudeCorrection.correction * p.2 = c at hc ⊢
      generalize NdFloat.epsilon * MagnitudeCorrection.correction * q.2 = d at hc ⊢
      generalize p :: a = u at hl ⊢
      generalize q :: b = v at hl ⊢
      induction hl with
      | nil => exact .nil
      | cons hab _ ih =>
        rw [List.filter_cons, List.filter_cons, ScalarRel.lt hc hab.2]
        split
        · exact .cons hab ih
        · exact ih
  · exact relM_bind (hs _) fun a b hab => hq hab

theorem rel_values (hm : RelCorrection R) {t : TruncatedSvdResult α} {t' : TruncatedSvdResult β}
    (h : RelTruncatedSvdResult R t t') : RelM (RelA1 R) t.values t'.values := by
  unfold TruncatedSvdResult.values
  exact relM_bind (rel_valuesWithIndices hm h) fun a b hab => rel_valuesArray hab

theorem rel_divideCols {a : Arr2 α} {b : Arr2 β} (h : RelA2 R a b) {s : Arr1 α} {s' : Arr1 β} (hs : RelA1 R s s') :
    RelA2 R (divideCols a s) (divideCols b s') :=
  ⟨h.nr, h.nc, fun i hi j hj => rel_ite (by rw [hs.len]) (fun hj' => ScalarRel.div (h.get i hi j hj) (hs.get j hj'))
    fun _ => h.get i hi j hj⟩

theorem rel_valuesVectors (hm : RelCorrection R) {t : TruncatedSvdResult α} {t' : TruncatedSvdResult β}
    (h : RelTruncatedSvdResult R t t') :
    RelM (RelP (RelA2 R) (RelP (RelA1 R) (RelA2 R))) t.valuesVectors t'.valuesVectors := by
  unfold TruncatedSvdResult.valuesVectors
  refine relM_bind (rel_valuesWithIndices hm h) fun a b hab => ?_
  dsimp only
  refine relM_ite (by rw [h.ngm]) (fun _ => ?_) fun _ => ?_
  · refine relM_bind (rel_selectCols h.eigvecs (forall₂_map_snd hab)) fun v v' hv => ?_
    refine relM_bind (rel_dot2 h.problem hv) fun u u' hu => ?_
    exact ⟨rel_divideCols hu (rel_valuesArray hab), rel_valuesArray hab, rel_t hv⟩
  · refine relM_bind (rel_selectCols h.eigvecs (forall₂_map_snd hab)) fun v v' hv => ?_
    refine relM_bind (rel_dot2 (rel_t h.problem) hv) fun u u' hu => ?_
    exact ⟨hv, rel_valuesArray hab, rel_t (rel_divideCols hu (rel_valuesArray hab))⟩

/-- Related problems. -/
structure RelTruncatedSvd (R : α → β → Prop) (t : TruncatedSvd α ρ) (t' : TruncatedSvd β ρ) : Prop where
  order : t.order = t'.order
  problem : RelA2 R t.problem t'.problem
  precision : R t.precision t'.precision
  maxiter : t.maxiter = t'.maxiter
  rng : t.rng = t'.rng

theorem relTruncatedSvd_new {a : Arr2 α} {b : Arr2 β} (h : RelA2 R a b) (o : Order) (r : ρ) :
    RelTruncatedSvd R (TruncatedSvd.new a o r) (TruncatedSvd.new b o r) :=
  ⟨rfl, h, ScalarRel.ofRat _, by simp [TruncatedSvd.new, h.nr], rfl⟩

theorem relLobParams_svd {t : TruncatedSvd α ρ} {t' : TruncatedSvd β ρ} (h : RelTruncatedSvd R t t') :
    RelLobParams R t.params t'.params where
  a := fun _ x y hx => by
    have h1 := h.problem.nr
    have h2 := h.problem.nc
    unfold TruncatedSvd.params
    dsimp only
    refine relM_ite (by rw [h1, h2]) (fun _ => ?_) fun _ => ?_
    · exact relM_bind (rel_dot2 h.problem hx) fun _ _ hz => rel_dot2 (rel_t h.problem) hz
    · exact relM_bind (rel_dot2 (rel_t h.problem) hx) fun _ _ hz => rel_dot2 h.problem hz
  m := fun _ _ hx => hx
  y := trivial
  tol := ScalarRel.mul h.precision h.precision
  order := h.order

theorem rel_decomposeSvd {e : EigSolver α} {e' : EigSolver β} (he : RelSolver R e e') {g : RandomSource α ρ}
    {g' : RandomSource β ρ} (hg : RelSource R g g') {t : TruncatedSvd α ρ} {t' : TruncatedSvd β ρ}
    (h : RelTruncatedSvd R t t') (num : Nat) :
    RelM (RelTruncatedSvdResult R) (t.decompose e g num) (t'.decompose e' g' num) := by
  have h1 := h.problem.nr
  have h2 := h.problem.nc
  have h3 := h.rng
  have h4 := h.maxiter
  unfold TruncatedSvd.decompose
  refine relM_ite Iff.rfl (fun _ => ⟨rel_zeros1 rfl, rel_zeros2 rfl rfl, rel_zeros2 rfl rfl, h.order, rfl⟩) fun _ => ?_
  have hn : decide (t.problem.nr > t.problem.nc) = decide (t'.problem.nr > t'.problem.nc) := by rw [h1, h2]
  have hd : ∀ l l', RelLobpcg R l l' → RelTruncatedSvdResult R
      ⟨l.eigvals, l.eigvecs, t.problem, t.order, t.problem.nr > t.problem.nc⟩
      ⟨l'.eigvals, l'.eigvecs, t'.problem, t'.order, t'.problem.nr > t'.problem.nc⟩ :=
    fun l l' hl => ⟨hl.eigvals, hl.eigvecs, h.problem, h.order, hn⟩
  have hx : RelA2 R (g.random (min t.problem.nr t.problem.nc) num t.rng).1
      (g'.random (min t'.problem.nr t'.problem.nc) num t'.rng).1 := by
    rw [← h1, ← h2, ← h3]
    exact rel_random hg _ _ _
  refine relM_bind (rel_lobpcgRun he (relLobParams_svd h) hx h4) ?_
  rintro ⟨a, s⟩ ⟨b, s'⟩ ⟨hab, -⟩
  rcases a with ⟨e, l⟩ | l <;> rcases b with ⟨e', l'⟩ | l'
  · obtain ⟨he', hl⟩ := hab
    rcases l with _ | l <;> rcases l' with _ | l'
    · exact congrArg Fail.err he'
    · exact hl.elim
    · exact hl.elim
    · exact hd _ _ hl
  · exact hab.elim
  · exact hab.elim
  · exact hd _ _ hab

end LinfaLinalg.Par
