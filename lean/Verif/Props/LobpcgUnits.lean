import Verif.Props.LobpcgScale
import Verif.Props.PowerScaling
import Verif.Props.Scaling

/-! # The unit of the operator does not matter to LOBPCG

Let the operator and the tolerance be multiplied by a factor that commutes with the arithmetic: any positive number in exact
arithmetic, a power of two in floating point as long as nothing overflows or underflows. Then the values and residual norms
are multiplied by the factor, and nothing else changes, not even the last digit of a vector. -/

set_option linter.unusedSectionVars false

namespace LinfaLinalg

open Par

variable {G : Type} [AddCommGroup G]
variable {α : Type} [Zero α] [One α] [Add α] [Sub α] [Mul α] [Div α] [Neg α] [NdFloat α]

/-- What else is needed of the factors: they are positive, and a matrix with largest entry zero is zero. -/
structure Positive (S : Scalings G α) : Prop where
  lt : ∀ g x y, NdFloat.lt (S.act g x) (S.act g y) = NdFloat.lt x y
  le : ∀ g x y, NdFloat.le (S.act g x) (S.act g y) = NdFloat.le x y
  negInf : ∀ x : α, NdFloat.max NdFloat.negInf (NdFloat.abs x) = NdFloat.abs x
  amax_zero : ∀ (a : Arr2 α) i j, NdFloat.isZero a.amax = true → i < a.nr → j < a.nc → a.get i j = 0

/-- The same pairs, in another unit. -/
def InUnit (act : α → α) (p q : Lobpcg α) : Prop :=
  SameArr1 ⟨p.eigvals.len, fun i => act (p.eigvals.get i)⟩ q.eigvals ∧ SameArr p.eigvecs q.eigvecs ∧ q.rnorm = p.rnorm.map act

/-- The same iterates, in another unit. -/
def IterateInUnit (act : α → α) (p q : Iterate α) : Prop :=
  InUnit act p.pairs q.pairs ∧ p.active = q.active ∧ SameOpt SameArr p.gram q.gram

/-- The same outcome, in another unit. -/
def ResultInUnit (act : α → α) (r r' : LobpcgResult α) : Prop :=
  (∃ l l', r = .ok l ∧ r' = .ok l' ∧ InUnit act l l') ∨
    ∃ e o o', r = .error (e, o) ∧ r' = .error (e, o') ∧ SameOpt (InUnit act) o o'

/-- `b` is `a` with all entries multiplied by the factor `k`. -/
abbrev Sc (S : Scalings G α) (k : G) : Arr2 α → Arr2 α → Prop := ScaledBy S.act fun _ _ => k

section arrays
variable {S : Scalings G α} {j k : G} {a a' b b' : Arr2 α}

theorem Sc.rel (h : Sc S 0 a b) : RelA2 (EqIn Any) a b :=
  ⟨h.nr.symm, h.nc.symm, fun i hi j hj => ⟨by rw [h.get i j hi hj, S.act_none], trivial⟩⟩

theorem sc_of_rel (h : RelA2 (EqIn Any) a b) : Sc S 0 a b :=
  ⟨h.nr.symm, h.nc.symm, fun i j hi hj => by rw [S.act_none]; exact (h.get i hi j hj).1.symm⟩

theorem Sc.cast (h : Sc S j a b) (e : j = k) : Sc S k a b := e ▸ h

theorem Sc.t (h : Sc S k a b) : Sc S k a.t b.t := ScaledBy.t h

theorem sc_dot (h : Sc S j a a') (h' : Sc S k b b') : RelM (Sc S (j + k)) (a.dot b) (a'.dot b') := by
  unfold Arr2.dot
  rw [h.nr, h.nc, h'.nr, h'.nc]
  refine Par.relM_ite Iff.rfl (fun hc => ⟨rfl, rfl, fun r c hr hc' => ?_⟩) fun _ => rfl
  exact dotTo_scaled S (fun l hl => h.get r l hr hl) fun l hl => h'.get l c (hc ▸ hl) hc'

theorem sc_add (h : Sc S k a a') (h' : Sc S k b b') : RelM (Sc S k) (a.add b) (a'.add b') := by
  unfold Arr2.add
  rw [h.nr, h.nc, h'.nr, h'.nc]
  refine Par.relM_ite Iff.rfl (fun hc => ⟨rfl, rfl, fun r c hr hc' => ?_⟩) fun _ => rfl
  have hr' : r < a.nr := hr
  have hc2 : c < a.nc := hc'
  show a'.get r c + b'.get r c = _
  rw [h.get r c hr hc', h'.get r c (hc.1 ▸ hr') (hc.2 ▸ hc2), S.add]

theorem sc_sub (h : Sc S k a a') (h' : Sc S k b b') : RelM (Sc S k) (a.sub b) (a'.sub b') := by
  unfold Arr2.sub
  rw [h.nr, h.nc, h'.nr, h'.nc]
  refine Par.relM_ite Iff.rfl (fun hc => ⟨rfl, rfl, fun r c hr hc' => ?_⟩) fun _ => rfl
  have hr' : r < a.nr := hr
  have hc2 : c < a.nc := hc'
  show a'.get r c - b'.get r c = _
  rw [h.get r c hr hc', h'.get r c (hc.1 ▸ hr') (hc.2 ▸ hc2), S.sub]

theorem sc_hcat (h : Sc S k a a') (h' : Sc S k b b') : RelM (Sc S k) (a.hcat b) (a'.hcat b') := by
  unfold Arr2.hcat
  rw [h.nr, h.nc, h'.nr, h'.nc]
  refine Par.relM_ite Iff.rfl (fun hc => ⟨rfl, rfl, fun r c hr hc' => ?_⟩) fun _ => rfl
  have hr' : r < a.nr := hr
  have hc2 : c < a.nc + b.nc := hc'
  show (if c < a.nc then a'.get r c else b'.get r (c - a.nc)) = S.act k (if c < a.nc then a.get r c else b.get r (c - a.nc))
  split_ifs with h1
  · exact h.get r c hr h1
  · exact h'.get r _ (hc ▸ hr') (by omega)

theorem sc_vcat (h : Sc S k a a') (h' : Sc S k b b') : RelM (Sc S k) (a.vcat b) (a'.vcat b') := by
  unfold Arr2.vcat
  rw [h.nr, h.nc, h'.nr, h'.nc]
  refine Par.relM_ite Iff.rfl (fun hc => ⟨rfl, rfl, fun r c hr hc' => ?_⟩) fun _ => rfl
  have hr' : r < a.nr + b.nr := hr
  have hc2 : c < a.nc := hc'
  show (if r < a.nr then a'.get r c else b'.get (r - a.nr) c) = S.act k (if r < a.nr then a.get r c else b.get (r - a.nr) c)
  split_ifs with h1
  · exact h.get r c h1 hc'
  · exact h'.get _ c (by omega) (hc ▸ hc2)

theorem sc_mask (h : Sc S k a a') (l : List Bool) : RelM (Sc S k) (ndarrayMask a l) (ndarrayMask a' l) := by
  unfold ndarrayMask Arr2.selectCols
  rw [h.nr, h.nc]
  refine Par.relM_ite Iff.rfl (fun _ => ?_) fun _ => rfl
  refine Par.relM_ite Iff.rfl (fun hh => ⟨rfl, rfl, fun r c hr hc => ?_⟩) fun _ => rfl
  have hc' : c < (maskIndices l).length := hc
  refine h.get r _ hr ?_
  have := List.all_eq_true.1 hh ((maskIndices l).getD c 0) (by
    rw [List.getD_eq_getElem?_getD, List.getElem?_eq_getElem hc']
    exact List.getElem_mem hc')
  simpa using this

theorem sc_gemm {c c' : Arr2 α} (h : Sc S 0 a a') (h' : Sc S k b b') (hc : Sc S k c c') :
    RelM (Sc S k) (genMatMul (-1) a b 1 c) (genMatMul (-1) a' b' 1 c') := by
  unfold genMatMul
  rw [h.nr, h.nc, h'.nr, h'.nc, hc.nr, hc.nc]
  refine Par.relM_ite Iff.rfl (fun hh => ⟨rfl, rfl, fun i l hi hl => ?_⟩) fun _ => rfl
  have hi' : i < c.nr := hi
  have hl' : l < c.nc := hl
  have key : ∀ z x : α, z * S.act k x = S.act k (z * x) := fun z x => by
    have := S.mul 0 k z x
    rwa [S.act_none, zero_add] at this
  have e := dotTo_scaled S (fun q hq => h.get i q (hh.2.1 ▸ hi') hq) fun q hq => h'.get q l (hh.1 ▸ hq) (hh.2.2 ▸ hl')
  rw [zero_add] at e
  show -1 * dotTo a.nc (a'.get i) (fun q => b'.get q l) + 1 * c'.get i l = _
  rw [e, hc.get i l hi hl, key, key, S.add]

theorem sc_solve {l l' : Arr2 α} (hl : Sc S j l l') (h : Sc S (j + k) b b') (u : UPLO) :
    RelM (Sc S k) (solveTriangular l b u) (solveTriangular l' b' u) := by
  have := scaled_solveSystem S u (p := fun _ => j) (q := fun _ => (0 : G)) (f := fun _ => k) hl.nr hl.nc
    (fun r c hr hc _ => by rw [add_zero]; exact hl.get r c hr hc)
    (fun i _ => by rw [add_zero]; exact ScaledBy.at hl i i) h
  simp only [sub_zero] at this
  exact this

theorem sc_cholesky (h : Sc S (k + k) a b) : RelM (Sc S k) (cholesky a) (cholesky b) :=
  scaled_cholesky S (d := fun _ => k) h

theorem sc_ortho (h : Sc S k a b) :
    RelM (fun p q => Sc S 0 p.1 q.1 ∧ Sc S k p.2 q.2) (orthonormalize a) (orthonormalize b) := by
  unfold orthonormalize
  refine relM_bind (sc_dot h.t h) fun g g' hg => ?_
  refine relM_bind (sc_cholesky hg) fun l l' hl => ?_
  refine relM_bind (sc_solve (k := 0) hl (h.t.cast (add_zero k).symm) .lower) fun u u' hu => ?_
  exact ⟨hu.t, hl⟩

theorem sc_fromDiag {d d' : Arr1 α} (h : Scaled1 S.act (fun _ => k) d d') : Sc S k (Arr2.fromDiag d) (Arr2.fromDiag d') := by
  refine ⟨h.len, h.len, fun r c hr hc => ?_⟩
  show (if r = c then d'.get r else 0) = S.act k (if r = c then d.get r else 0)
  split_ifs
  · exact h.get r hr
  · exact (S.act_zero k).symm

theorem sc_symmetrize (h : Sc S k a b) : RelM (Sc S k) (symmetrize a) (symmetrize b) := by
  unfold symmetrize
  refine relM_bind (sc_add h h.t) fun s s' hs => ⟨hs.nr, hs.nc, fun r c hr hc => ?_⟩
  show s'.get r c / NdFloat.ofRat 2 = S.act k (s.get r c / NdFloat.ofRat 2)
  have := S.div k 0 (s.get r c) (NdFloat.ofRat 2)
  rw [S.act_none, sub_zero] at this
  rw [hs.get r c hr hc, this]

theorem sc_slice (h : Sc S k a b) (r0 r1 c0 c1 : Nat) : RelM (Sc S k) (a.slice r0 r1 c0 c1) (b.slice r0 r1 c0 c1) :=
  relM_mono (ScaledBy.slice h r0 r1 c0 c1) fun _ _ h => h.2.2

theorem sc_norms (h : Sc S k a b) :
    (List.range b.nc).map (fun j => normL2 ((List.range b.nr).map fun i => b.get i j)) =
      ((List.range a.nc).map (fun j => normL2 ((List.range a.nr).map fun i => a.get i j))).map (S.act k) := by
  rw [h.nr, h.nc, List.map_map]
  refine List.map_congr_left fun c hc => ?_
  rw [Function.comp, ← (C129_norms S k _).2.1, List.map_map]
  congr 1
  exact List.map_congr_left fun r hr => h.get r c (List.mem_range.1 hr) (List.mem_range.1 hc)

end arrays

theorem stableInsert_comap {β γ : Type} {le : β → β → Bool} {le' : γ → γ → Bool} {f : β → γ}
    (h : ∀ x y, le' (f x) (f y) = le x y) (x : β) (l : List β) :
    stableInsert le' (f x) (l.map f) = (stableInsert le x l).map f := by
  induction l with
  | nil => rfl
  | cons y ys ih =>
    simp only [List.map_cons, stableInsert, h]
    split_ifs
    · rfl
    · rw [ih, List.map_cons]

theorem stableSort_comap {β γ : Type} {le : β → β → Bool} {le' : γ → γ → Bool} {f : β → γ}
    (h : ∀ x y, le' (f x) (f y) = le x y) (l : List β) : stableSort le' (l.map f) = (stableSort le l).map f := by
  induction l with
  | nil => rfl
  | cons x xs ih => rw [List.map_cons, stableSort, stableSort, ih, stableInsert_comap h]

theorem permuteCols_map (v : Arr2 α) (f : α → α) (l : List (Nat × α)) :
    permuteCols v (l.map fun p => (p.1, f p.2)) = permuteCols v l := by
  unfold permuteCols
  rw [List.length_map]
  congr 1
  funext k out
  rw [List.getElem?_map]
  cases l[k]? <;> rfl

section solver
variable {S : Scalings G α} {g : G}

theorem sc_sortBy (hS : Positive S) {j : G} {d d' : Arr1 α} (hd : Scaled1 S.act (fun _ => j) d d') (o : Order) :
    RelM (fun l l' => l' = l.map fun p => (p.1, S.act j p.2)) (sortBy Prod.snd o d.enumerate)
      (sortBy Prod.snd o d'.enumerate) := by
  have he : d'.enumerate = d.enumerate.map fun p => (p.1, S.act j p.2) := by
    unfold Arr1.enumerate
    rw [hd.len, List.map_map]
    exact List.map_congr_left fun i hi => by
      show (i, d'.get i) = (i, S.act j (d.get i))
      rw [hd.get i (List.mem_range.1 hi)]
  unfold sortBy
  rw [he, List.length_map, List.any_map]
  have hn : ((fun x : Nat × α => isNaN x.2) ∘ fun p : Nat × α => (p.1, S.act j p.2)) = fun x => isNaN x.2 := by
    funext x
    show (!NdFloat.le (S.act j x.2) (S.act j x.2)) = !NdFloat.le x.2 x.2
    rw [hS.le]
  rw [hn]
  refine Par.relM_ite Iff.rfl (fun _ => rfl) fun _ => ?_
  refine stableSort_comap (fun x y => ?_) _
  cases o <;> exact hS.le j _ _

theorem sc_sortEig (hS : Positive S) {d d' : Arr1 α} (hd : Scaled1 S.act (fun _ => g) d d') {v v' : Arr2 α}
    (hv : Sc S 0 v v') (o : Order) :
    RelM (fun p q => Scaled1 S.act (fun _ => g) p.1 q.1 ∧ Sc S 0 p.2 q.2) (sortEig d v o) (sortEig d' v' o) := by
  unfold sortEig
  refine relM_bind (sc_sortBy hS hd o) ?_
  rintro l _ rfl
  rw [permuteCols_map]
  refine relM_bind (rel_permuteCols hv.rel (l := l) (l' := l) ?_) fun a b hab => ⟨⟨hd.len, fun i hi => ?_⟩, sc_of_rel hab⟩
  · exact List.forall₂_same.2 fun x _ => ⟨rfl, rfl, trivial⟩
  · show (match (l.map fun p => (p.1, S.act g p.2))[i]? with
      | some p => p.2
      | none => d'.get i) = S.act g (match l[i]? with
      | some p => p.2
      | none => d.get i)
    rw [List.getElem?_map]
    cases l[i]? with
    | none => exact hd.get i hi
    | some p => rfl

/-- What is needed of the internal eigensolver. -/
structure ScalesSolver (S : Scalings G α) (g : G) (e : EigSolver α) : Prop where
  same : RelSolver (EqIn Any) e e
  scale : ∀ a b, Sc S g a b → RelM (fun p q => Scaled1 S.act (fun _ => g) p.1 q.1 ∧ Sc S 0 p.2 q.2) (e a) (e b)

theorem sc_generalizedEig {e : EigSolver α} (he : ScalesSolver S g e) {a a' b b' : Arr2 α} (ha : Sc S g a a')
    (hb : Sc S 0 b b') : RelM (fun p q => Scaled1 S.act (fun _ => g) p.1 q.1 ∧ Sc S 0 p.2 q.2)
      (generalizedEig e a b) (generalizedEig e a' b') := by
  unfold generalizedEig
  refine relM_bind (he.same b b' hb.rel) ?_
  rintro ⟨d, v⟩ ⟨d', v'⟩ ⟨hd, hv⟩
  dsimp only at hd hv ⊢
  refine relM_bind (R := Sc S 0) (relM_mono (rel_scaleCols hv (d := d.map _) (e := d'.map _) ?_) fun _ _ => sc_of_rel)
    fun w w' hw => ?_
  · exact ⟨hd.len, fun i hi => ⟨by
      show 1 / NdFloat.sqrt (NdFloat.max (d.get i) _) = 1 / NdFloat.sqrt (NdFloat.max (d'.get i) _)
      rw [(hd.get i hi).1], trivial⟩⟩
  refine relM_bind (sc_dot ha hw) fun av av' hav => ?_
  refine relM_bind (sc_dot hw.t hav) fun t t' ht => ?_
  refine relM_bind (he.scale _ _ (ht.cast (by abel))) ?_
  rintro ⟨d, u⟩ ⟨d', u'⟩ ⟨hd, hu⟩
  dsimp only at hd hu ⊢
  exact relM_bind (sc_dot hw hu) fun z z' hz => ⟨hd, hz.cast (by abel)⟩

theorem sc_sortedEig (hS : Positive S) {e : EigSolver α} (he : ScalesSolver S g e) {a a' : Arr2 α} (ha : Sc S g a a')
    {b b' : Option (Arr2 α)} (hb : RelO (Sc S 0) b b') (n : Nat) (o : Order) :
    RelM (fun p q => Scaled1 S.act (fun _ => g) p.1 q.1 ∧ Sc S 0 p.2 q.2) (sortedEig e a b n o) (sortedEig e a' b' n o) := by
  unfold sortedEig
  refine relM_bind (R := fun p q => Scaled1 S.act (fun _ => g) p.1 q.1 ∧ Sc S 0 p.2 q.2) ?_ ?_
  · rcases b with _ | b <;> rcases b' with _ | b'
    · exact he.scale _ _ ha
    · exact hb.elim
    · exact hb.elim
    · exact sc_generalizedEig he ha hb
  · rintro ⟨d, v⟩ ⟨d', v'⟩ ⟨hd, hv⟩
    refine relM_bind (sc_sortEig hS hd hv o) ?_
    rintro ⟨d, v⟩ ⟨d', v'⟩ ⟨hd, hv⟩
    dsimp only at hd hv ⊢
    refine Par.relM_ite (by rw [hv.nr]) (fun _ => rfl) fun h0 => ?_
    refine relM_bind (R := Sc S 0) (relM_mono (rel_scaleCols hv.rel ⟨hv.nc.symm, fun j hj => ⟨?_, trivial⟩⟩)
      fun _ _ => sc_of_rel) fun w w' hw => ?_
    · show NdFloat.signum (v.get 0 j) = NdFloat.signum (v'.get 0 j)
      rw [hv.get 0 j (Nat.pos_of_ne_zero h0) hj, S.signum]
    · refine relM_bind (R := Scaled1 S.act (fun _ => g)) ?_ fun u u' hu => ?_
      · unfold Arr1.slice
        rw [hd.len]
        refine Par.relM_ite Iff.rfl (fun hh => ⟨rfl, fun i hi => hd.get _ ?_⟩) fun _ => rfl
        have hi' : i < n - 0 := hi
        omega
      · rw [hw.nr]
        exact relM_bind (sc_slice hw _ _ _ _) fun z z' hz => ⟨hu, hz⟩

theorem sc_toList {a b : Arr2 α} (h : Sc S g a b) : b.toList = a.toList.map (S.act g) := by
  unfold Arr2.toList
  rw [h.nr, h.nc, List.map_flatMap]
  refine List.flatMap_congr fun i hi => ?_
  rw [List.map_map]
  exact List.map_congr_left fun j hj => h.get i j (List.mem_range.1 hi) (List.mem_range.1 hj)

theorem sc_foldMax (l : List α) (x : α) :
    (l.map (S.act g)).foldl NdFloat.max (S.act g x) = S.act g (l.foldl NdFloat.max x) := by
  induction l generalizing x with
  | nil => rfl
  | cons y ys ih => rw [List.map_cons, List.foldl_cons, List.foldl_cons, S.max, ih]

theorem sc_amax (hS : Positive S) {a b : Arr2 α} (h : Sc S g a b) (hr : 0 < a.nr) (hc : 0 < a.nc) :
    b.amax = S.act g a.amax := by
  unfold Arr2.amax
  rw [sc_toList h]
  have hne : a.toList ≠ [] := by
    intro h0
    have : a.get 0 0 ∈ a.toList := by
      unfold Arr2.toList
      exact List.mem_flatMap.2 ⟨0, List.mem_range.2 hr, List.mem_map.2 ⟨0, List.mem_range.2 hc, rfl⟩⟩
    rw [h0] at this
    cases this
  cases hl : a.toList with
  | nil => exact absurd hl hne
  | cons x xs =>
    simp only [List.map_cons, List.foldl_cons]
    rw [hS.negInf, hS.negInf, S.abs, ← sc_foldMax, List.map_map, List.map_map]
    congr 1
    exact List.map_congr_left fun y _ => S.abs g y

/-- The result of `eigh_into` for a multiple. -/
theorem eighInto_scales (hS : Positive S) (g : G) (fuel : Nat) : ScalesSolver S g (eighInto fuel) where
  same := relSolver_eighInto fuel
  scale a b h := by
    have hv : ∀ w x : α, S.act g (w * x) = w * S.act g x := fun w x => by
      have := S.mul 0 g w x
      rw [S.act_none, zero_add] at this
      exact this.symm
    have key : ∀ a b : Arr2 α, b.nr = a.nr → b.nc = a.nc → b.scaleDown b.amax = a.scaleDown a.amax →
        b.amax = S.act g a.amax →
        RelM (fun p q => Scaled1 S.act (fun _ => g) p.1 q.1 ∧ Sc S 0 p.2 q.2) (eighInto fuel a) (eighInto fuel b) := by
      intro a b h1 h2 h3 h4
      unfold eighInto
      refine relM_bind (symmetricEig_scale h1 h2 h3 fuel true NdFloat.epsilon) ?_
      rintro ⟨d, v⟩ ⟨d', v'⟩ ⟨w, hl, hv', hw⟩
      dsimp only at hl hv' hw ⊢
      subst hv'
      rcases v with _ | v
      · rfl
      · refine ⟨⟨hl.symm, fun i hi => ?_⟩, rfl, rfl, fun i j _ _ => (S.act_none _).symm⟩
        rw [(hw i hi).1, (hw i hi).2, h4, hv]
    have comp : ∀ {a a' b b' : Arr2 α}, RelA2 (EqIn Any) a a' → RelA2 (EqIn Any) b' b →
        RelM (fun p q => Scaled1 S.act (fun _ => g) p.1 q.1 ∧ Sc S 0 p.2 q.2) (eighInto fuel a') (eighInto fuel b') →
        RelM (fun p q => Scaled1 S.act (fun _ => g) p.1 q.1 ∧ Sc S 0 p.2 q.2) (eighInto fuel a) (eighInto fuel b) := by
      intro a a' b b' h1 h2 h3
      have e1 := rel_eighInto (R := EqIn (Any : α → Prop)) (rfl : fuel = fuel) h1
      have e2 := rel_eighInto (R := EqIn (Any : α → Prop)) (rfl : fuel = fuel) h2
      revert e1 e2 h3
      rcases eighInto fuel a with e | ⟨d, v⟩ <;> rcases eighInto fuel a' with e' | ⟨d', v'⟩ <;>
        rcases eighInto fuel b' with f' | ⟨x', y'⟩ <;> rcases eighInto fuel b with f | ⟨x, y⟩ <;> intro h3 e1 e2 <;>
        first
        | exact e1.elim
        | exact e2.elim
        | exact h3.elim
        | skip
      · exact (show e = e' from e1).trans ((show e' = f' from h3).trans e2)
      · obtain ⟨⟨l1, g1⟩, m1⟩ := e1
        obtain ⟨⟨l2, g2⟩, m2⟩ := e2
        obtain ⟨⟨l3, g3⟩, m3⟩ := h3
        dsimp only at l1 g1 m1 l2 g2 m2 l3 g3 m3
        refine ⟨⟨l2.symm.trans (l3.trans l1.symm), fun i hi => ?_⟩, ?_⟩
        · dsimp only at hi ⊢
          rw [← (g2 i (by rw [l3, ← l1]; exact hi)).1, g3 i (by rw [← l1]; exact hi), (g1 i hi).1]
        · have m1' := sc_of_rel (S := S) m1
          have m2' := sc_of_rel (S := S) m2
          refine ⟨m2'.nr.trans (m3.nr.trans m1'.nr), m2'.nc.trans (m3.nc.trans m1'.nc), fun i j hi hj => ?_⟩
          have hi' : i < v.nr := hi
          have hj' : j < v.nc := hj
          show y.get i j = _
          rw [m2'.get i j (by rw [m3.nr, m1'.nr]; exact hi') (by rw [m3.nc, m1'.nc]; exact hj'),
            m3.get i j (by rw [m1'.nr]; exact hi') (by rw [m1'.nc]; exact hj'), m1'.get i j hi' hj']
          simp only [S.act_none]
    by_cases hsq : a.nr = a.nc ∧ 0 < a.nr
    · obtain ⟨hsq, hpos⟩ := hsq
      by_cases hz : NdFloat.isZero a.amax = true
      · have ha : RelA2 (EqIn Any) a ⟨a.nr, a.nc, fun _ _ => 0⟩ :=
          ⟨rfl, rfl, fun i hi j hj => ⟨hS.amax_zero a i j hz hi hj, trivial⟩⟩
        have hb : RelA2 (EqIn Any) ⟨a.nr, a.nc, fun _ _ => 0⟩ b :=
          ⟨h.nr.symm, h.nc.symm, fun i hi j hj => ⟨by
            rw [h.get i j hi hj, hS.amax_zero a i j hz hi hj, S.act_zero], trivial⟩⟩
        refine comp ha hb (key _ _ rfl rfl rfl ?_)
        exact sc_amax hS (S := S) (g := g) ⟨rfl, rfl, fun i j _ _ => (S.act_zero g).symm⟩ hpos (hsq ▸ hpos)
      · have hb : RelA2 (EqIn Any) ⟨a.nr, a.nc, fun i j => S.act g (a.get i j)⟩ b :=
          ⟨h.nr.symm, h.nc.symm, fun i hi j hj => ⟨(h.get i j hi hj).symm, trivial⟩⟩
        have hm := sc_amax hS (S := S) (g := g) (a := a) (b := ⟨a.nr, a.nc, fun i j => S.act g (a.get i j)⟩)
          ⟨rfl, rfl, fun i j _ _ => rfl⟩ hpos (hsq ▸ hpos)
        refine comp (a' := a) ⟨rfl, rfl, fun i _ j _ => ⟨rfl, trivial⟩⟩ hb (key _ _ rfl rfl ?_ hm)
        rw [hm]
        unfold Arr2.scaleDown
        rw [S.isZero, if_neg hz, if_neg hz]
        unfold Arr2.map
        congr 1
        funext i j
        show S.act g (a.get i j) / S.act g a.amax = _
        rw [S.div, sub_self, S.act_none]
    · unfold eighInto symmetricEig
      have hc : checkSquare b = checkSquare a := by
        unfold checkSquare
        rw [h.nr, h.nc]
      rw [hc]
      by_cases h1 : a.nr = a.nc
      · have h2 : a.nr = 0 := by
          by_contra h3
          exact hsq ⟨h1, Nat.pos_of_ne_zero h3⟩
        rw [checkSquare_ok h1, h2]
        exact ⟨⟨rfl, fun i hi => absurd hi (Nat.not_lt_zero i)⟩, rfl, rfl, fun i j hi _ => absurd hi (Nat.not_lt_zero i)⟩
      · unfold checkSquare
        rw [if_pos h1]
        rfl

end solver

/-- The arguments of two runs in different units; the preconditioner of the second may use yet another one, `k`. -/
structure UnitParams (S : Scalings G α) (g k : G) (P P' : LobParams α) : Prop where
  a : ∀ n x y, Sc S 0 x y → RelM (Sc S g) (P.a n x) (P'.a n y)
  m : ∀ x y, Sc S g x y → RelM (Sc S k) (P.m x) (P'.m y)
  y : RelO (Sc S 0) P.y P'.y
  tol : P'.tol = S.act g P.tol
  order : P'.order = P.order

/-- States of the main loop in different units. -/
structure UnitState (S : Scalings G α) (g : G) (p q : LobState α) : Prop where
  lambda : Scaled1 S.act (fun _ => g) p.lambda q.lambda
  x : Sc S 0 p.x q.x
  ax : Sc S g p.ax q.ax
  mask : q.mask = p.mask
  best : RelO (InUnit (S.act g)) p.best q.best
  blockSize : q.blockSize = p.blockSize
  ident : Sc S 0 p.ident q.ident
  pap : RelO (RelP (Sc S 0) (Sc S g)) p.pap q.pap
  explicitGram : p.explicitGram = true
  explicitGram' : q.explicitGram = true
  iter : q.iter = p.iter
  calls : q.calls = p.calls
  gram : RelO (Sc S 0) p.gram q.gram
  hist : List.Forall₂ (IterateInUnit (S.act g)) p.hist q.hist

section
variable {S : Scalings G α} {g k : G} {P P' : LobParams α}

theorem Sc.same {a b : Arr2 α} (h : Sc S 0 a b) : SameArr a b := same_of_relA2 h.rel

theorem units_precondition (h : UnitParams S g k P P') {x x' : Arr2 α} (hx : Sc S g x x') :
    RelM (Sc S k) (P.precondition x) (P'.precondition x') := by
  unfold LobParams.precondition
  refine relM_bind (relM_unwrap (h.m x x' hx)) fun w w' hw => ?_
  refine Par.relM_ite ?_ (fun _ => hw) fun _ => rfl
  rw [hw.nr, hx.nr, hw.nc, hx.nc]

theorem units_constrain (h : UnitParams S g k P P') {c c' : Option (Arr2 α)} (hc : RelO (Sc S 0) c c') {j : G}
    {v v' : Arr2 α} (hv : Sc S j v v') : RelM (Sc S j) (P.constrain c v) (P'.constrain c' v') := by
  have hy := h.y
  unfold LobParams.constrain
  revert hy
  rcases P.y with _ | y <;> rcases P'.y with _ | y' <;> intro hy
  · exact hv
  · exact hy.elim
  · exact hy.elim
  · rcases c with _ | c <;> rcases c' with _ | c'
    · exact hv
    · exact hc.elim
    · exact hc.elim
    · show RelM _ (applyConstraints v c y) (applyConstraints v' c' y')
      have hy' : Sc S 0 y y' := hy
      have hc' : Sc S 0 c c' := hc
      unfold applyConstraints
      refine relM_bind (sc_dot hy'.t hv) fun w w' hw => ?_
      refine relM_bind (relM_unwrap (sc_solve hc' hw .lower)) fun u u' hu => ?_
      exact sc_gemm hy' hu hv

theorem units_residual {p q : LobState α} (h : UnitState S g p q) :
    RelM (fun r r' => Sc S g r.1 r'.1 ∧ r'.2 = r.2.map (S.act g)) (lobResidual p) (lobResidual q) := by
  unfold lobResidual
  refine relM_bind (sc_dot h.x (sc_fromDiag h.lambda)) fun a b hab => ?_
  refine relM_bind (sc_sub h.ax (hab.cast (zero_add g))) fun a b hab => ?_
  exact ⟨hab, sc_norms hab⟩

theorem units_sum (l : List α) : sumList (l.map (S.act g)) = S.act g (sumList l) := by
  have : ∀ x : α, (l.map (S.act g)).foldl (· + ·) (S.act g x) = S.act g (l.foldl (· + ·) x) := by
    intro x
    induction l generalizing x with
    | nil => rfl
    | cons y ys ih => rw [List.map_cons, List.foldl_cons, List.foldl_cons, S.add, ih]
  have h := this 0
  rwa [S.act_zero] at h

theorem units_updateBest (hS : Positive S) {o o' : Option (Lobpcg α)} (ho : RelO (InUnit (S.act g)) o o') {p q : Lobpcg α}
    (h : InUnit (S.act g) p q) : RelO (InUnit (S.act g)) (updateBest o p) (updateBest o' q) := by
  unfold updateBest
  rcases o with _ | a <;> rcases o' with _ | b
  · exact h
  · exact ho.elim
  · exact ho.elim
  · have h2 : InUnit (S.act g) a b := ho
    dsimp only
    rw [h.2.2, h2.2.2, units_sum, units_sum, hS.lt]
    split_ifs
    · exact h
    · exact h2

theorem units_updateMask (hS : Positive S) (tol : α) (l : List α) (mask : List Bool) :
    updateMask (S.act g tol) (l.map (S.act g)) mask = updateMask tol l mask := by
  unfold updateMask
  rw [List.zipWith_map_left]
  simp only [hS.lt]

theorem units_head (hS : Positive S) (hP : UnitParams S g k P P') {p q : LobState α} (h : UnitState S g p q) :
    RelM (fun r r' => UnitState S g r.1 r'.1 ∧ Sc S g r.2.1 r'.2.1) (lobHead P p) (lobHead P' q) := by
  unfold lobHead
  refine relM_bind (units_residual h) ?_
  rintro ⟨r, l⟩ ⟨r', l'⟩ ⟨hr, hl⟩
  dsimp only at hr hl ⊢
  subst hl
  rw [hP.tol, h.mask, h.blockSize, units_updateMask hS]
  have hcur : InUnit (S.act g) ⟨p.lambda, p.x, l⟩ ⟨q.lambda, q.x, l.map (S.act g)⟩ :=
    ⟨⟨h.lambda.len.symm, fun i hi => (h.lambda.get i hi).symm⟩, h.x.same, rfl⟩
  refine ⟨⟨h.lambda, h.x, h.ax, rfl, units_updateBest hS h.best hcur, rfl, ?_, h.pap, h.explicitGram, h.explicitGram', h.iter,
    h.calls, h.gram, forall₂_append h.hist (.cons ⟨hcur, rfl, sameOpt_of_rel (fun _ _ h => Sc.same h) h.gram⟩ .nil)⟩, hr⟩
  dsimp only
  split_ifs
  · exact ⟨rfl, rfl, fun _ _ _ _ => (S.act_none _).symm⟩
  · exact h.ident

/-- The blocks of the Gram matrices. -/
structure UnitGram (S : Scalings G α) (g : G) (p q : XRGram α) : Prop where
  xax : Sc S g p.xax q.xax
  xar : Sc S g p.xar q.xar
  rar : Sc S g p.rar q.rar
  xx : Sc S 0 p.xx q.xx
  rr : Sc S 0 p.rr q.rr
  xr : Sc S 0 p.xr q.xr

theorem units_xrGram {p q : LobState α} (h : UnitState S g p q) {r ar r' ar' : Arr2 α}
    (hr : Sc S 0 r r') (har : Sc S g ar ar') : RelM (UnitGram S g) (xrGram p r ar) (xrGram q r' ar') := by
  unfold xrGram
  simp only [h.explicitGram, h.explicitGram', if_true]
  refine relM_bind (sc_dot h.x.t har) fun xar xar' hxar => ?_
  refine relM_bind (sc_dot hr.t har) fun rar rar' hrar => ?_
  refine relM_bind (sc_symmetrize hrar) fun rar rar' hrar => ?_
  refine relM_bind (sc_dot h.x.t h.ax) fun xax xax' hxax => ?_
  refine relM_bind (sc_symmetrize hxax) fun xax xax' hxax => ?_
  refine relM_bind (sc_dot h.x.t h.x) fun xx xx' hxx => ?_
  refine relM_bind (sc_dot hr.t hr) fun rr rr' hrr => ?_
  refine relM_bind (sc_dot h.x.t hr) fun xr xr' hxr => ?_
  exact ⟨hxax.cast (zero_add g), hxar.cast (zero_add g), hrar.cast (zero_add g), hxx.cast (zero_add 0), hrr.cast (zero_add 0),
    hxr.cast (zero_add 0)⟩

theorem units_activePAP (l : List Bool) {o o' : Option (Arr2 α × Arr2 α)} (ho : RelO (RelP (Sc S 0) (Sc S g)) o o') :
    RelM (RelO (RelP (Sc S 0) (Sc S g))) (activePAP l o) (activePAP l o') := by
  rcases o with _ | ⟨a, b⟩ <;> rcases o' with _ | ⟨a', b'⟩
  · trivial
  · exact ho.elim
  · exact ho.elim
  · obtain ⟨ha, hb⟩ : Sc S 0 a a' ∧ Sc S g b b' := ho
    unfold activePAP
    refine relM_bind (sc_mask ha l) fun a a' ha => ?_
    refine relM_bind (sc_mask hb l) fun b b' hb => ?_
    refine relM_bind (relM_catch (sc_ortho ha)) fun o o' ho => ?_
    rcases o with o | ⟨a, l⟩ <;> rcases o' with o' | ⟨a', l'⟩
    · trivial
    · exact ho.elim
    · exact ho.elim
    · obtain ⟨ha, hl⟩ := ho
      dsimp only at ha hl ⊢
      refine relM_bind (relM_catch (sc_solve hl (hb.t.cast (zero_add g).symm) .lower)) fun o o' ho => ?_
      rcases o with o | u <;> rcases o' with o' | u'
      · trivial
      · exact ho.elim
      · exact ho.elim
      · exact ⟨ha, Sc.t ho⟩

theorem sc_block2 {j : G} {a b c a' b' c' : Arr2 α} (ha : Sc S j a a') (hb : Sc S j b b') (hc : Sc S j c c') :
    RelM (Sc S j) (block2 a b c) (block2 a' b' c') := by
  unfold block2
  refine relM_bind (sc_hcat ha hb) fun _ _ h0 => ?_
  refine relM_bind (sc_hcat hb.t hc) fun _ _ h1 => ?_
  exact sc_vcat h0 h1

theorem sc_block3 {j : G} {a b c d e f a' b' c' d' e' f' : Arr2 α} (ha : Sc S j a a') (hb : Sc S j b b') (hc : Sc S j c c')
    (hd : Sc S j d d') (he : Sc S j e e') (hf : Sc S j f f') :
    RelM (Sc S j) (block3 a b c d e f) (block3 a' b' c' d' e' f') := by
  unfold block3
  refine relM_bind (sc_hcat ha hb) fun _ _ h0 => ?_
  refine relM_bind (sc_hcat h0 hc) fun _ _ h0 => ?_
  refine relM_bind (sc_hcat hb.t hd) fun _ _ h1 => ?_
  refine relM_bind (sc_hcat h1 he) fun _ _ h1 => ?_
  refine relM_bind (sc_hcat hc.t he.t) fun _ _ h2 => ?_
  refine relM_bind (sc_hcat h2 hf) fun _ _ h2 => ?_
  refine relM_bind (sc_vcat h0 h1) fun _ _ h3 => ?_
  exact sc_vcat h3 h2

theorem units_eig3 (hS : Positive S) {e : EigSolver α} (he : ScalesSolver S g e) (o : Order) {p q : LobState α}
    (h : UnitState S g p q) {r r' : Arr2 α} (hr : Sc S 0 r r') {w w' : XRGram α} (hg : UnitGram S g w w')
    {a b a' b' : Arr2 α} (ha : Sc S 0 a a') (hb : Sc S g b b') :
    RelM (fun z z' => Scaled1 S.act (fun _ => g) z.1 z'.1 ∧ Sc S 0 z.2.1 z'.2.1 ∧ Sc S 0 z.2.2 z'.2.2)
      (eig3 e o p r w a b) (eig3 e o q r' w' a' b') := by
  unfold eig3
  simp only [h.explicitGram, h.explicitGram', if_true]
  refine relM_bind (sc_dot h.x.t hb) fun xap xap' h1 => ?_
  refine relM_bind (sc_dot hr.t hb) fun rap rap' h2 => ?_
  refine relM_bind (sc_dot ha.t hb) fun pap pap' h3 => ?_
  refine relM_bind (sc_dot h.x.t ha) fun xp xp' h4 => ?_
  refine relM_bind (sc_dot hr.t ha) fun rp rp' h5 => ?_
  refine relM_bind (R := RelP (Sc S g) (Sc S 0)) ?_ ?_
  · refine relM_bind (sc_symmetrize h3) fun _ _ h3 => ?_
    exact relM_bind (sc_dot ha.t ha) fun _ _ h6 => ⟨h3.cast (zero_add g), h6.cast (zero_add 0)⟩
  · rintro ⟨pap, pp⟩ ⟨pap', pp'⟩ ⟨h3, h6⟩
    dsimp only at h3 h6 ⊢
    refine relM_bind (sc_block3 hg.xax hg.xar (h1.cast (zero_add g)) hg.rar (h2.cast (zero_add g)) h3) fun A A' hA => ?_
    refine relM_bind (sc_block3 hg.xx hg.xr (h4.cast (zero_add 0)) hg.rr (h5.cast (zero_add 0)) h6) fun B B' hB => ?_
    rw [h.x.nc]
    refine relM_bind (sc_sortedEig hS he hA (b := some B) (b' := some B') hB _ o) ?_
    rintro ⟨a, b⟩ ⟨a', b'⟩ ⟨ha, hb⟩
    exact ⟨ha, hb, hB⟩

theorem units_eig2 (hS : Positive S) {e : EigSolver α} (he : ScalesSolver S g e) (o : Order) {p q : LobState α}
    (h : UnitState S g p q) {w w' : XRGram α} (hg : UnitGram S g w w') :
    RelM (fun z z' => Scaled1 S.act (fun _ => g) z.1 z'.1 ∧ Sc S 0 z.2.1 z'.2.1 ∧ Sc S 0 z.2.2 z'.2.2)
      (eig2 e o p w) (eig2 e o q w') := by
  unfold eig2
  refine relM_bind (sc_block2 hg.xax hg.xar hg.rar) fun A A' hA => ?_
  refine relM_bind (sc_block2 hg.xx hg.xr hg.rr) fun B B' hB => ?_
  rw [h.x.nc]
  refine relM_bind (sc_sortedEig hS he hA (b := some B) (b' := some B') hB _ o) ?_
  rintro ⟨a, b⟩ ⟨a', b'⟩ ⟨ha, hb⟩
  exact ⟨ha, hb, hB⟩

theorem units_lobEig (hS : Positive S) {e : EigSolver α} (he : ScalesSolver S g e) (o : Order) {p q : LobState α}
    (h : UnitState S g p q) {r r' : Arr2 α} (hr : Sc S 0 r r') {w w' : XRGram α} (hg : UnitGram S g w w')
    {u u' : Option (Arr2 α × Arr2 α)} (hu : RelO (RelP (Sc S 0) (Sc S g)) u u') :
    RelM (RelP (RelO (RelP (Sc S 0) (Sc S g)))
        (RelE (fun z z' => Scaled1 S.act (fun _ => g) z.1 z'.1 ∧ Sc S 0 z.2.1 z'.2.1 ∧ Sc S 0 z.2.2 z'.2.2)))
      (lobEig e o p r w u) (lobEig e o q r' w' u') := by
  unfold lobEig
  refine relM_bind (R := RelE (fun z z' => Scaled1 S.act (fun _ => g) z.1 z'.1 ∧ Sc S 0 z.2.1 z'.2.1 ∧ Sc S 0 z.2.2 z'.2.2))
    ?_ ?_
  · rcases u with _ | ⟨a, b⟩ <;> rcases u' with _ | ⟨a', b'⟩
    · rfl
    · exact hu.elim
    · exact hu.elim
    · obtain ⟨ha, hb⟩ : Sc S 0 a a' ∧ Sc S g b b' := hu
      exact relM_catch (units_eig3 hS he o h hr hg ha hb)
  · intro f f' hf
    rcases f with f | f <;> rcases f' with f' | f'
    · exact relM_bind (relM_catch (units_eig2 hS he o h hg)) fun v v' hv => ⟨trivial, hv⟩
    · exact hf.elim
    · exact hf.elim
    · exact ⟨hu, hf⟩

theorem units_updatePAP {n b : Nat} {r ar v r' ar' v' : Arr2 α} (hr : Sc S 0 r r') (har : Sc S g ar ar')
    (hv : Sc S 0 v v') {u u' : Option (Arr2 α × Arr2 α)} (hu : RelO (RelP (Sc S 0) (Sc S g)) u u') :
    RelM (RelP (Sc S 0) (Sc S g)) (updatePAP n b r ar v u) (updatePAP n b r' ar' v' u') := by
  rcases u with _ | ⟨p, ap⟩ <;> rcases u' with _ | ⟨p', ap'⟩
  · unfold updatePAP
    rw [hv.nr, hv.nc]
    refine relM_bind (sc_slice hv _ _ _ _) fun al al' hal => ?_
    refine relM_bind (sc_dot hr hal) fun _ _ h1 => ?_
    exact relM_bind (sc_dot har hal) fun _ _ h2 => ⟨h1.cast (zero_add 0), h2.cast (add_zero g)⟩
  · exact hu.elim
  · exact hu.elim
  · obtain ⟨ha, hb⟩ : Sc S 0 p p' ∧ Sc S g ap ap' := hu
    unfold updatePAP
    rw [hv.nr, hv.nc]
    refine relM_bind (sc_slice hv _ _ _ _) fun al al' hal => ?_
    refine relM_bind (sc_slice hv _ _ _ _) fun ga ga' hga => ?_
    refine relM_bind (sc_dot hr hal) fun _ _ h1 => ?_
    refine relM_bind (sc_dot ha hga) fun _ _ h2 => ?_
    refine relM_bind (sc_add h1 h2) fun _ _ h3 => ?_
    refine relM_bind (sc_dot har hal) fun _ _ h4 => ?_
    refine relM_bind (sc_dot hb hga) fun _ _ h5 => ?_
    exact relM_bind (sc_add h4 h5) fun _ _ h6 => ⟨h3.cast (zero_add 0), h6.cast (add_zero g)⟩

theorem units_lobRest (hS : Positive S) {e : EigSolver α} (he : ScalesSolver S g e) (hP : UnitParams S g k P P')
    {p q : LobState α} (h : UnitState S g p q) {r r' : Arr2 α} (hr : Sc S 0 r r') (l l' : List α) :
    RelM (RelE (UnitState S g)) (lobRest e P p l r) (lobRest e P' q l' r') := by
  unfold lobRest
  rw [h.calls, hP.order, h.explicitGram, h.explicitGram']
  simp only [Bool.or_true]
  refine relM_bind (relM_unwrap (hP.a _ _ _ hr)) fun ar ar' har => ?_
  have h' : UnitState S g { p with calls := p.calls + 1, explicitGram := true }
      { q with calls := p.calls + 1, explicitGram := true } :=
    ⟨h.lambda, h.x, h.ax, h.mask, h.best, h.blockSize, h.ident, h.pap, rfl, rfl, h.iter, rfl, h.gram, h.hist⟩
  refine relM_bind (units_xrGram h' hr har) fun w w' hg => ?_
  rw [h.mask]
  refine relM_bind (units_activePAP _ h.pap) fun u u' hu => ?_
  refine relM_bind (units_lobEig hS he _ h' hr hg hu) ?_
  rintro ⟨u, o⟩ ⟨u', o'⟩ ⟨hu, ho⟩
  dsimp only at hu ho ⊢
  rcases o with o | ⟨lam, vec, gram⟩ <;> rcases o' with o' | ⟨lam', vec', gram'⟩
  · exact ho
  · exact ho.elim
  · exact ho.elim
  · obtain ⟨hlam, hvec, hgram⟩ := ho
    dsimp only at hlam hvec hgram ⊢
    rw [h.x.nc, h.blockSize, hvec.nc]
    refine relM_bind (sc_slice hvec _ _ _ _) fun tau tau' htau => ?_
    refine relM_bind (units_updatePAP hr har hvec hu) ?_
    rintro ⟨p1, ap1⟩ ⟨p2, ap2⟩ ⟨hp, hap⟩
    dsimp only at hp hap ⊢
    refine relM_bind (sc_dot h.x htau) fun _ _ h1 => ?_
    refine relM_bind (sc_add h1 (hp.cast (zero_add 0).symm)) fun _ _ h2 => ?_
    refine relM_bind (sc_dot h.ax htau) fun _ _ h3 => ?_
    refine relM_bind (sc_add h3 (hap.cast (add_zero g).symm)) fun _ _ h4 => ?_
    exact ⟨hlam, h2.cast (zero_add 0), h4.cast (add_zero g), rfl, h.best, rfl, h.ident, ⟨hp, hap⟩, rfl, rfl,
      by dsimp only; rw [h.iter], rfl, hgram, h.hist⟩

theorem units_lobTail (hS : Positive S) {e : EigSolver α} (he : ScalesSolver S g e) (hP : UnitParams S g k P P')
    {c c' : Option (Arr2 α)} (hc : RelO (Sc S 0) c c') {p q : LobState α} (h : UnitState S g p q) {r r' : Arr2 α}
    (hr : Sc S g r r') (l l' : List α) :
    RelM (RelE (UnitState S g)) (lobTail e P c p r l) (lobTail e P' c' q r' l') := by
  rw [lobTail_rest, lobTail_rest, h.mask]
  refine relM_bind (sc_mask hr _) fun v v' hv => ?_
  refine relM_bind (units_precondition hP hv) fun v v' hv => ?_
  refine relM_bind (units_constrain hP hc hv) fun v v' hv => ?_
  refine relM_bind (sc_dot h.x.t hv) fun xv xv' hxv => ?_
  refine relM_bind (sc_gemm h.x (hxv.cast (zero_add k)) hv) fun v v' hv => ?_
  refine relM_bind (relM_catch (sc_ortho hv)) fun o o' ho => ?_
  rcases o with o | ⟨r, u⟩ <;> rcases o' with o' | ⟨r', u'⟩
  · exact ho
  · exact ho.elim
  · exact ho.elim
  · exact units_lobRest hS he hP h ho.1 l l'

theorem units_lobLoop (hS : Positive S) {e : EigSolver α} (he : ScalesSolver S g e) (hP : UnitParams S g k P P')
    {c c' : Option (Arr2 α)} (hc : RelO (Sc S 0) c c') {n : Nat} {p q : LobState α} (h : UnitState S g p q) :
    RelM (RelP (UnitState S g) (RelO Eq)) (lobLoop e P c n p) (lobLoop e P' c' n q) := by
  induction n generalizing p q with
  | zero =>
    unfold lobLoop
    refine relM_bind (units_head hS hP h) fun o o' ho => ?_
    obtain ⟨st, r, l⟩ := o
    obtain ⟨st', r', l'⟩ := o'
    obtain ⟨hst, hr⟩ := ho
    refine Par.relM_ite ?_ (fun _ => ⟨hst, trivial⟩) fun _ => rfl
    rw [show st'.blockSize = st.blockSize from hst.blockSize, show st'.iter = st.iter from hst.iter]
  | succ n ih =>
    unfold lobLoop
    refine relM_bind (units_head hS hP h) fun o o' ho => ?_
    obtain ⟨st, r, l⟩ := o
    obtain ⟨st', r', l'⟩ := o'
    obtain ⟨hst, hr⟩ := ho
    refine Par.relM_ite ?_ (fun _ => ⟨hst, trivial⟩) fun _ => ?_
    · rw [show st'.blockSize = st.blockSize from hst.blockSize, show st'.iter = st.iter from hst.iter]
    · refine relM_bind (units_lobTail hS he hP hc hst hr l l') fun o o' ho => ?_
      rcases o with o | o <;> rcases o' with o' | o'
      · exact ⟨hst, show o = o' from ho⟩
      · exact ho.elim
      · exact ho.elim
      · exact ih ho

theorem units_run (hS : Positive S) {e : EigSolver α} (he : ScalesSolver S g e) (hP : UnitParams S g k P P') {j : G}
    {x x' : Arr2 α} (hx : Sc S j x x') (maxiter : Nat) :
    RelM (RelP (RelX (RelP Eq (RelO (InUnit (S.act g)))) (InUnit (S.act g))) (List.Forall₂ (IterateInUnit (S.act g))))
      (lobpcgRun e P x maxiter) (lobpcgRun e P' x' maxiter) := by
  unfold lobpcgRun
  dsimp only
  rw [hx.nr, hx.nc, hP.order]
  refine Par.relM_ite Iff.rfl (fun hh => ⟨⟨rfl, trivial⟩, .nil⟩) fun _ => ?_
  refine relM_bind (R := RelO (Sc S 0)) ?_ ?_
  · have hy := hP.y
    revert hy
    rcases P.y with _ | y <;> rcases P'.y with _ | y' <;> intro hy
    · trivial
    · exact hy.elim
    · exact hy.elim
    · have hy' : Sc S 0 y y' := hy
      refine relM_bind (sc_dot hy'.t hy') fun w w' hg => ?_
      exact relM_bind (relM_unwrap (sc_cholesky hg)) fun l l' hl => hl
  · intro c c' hc
    refine relM_bind (units_constrain hP hc hx) fun v v' hv => ?_
    refine relM_bind (relM_catch (sc_ortho hv)) fun o o' ho => ?_
    rcases o with o | ⟨r, u⟩ <;> rcases o' with o' | ⟨r', u'⟩
    · obtain rfl : o = o' := ho
      exact ⟨⟨rfl, trivial⟩, .nil⟩
    · exact ho.elim
    · exact ho.elim
    · have hr : Sc S 0 r r' := ho.1
      dsimp only
      refine relM_bind (relM_unwrap (hP.a 0 _ _ hr)) fun ar ar' har => ?_
      refine relM_bind (sc_dot hr.t har) fun xax xax' hxax => ?_
      refine relM_bind (relM_catch (sc_sortedEig hS he (hxax.cast (zero_add g)) (b := none) (b' := none) trivial _ _))
        fun o o' ho => ?_
      rcases o with o | ⟨lam, vec⟩ <;> rcases o' with o' | ⟨lam', vec'⟩
      · obtain rfl : o = o' := ho
        exact ⟨⟨rfl, trivial⟩, .nil⟩
      · exact ho.elim
      · exact ho.elim
      · obtain ⟨hlam, hvec⟩ := ho
        dsimp only at hlam hvec ⊢
        refine relM_bind (sc_dot hr hvec) fun y y' hy => ?_
        refine relM_bind (sc_dot har hvec) fun ay ay' hay => ?_
        refine relM_bind (units_lobLoop hS he hP hc ⟨hlam, hy.cast (zero_add 0), hay.cast (add_zero g), rfl, trivial, rfl, ?_,
          trivial, rfl, rfl, rfl, rfl, trivial, .nil⟩) fun o o' ho => ?_
        · exact ⟨rfl, rfl, fun i j _ _ => (S.act_none _).symm⟩
        · obtain ⟨st, f⟩ := o
          obtain ⟨st', f'⟩ := o'
          obtain ⟨hst, hf⟩ := ho
          dsimp only at hst hf ⊢
          have hb := hst.best
          revert hb
          rcases st.best with _ | b <;> rcases st'.best with _ | b' <;> intro hb
          · rfl
          · exact hb.elim
          · exact hb.elim
          · rcases f with _ | f <;> rcases f' with _ | f'
            · exact ⟨hb, hst.hist⟩
            · exact hf.elim
            · exact hf.elim
            · exact ⟨⟨hf, hb⟩, hst.hist⟩

theorem inUnit_of_relX {act : α → α} {r r' : LobpcgResult α}
    (h : RelX (RelP Eq (RelO (InUnit act))) (InUnit act) r r') : ResultInUnit act r r' := by
  rcases r with ⟨e, o⟩ | l <;> rcases r' with ⟨e', o'⟩ | l'
  · obtain ⟨he, ho⟩ := h
    obtain rfl : e = e' := he
    exact .inr ⟨e, o, o', rfl, rfl, sameOpt_of_rel (fun _ _ h => h) ho⟩
  · exact h.elim
  · exact h.elim
  · exact .inl ⟨l, l', rfl, rfl, h⟩

theorem Sc.of_same {a b : Arr2 α} (h : SameArr a b) : Sc S 0 a b := sc_of_rel h.rel

theorem relO_of_same {A : Type} {R R' : A → A → Prop} {o o' : Option A} (h : SameOpt R o o')
    (hR : ∀ a b, R a b → R' a b) : RelO R' o o' := by
  rcases h with ⟨h1, h2⟩ | ⟨y, y', h1, h2, h3⟩
  · rw [h1, h2]; trivial
  · rw [h1, h2]; exact hR _ _ h3

/-- **C131**: multiply the operator and the tolerance by a factor `g`, the result of the preconditioner by any factor, and the
start block by any factor. Then LOBPCG has the same outcome: values and residual norms are multiplied by `g`, and the vectors,
the errors and, in every iterate, the masks and Gram matrices are the same. -/
theorem C131_lobpcg (hS : Positive S) {j : G}
    (hA : ∀ n x y, SameArr x y → SameRun (ScaledBy S.act fun _ _ => g) (P.a n x) (P'.a n y))
    (hM : ∀ x y, ScaledBy S.act (fun _ _ => g) x y → SameRun (ScaledBy S.act fun _ _ => k) (P.m x) (P'.m y))
    (hY : SameOpt SameArr P.y P'.y) (ht : P'.tol = S.act g P.tol) (ho : P'.order = P.order) {x x' : Arr2 α}
    (hx : ScaledBy S.act (fun _ _ => j) x x') (fuel maxiter : Nat) :
    SameRun (ResultInUnit (S.act g)) (lobpcg fuel P x maxiter) (lobpcg fuel P' x' maxiter) ∧
    SameRun (fun r r' => ResultInUnit (S.act g) r.1 r'.1 ∧ List.Forall₂ (IterateInUnit (S.act g)) r.2 r'.2)
      (lobpcgRun (eighInto fuel) P x maxiter) (lobpcgRun (eighInto fuel) P' x' maxiter) := by
  have hP : UnitParams S g k P P' :=
    ⟨fun n x y h => (hA n x y h.same).rel fun _ _ h => h, fun x y h => (hM x y h).rel fun _ _ h => h,
      relO_of_same hY fun _ _ => Sc.of_same, ht, ho⟩
  have h := units_run hS (eighInto_scales hS g fuel) hP hx maxiter
  refine ⟨?_, sameRun_of_rel h fun _ _ h => ⟨inUnit_of_relX h.1, h.2⟩⟩
  unfold lobpcg
  exact sameRun_of_rel (relM_bind (R' := RelX (RelP Eq (RelO (InUnit (S.act g)))) (InUnit (S.act g))) h fun _ _ h => h.1)
    fun _ _ => inUnit_of_relX

theorem sc_assign {y z y' z' : Arr2 α} {j : G} (hy : Sc S g y y') (hz : Sc S j z z') :
    RelM (Sc S j) (y.assign z) (y'.assign z') := by
  unfold Arr2.assign
  rw [hy.nr, hy.nc, hz.nr, hz.nc]
  refine Par.relM_ite Iff.rfl (fun hh => ⟨rfl, rfl, fun r c hr hc => hz.get _ _ ?_ ?_⟩) fun _ => rfl
  · have hr' : r < y.nr := hr
    split_ifs with h1
    · exact h1 ▸ hr'
    · rw [hh.1.resolve_left h1]; exact Nat.one_pos
  · have hc' : c < y.nc := hc
    split_ifs with h1
    · exact h1 ▸ hc'
    · rw [hh.2.resolve_left h1]; exact Nat.one_pos

/-- **C131**, for `TruncatedEig`: a factor of the matrix and of the precision is a factor of the eigenvalues and residual
norms. It does not change the eigenvectors; nor does a factor of the preconditioner. -/
theorem C131_truncated {ρ : Type} (hS : Positive S) (r : RandomSource α ρ) {t t' : TruncatedEig α ρ}
    (hA : ScaledBy S.act (fun _ _ => g) t.problem t'.problem)
    (hM : SameOpt (ScaledBy S.act fun _ _ => k) t.preconditioner t'.preconditioner)
    (hY : SameOpt SameArr t.constraints t'.constraints) (hp : t'.precision = S.act g t.precision) (ho : t'.order = t.order)
    (hi : t'.maxiter = t.maxiter) (hr : t'.rng = t.rng) (num fuel : Nat) :
    SameRun (fun p q => ResultInUnit (S.act g) p.1 q.1 ∧ p.2.rng = q.2.rng) (t.decompose (eighInto fuel) r num)
      (t'.decompose (eighInto fuel) r num) := by
  have hP : ∃ k, UnitParams S g k t.params t'.params := by
    have hy : RelO (Sc S 0) t.params.y t'.params.y := relO_of_same hY fun _ _ => Sc.of_same
    have ha : ∀ n x y, Sc S 0 x y → RelM (Sc S g) (t.params.a n x) (t'.params.a n y) := fun n x y h =>
      relM_mono (sc_dot hA h) fun _ _ h => h.cast (add_zero g)
    rcases hM with ⟨h1, h2⟩ | ⟨p, p', h1, h2, h3⟩
    · refine ⟨g, ha, fun x y h => ?_, hy, hp, ho⟩
      simp only [TruncatedEig.params, h1, h2]
      exact h
    · refine ⟨k + g, ha, fun x y h => ?_, hy, hp, ho⟩
      simp only [TruncatedEig.params, h1, h2]
      exact relM_bind (sc_dot h3 h) fun z z' hz => sc_assign h hz
  obtain ⟨k, hP⟩ := hP
  unfold TruncatedEig.decompose
  rw [hi, hr, hA.nr]
  refine sameRun_of_rel (S := fun a b => RelX (RelP Eq (RelO (InUnit (S.act g)))) (InUnit (S.act g)) a.1 b.1 ∧
    a.2.rng = b.2.rng) ?_ fun _ _ h => ⟨inUnit_of_relX h.1, h.2⟩
  refine Par.relM_ite Iff.rfl (fun _ => ⟨⟨⟨rfl, fun i hi => absurd hi (Nat.not_lt_zero i)⟩,
    ⟨rfl, rfl, fun i j hi _ => absurd hi (Nat.not_lt_zero i)⟩, rfl⟩, hr.symm⟩) fun _ => ?_
  refine relM_bind (units_run hS (eighInto_scales hS g fuel) hP (j := 0)
    ⟨rfl, rfl, fun i j _ _ => (S.act_none _).symm⟩ _) ?_
  rintro ⟨a, b⟩ ⟨a', b'⟩ h
  exact ⟨h.1, rfl⟩

/-- Results of `TruncatedSvd` in different units. -/
structure UnitSvd (S : Scalings G α) (g : G) (t t' : TruncatedSvdResult α) : Prop where
  eigvals : Scaled1 S.act (fun _ => g + g) t.eigvals t'.eigvals
  eigvecs : Sc S 0 t.eigvecs t'.eigvecs
  problem : Sc S g t.problem t'.problem
  order : t'.order = t.order
  ngm : t'.ngm = t.ngm

variable [MagnitudeCorrection α]

theorem units_valuesWithIndices (hS : Positive S) {t t' : TruncatedSvdResult α} (h : UnitSvd S g t t') :
    RelM (fun l l' => l' = l.map fun p => (S.act g p.1, p.2)) t.valuesWithIndices t'.valuesWithIndices := by
  unfold TruncatedSvdResult.valuesWithIndices
  rw [h.order]
  cases t.order with
  | largest =>
    dsimp only
    refine relM_bind (sc_sortBy hS h.eigvals .largest) ?_
    rintro l _ rfl
    rcases l with _ | ⟨p, l⟩
    · rfl
    · show List.map _ (List.filter _ (List.map _ (p :: l))) = List.map _ (List.map _ (List.filter _ (p :: l)))
      rw [List.filter_map, List.map_map, List.map_map]
      have hv : ∀ w x : α, w * S.act (g + g) x = S.act (g + g) (w * x) := fun w x => by
        have := S.mul 0 (g + g) w x
        rwa [S.act_none, zero_add] at this
      congr 1
      · funext q
        show (NdFloat.sqrt (S.act (g + g) q.2), q.1) = _
        rw [S.sqrt]
        rfl
      · congr 1
        funext q
        show NdFloat.lt (_ * S.act (g + g) p.2) (S.act (g + g) q.2) = _
        rw [hv, hS.lt]
  | smallest =>
    dsimp only
    refine relM_bind (sc_sortBy hS h.eigvals .smallest) ?_
    rintro l _ rfl
    show List.map _ (List.map _ l) = List.map _ (List.map _ l)
    rw [List.map_map, List.map_map]
    congr 1
    funext q
    show (NdFloat.sqrt (S.act (g + g) q.2), q.1) = _
    rw [S.sqrt]
    rfl

theorem sc_select {j : G} {a a' : Arr2 α} (h : Sc S j a a') (l : List Nat) :
    RelM (fun z z' => z.nc = l.length ∧ Sc S j z z') (a.selectCols l) (a'.selectCols l) := by
  unfold Arr2.selectCols
  rw [h.nr, h.nc]
  refine Par.relM_ite Iff.rfl (fun hh => ⟨rfl, rfl, rfl, fun r c hr hc => ?_⟩) fun _ => rfl
  have hc' : c < l.length := hc
  refine h.get r _ hr ?_
  have := List.all_eq_true.1 hh (l.getD c 0) (by
    rw [List.getD_eq_getElem?_getD, List.getElem?_eq_getElem hc']
    exact List.getElem_mem hc')
  simpa using this

theorem units_values (l : List (α × Nat)) :
    Scaled1 S.act (fun _ => g) (⟨l.length, fun i => (l.map Prod.fst).getD i 0⟩ : Arr1 α)
      ⟨(l.map fun p => (S.act g p.1, p.2)).length, fun i => ((l.map fun p => (S.act g p.1, p.2)).map Prod.fst).getD i 0⟩ := by
  refine ⟨List.length_map _, fun i hi => ?_⟩
  have hi' : i < l.length := hi
  dsimp only
  rw [List.map_map, List.getD_eq_getElem?_getD, List.getD_eq_getElem?_getD, List.getElem?_map, List.getElem?_map,
    List.getElem?_eq_getElem hi']
  rfl

theorem sc_divideCols {a a' : Arr2 α} (h : Sc S g a a') {s s' : Arr1 α} (hs : Scaled1 S.act (fun _ => g) s s')
    (hl : a.nc ≤ s.len) : Sc S 0 (divideCols a s) (divideCols a' s') := by
  refine ⟨h.nr, h.nc, fun r c hr hc => ?_⟩
  have hc' : c < a.nc := hc
  unfold divideCols
  dsimp only
  rw [if_pos (by rw [hs.len]; omega), if_pos (by omega), h.get r c hr hc, hs.get c (by omega), S.div, sub_self]

theorem units_valuesVectors (hS : Positive S) {t t' : TruncatedSvdResult α} (h : UnitSvd S g t t') :
    RelM (fun p q => Sc S 0 p.1 q.1 ∧ Scaled1 S.act (fun _ => g) p.2.1 q.2.1 ∧ Sc S 0 p.2.2 q.2.2)
      t.valuesVectors t'.valuesVectors := by
  have hdot : ∀ {a a' b b' : Arr2 α}, Sc S g a a' → Sc S 0 b b' →
      RelM (fun z z' => z.nc = b.nc ∧ Sc S g z z') (a.dot b) (a'.dot b') := by
    intro a a' b b' h1 h2
    have h3 := sc_dot h1 h2
    unfold Arr2.dot at h3 ⊢
    split_ifs at h3 ⊢
    · exact ⟨rfl, Sc.cast h3 (add_zero g)⟩
    · exact h3.elim
    · exact h3.elim
    · rfl
  unfold TruncatedSvdResult.valuesVectors
  refine relM_bind (units_valuesWithIndices hS h) ?_
  rintro l _ rfl
  dsimp only
  have hi : (l.map fun p => (S.act g p.1, p.2)).map Prod.snd = l.map Prod.snd := by rw [List.map_map]; rfl
  rw [h.ngm, hi]
  refine Par.relM_ite Iff.rfl (fun _ => ?_) fun _ => ?_
  · refine relM_bind (sc_select h.eigvecs _) fun v v' hv => ?_
    refine relM_bind (hdot h.problem hv.2) fun u u' hu => ?_
    exact ⟨sc_divideCols hu.2 (units_values l) (by rw [hu.1, hv.1, List.length_map]), units_values l, hv.2.t⟩
  · refine relM_bind (sc_select h.eigvecs _) fun v v' hv => ?_
    refine relM_bind (hdot h.problem.t hv.2) fun u u' hu => ?_
    exact ⟨hv.2, units_values l, (sc_divideCols hu.2 (units_values l) (by rw [hu.1, hv.1, List.length_map])).t⟩

/-- **C131**, for `TruncatedSvd`: a factor of the matrix and of the precision is a factor of the singular values. The same
number of them is found, and the singular vectors are the same. -/
theorem C131_svd {ρ : Type} (hS : Positive S) (r : RandomSource α ρ) {t t' : TruncatedSvd α ρ}
    (hA : ScaledBy S.act (fun _ _ => g) t.problem t'.problem) (hp : t'.precision = S.act g t.precision)
    (ho : t'.order = t.order) (hi : t'.maxiter = t.maxiter) (hr : t'.rng = t.rng) (num fuel : Nat) :
    SameRun (fun p q => SameArr p.1 q.1 ∧ SameArr1 ⟨p.2.1.len, fun i => S.act g (p.2.1.get i)⟩ q.2.1 ∧ SameArr p.2.2 q.2.2)
      (do (← t.decompose (eighInto fuel) r num).valuesVectors)
      (do (← t'.decompose (eighInto fuel) r num).valuesVectors) := by
  have hA' : Sc S g t.problem t'.problem := hA
  have hP : UnitParams S (g + g) (g + g) t.params t'.params := by
    refine ⟨fun n x y h => ?_, fun x y h => h, trivial, ?_, ho⟩
    · simp only [TruncatedSvd.params]
      rw [hA'.nr, hA'.nc]
      refine Par.relM_ite Iff.rfl (fun _ => ?_) fun _ => ?_
      · exact relM_bind (sc_dot hA' h) fun z z' hz =>
          relM_mono (sc_dot hA'.t hz) fun _ _ h => h.cast (by rw [add_zero])
      · exact relM_bind (sc_dot hA'.t h) fun z z' hz =>
          relM_mono (sc_dot hA' hz) fun _ _ h => h.cast (by rw [add_zero])
    · simp only [TruncatedSvd.params]
      rw [hp, S.mul]
  have hD : RelM (UnitSvd S g) (t.decompose (eighInto fuel) r num) (t'.decompose (eighInto fuel) r num) := by
    unfold TruncatedSvd.decompose
    rw [hi, hr, hA'.nr, hA'.nc, ho]
    refine Par.relM_ite Iff.rfl (fun _ => ?_) fun _ => ?_
    · exact ⟨⟨rfl, fun i hi => absurd hi (Nat.not_lt_zero i)⟩, ⟨rfl, rfl, fun i j hi _ => absurd hi (Nat.not_lt_zero i)⟩,
        ⟨rfl, rfl, fun i j hi _ => absurd hi (Nat.not_lt_zero i)⟩, rfl, rfl⟩
    · refine relM_bind (units_run hS (eighInto_scales hS (g + g) fuel) hP (j := 0)
        ⟨rfl, rfl, fun i j _ _ => (S.act_none _).symm⟩ _) ?_
      rintro ⟨a, b⟩ ⟨a', b'⟩ ⟨h, -⟩
      have key : ∀ {l l' : Lobpcg α}, InUnit (S.act (g + g)) l l' → UnitSvd S g
          ⟨l.eigvals, l.eigvecs, t.problem, t.order, decide (t.problem.nr > t.problem.nc)⟩
          ⟨l'.eigvals, l'.eigvecs, t'.problem, t.order, decide (t.problem.nr > t.problem.nc)⟩ := by
        intro l l' h
        exact ⟨⟨h.1.1.symm, fun i hi => (h.1.2 i hi).symm⟩, Sc.of_same h.2.1, hA', rfl, rfl⟩
      rcases a with ⟨e, _ | l⟩ | l <;> rcases a' with ⟨e', _ | l'⟩ | l'
      · obtain rfl : e = e' := h.1
        rfl
      · exact h.2.elim
      · exact h.elim
      · exact h.2.elim
      · exact key h.2
      · exact h.elim
      · exact h.elim
      · exact h.elim
      · exact key h
  exact sameRun_of_rel (relM_bind hD fun _ _ h => units_valuesVectors hS h)
    fun _ _ h => ⟨h.1.same, ⟨h.2.1.len.symm, fun i hi => (h.2.1.get i hi).symm⟩, h.2.2.same⟩

end

/-! ## Powers of two in floating point, positive numbers in exact arithmetic -/

theorem twoPowers_positive (R : StdModel) (h : ExponentFree R) : Positive (twoPowers R h) where
  lt k x y := by
    have hk : (0 : ℝ) < 2 ^ k := by positivity
    show decide ((2 : ℝ) ^ k * x.v < 2 ^ k * y.v) = decide (x.v < y.v)
    rw [decide_eq_decide]
    exact mul_lt_mul_iff_right₀ hk
  le k x y := by
    have hk : (0 : ℝ) < 2 ^ k := by positivity
    show decide ((2 : ℝ) ^ k * x.v ≤ 2 ^ k * y.v) = decide (x.v ≤ y.v)
    rw [decide_eq_decide]
    exact mul_le_mul_iff_right₀ hk
  negInf x := by
    ext
    show max (-1) |x.v| = |x.v|
    exact max_eq_right (by linarith [abs_nonneg x.v])
  amax_zero a i j hz hi hj := by
    have hf : ∀ (l : List (Rnd R)) (x : Rnd R), (l.foldl NdFloat.max x).v = (l.map Rnd.v).foldl max x.v := by
      intro l
      induction l with
      | nil => intro x; rfl
      | cons y ys ih => intro x; rw [List.foldl_cons, ih]; rfl
    have hm := (foldl_max_spec ((a.toList.map NdFloat.abs).map Rnd.v) (-1)).2.1 |(a.get i j).v|
      (List.mem_map.2 ⟨_, List.mem_map.2 ⟨_, (a.mem_toList _).2 ⟨i, j, hi, hj, rfl⟩, rfl⟩, rfl⟩)
    have hz' : a.amax.v = 0 := by simpa using hz
    unfold Arr2.amax at hz'
    rw [hf] at hz'
    ext
    exact abs_nonpos_iff.1 (hm.trans_eq hz')

/-- Multiplication by `exp t`. -/
noncomputable def expScalings : Scalings ℝ ℝ where
  act t x := Real.exp t * x
  act_none x := by simp
  act_zero t := by simp
  add t x y := by ring
  sub t x y := by ring
  neg t x := by ring
  mul s t x y := by rw [Real.exp_add]; ring
  div s t x y := by rw [Real.exp_sub]; exact mul_div_mul_comm _ _ _ _
  sqrt t x := by
    rw [real_sqrt, real_sqrt, Real.exp_add, Real.sqrt_mul (by positivity), Real.sqrt_mul_self (by positivity)]
  abs t x := by rw [real_abs, real_abs, abs_mul, abs_of_pos (Real.exp_pos t)]
  max t x y := by rw [real_max, real_max, mul_max_of_nonneg _ _ (Real.exp_pos t).le]
  signum t x := by
    have := Real.exp_pos t
    simp only [real_signum, mul_neg_iff, this, true_and, not_lt.2 this.le, false_and, or_false]
  isZero t x := by simp [Real.exp_ne_zero]
  le_zero t x := by
    have := Real.exp_pos t
    rw [real_le, real_le, decide_eq_decide]
    exact ⟨fun h => nonpos_of_mul_nonpos_right h this, fun h => mul_nonpos_of_nonneg_of_nonpos this.le h⟩
  zero_isZero := by simp
  dot s t l := by
    show (List.map _ (List.map _ l)).sum = _ * (List.map _ l).sum
    rw [List.map_map, ← List.sum_map_mul_left]
    congr 1
    refine List.map_congr_left fun p _ => ?_
    show Real.exp s * p.1 * (Real.exp t * p.2) = _
    rw [Real.exp_add]
    ring

theorem expScalings_positive : Positive expScalings where
  lt t x y := by
    show decide (Real.exp t * x < Real.exp t * y) = decide (x < y)
    rw [decide_eq_decide]
    exact mul_lt_mul_iff_right₀ (Real.exp_pos t)
  le t x y := by
    show decide (Real.exp t * x ≤ Real.exp t * y) = decide (x ≤ y)
    rw [decide_eq_decide]
    exact mul_le_mul_iff_right₀ (Real.exp_pos t)
  negInf x := max_eq_right (by rw [real_negInf, real_abs]; linarith [abs_nonneg x])
  amax_zero a i j hz hi hj := by
    have h := (amax_real a (by omega) (by omega)).1 i j hi hj
    rw [real_isZero, decide_eq_true_eq] at hz
    rw [hz] at h
    exact abs_nonpos_iff.1 h

theorem exp_act {c : ℝ} (hc : 0 < c) : expScalings.act (Real.log c) = (c * ·) := by
  funext x
  show Real.exp (Real.log c) * x = _
  rw [Real.exp_log hc]

theorem sc_exp {c : ℝ} (hc : 0 < c) {z z' : Arr2 ℝ} :
    ScaledBy expScalings.act (fun _ _ => Real.log c) z z' ↔ SameArr (timesMat c z) z' := by
  refine ⟨fun h => ⟨h.nr.symm, h.nc.symm, fun i j hi hj => ?_⟩, fun h => ⟨h.1.symm, h.2.1.symm, fun i j hi hj => ?_⟩⟩
  · rw [h.get i j hi hj, exp_act hc]; rfl
  · rw [exp_act hc]; exact (h.2.2 i j hi hj).symm

/-- C131 in exact arithmetic, with any positive factors. -/
theorem C131_lobpcg_real {c d b : ℝ} (hc : 0 < c) (hd : 0 < d) (hb : 0 < b) {P P' : LobParams ℝ}
    (hA : ∀ n x y, SameArr x y → SameRun (fun z z' => SameArr (timesMat c z) z') (P.a n x) (P'.a n y))
    (hM : ∀ x y, SameArr (timesMat c x) y → SameRun (fun z z' => SameArr (timesMat d z) z') (P.m x) (P'.m y))
    (hY : SameOpt SameArr P.y P'.y) (ht : P'.tol = c * P.tol) (ho : P'.order = P.order) {x x' : Arr2 ℝ}
    (hx : SameArr (timesMat b x) x') (fuel maxiter : Nat) :
    SameRun (ResultInUnit (c * ·)) (lobpcg fuel P x maxiter) (lobpcg fuel P' x' maxiter) := by
  have he := exp_act hc
  have h := (C131_lobpcg (S := expScalings) (g := Real.log c) (k := Real.log d) (j := Real.log b) expScalings_positive
    (P := P) (P' := P') (fun n x y h => sameRun_of_rel ((hA n x y h).rel fun _ _ h => h) fun _ _ h => (sc_exp hc).2 h)
    (fun x y h => sameRun_of_rel ((hM x y ((sc_exp hc).1 h)).rel fun _ _ h => h) fun _ _ h => (sc_exp hd).2 h) hY (by rw [he, ht]) ho ((sc_exp hb).2 hx) fuel maxiter).1
  rwa [he] at h

/-- C131 for `TruncatedEig` in `f64`, as long as nothing overflows or underflows: a power of two that multiplies the matrix and
the precision multiplies the eigenvalues and the residual norms; no digit of a vector changes. -/
theorem C131_truncated_double {ρ : Type} (e : ℤ) (r : RandomSource (Rnd .double) ρ) (t : TruncatedEig (Rnd .double) ρ)
    (num fuel : Nat) :
    SameRun (fun p q => ResultInUnit (fun x => ⟨2 ^ e * x.v⟩) p.1 q.1 ∧ p.2.rng = q.2.rng)
      (t.decompose (eighInto fuel) r num)
      (({ t with problem := t.problem.map fun x => ⟨2 ^ e * x.v⟩, precision := ⟨2 ^ e * t.precision.v⟩ } :
        TruncatedEig (Rnd .double) ρ).decompose (eighInto fuel) r num) := by
  have hsame : ∀ {o : Option (Arr2 (Rnd .double))} {R : Arr2 (Rnd .double) → Arr2 (Rnd .double) → Prop}, (∀ a, R a a) →
      SameOpt R o o := by
    intro o R h
    rcases o with _ | a
    · exact .inl ⟨rfl, rfl⟩
    · exact .inr ⟨a, a, rfl, rfl, h a⟩
  exact C131_truncated (S := twoPowers _ double_exponentFree) (g := e) (k := 0) (twoPowers_positive _ _) r (t := t)
    (t' := { t with problem := t.problem.map fun x => ⟨2 ^ e * x.v⟩, precision := ⟨2 ^ e * t.precision.v⟩ })
    ⟨rfl, rfl, fun i j _ _ => rfl⟩ (hsame fun a => ⟨rfl, rfl, fun i j _ _ => (Scalings.act_none _ _).symm⟩)
    (hsame fun a => ⟨rfl, rfl, fun i j _ _ => rfl⟩) rfl rfl rfl rfl num fuel

/-- C131 for `TruncatedSvd` in `f64`, as long as nothing overflows or underflows. -/
theorem C131_svd_double {ρ : Type} [MagnitudeCorrection (Rnd .double)] (e : ℤ) (r : RandomSource (Rnd .double) ρ)
    (t : TruncatedSvd (Rnd .double) ρ) (num fuel : Nat) :
    SameRun (fun p q => SameArr p.1 q.1 ∧ SameArr1 ⟨p.2.1.len, fun i => ⟨2 ^ e * (p.2.1.get i).v⟩⟩ q.2.1 ∧ SameArr p.2.2 q.2.2)
      (do (← t.decompose (eighInto fuel) r num).valuesVectors)
      (do (← ({ t with problem := t.problem.map fun x => ⟨2 ^ e * x.v⟩, precision := ⟨2 ^ e * t.precision.v⟩ } :
        TruncatedSvd (Rnd .double) ρ).decompose (eighInto fuel) r num).valuesVectors) :=
  C131_svd (S := twoPowers _ double_exponentFree) (g := e) (twoPowers_positive _ _) r (t := t)
    (t' := { t with problem := t.problem.map fun x => ⟨2 ^ e * x.v⟩, precision := ⟨2 ^ e * t.precision.v⟩ })
    ⟨rfl, rfl, fun _ _ _ _ => rfl⟩ rfl rfl rfl rfl num fuel

/-- **C131**, the exception: `next` compares residual norms with `0.1`, whatever the unit. Multiply the matrix and the
precision by a large number: if the first residual was not zero, the iterator ends at once, although `decompose` finds the same
pairs as before. -/
theorem C131_iterator {ρ : Type} (r : RandomSource ℝ ρ) {it : TruncatedEigIterator ℝ ρ} {fuel : Nat} (hrem : 0 < it.remaining)
    {res : LobpcgResult ℝ} {t : TruncatedEig ℝ ρ}
    (h : it.eig.decompose (eighInto fuel) r (min it.stepSize it.remaining) = .ok (res, t)) {l : Lobpcg ℝ}
    (hl : LobpcgResult.result res = some l) {x : ℝ} (hx : x ∈ l.rnorm) (h0 : 0 < x) {c : ℝ} (hc : 1 / 10 < c * x) :
    ∃ it', ({ it with eig := { it.eig with problem := timesMat c it.eig.problem, precision := c * it.eig.precision } } :
      TruncatedEigIterator ℝ ρ).next (eighInto fuel) r = .ok (none, it') := by
  have hc0 : 0 < c := by
    by_contra h1
    have := mul_nonpos_of_nonpos_of_nonneg (not_lt.1 h1) h0.le
    linarith
  have hsame : ∀ {o : Option (Arr2 ℝ)} {R : Arr2 ℝ → Arr2 ℝ → Prop}, (∀ a, R a a) → SameOpt R o o := by
    intro o R h
    rcases o with _ | a
    · exact .inl ⟨rfl, rfl⟩
    · exact .inr ⟨a, a, rfl, rfl, h a⟩
  have key := (C131_truncated (S := expScalings) (g := Real.log c) (k := 0) expScalings_positive r (t := it.eig)
    (t' := { it.eig with problem := timesMat c it.eig.problem, precision := c * it.eig.precision })
    ((sc_exp hc0).2 ⟨rfl, rfl, fun _ _ _ _ => rfl⟩)
    (hsame fun a => ⟨rfl, rfl, fun i j _ _ => (Scalings.act_none _ _).symm⟩)
    (hsame fun a => ⟨rfl, rfl, fun _ _ _ _ => rfl⟩) (by rw [exp_act hc0]) rfl rfl rfl
    (min it.stepSize it.remaining) fuel).1 _ h
  obtain ⟨⟨res', t'⟩, h1, h2, -⟩ := key
  rw [exp_act hc0] at h2
  have hl' : ∃ l', LobpcgResult.result res' = some l' ∧ InUnit (c * ·) l l' := by
    rcases h2 with ⟨a, b, h3, h4, h5⟩ | ⟨e, o, o', h3, h4, h5⟩
    · dsimp only at h3 h4
      subst h3 h4
      obtain rfl : a = l := Option.some.inj hl
      exact ⟨b, rfl, h5⟩
    · dsimp only at h3 h4
      subst h3 h4
      obtain rfl : o = some l := hl
      rcases h5 with ⟨h5, -⟩ | ⟨a, b, h5, h6, h7⟩
      · cases h5
      · cases h5
        exact ⟨b, h6, h7⟩
  obtain ⟨l', h3, h4⟩ := hl'
  unfold TruncatedEigIterator.next
  rw [if_neg (by dsimp only; omega)]
  dsimp only
  rw [h1, ok_bind]
  dsimp only
  rw [h3]
  dsimp only
  rw [if_pos]
  · exact ⟨_, rfl⟩
  · rw [h4.2.2, List.any_eq_true]
    refine ⟨c * x, List.mem_map.2 ⟨x, hx, rfl⟩, ?_⟩
    rw [real_lt, decide_eq_true_eq, real_ofRat]
    push_cast
    exact hc

/-- `diag(1, 3)` with the start `(1, 1)`, which has residual norm `1`. -/
noncomputable def exUnits : TruncatedEig ℝ Unit :=
  ⟨.largest, ofRows 2 2 [[1, 0], [0, 3]], none, none, 1 / 2, 0, ()⟩

/-- With a factor of ten the iterator is at its end, although `decompose` finds the same pair as without. -/
example (fuel : Nat) : ∃ l t, exUnits.decompose (eighInto fuel) ⟨fun _ _ s => ((ofRows 2 1 [[1], [1]]).get, s)⟩ 1 = .ok (.ok l, t) ∧
    l.rnorm = [1] ∧
    ∃ it', ({ exUnits.intoIter with eig :=
        { exUnits with problem := timesMat 10 exUnits.problem, precision := 10 * exUnits.precision } } :
      TruncatedEigIterator ℝ Unit).next (eighInto fuel) ⟨fun _ _ s => ((ofRows 2 1 [[1], [1]]).get, s)⟩ = .ok (none, it') := by
  obtain ⟨b, i, h1, -, -, h2⟩ := demo_run fuel
  have h : exUnits.decompose (eighInto fuel) ⟨fun _ _ s => ((ofRows 2 1 [[1], [1]]).get, s)⟩ 1 = .ok (.ok b, exUnits) := by
    unfold TruncatedEig.decompose
    rw [if_neg (by norm_num)]
    change (lobpcgRun (eighInto fuel) demoParams (ofRows 2 1 [[1], [1]]) 0 >>= _) = _
    rw [h1, ok_bind]
  refine ⟨b, exUnits, h, h2, C131_iterator _ (it := exUnits.intoIter) (by show 0 < 2; norm_num) h rfl (x := 1) ?_ one_pos
    (by norm_num)⟩
  rw [h2]
  exact List.mem_singleton.2 rfl

/-- Metres and millimetres. -/
example : ∀ fuel, SameRun (ResultInUnit (1000 * ·))
    (lobpcg fuel ⟨fun _ x => (ofRows 2 2 [[1, 0], [0, 2]]).dot x, fun v => .ok v, none, 1 / 100, .smallest⟩
      (ofRows 2 1 [[1], [3]]) 20)
    (lobpcg fuel ⟨fun _ x => (timesMat 1000 (ofRows 2 2 [[1, 0], [0, 2]])).dot x, fun v => .ok v, none, 10, .smallest⟩
      (ofRows 2 1 [[1], [3]]) 20) := by
  intro fuel
  refine C131_lobpcg_real (c := 1000) (d := 1000) (b := 1) (by norm_num) (by norm_num) one_pos (fun n x y h => ?_)
    (fun x y h => ?_) (.inl ⟨?_, ?_⟩) ?_ ?_ ?_ fuel 20
  · exact sameRun_of_rel (sc_dot (S := expScalings) ((sc_exp (by norm_num)).2 ⟨rfl, rfl, fun _ _ _ _ => rfl⟩) (Sc.of_same h))
      fun _ _ h => (sc_exp (by norm_num)).1 (Sc.cast h (add_zero _))
  · exact ⟨fun z hz => ⟨_, rfl, by cases hz; exact h⟩, fun e he => by cases he⟩
  · rfl
  · rfl
  · norm_num
  · rfl
  · exact ⟨rfl, rfl, fun i j _ _ => one_mul _⟩

end LinfaLinalg
