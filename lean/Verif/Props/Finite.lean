import Verif.Proofs.Cycle
import Verif.Props.Closed
import Verif.Props.Eigh
import Verif.Props.Svd

/-! # On floats, the main loops end within a fixed number of iterations or never

`eigh` and `svd` loop until the off-diagonal entries are negligible, without a limit on the number of iterations
(`/repo/src/eigh.rs:51`, `/repo/src/svd.rs:55`). On the numbers of an IEEE 754 format the state of the loop
takes finitely many values, so the outcome is settled after as many iterations as there are states. -/

set_option linter.unusedSectionVars false

namespace LinfaLinalg
open Par

variable {F : Format}

local notation "𝔽" => Flt (Rounding.ieee F)

/-! ## More iterations do not change the outcome -/

theorem IsLoop.mono {σ : Type} {loop : Nat → σ → M σ} {done : σ → Prop} {step : σ → M σ} (h : IsLoop loop done step)
    (k : Nat) : ∀ (N : Nat) (s : σ), loop N s ≠ .error .fuel → loop (N + k) s = loop N s := by
  intro N
  induction N with
  | zero =>
    intro s hs
    by_cases hd : done s
    · rw [h.stop s _ hd, h.stop s _ hd]
    · exact absurd (h.zero s hd) hs
  | succ N ih =>
    intro s hs
    by_cases hd : done s
    · rw [h.stop s _ hd, h.stop s _ hd]
    · rw [show N + 1 + k = N + k + 1 by omega, h.succ s _ hd, h.succ s _ hd]
      rw [h.succ s _ hd] at hs
      cases hst : step s with
      | error e => rfl
      | ok t =>
        rw [hst] at hs
        exact ih t hs

section
variable {α : Type} [Zero α] [One α] [Add α] [Sub α] [Mul α] [Div α] [Neg α] [NdFloat α]

theorem isLoop_eig (eps : α) : IsLoop (eigLoop eps) (fun st => st.end = st.start) (eigStep eps) where
  stop := fun s n hd => by cases n <;> (unfold eigLoop; rw [if_pos hd])
  zero := fun s hd => by unfold eigLoop; rw [if_neg hd]
  succ := fun s n hd => by rw [eigLoop.eq_2, if_neg hd]

theorem isLoop_svd (up cu cv : Bool) (eps : α) :
    IsLoop (svdLoop up cu cv eps) (fun st => st.end = st.start) (svdStep up cu cv eps) where
  stop := fun s n hd => by cases n <;> (unfold svdLoop; rw [if_pos hd])
  zero := fun s hd => by unfold svdLoop; rw [if_neg hd]
  succ := fun s n hd => by rw [svdLoop.eq_2, if_neg hd]

end

/-! ## Eigenvalues -/

/-- The states of the loop without vectors. -/
structure EigFloats (m : Nat) (st : EigState 𝔽) : Prop where
  shape : EigShape (m + 1) (NdFloat.epsilon : 𝔽) st
  q : st.q.isSome = false
  diag : All1 (IsFloat F) st.diag
  off : All1 (IsFloat F) st.off

theorem EigFloats.rel {m : Nat} {st : EigState 𝔽} (h : EigFloats m st) : RelEigState (EqIn (IsFloat F)) st st :=
  ⟨relA1_of_all h.diag, relA1_of_all h.off, by
    have := h.q
    revert this
    cases st.q
    · intro _; trivial
    · intro h; simp at h, rfl, rfl⟩

theorem relSelf {x : 𝔽} (h : IsFloat F x) : EqIn (IsFloat F) x x := ⟨rfl, h⟩

theorem relEps : EqIn (IsFloat F) (NdFloat.epsilon : 𝔽) NdFloat.epsilon := relSelf (closed_float (F := F)).epsilon

theorem EigFloats.step {m : Nat} {st : EigState 𝔽} (h : EigFloats m st) (hne : ¬ st.end = st.start) :
    wp (eigStep NdFloat.epsilon st) (EigFloats m) (fun e => e ≠ .fuel) := by
  have h1 := eigStep_shape h.shape hne
  have h2 := h.shape.isSome_step hne
  have h3 := rel_eigStep relEps h.rel
  cases hs : eigStep NdFloat.epsilon st with
  | error e =>
    rw [hs] at h1
    obtain ⟨rfl, -⟩ : e = .panic ∧ _ := h1
    exact fun h => by cases h
  | ok t =>
    rw [hs] at h1 h2 h3
    have h3 : RelEigState (EqIn (IsFloat F)) t t := h3
    exact ⟨h1, by rw [show t.q.isSome = st.q.isSome from h2, h.q], h3.diag.all, h3.off.all⟩

/-- The code of a state. -/
noncomputable def eigCode (m : Nat) (st : EigState 𝔽) :
    (Fin (m + 1) → FCode F) × (Fin m → FCode F) × Fin (m + 1) × Fin (m + 1) :=
  (fun i => fcode (st.diag.get i), fun i => fcode (st.off.get i), Fin.ofNat (m + 1) st.start, Fin.ofNat (m + 1) st.end)

theorem ofNat_inj {n a b : Nat} (ha : a < n + 1) (hb : b < n + 1) (h : Fin.ofNat (n + 1) a = Fin.ofNat (n + 1) b) :
    a = b := by
  have := congrArg Fin.val h
  rwa [Fin.val_ofNat, Fin.val_ofNat, Nat.mod_eq_of_lt ha, Nat.mod_eq_of_lt hb] at this

theorem eigCode_rel {m : Nat} {s t : EigState 𝔽} (hs : EigFloats m s) (ht : EigFloats m t)
    (h : eigCode m s = eigCode m t) : RelEigState (EqIn (IsFloat F)) s t := by
  unfold eigCode at h
  simp only [Prod.mk.injEq] at h
  obtain ⟨h1, h2, h3, h4⟩ := h
  have l1 := hs.shape.diag
  have l2 := ht.shape.diag
  have l3 := hs.shape.off
  have l4 := ht.shape.off
  have b1 := hs.shape.lt
  have b2 := hs.shape.le
  have b3 := ht.shape.lt
  have b4 := ht.shape.le
  refine ⟨⟨by omega, fun i hi => ⟨?_, hs.diag i hi⟩⟩, ⟨by omega, fun i hi => ⟨?_, hs.off i hi⟩⟩, ?_,
    ofNat_inj (by omega) (by omega) h3, ofNat_inj (by omega) (by omega) h4⟩
  · exact fcode_inj (hs.diag i hi) (ht.diag i (by omega)) (congrFun h1 ⟨i, by omega⟩)
  · exact fcode_inj (hs.off i hi) (ht.off i (by omega)) (congrFun h2 ⟨i, by omega⟩)
  · have q1 := hs.q
    have q2 := ht.q
    revert q1 q2
    cases s.q <;> cases t.q <;> simp [RelO]

/-- The number of sweeps after which the outcome of `eigh` for `n × n` matrices is settled, if there are at most
`N` numbers. -/
def eigBound (N n : Nat) : Nat := N ^ (2 * n - 1) * n ^ 2

theorem eigLoop_forever {m : Nat} {st : EigState 𝔽} (h : EigFloats m st)
    (hl : eigLoop NdFloat.epsilon (eigBound F.size (m + 1)) st = .error .fuel) (n : Nat) :
    eigLoop NdFloat.epsilon n st = .error .fuel := by
  refine (isLoop_eig _).forever (fun s hs hd => hs.step hd) (eigCode m) ?_ ?_ h hl n
  · intro s t hs ht hc n hn
    exact RelM.of_error (rel_eigLoop relEps (rfl : n = n) (eigCode_rel hs ht hc)) hn
  · simp only [Fintype.card_prod, Fintype.card_fun, Fintype.card_fin, card_fcode]
    unfold eigBound
    rw [← mul_assoc, ← pow_add, show 2 * (m + 1) - 1 = m + 1 + m by omega, sq]

theorem eigvalsh_forever {a : Arr2 𝔽} (ha : All2 (IsFloat F) a) (h : eigvalsh (eigBound F.size a.nr) a = .error .fuel)
    (fuel : Nat) : eigvalsh fuel a = .error .fuel := by
  unfold eigvalsh eigvalshInto at h ⊢
  have key : ∀ n : Nat, (symmetricEig n a false (NdFloat.epsilon : 𝔽) >>= fun p => .ok p.1 : M (Arr1 𝔽)) =
      .error .fuel ↔ symmetricEig n a false (NdFloat.epsilon : 𝔽) = .error .fuel := by
    intro n
    cases symmetricEig n a false (NdFloat.epsilon : 𝔽) with
    | error e => simp [error_bind]
    | ok p => simp [ok_bind]
  refine (key fuel).2 ?_
  have h := (key _).1 h
  clear key
  by_cases hs : a.nr = a.nc
  swap
  · rw [symmetricEig_notSquare _ _ _ _ hs] at h
    cases h
  by_cases hn : a.nr = 0
  · rw [symmetricEig_empty _ _ _ _ hs hn] at h
    cases h
  obtain ⟨t, h1, h2, q, -, h3, -, h4, h5⟩ := symmetricEig_cases (eigBound F.size a.nr) a false (NdFloat.epsilon : 𝔽) hs (by omega)
  by_cases hn1 : a.nr = 1
  · rw [h4 hn1] at h
    cases h
  obtain ⟨t', h1', -, q', -, h3', -, -, h5'⟩ := symmetricEig_cases fuel a false (NdFloat.epsilon : 𝔽) hs (by omega)
  rw [h1] at h1'
  cases h1'
  obtain ⟨off, s, e, d1, -, d2, d3⟩ := h5 hn1
  obtain ⟨off', s', e', d1', -, -, d3'⟩ := h5' hn1
  rw [d1] at d1'
  cases d1'
  have hq : q' = q := by
    revert h3 h3'
    cases q <;> cases q' <;> simp
  subst hq
  obtain ⟨m, hm⟩ : ∃ m, a.nr = m + 1 := ⟨a.nr - 1, by omega⟩
  have hI : EigFloats m ⟨t.intoDiagonals.1, off, q', s, e⟩ := by
    have r1 := rel_symTridiagonal (rel_scaleDown (relA2_of_all ha) (rel_amax (relA2_of_all ha)))
    rw [h1] at r1
    have r2 := rel_triIntoDiagonals (r1 : RelTridiagonalDecomp (EqIn (IsFloat F)) t t)
    have r3 := rel_delimitSubproblem r2.1 r2.2 (rfl : a.nr - 1 = a.nr - 1) relEps
    rw [d1] at r3
    exact ⟨hm ▸ d2, h3, r2.1.all, r3.1.all⟩
  rw [d3']
  rw [d3] at h
  have hl : eigLoop NdFloat.epsilon (eigBound F.size a.nr) ⟨t.intoDiagonals.1, off, q', s, e⟩ = .error .fuel := by
    revert h
    cases eigLoop (NdFloat.epsilon : 𝔽) (eigBound F.size a.nr) ⟨t.intoDiagonals.1, off, q', s, e⟩ with
    | error e => intro h; rw [error_bind] at h; cases h; rfl
    | ok x => intro h; rw [ok_bind] at h; cases h
  rw [eigLoop_forever hI (hm ▸ hl) fuel, error_bind]

/-- A step before and one after the loop. -/
theorem settled {σ β : Type} {pre : M σ} {loop : Nat → σ → M σ} {post : σ → M β} {B n : Nat}
    (hl : ∀ s, loop B s ≠ .error .fuel → loop n s = loop B s)
    (hne : (pre >>= fun s => loop B s >>= post) ≠ .error .fuel) :
    (pre >>= fun s => loop n s >>= post) = pre >>= fun s => loop B s >>= post := by
  cases pre with
  | error e => rfl
  | ok s =>
    rw [ok_bind] at hne ⊢
    rw [ok_bind, hl s fun h => hne (by rw [h, error_bind])]

theorem symmetricEig_settled {α : Type} [Zero α] [One α] [Add α] [Sub α] [Mul α] [Div α] [Neg α] [NdFloat α]
    {a : Arr2 α} {ev : Bool} {eps : α} {B n : Nat} (hf : B ≤ n)
    (h : symmetricEig B a ev eps ≠ .error .fuel) : symmetricEig n a ev eps = symmetricEig B a ev eps := by
  obtain ⟨k, rfl⟩ := Nat.exists_eq_add_of_le hf
  revert h
  unfold symmetricEig
  cases checkSquare a with
  | error e => intro _; rfl
  | ok dim =>
    rw [ok_bind, ok_bind]
    by_cases hd : dim < 1
    · rw [if_pos hd, if_pos hd]; intro _; rfl
    · rw [if_neg hd, if_neg hd]
      simp only
      cases symTridiagonal (a.scaleDown a.amax) with
      | error e => intro _; rfl
      | ok t =>
        rw [ok_bind, ok_bind]
        cases (if ev = true then (do let q ← t.generateQ; .ok (some q)) else .ok none : M (Option (Arr2 α))) with
        | error e => intro _; rfl
        | ok q =>
          rw [ok_bind, ok_bind]
          by_cases hd1 : dim = 1
          · rw [if_pos hd1, if_pos hd1]; intro _; rfl
          · rw [if_neg hd1, if_neg hd1]
            cases delimitSubproblem t.intoDiagonals.1 t.intoDiagonals.2 (dim - 1) eps with
            | error e => intro _; rfl
            | ok p =>
              rw [ok_bind, ok_bind]
              intro h
              exact settled (pre := .ok (⟨t.intoDiagonals.1, p.1, q, p.2.1, p.2.2⟩ : EigState α))
                (fun s hs => (isLoop_eig eps).mono k B s hs) h

/-- **C111.** On an `n × n` matrix of numbers of a format with at most `N` numbers, `eigh` and `eigvalsh` end within
`N ^ (2n - 1) n²` iterations of their main loop or never: a larger limit on the number of iterations does not change the outcome. -/
theorem C111_eigh {a : Arr2 𝔽} (ha : All2 (IsFloat F) a) {fuel : Nat} (hf : eigBound F.size a.nr ≤ fuel) :
    eigh fuel a = eigh (eigBound F.size a.nr) a ∧ eigvalsh fuel a = eigvalsh (eigBound F.size a.nr) a := by
  by_cases h : eigvalsh (eigBound F.size a.nr) a = .error .fuel
  · have h1 := eigvalsh_forever ha h
    exact ⟨by rw [((C27_eigvalsh_eq_eigh fuel a).2.1 _).1 (h1 fuel),
      ((C27_eigvalsh_eq_eigh (eigBound F.size a.nr) a).2.1 _).1 h], by rw [h1 fuel, h]⟩
  · have h2 : eigh (eigBound F.size a.nr) a ≠ .error .fuel := fun h' =>
      h (((C27_eigvalsh_eq_eigh (eigBound F.size a.nr) a).2.1 _).2 h')
    constructor
    · unfold eigh eighInto at h2 ⊢
      rw [symmetricEig_settled hf fun h' => h2 (by rw [h', error_bind])]
    · unfold eigvalsh eigvalshInto at h ⊢
      rw [symmetricEig_settled hf fun h' => h (by rw [h', error_bind])]

/-! ## Singular values -/

/-- The states of the loop. -/
structure SvdFloats (r c m : Nat) (cu cv : Bool) (st : SvdState 𝔽) : Prop where
  sh : SvdSt r c (m + 1) cu cv st
  rel : RelSvdState (EqIn (IsFloat F)) st st

theorem SvdFloats.step {r c m : Nat} {cu cv up : Bool} {eps : 𝔽} (he : IsFloat F eps) {st : SvdState 𝔽}
    (h : SvdFloats r c m cu cv st) (hne : ¬ st.end = st.start) :
    wp (svdStep up cu cv eps st) (SvdFloats r c m cu cv) (fun e => e ≠ .fuel) := by
  have h1 := svdStep_shape (up := up) (eps := eps) (E := fun _ => False) h.sh hne
  have h3 := rel_svdStep (rfl : up = up) (rfl : cu = cu) (rfl : cv = cv) (relSelf he) h.rel
  cases hs : svdStep up cu cv eps st with
  | error e => rw [hs] at h1; exact h1.elim
  | ok t => rw [hs] at h1 h3; exact ⟨h1, h3⟩

/-- The code of a requested factor. -/
noncomputable def facCode (p q : Nat) : Option (Arr2 𝔽) → Fin p → Fin q → FCode F
  | none => fun _ _ => fcode 0
  | some x => fun i j => fcode (x.get i j)

/-- The code of a state. -/
noncomputable def svdCode (r c m : Nat) (cu cv : Bool) (st : SvdState 𝔽) :
    (Fin (m + 1) → FCode F) × (Fin m → FCode F) × (Fin (if cu then r else 0) → Fin (m + 1) → FCode F) ×
      (Fin (m + 1) → Fin (if cv then c else 0) → FCode F) × Fin (m + 1) × Fin (m + 1) :=
  (fun i => fcode (st.s.diag.get i), fun i => fcode (st.s.off.get i), facCode _ _ st.s.u, facCode _ _ st.s.vt,
    Fin.ofNat (m + 1) st.start, Fin.ofNat (m + 1) st.end)

theorem facCode_rel {p q : Nat} {x y : Option (Arr2 𝔽)} (hx : ∀ a ∈ x, HasShape a p q) (hy : ∀ a ∈ y, HasShape a p q)
    (hxy : x.isSome = y.isSome) (rx : RelO (RelA2 (EqIn (IsFloat F))) x x) (ry : RelO (RelA2 (EqIn (IsFloat F))) y y)
    {p' q' : Nat} (hp : x.isSome = true → p' = p) (hq : x.isSome = true → q' = q)
    (h : facCode p' q' x = facCode p' q' y) : RelO (RelA2 (EqIn (IsFloat F))) x y := by
  rcases x with - | x <;> rcases y with - | y
  · trivial
  · cases hxy
  · cases hxy
  · obtain rfl := hp rfl
    obtain rfl := hq rfl
    obtain ⟨x1, x2⟩ := hx x rfl
    obtain ⟨y1, y2⟩ := hy y rfl
    have rx : RelA2 (EqIn (IsFloat F)) x x := rx
    have ry : RelA2 (EqIn (IsFloat F)) y y := ry
    refine ⟨by omega, by omega, fun i hi j hj => ⟨?_, rx.all i hi j hj⟩⟩
    exact fcode_inj (rx.all i hi j hj) (ry.all i (by omega) j (by omega))
      (congrFun (congrFun h ⟨i, by omega⟩) ⟨j, by omega⟩)

theorem svdCode_rel {r c m : Nat} {cu cv : Bool} {s t : SvdState 𝔽} (hs : SvdFloats r c m cu cv s)
    (ht : SvdFloats r c m cu cv t) (h : svdCode r c m cu cv s = svdCode r c m cu cv t) :
    RelSvdState (EqIn (IsFloat F)) s t := by
  unfold svdCode at h
  simp only [Prod.mk.injEq] at h
  obtain ⟨h1, h2, h3, h4, h5, h6⟩ := h
  have l1 := hs.sh.shape.dlen
  have l2 := ht.sh.shape.dlen
  have l3 := hs.sh.shape.olen
  have l4 := ht.sh.shape.olen
  have b1 := hs.sh.lt
  have b2 := hs.sh.ltd
  have b3 := ht.sh.lt
  have b4 := ht.sh.ltd
  refine ⟨⟨⟨by omega, fun i hi => ⟨?_, hs.rel.s.diag.all i hi⟩⟩, ⟨by omega, fun i hi => ⟨?_, hs.rel.s.off.all i hi⟩⟩,
    ?_, ?_⟩, ofNat_inj (by omega) (by omega) h5, ofNat_inj (by omega) (by omega) h6⟩
  · exact fcode_inj (hs.rel.s.diag.all i hi) (ht.rel.s.diag.all i (by omega)) (congrFun h1 ⟨i, by omega⟩)
  · exact fcode_inj (hs.rel.s.off.all i hi) (ht.rel.s.off.all i (by omega)) (congrFun h2 ⟨i, by omega⟩)
  · refine facCode_rel hs.sh.shape.u ht.sh.shape.u (by rw [hs.sh.shape.hu, ht.sh.shape.hu]) hs.rel.s.u ht.rel.s.u
      (fun h => ?_) (fun _ => rfl) h3
    rw [hs.sh.shape.hu] at h
    rw [if_pos h]
  · refine facCode_rel hs.sh.shape.vt ht.sh.shape.vt (by rw [hs.sh.shape.hv, ht.sh.shape.hv]) hs.rel.s.vt ht.rel.s.vt
      (fun _ => rfl) (fun h => ?_) h4
    rw [hs.sh.shape.hv] at h
    rw [if_pos h]

/-- The number of iterations after which the outcome of `svd` for `r × c` matrices is settled, if there are at
most `N` numbers. -/
def svdBound (N r c : Nat) (cu cv : Bool) : Nat :=
  N ^ (2 * min r c - 1 + min r c * ((if cu then r else 0) + (if cv then c else 0))) * min r c ^ 2

theorem svdLoop_forever {r c m : Nat} {cu cv up : Bool} {eps : 𝔽} (he : IsFloat F eps) {st : SvdState 𝔽}
    (h : SvdFloats r c m cu cv st) (hm : min r c = m + 1)
    (hl : svdLoop up cu cv eps (svdBound F.size r c cu cv) st = .error .fuel) (n : Nat) :
    svdLoop up cu cv eps n st = .error .fuel := by
  refine (isLoop_svd up cu cv eps).forever (fun s hs hd => hs.step he hd) (svdCode r c m cu cv) ?_ ?_ h hl n
  · intro s t hs ht hc n hn
    exact RelM.of_error (rel_svdLoop (rfl : up = up) (rfl : cu = cu) (rfl : cv = cv)
      (relSelf he) (rfl : n = n) (svdCode_rel hs ht hc)) hn
  · simp only [Fintype.card_prod, Fintype.card_fun, Fintype.card_fin, card_fcode]
    unfold svdBound
    rw [hm]
    generalize (if cu then r else 0) = x
    generalize (if cv then c else 0) = y
    generalize F.size = b
    refine le_of_eq ?_
    rw [show 2 * (m + 1) - 1 + (m + 1) * (x + y) = m + 1 + m + (m + 1) * x + y * (m + 1) by
      rw [show 2 * (m + 1) - 1 = m + 1 + m by omega]; ring, ← pow_mul, ← pow_mul, pow_add, pow_add, pow_add]
    ring

/-- **C111.** On an `m × n` matrix of numbers of a format with at most `N` numbers and `d = min m n`, `svd` ends within
`N ^ (2d - 1 + k) d²` iterations of its main loop or never, where `k` counts the entries of the requested factors: a larger limit on the
number of iterations does not change the outcome. -/
theorem C111_svd {a : Arr2 𝔽} (ha : All2 (IsFloat F) a) (cu cv : Bool) {fuel : Nat} (hf : svdBound F.size a.nr a.nc cu cv ≤ fuel) :
    svd fuel a cu cv = svd (svdBound F.size a.nr a.nc cu cv) a cu cv := by
  by_cases h0 : a.nr = 0 ∨ a.nc = 0
  · unfold svd svdGo
    rw [if_pos h0, if_pos h0]
  have h1 : a.nr ≠ 0 := fun h => h0 (.inl h)
  have h2 : a.nc ≠ 0 := fun h => h0 (.inr h)
  obtain ⟨m, hm⟩ : ∃ m, min a.nr a.nc = m + 1 := ⟨min a.nr a.nc - 1, by omega⟩
  obtain ⟨b, U, Vt, e1, e2, e3, e4, hs, hgo⟩ := svdGo_eq a h1 h2
  have heps : IsFloat F (NdFloat.epsilon * NdFloat.ofRat 5 : 𝔽) := (closed_float (F := F)).mul _ _ (closed_float (F := F)).epsilon ((closed_float (F := F)).ofRat 5)
  unfold svd
  rw [hgo, hgo]
  obtain ⟨⟨s, start, e⟩, hd, d1, d2, d3⟩ := succeeds_iff.1 (svdDelimit_shape (up := decide (a.nc ≤ a.nr))
    (eps := (NdFloat.epsilon * NdFloat.ofRat 5 : 𝔽)) (show min a.nr a.nc - 1 < min a.nr a.nc by omega) (hs cu cv))
  rw [hd]
  simp only [ok_bind]
  have hI : SvdFloats a.nr a.nc m cu cv ⟨s, start, e⟩ := by
    refine ⟨⟨hm ▸ d1, d2, ?_⟩, ?_⟩
    · have : e ≤ min a.nr a.nc - 1 := d3
      show e < m + 1
      omega
    have r1 := rel_bidiagonal (rel_scaleDown (relA2_of_all ha) (rel_amax (relA2_of_all ha)))
    rw [e1] at r1
    have r1 : RelBidiagonalDecomp (EqIn (IsFloat F)) b b := r1
    have r2 := rel_bidIntoDiagonals r1
    have r3 := rel_generateU r1
    rw [e2] at r3
    have r4 := rel_generateVt r1
    rw [e3] at r4
    have r5 := rel_svdDelimit (rfl : decide (a.nc ≤ a.nr) = decide (a.nc ≤ a.nr))
      (rfl : min a.nr a.nc - 1 = min a.nr a.nc - 1)
      (relSelf heps)
      (relSvdData_mk r2.1 r2.2 (u := if cu then some U else none) (u' := if cu then some U else none)
        (v := if cv then some Vt else none) (v' := if cv then some Vt else none)
        (by cases cu <;> [trivial; exact r3]) (by cases cv <;> [trivial; exact r4]))
    rw [hd] at r5
    exact ⟨r5.1, rfl, rfl⟩
  by_cases hl : svdLoop (decide (a.nc ≤ a.nr)) cu cv (NdFloat.epsilon * NdFloat.ofRat 5 : 𝔽) (svdBound F.size a.nr a.nc cu cv)
      ⟨s, start, e⟩ = .error .fuel
  · rw [hl, svdLoop_forever heps hI hm hl fuel]
  · obtain ⟨k, rfl⟩ := Nat.exists_eq_add_of_le hf
    rw [(isLoop_svd _ _ _ _).mono k _ _ hl]

/-- **C111.** There are fewer than `2 ^ 33` numbers of `f32` and fewer than `2 ^ 65` of `f64`, counting representations. -/
theorem C111_size : Format.single.size < 2 ^ 33 ∧ Format.double.size < 2 ^ 65 := by
  exact ⟨show 3 + 2 * (2 ^ 24 * 254) < 2 ^ 33 by norm_num, show 3 + 2 * (2 ^ 53 * 2046) < 2 ^ 65 by norm_num⟩

/-- **C111.** For doubles. -/
theorem C111_double {a : Arr2 (Flt Rounding.binary64)} (ha : All2 IsDouble a) (cu cv : Bool) (fuel : Nat) :
    (eigBound (2 ^ 65) a.nr ≤ fuel → eigh fuel a = eigh (eigBound (2 ^ 65) a.nr) a) ∧
    (svdBound (2 ^ 65) a.nr a.nc cu cv ≤ fuel → svd fuel a cu cv = svd (svdBound (2 ^ 65) a.nr a.nc cu cv) a cu cv) := by
  have h0 := C111_size.2.le
  have h1 : eigBound Format.double.size a.nr ≤ eigBound (2 ^ 65) a.nr := by unfold eigBound; gcongr
  have h2 : svdBound Format.double.size a.nr a.nc cu cv ≤ svdBound (2 ^ 65) a.nr a.nc cu cv := by unfold svdBound; gcongr
  exact ⟨fun h => (C111_eigh (F := .double) ha (h1.trans h)).1.trans (C111_eigh (F := .double) ha h1).1.symm,
    fun h => (C111_svd (F := .double) ha cu cv (h2.trans h)).trans (C111_svd (F := .double) ha cu cv h2).symm⟩

/-- A symmetric matrix of numbers of `f32` to which the theorems apply, and the bounds for its size. -/
example : All2 (IsFloat .single) ⟨3, 3, fun i j => if i = j then .fin true 3 else .fin false (1 / 2)⟩ ∧
    eigBound (2 ^ 33) 3 = 2 ^ 165 * 9 ∧ svdBound (2 ^ 33) 3 3 true false = 2 ^ 462 * 9 := by
  refine ⟨fun i _ j _ => ?_, by norm_num [eigBound], ?_⟩
  swap
  · change (2 ^ 33) ^ 14 * 3 ^ 2 = _
    rw [← pow_mul]
    norm_num
  dsimp only
  split
  · exact ⟨3, 0, by norm_num [Format.single], by norm_num [Format.single], by norm_num [Format.single], by norm_num⟩
  · exact ⟨1, -1, by norm_num [Format.single], by norm_num [Format.single], by norm_num [Format.single], by norm_num⟩

end LinfaLinalg
