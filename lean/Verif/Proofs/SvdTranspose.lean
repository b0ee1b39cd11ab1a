import Verif.Proofs.Svd

/-! # `svd` of the transposed matrix runs through the same states with the factors exchanged -/

set_option linter.unusedSectionVars false

namespace LinfaLinalg

variable {α : Type} [Zero α] [One α] [Add α] [Sub α] [Mul α] [Div α] [Neg α] [NdFloat α]

/-- The transposed matrix, if there is one. -/
def tOpt : Option (Arr2 α) → Option (Arr2 α) := Option.map Arr2.t

@[simp] theorem tOpt_tOpt (u : Option (Arr2 α)) : tOpt (tOpt u) = u := by cases u <;> rfl

def SvdData.swap (s : SvdData α) : SvdData α := ⟨s.diag, s.off, tOpt s.vt, tOpt s.u⟩

@[simp] theorem SvdData.swap_diag (s : SvdData α) : s.swap.diag = s.diag := rfl
@[simp] theorem SvdData.swap_off (s : SvdData α) : s.swap.off = s.off := rfl

theorem relM_rotateVt (g : GivensRotation α) (c0 c1 step : Nat) (u : Option (Arr2 α)) :
    RelM (fun x y => y = tOpt x) (rotateUCols g.inverse c0 c1 step u) (rotateVtRows g c0 c1 step (tOpt u)) := by
  cases u with
  | none => rfl
  | some u =>
    show RelM _ (rotateUCols _ _ _ _ (some u)) (rotateVtRows g c0 c1 step (some u.t))
    unfold rotateUCols rotateVtRows
    simp only
    rw [show u.t.t = u from rfl]
    cases h : u.colsStep c0 c1 step with
    | error e => exact rfl
    | ok v =>
      simp only [ok_bind]
      unfold GivensRotation.rotateCols
      rw [show v.t.t = v from rfl]
      cases h' : g.inverse.rotateRows v with
      | ok w => rfl
      | error e =>
        cases e with
        | err e => cases e <;> rfl
        | panic => rfl
        | oob => rfl
        | fuel => rfl

theorem relM_symm_t {m m' : M (Option (Arr2 α))} (h : RelM (fun x y => y = tOpt x) m m') :
    RelM (fun x y => y = tOpt x) m' m := by
  cases m <;> cases m'
  · exact (show _ = _ from h).symm
  · exact h.elim
  · exact h.elim
  · rw [relM_ok] at h ⊢
    rw [h, tOpt_tOpt]

theorem relM_rotateU (g : GivensRotation α) (c0 c1 step : Nat) (u : Option (Arr2 α)) :
    RelM (fun x y => y = tOpt x) (rotateVtRows g c0 c1 step u) (rotateUCols g.inverse c0 c1 step (tOpt u)) := by
  have := relM_symm_t (relM_rotateVt g c0 c1 step (tOpt u))
  rwa [tOpt_tOpt] at this

def CancelState.swap (s : CancelState α) : CancelState α := ⟨s.s.swap, s.v0, s.v1⟩

theorem relM_same {β : Type} (m : M β) : RelM (fun x y => x = y) m m := by
  cases m
  · rfl
  · rfl

theorem relM_ite {β γ : Type} {R : β → γ → Prop} {c : Prop} [Decidable c] {x y : M β} {x' y' : M γ} (h : RelM R x x')
    (h' : RelM R y y') : RelM R (if c then x else y) (if c then x' else y') := by
  split_ifs
  · exact h
  · exact h'

theorem relM_cancelHStep (up : Bool) (i e k : Nat) (st : CancelState α) :
    RelM (RelStep fun x y => y = CancelState.swap x) (cancelHStep up i e k st) (cancelHStep (!up) i e k st.swap) := by
  unfold cancelHStep
  show RelM _ _ (match GivensRotation.cancelX st.v0 st.v1 with
    | none => _
    | some (rot, norm) => _)
  cases GivensRotation.cancelX st.v0 st.v1 with
  | none => rfl
  | some p =>
    obtain ⟨rot, norm⟩ := p
    simp only
    refine relM_bind (relM_same _) ?_
    rintro diag _ rfl
    cases up
    · simp only [Bool.false_eq_true, if_false, Bool.not_false, if_true, ok_bind]
      refine relM_bind (relM_rotateU rot i (k + 2) (k - i + 1) st.s.vt) ?_
      rintro vt _ rfl
      refine relM_bind (relM_same _) ?_
      rintro ⟨off, v0, v1⟩ _ rfl
      rfl
    · simp only [Bool.not_true, Bool.false_eq_true, if_false, if_true, ok_bind]
      refine relM_bind (relM_rotateVt rot i (k + 2) (k - i + 1) st.s.u) ?_
      rintro vt _ rfl
      refine relM_bind (relM_same _) ?_
      rintro ⟨off, v0, v1⟩ _ rfl
      rfl

theorem relM_cancelH (up : Bool) (i e : Nat) (s : SvdData α) :
    RelM (fun x y => y = SvdData.swap x) (cancelH up i e s) (cancelH (!up) i e s.swap) := by
  unfold cancelH
  refine relM_bind (relM_same _) ?_
  rintro v0 _ rfl
  refine relM_bind (relM_same _) ?_
  rintro v1 _ rfl
  refine relM_bind (relM_same _) ?_
  rintro off _ rfl
  refine relM_bind (relM_loopBrk (R := fun x y => y = CancelState.swap x) rfl ?_) ?_
  · rintro k - s _ rfl
    exact relM_cancelHStep up i e k s
  · rintro r _ rfl
    rfl

theorem relM_cancelVStep (up : Bool) (i k : Nat) (st : CancelState α) :
    RelM (RelStep fun x y => y = CancelState.swap x) (cancelVStep up i k st) (cancelVStep (!up) i k st.swap) := by
  unfold cancelVStep
  show RelM _ _ (match GivensRotation.cancelY st.v0 st.v1 with
    | none => _
    | some (rot, norm) => _)
  cases GivensRotation.cancelY st.v0 st.v1 with
  | none => rfl
  | some p =>
    obtain ⟨rot, norm⟩ := p
    simp only
    refine relM_bind (relM_same _) ?_
    rintro diag _ rfl
    cases up
    · simp only [Bool.false_eq_true, if_false, Bool.not_false, if_true, ok_bind]
      refine relM_bind (relM_rotateVt rot k (i + 2) (i - k + 1) st.s.u) ?_
      rintro vt _ rfl
      refine relM_bind (relM_same _) ?_
      rintro ⟨off, v0, v1⟩ _ rfl
      rfl
    · simp only [Bool.not_true, Bool.false_eq_true, if_false, if_true, ok_bind]
      refine relM_bind (relM_rotateU rot k (i + 2) (i - k + 1) st.s.vt) ?_
      rintro vt _ rfl
      refine relM_bind (relM_same _) ?_
      rintro ⟨off, v0, v1⟩ _ rfl
      rfl

theorem relM_cancelV (up : Bool) (i : Nat) (s : SvdData α) :
    RelM (fun x y => y = SvdData.swap x) (cancelV up i s) (cancelV (!up) i s.swap) := by
  unfold cancelV
  refine relM_bind (relM_same _) ?_
  rintro v0 _ rfl
  refine relM_bind (relM_same _) ?_
  rintro v1 _ rfl
  refine relM_bind (relM_same _) ?_
  rintro off _ rfl
  refine relM_bind (relM_loopBrk (R := fun x y => y = CancelState.swap x) rfl ?_) ?_
  · rintro k - s _ rfl
    exact relM_cancelVStep up i k s
  · rintro r _ rfl
    rfl

theorem relM_cancelV' (up : Bool) (m : Nat) (s : SvdData α) :
    RelM (fun x y => y = SvdData.swap x) (if m ≠ 0 then cancelV up (m - 1) s else .ok s : M (SvdData α))
      (if m ≠ 0 then cancelV (!up) (m - 1) s.swap else .ok s.swap : M (SvdData α)) := by
  by_cases h : m ≠ 0
  · rw [if_pos h, if_pos h]
    exact relM_cancelV up _ s
  · rw [if_neg h, if_neg h]
    rfl

theorem relM_svdDelimitEnd (up : Bool) (eps : α) (n : Nat) (s : SvdData α) :
    RelM (fun x y => y = (x.1.swap, x.2)) (svdDelimitEnd up eps n s) (svdDelimitEnd (!up) eps n s.swap) := by
  induction n generalizing s with
  | zero => rfl
  | succ m ih =>
    unfold svdDelimitEnd
    refine relM_bind (relM_same _) ?_
    rintro o _ rfl
    refine relM_bind (relM_same _) ?_
    rintro dn _ rfl
    refine relM_bind (relM_same _) ?_
    rintro dm _ rfl
    refine relM_ite ?_ (relM_ite ?_ (relM_ite ?_ ?_))
    · refine relM_bind (relM_same _) ?_
      rintro off _ rfl
      exact ih { s with off := off }
    · refine relM_bind (relM_same _) ?_
      rintro diag _ rfl
      refine relM_bind (relM_cancelH up m (m + 1) { s with diag := diag }) ?_
      rintro s _ rfl
      refine relM_bind (relM_cancelV' up m s) ?_
      rintro s _ rfl
      exact ih s
    · refine relM_bind (relM_same _) ?_
      rintro diag _ rfl
      refine relM_bind (relM_cancelV up m { s with diag := diag }) ?_
      rintro s _ rfl
      exact ih s
    · rfl

theorem relM_svdDelimitStart (up : Bool) (eps : α) (n k : Nat) (s : SvdData α) :
    RelM (fun x y => y = (x.1.swap, x.2)) (svdDelimitStart up eps n k s) (svdDelimitStart (!up) eps n k s.swap) := by
  induction k generalizing s with
  | zero => rfl
  | succ m ih =>
    unfold svdDelimitStart
    refine relM_bind (relM_same _) ?_
    rintro o _ rfl
    refine relM_bind (relM_same _) ?_
    rintro dn _ rfl
    refine relM_bind (relM_same _) ?_
    rintro dm _ rfl
    refine relM_ite ?_ (relM_ite ?_ ?_)
    · refine relM_bind (relM_same _) ?_
      rintro off _ rfl
      rfl
    · refine relM_bind (relM_same _) ?_
      rintro diag _ rfl
      refine relM_bind (relM_cancelH up m n { s with diag := diag }) ?_
      rintro s _ rfl
      refine relM_bind (relM_cancelV' up m s) ?_
      rintro s _ rfl
      rfl
    · exact ih s

theorem relM_svdDelimit (up : Bool) (e : Nat) (eps : α) (s : SvdData α) :
    RelM (fun x y => y = (x.1.swap, x.2)) (svdDelimit up e eps s) (svdDelimit (!up) e eps s.swap) := by
  unfold svdDelimit
  refine relM_bind (relM_svdDelimitEnd up eps e s) ?_
  rintro ⟨s, n⟩ _ rfl
  dsimp only
  refine relM_ite ?_ ?_
  · rfl
  · refine relM_bind (relM_svdDelimitStart up eps n (n - 1) s) ?_
    rintro ⟨s, start⟩ _ rfl
    rfl

/-- Two computations which can only panic may be run in any order. -/
theorem bind_comm_panic {β γ δ : Type} {x : M β} {y : M γ} (hx : ∀ e, x = .error e → e = .panic)
    (hy : ∀ e, y = .error e → e = .panic) (f : β → γ → M δ) :
    (do let a ← x; let b ← y; f a b) = (do let b ← y; let a ← x; f a b) := by
  cases x <;> cases y <;> simp_all

theorem rotateUCols_panic (g : GivensRotation α) (c0 c1 step : Nat) (u : Option (Arr2 α)) (e : Fail)
    (h : rotateUCols g c0 c1 step u = .error e) : e = .panic := by
  cases u with
  | none => cases h
  | some u =>
    unfold rotateUCols at h
    simp only [Arr2.colsStep] at h
    split_ifs at h with hc
    · simp only [ok_bind] at h
      by_cases h2 : ((c1 - c0 + (step - 1)) / step) = 2
      · rw [rotateRows_ok _ _ h2] at h
        cases h
      · rw [rotateRows_wrong _ _ h2] at h
        exact (Except.error.inj h).symm
    · exact (Except.error.inj h).symm

theorem rotateVtRows_panic (g : GivensRotation α) (c0 c1 step : Nat) (u : Option (Arr2 α)) (e : Fail)
    (h : rotateVtRows g c0 c1 step u = .error e) : e = .panic := by
  have := relM_rotateU g c0 c1 step u
  rw [h] at this
  cases h' : rotateUCols g.inverse c0 c1 step (tOpt u) with
  | ok x => rw [h'] at this; exact this.elim
  | error e' =>
    rw [h'] at this
    exact (show e = e' from this).trans (rotateUCols_panic _ _ _ _ _ _ h')

def SvdSweep.swap (s : SvdSweep α) : SvdSweep α := ⟨s.s.swap, s.x, s.y⟩

theorem relM_svdSweepStep (up : Bool) (start n k : Nat) (st : SvdSweep α) :
    RelM (RelStep fun x y => y = SvdSweep.swap x) (svdSweepStep up start n k st)
      (svdSweepStep (!up) start n k st.swap) := by
  unfold svdSweepStep
  refine relM_bind (relM_same _) ?_
  rintro m12 _ rfl
  refine relM_bind (relM_same _) ?_
  rintro dk _ rfl
  refine relM_bind (relM_same _) ?_
  rintro ok _ rfl
  refine relM_bind (relM_same _) ?_
  rintro dk1 _ rfl
  show RelM _ _ (match GivensRotation.cancelY st.x st.y with
    | none => _
    | some (rot, norm) => _)
  cases GivensRotation.cancelY st.x st.y with
  | none => rfl
  | some p =>
    obtain ⟨rot1, norm1⟩ := p
    simp only
    refine relM_bind (relM_same _) ?_
    rintro v _ rfl
    refine relM_bind (relM_same _) ?_
    rintro v _ rfl
    refine relM_bind (relM_same _) ?_
    rintro off _ rfl
    refine relM_bind (relM_same _) ?_
    rintro v1 _ rfl
    refine relM_bind (relM_same _) ?_
    rintro v2 _ rfl
    refine relM_bind (relM_same _) ?_
    rintro ⟨subm, rot2, norm2⟩ _ rfl
    simp only
    refine relM_bind (relM_same _) ?_
    rintro subm _ rfl
    cases up
    · simp only [Bool.false_eq_true, if_false, Bool.not_false, if_true, Bool.not_true]
      cases rot2 with
      | none =>
        simp only [ok_bind]
        refine relM_bind (relM_rotateVt rot1 k (k + 2) 1 st.s.u) ?_
        rintro u _ rfl
        refine relM_bind (relM_same _) ?_
        rintro s00 _ rfl
        refine relM_bind (relM_same _) ?_
        rintro diag _ rfl
        refine relM_bind (relM_same _) ?_
        rintro s11 _ rfl
        refine relM_bind (relM_same _) ?_
        rintro diag _ rfl
        refine relM_bind (relM_same _) ?_
        rintro s01 _ rfl
        refine relM_bind (relM_same _) ?_
        rintro off _ rfl
        refine relM_bind (relM_same _) ?_
        rintro s12 _ rfl
        refine relM_bind (relM_same _) ?_
        rintro off _ rfl
        refine relM_bind (relM_same _) ?_
        rintro s02 _ rfl
        rfl
      | some rot2 =>
        simp only
        rw [bind_comm_panic (x := rotateVtRows rot1 _ _ _ _) (rotateVtRows_panic _ _ _ _ _) (rotateUCols_panic _ _ _ _ _)]
        refine relM_bind (relM_rotateU rot2 k (k + 2) 1 st.s.vt) ?_
        rintro vt _ rfl
        refine relM_bind (relM_rotateVt rot1 k (k + 2) 1 st.s.u) ?_
        rintro u _ rfl
        refine relM_bind (relM_same _) ?_
        rintro s00 _ rfl
        refine relM_bind (relM_same _) ?_
        rintro diag _ rfl
        refine relM_bind (relM_same _) ?_
        rintro s11 _ rfl
        refine relM_bind (relM_same _) ?_
        rintro diag _ rfl
        refine relM_bind (relM_same _) ?_
        rintro s01 _ rfl
        refine relM_bind (relM_same _) ?_
        rintro off _ rfl
        refine relM_bind (relM_same _) ?_
        rintro s12 _ rfl
        refine relM_bind (relM_same _) ?_
        rintro off _ rfl
        refine relM_bind (relM_same _) ?_
        rintro s02 _ rfl
        rfl
    · simp only [Bool.false_eq_true, if_false, Bool.not_false, if_true, Bool.not_true]
      cases rot2 with
      | none =>
        simp only [ok_bind]
        refine relM_bind (relM_rotateU rot1 k (k + 2) 1 st.s.vt) ?_
        rintro u _ rfl
        refine relM_bind (relM_same _) ?_
        rintro s00 _ rfl
        refine relM_bind (relM_same _) ?_
        rintro diag _ rfl
        refine relM_bind (relM_same _) ?_
        rintro s11 _ rfl
        refine relM_bind (relM_same _) ?_
        rintro diag _ rfl
        refine relM_bind (relM_same _) ?_
        rintro s01 _ rfl
        refine relM_bind (relM_same _) ?_
        rintro off _ rfl
        refine relM_bind (relM_same _) ?_
        rintro s12 _ rfl
        refine relM_bind (relM_same _) ?_
        rintro off _ rfl
        refine relM_bind (relM_same _) ?_
        rintro s02 _ rfl
        rfl
      | some rot2 =>
        simp only
        rw [bind_comm_panic (x := rotateVtRows rot2 _ _ _ _) (rotateVtRows_panic _ _ _ _ _) (rotateUCols_panic _ _ _ _ _)]
        refine relM_bind (relM_rotateU rot1 k (k + 2) 1 st.s.vt) ?_
        rintro vt _ rfl
        refine relM_bind (relM_rotateVt rot2 k (k + 2) 1 st.s.u) ?_
        rintro u _ rfl
        refine relM_bind (relM_same _) ?_
        rintro s00 _ rfl
        refine relM_bind (relM_same _) ?_
        rintro diag _ rfl
        refine relM_bind (relM_same _) ?_
        rintro s11 _ rfl
        refine relM_bind (relM_same _) ?_
        rintro diag _ rfl
        refine relM_bind (relM_same _) ?_
        rintro s01 _ rfl
        refine relM_bind (relM_same _) ?_
        rintro off _ rfl
        refine relM_bind (relM_same _) ?_
        rintro s12 _ rfl
        refine relM_bind (relM_same _) ?_
        rintro off _ rfl
        refine relM_bind (relM_same _) ?_
        rintro s02 _ rfl
        rfl

def SvdState.swap (s : SvdState α) : SvdState α := ⟨s.s.swap, s.start, s.end⟩

theorem relM_svdSweep (up : Bool) (st : SvdState α) :
    RelM (fun x y => y = SvdState.swap x) (svdSweep up st) (svdSweep (!up) st.swap) := by
  unfold svdSweep
  refine relM_bind (relM_same _) ?_
  rintro dm _ rfl
  refine relM_bind (relM_same _) ?_
  rintro dn _ rfl
  refine relM_bind (relM_same _) ?_
  rintro fm _ rfl
  refine relM_bind (relM_same _) ?_
  rintro fm1 _ rfl
  refine relM_bind (relM_same _) ?_
  rintro ds _ rfl
  refine relM_bind (relM_same _) ?_
  rintro os _ rfl
  refine relM_bind (relM_loopBrk (R := fun x y => y = SvdSweep.swap x) rfl ?_) ?_
  · rintro k - s _ rfl
    exact relM_svdSweepStep up st.start st.end k s
  · rintro r _ rfl
    rfl

theorem relM_svdRotVt (hneg : ∀ x : α, - -x = x) (rot : Option (GivensRotation α)) (start : Nat) (u : Option (Arr2 α)) :
    RelM (fun x y => y = tOpt x) (svdRotU rot start u) (svdRotVt rot start (tOpt u)) := by
  cases u with
  | none => rfl
  | some u =>
    cases rot with
    | none => rfl
    | some r =>
      have := relM_rotateVt r.inverse start (start + 2) 1 (some u)
      rwa [show r.inverse.inverse = r by unfold GivensRotation.inverse; rw [hneg]] at this

theorem relM_svdRotU (hneg : ∀ x : α, - -x = x) (rot : Option (GivensRotation α)) (start : Nat) (u : Option (Arr2 α)) :
    RelM (fun x y => y = tOpt x) (svdRotVt rot start u) (svdRotU rot start (tOpt u)) := by
  have := relM_symm_t (relM_svdRotVt hneg rot start (tOpt u))
  rwa [tOpt_tOpt] at this

theorem svdRotU_panic (rot : Option (GivensRotation α)) (start : Nat) (u : Option (Arr2 α)) (e : Fail)
    (h : svdRotU rot start u = .error e) : e = .panic := by
  cases u with
  | none => cases h
  | some u =>
    cases rot with
    | none => exact (Except.error.inj h).symm
    | some r => exact rotateUCols_panic r start (start + 2) 1 (some u) _ h

theorem svdRotVt_panic (rot : Option (GivensRotation α)) (start : Nat) (u : Option (Arr2 α)) (e : Fail)
    (h : svdRotVt rot start u = .error e) : e = .panic := by
  cases u with
  | none => cases h
  | some u =>
    cases rot with
    | none => exact (Except.error.inj h).symm
    | some r => exact rotateVtRows_panic r.inverse start (start + 2) 1 (some u) _ h

theorem relM_svd2x2 (hneg : ∀ x : α, - -x = x) (up cu cv : Bool) (st : SvdState α) :
    RelM (fun x y => y = SvdState.swap x) (svd2x2 up cu cv st) (svd2x2 (!up) cv cu st.swap) := by
  unfold svd2x2
  refine relM_bind (relM_same _) ?_
  rintro d0 _ rfl
  refine relM_bind (relM_same _) ?_
  rintro o _ rfl
  refine relM_bind (relM_same _) ?_
  rintro d1 _ rfl
  rw [show (cv && !up || cu && !!up) = (cu && up || cv && !up) by cases up <;> cases cu <;> cases cv <;> rfl,
    show (cu && !up || cv && !!up) = (cv && up || cu && !up) by cases up <;> cases cu <;> cases cv <;> rfl]
  obtain ⟨s1, s2, u2, v2⟩ := compute2x2UptrigSvd d0 o d1 (cu && up || cv && !up) (cv && up || cu && !up)
  simp only
  refine relM_bind (relM_same _) ?_
  rintro diag _ rfl
  refine relM_bind (relM_same _) ?_
  rintro diag _ rfl
  refine relM_bind (relM_same _) ?_
  rintro off _ rfl
  rw [bind_comm_panic (x := svdRotU _ _ st.s.u) (svdRotU_panic _ _ _) (svdRotVt_panic _ _ _)]
  cases up
  · refine relM_bind (relM_svdRotU hneg u2 st.start st.s.vt) ?_
    rintro vt _ rfl
    refine relM_bind (relM_svdRotVt hneg v2 st.start st.s.u) ?_
    rintro u _ rfl
    rfl
  · refine relM_bind (relM_svdRotU hneg v2 st.start st.s.vt) ?_
    rintro vt _ rfl
    refine relM_bind (relM_svdRotVt hneg u2 st.start st.s.u) ?_
    rintro u _ rfl
    rfl

theorem relM_svdStep (hneg : ∀ x : α, - -x = x) (up cu cv : Bool) (eps : α) (st : SvdState α) :
    RelM (fun x y => y = SvdState.swap x) (svdStep up cu cv eps st) (svdStep (!up) cv cu eps st.swap) := by
  unfold svdStep
  refine relM_ite (c := st.end < st.start) rfl ?_
  refine relM_bind (R := fun x y => y = SvdState.swap x) ?_ ?_
  · exact relM_ite (c := 2 < st.end - st.start + 1) (relM_svdSweep up st)
      (relM_ite (c := st.end - st.start + 1 = 2) (relM_svd2x2 hneg up cu cv st) rfl)
  · rintro st _ rfl
    refine relM_bind (relM_svdDelimit up st.end eps st.s) ?_
    rintro ⟨s, start, e⟩ _ rfl
    rfl

theorem relM_svdLoop (hneg : ∀ x : α, - -x = x) (up cu cv : Bool) (eps : α) (fuel : Nat) (st : SvdState α) :
    RelM (fun x y => y = SvdState.swap x) (svdLoop up cu cv eps fuel st) (svdLoop (!up) cv cu eps fuel st.swap) := by
  induction fuel generalizing st with
  | zero => exact relM_ite (c := st.end = st.start) rfl rfl
  | succ fuel ih =>
    unfold svdLoop
    refine relM_ite (c := st.end = st.start) rfl ?_
    refine relM_bind (relM_svdStep hneg up cu cv eps st) ?_
    rintro st _ rfl
    exact ih st

/-- Closed form of the final loop. -/
theorem fixSigns_eq {d : Nat} (dg : Arr1 α) (u : Option (Arr2 α)) (hd : dg.len = d) (hu : ∀ a ∈ u, a.nc = d) :
    fixSigns d dg u = .ok (⟨d, fun k => if k < d ∧ NdFloat.isSignNeg (dg.get k) = true then -dg.get k else dg.get k⟩,
      u.map fun a => ⟨a.nr, a.nc, fun i k =>
        if k < d ∧ NdFloat.isSignNeg (dg.get k) = true then a.get i k * -0 else a.get i k⟩) := by
  have : Succeeds (fixSigns d dg u) fun p => p = (⟨d, fun k =>
      if k < d ∧ NdFloat.isSignNeg (dg.get k) = true then -dg.get k else dg.get k⟩,
      u.map fun a => ⟨a.nr, a.nc, fun i k =>
        if k < d ∧ NdFloat.isSignNeg (dg.get k) = true then a.get i k * -0 else a.get i k⟩) := by
    unfold fixSigns
    refine wp_forRange (fun j (p : Arr1 α × Option (Arr2 α)) => p = (⟨d, fun k =>
      if k < j ∧ NdFloat.isSignNeg (dg.get k) = true then -dg.get k else dg.get k⟩,
      u.map fun a => ⟨a.nr, a.nc, fun i k =>
        if k < j ∧ NdFloat.isSignNeg (dg.get k) = true then a.get i k * -0 else a.get i k⟩)) (by omega) ?_ ?_
    · subst hd
      cases u <;> simp
    · rintro j _ - hj rfl
      simp only
      rw [Arr1.idx_ok (by exact hj)]
      simp only [ok_bind, lt_irrefl, false_and, if_false]
      have e : ∀ k, k ≠ j → (k < j + 1 ↔ k < j) := fun k hk => by omega
      by_cases hneg : NdFloat.isSignNeg (dg.get j) = true
      · rw [if_pos hneg, Arr1.idxSet_ok (by exact hj)]
        cases u with
        | none =>
          simp only [ok_bind, Option.map_none, scaleCol, wp_ok, Prod.mk.injEq, and_true]
          unfold Arr1.upd
          congr 1
          funext k
          by_cases hk : k = j
          · subst hk; simp [hneg]
          · simp [hk, e k hk]
        | some a =>
          have ha := hu a rfl
          simp only [ok_bind, Option.map_some, scaleCol]
          rw [if_pos (by rw [ha]; exact hj)]
          simp only [ok_bind, wp_ok, Prod.mk.injEq, Option.some.injEq]
          constructor
          · unfold Arr1.upd
            congr 1
            funext k
            by_cases hk : k = j
            · subst hk; simp [hneg]
            · simp [hk, e k hk]
          · congr 1
            funext i k
            by_cases hk : k = j
            · subst hk; simp [hneg]
            · simp [hk, e k hk]
      · rw [if_neg hneg]
        simp only [wp_ok, Prod.mk.injEq]
        constructor
        · congr 1
          funext k
          by_cases hk : k = j
          · subst hk; simp [hneg]
          · simp [e k hk]
        · congr 1
          funext a
          congr 1
          funext i k
          by_cases hk : k = j
          · subst hk; simp [hneg]
          · simp [e k hk]
  obtain ⟨p, e, rfl⟩ := succeeds_iff.1 this
  exact e

theorem bidiagonal_t (a : Arr2 α) (h : a.nr ≠ a.nc) {b : BidiagonalDecomp α} (hb : bidiagonal a = .ok b) :
    bidiagonal a.t = .ok ⟨b.uv.t, b.offDiagonal, b.diagonal, !b.upperDiag⟩ := by
  have h0 : min a.nr a.nc ≠ 0 := by
    intro h0
    rw [bidiagonal_empty a h0] at hb
    cases hb
  have h0' : min a.t.nr a.t.nc ≠ 0 := by rw [min_comm]; exact h0
  rcases lt_or_gt_of_ne h with hlt | hlt
  · have h1 := bidiagonal_wide a h0 hlt
    have h2 := bidiagonal_tall a.t h0' hlt.le
    rw [hb] at h1
    cases ht : bidiagTall a.t with
    | error e => rw [ht] at h1; exact h1.elim
    | ok s =>
      rw [ht] at h1 h2
      rw [relM_ok] at h1
      cases h3 : bidiagonal a.t with
      | error e => rw [h3] at h2; exact h2.elim
      | ok c =>
        rw [h3, relM_ok] at h2
        rw [h1, h2]
        rfl
  · have h1 := bidiagonal_tall a h0 hlt.le
    have h2 := bidiagonal_wide a.t h0' hlt
    rw [hb] at h1
    rw [show a.t.t = a from rfl] at h2
    cases ht : bidiagTall a with
    | error e => rw [ht] at h1; exact h1.elim
    | ok s =>
      rw [ht] at h1 h2
      rw [relM_ok] at h1
      cases h3 : bidiagonal a.t with
      | error e => rw [h3] at h2; exact h2.elim
      | ok c =>
        rw [h3, relM_ok] at h2
        rw [h1, h2]
        rfl

theorem toList_t (a : Arr2 α) : a.t.toList.Perm a.toList := by
  rw [← Multiset.coe_eq_coe]
  unfold Arr2.toList Arr2.t
  simp only [← Multiset.coe_bind, ← Multiset.map_coe]
  exact Multiset.bind_map_comm _ _

theorem amax_t (a : Arr2 α) (h : ∀ x y z : α, NdFloat.max (NdFloat.max z (NdFloat.abs x)) (NdFloat.abs y) =
    NdFloat.max (NdFloat.max z (NdFloat.abs y)) (NdFloat.abs x)) : a.t.amax = a.amax := by
  unfold Arr2.amax
  refine ((toList_t a).map _).foldl_eq' ?_ _
  intro x hx y hy z
  obtain ⟨x, -, rfl⟩ := List.mem_map.1 hx
  obtain ⟨y, -, rfl⟩ := List.mem_map.1 hy
  exact h x y z

theorem relM_and {β γ : Type} {R : β → γ → Prop} {m : M β} {m' : M γ} {P : β → Prop} {Q : Fail → Prop}
    (h : RelM R m m') (hp : wp m P Q) : RelM (fun x y => R x y ∧ P x) m m' := by
  cases m with
  | error e => cases m' <;> exact h
  | ok b =>
    cases m' with
    | error e => exact h
    | ok c => exact ⟨h, hp⟩

/-- `q` is the decomposition of the transposed matrix that belongs to the decomposition `p`: the same
values; column `i` of either left factor is row `i` of the other right factor, or the product of that
row with `-0`, the same in both. -/
def SvdTransposed (p q : Option (Arr2 α) × Arr1 α × Option (Arr2 α)) : Prop :=
  q.2.1 = p.2.1 ∧ q.2.2.isSome = p.1.isSome ∧ q.1.isSome = p.2.2.isSome ∧
  ∀ i, ∃ f : α → α, (f = id ∨ f = fun x => x * -0) ∧
    (∀ U ∈ p.1, ∀ W ∈ q.2.2, U.nr = W.nc ∧ ∀ r, U.get r i = f (W.get i r)) ∧
    (∀ U ∈ q.1, ∀ W ∈ p.2.2, U.nr = W.nc ∧ ∀ r, U.get r i = f (W.get i r))

theorem scaleDown_t (a : Arr2 α) (x : α) : a.t.scaleDown x = (a.scaleDown x).t := by
  unfold Arr2.scaleDown
  split_ifs <;> rfl

theorem relM_svdGo_t (hneg : ∀ x : α, - -x = x) (a : Arr2 α) (hmax : a.t.amax = a.amax) (hne : a.nr ≠ a.nc)
    (fuel : Nat) (cu cv : Bool) (eps : α) :
    RelM SvdTransposed (svdGo fuel a cu cv eps) (svdGo fuel a.t cv cu eps) := by
  by_cases h0 : a.nr = 0 ∨ a.nc = 0
  · unfold svdGo
    rw [if_pos h0, if_pos (by exact h0.symm)]
    rfl
  · rw [not_or] at h0
    obtain ⟨b, U, Vt, hb, hU, hV, hup, hs, he⟩ := svdGo_eq a h0.1 h0.2
    obtain ⟨b', U', Vt', hb', hU', hV', -, hs', he'⟩ := svdGo_eq a.t h0.2 h0.1
    have hsd : (a.scaleDown a.amax).nr ≠ (a.scaleDown a.amax).nc := by
      unfold Arr2.scaleDown
      split_ifs <;> exact hne
    rw [hmax, scaleDown_t, bidiagonal_t _ hsd hb] at hb'
    have hb' := (Except.ok.inj hb').symm
    have hUt : Vt' = U.t := by
      subst hb'
      unfold BidiagonalDecomp.generateU at hU
      unfold BidiagonalDecomp.generateVt at hV'
      rw [show b.uv.t.t = b.uv from rfl] at hV'
      simp only at hV'
      cases hc : b.upperDiag <;> simp only [hc, Bool.not_true, Bool.not_false, if_true, if_false, Bool.false_eq_true] at hU hV'
      · rw [hU] at hV'; exact (Except.ok.inj hV').symm
      · rw [hU] at hV'; exact (Except.ok.inj hV').symm
    have hVt : U' = Vt.t := by
      subst hb'
      unfold BidiagonalDecomp.generateU at hU'
      unfold BidiagonalDecomp.generateVt at hV
      simp only at hU'
      cases hc : b.upperDiag <;> simp only [hc, Bool.not_true, Bool.not_false, if_true, if_false, Bool.false_eq_true] at hU' hV
      · rw [hU'] at hV; rw [← Except.ok.inj hV]; rfl
      · rw [hU'] at hV; rw [← Except.ok.inj hV]; rfl
    have hdg : b'.intoDiagonals = b.intoDiagonals := by rw [hb']; rfl
    rw [he, he', hdg, hVt, hUt, hmax, show min a.t.nr a.t.nc = min a.nr a.nc from min_comm _ _,
      show decide (a.t.nc ≤ a.t.nr) = !decide (a.nc ≤ a.nr) by
        change decide (a.nr ≤ a.nc) = _
        rcases lt_or_gt_of_ne hne with h | h
        · simp [h, h.le]
        · simp [h, h.le]]
    have hd := relM_and (relM_svdDelimit (decide (a.nc ≤ a.nr)) (min a.nr a.nc - 1) eps
        ⟨b.intoDiagonals.1, b.intoDiagonals.2, if cu then some U else none, if cv then some Vt else none⟩)
        (svdDelimit_shape (by have := h0.1; have := h0.2; omega) (hs cu cv))
    rw [show SvdData.swap ⟨b.intoDiagonals.1, b.intoDiagonals.2, if cu then some U else none, if cv then some Vt else none⟩ =
      ⟨b.intoDiagonals.1, b.intoDiagonals.2, if cv then some Vt.t else none, if cu then some U.t else none⟩ by
        cases cu <;> cases cv <;> rfl] at hd
    refine relM_bind hd ?_
    rintro ⟨s, start, e⟩ _ ⟨rfl, hs1, hlt, hle⟩
    simp only at hs1 hlt hle ⊢
    refine relM_bind (relM_and (relM_svdLoop hneg (decide (a.nc ≤ a.nr)) cu cv eps fuel ⟨s, start, e⟩)
      (wp_svdLoop fuel (SvdSt a.nr a.nc (min a.nr a.nc) cu cv) ⟨hs1, hlt, by
        have := h0.1; have := h0.2; simp only; omega⟩ rfl (fun st h hne => svdStep_shape h hne))) ?_
    rintro st _ ⟨rfl, hst, -⟩
    have q1 := hst.shape
    rw [fixSigns_eq _ st.s.u (by exact q1.dlen) (fun x hx => (q1.u x hx).2),
      fixSigns_eq _ st.swap.s.u (by exact q1.dlen) (fun x hx => by
        obtain ⟨y, hy, rfl⟩ := Option.mem_map.1 hx
        exact (q1.vt y hy).1)]
    simp only [ok_bind, relM_ok]
    refine ⟨rfl, ?_, ?_, fun i => ?_⟩
    · cases h : st.s.u <;> simp [SvdState.swap, SvdData.swap, tOpt, h]
    · cases h : st.s.vt <;> simp [SvdState.swap, SvdData.swap, tOpt, h]
    · by_cases hc : i < min a.nr a.nc ∧ NdFloat.isSignNeg ((st.s.diag.map fun x => x * a.amax).get i) = true
      · refine ⟨fun x => x * -0, Or.inr rfl, ?_, ?_⟩
        · intro U hU W hW
          obtain ⟨x, hx, rfl⟩ := Option.mem_map.1 hU
          obtain ⟨y, hy, rfl⟩ := Option.mem_map.1 hW
          obtain rfl : x = y := Option.some.inj (hx.symm.trans hy)
          exact ⟨rfl, fun r => if_pos hc⟩
        · intro U hU W hW
          obtain ⟨x, hx, rfl⟩ := Option.mem_map.1 hU
          obtain ⟨y, hy, rfl⟩ := Option.mem_map.1 hx
          obtain rfl : y = W := Option.some.inj (hy.symm.trans hW)
          exact ⟨rfl, fun r => if_pos hc⟩
      · refine ⟨id, Or.inl rfl, ?_, ?_⟩
        · intro U hU W hW
          obtain ⟨x, hx, rfl⟩ := Option.mem_map.1 hU
          obtain ⟨y, hy, rfl⟩ := Option.mem_map.1 hW
          obtain rfl : x = y := Option.some.inj (hx.symm.trans hy)
          exact ⟨rfl, fun r => if_neg hc⟩
        · intro U hU W hW
          obtain ⟨x, hx, rfl⟩ := Option.mem_map.1 hU
          obtain ⟨y, hy, rfl⟩ := Option.mem_map.1 hx
          obtain rfl : y = W := Option.some.inj (hy.symm.trans hW)
          exact ⟨rfl, fun r => if_neg hc⟩

end LinfaLinalg
