import Verif.Proofs.SvdSweepReal

/-! # `svd`: the flags that request the factors -/

namespace LinfaLinalg

variable {α : Type} [Zero α] [One α] [Add α] [Sub α] [Mul α] [Div α] [Neg α] [NdFloat α]
variable {β β' γ γ' : Type}

set_option linter.unusedSectionVars false

/-- If `m'` succeeds then so does `m`, with the image under `F` of the result. -/
def Sim (m' : M β') (m : M β) (F : β' → β) : Prop := wp m' (fun x => m = .ok (F x)) (fun _ => True)

theorem Sim.refl (m : M β) : Sim m m id := by
  unfold Sim; cases m
  · trivial
  · rfl

theorem Sim.ok {x : β'} {y : β} {F : β' → β} (h : y = F x) : Sim (.ok x) (.ok y) F := by
  subst h; rfl

theorem Sim.error (e : Fail) (m : M β) (F : β' → β) : Sim (.error e) m F := trivial

theorem Sim.bind {m' : M β'} {m : M β} {F : β' → β} {f' : β' → M γ'} {f : β → M γ} {G : γ' → γ}
    (h : Sim m' m F) (hf : ∀ x, m' = .ok x → Sim (f' x) (f (F x)) G) :
    Sim (m' >>= f') (m >>= f) G := by
  unfold Sim at h ⊢
  rw [wp_bind]
  cases hm : m' with
  | error e => trivial
  | ok x =>
    rw [hm] at h
    have h' : m = .ok (F x) := h
    rw [h', ok_bind]
    exact hf x hm

theorem Sim.elim {m' : M β'} {m : M β} {F : β' → β} (h : Sim m' m F) {x : β'} (hx : m' = .ok x) :
    m = .ok (F x) := by
  subst hx; exact h

/-- Image of a loop step. -/
def Step.map {σ' σ : Type} (F : σ' → σ) : Step σ' → Step σ
  | .next s => .next (F s)
  | .brk s => .brk (F s)

theorem Sim.loopBrk {σ' σ : Type} {F : σ' → σ} {f' : Nat → σ' → M (Step σ')}
    {f : Nat → σ → M (Step σ)} (hf : ∀ k s, Sim (f' k s) (f k (F s)) (Step.map F)) :
    ∀ (l : List Nat) (s : σ'), Sim (loopBrk l s f') (LinfaLinalg.loopBrk l (F s) f) F := by
  intro l
  induction l with
  | nil => intro s; exact Sim.ok rfl
  | cons k l ih =>
    intro s
    refine Sim.bind (hf k s) fun x _ => ?_
    cases x with
    | next s' => exact ih s'
    | brk s' => exact Sim.ok rfl

/-- Drop the factors that are not requested. -/
def SvdData.keep (cu cv : Bool) (s : SvdData α) : SvdData α :=
  ⟨s.diag, s.off, if cu then s.u else none, if cv then s.vt else none⟩

/-- `keep` on the state of the cancellation loops. -/
def CancelState.keep (cu cv : Bool) (st : CancelState α) : CancelState α :=
  ⟨st.s.keep cu cv, st.v0, st.v1⟩

/-- `keep` on the state of the sweep. -/
def SvdSweep.keep (cu cv : Bool) (st : SvdSweep α) : SvdSweep α := ⟨st.s.keep cu cv, st.x, st.y⟩

/-- `keep` on the state of the main loop. -/
def SvdState.keep (cu cv : Bool) (st : SvdState α) : SvdState α :=
  ⟨st.s.keep cu cv, st.start, st.end⟩

/-- Keep an optional factor if requested. -/
def keepO (b : Bool) (o : Option (Arr2 α)) : Option (Arr2 α) := if b then o else none

theorem rotateUCols_keep (b : Bool) (g : GivensRotation α) (c0 c1 st : Nat) (u : Option (Arr2 α)) :
    Sim (rotateUCols g c0 c1 st u) (rotateUCols g c0 c1 st (keepO b u)) (keepO b) := by
  cases b
  · unfold Sim
    cases rotateUCols g c0 c1 st u
    · trivial
    · rfl
  · exact Sim.refl _

theorem rotateVtRows_keep (b : Bool) (g : GivensRotation α) (c0 c1 st : Nat)
    (u : Option (Arr2 α)) :
    Sim (rotateVtRows g c0 c1 st u) (rotateVtRows g c0 c1 st (keepO b u)) (keepO b) := by
  cases b
  · unfold Sim
    cases rotateVtRows g c0 c1 st u
    · trivial
    · rfl
  · exact Sim.refl _

theorem Sim.ite {c : Prop} [Decidable c] {a' b' : M β'} {a b : M β} {F : β' → β}
    (h1 : c → Sim a' a F) (h2 : ¬ c → Sim b' b F) :
    Sim (if c then a' else b') (if c then a else b) F := by
  split_ifs with h
  · exact h1 h
  · exact h2 h

theorem cancelHStep_keep (cu cv up : Bool) (i e k : Nat) (st : CancelState α) :
    Sim (cancelHStep up i e k st) (cancelHStep up i e k (st.keep cu cv))
      (Step.map (CancelState.keep cu cv)) := by
  unfold cancelHStep
  simp only [CancelState.keep, SvdData.keep]
  cases GivensRotation.cancelX st.v0 st.v1 with
  | none => exact Sim.ok rfl
  | some p =>
    obtain ⟨rot, norm⟩ := p
    simp only
    refine Sim.bind (Sim.refl _) fun dg _ => ?_
    refine Sim.bind (F := keepO cu) (Sim.ite (fun _ => rotateUCols_keep cu _ _ _ _ _)
      fun _ => Sim.ok rfl) fun u _ => ?_
    refine Sim.bind (F := keepO cv) (Sim.ite (fun _ => Sim.ok rfl)
      fun _ => rotateVtRows_keep cv _ _ _ _ _) fun vt _ => ?_
    refine Sim.bind (Sim.refl _) fun p _ => ?_
    exact Sim.ok rfl

theorem cancelH_keep (cu cv up : Bool) (i e : Nat) (s : SvdData α) :
    Sim (cancelH up i e s) (cancelH up i e (s.keep cu cv)) (SvdData.keep cu cv) := by
  unfold cancelH
  refine Sim.bind (Sim.refl _) fun v0 _ => ?_
  refine Sim.bind (Sim.refl _) fun v1 _ => ?_
  refine Sim.bind (Sim.refl _) fun off _ => ?_
  refine Sim.bind (Sim.loopBrk (cancelHStep_keep cu cv up i e) _ ⟨{ s with off := off }, v0, v1⟩)
    fun r _ => ?_
  exact Sim.ok rfl

theorem cancelVStep_keep (cu cv up : Bool) (i k : Nat) (st : CancelState α) :
    Sim (cancelVStep up i k st) (cancelVStep up i k (st.keep cu cv))
      (Step.map (CancelState.keep cu cv)) := by
  unfold cancelVStep
  simp only [CancelState.keep, SvdData.keep]
  cases GivensRotation.cancelY st.v0 st.v1 with
  | none => exact Sim.ok rfl
  | some p =>
    obtain ⟨rot, norm⟩ := p
    simp only
    refine Sim.bind (Sim.refl _) fun dg _ => ?_
    refine Sim.bind (F := keepO cv) (Sim.ite (fun _ => rotateVtRows_keep cv _ _ _ _ _)
      fun _ => Sim.ok rfl) fun u _ => ?_
    refine Sim.bind (F := keepO cu) (Sim.ite (fun _ => Sim.ok rfl)
      fun _ => rotateUCols_keep cu _ _ _ _ _) fun vt _ => ?_
    refine Sim.bind (Sim.refl _) fun p _ => ?_
    exact Sim.ok rfl

theorem cancelV_keep (cu cv up : Bool) (i : Nat) (s : SvdData α) :
    Sim (cancelV up i s) (cancelV up i (s.keep cu cv)) (SvdData.keep cu cv) := by
  unfold cancelV
  refine Sim.bind (Sim.refl _) fun v0 _ => ?_
  refine Sim.bind (Sim.refl _) fun v1 _ => ?_
  refine Sim.bind (Sim.refl _) fun off _ => ?_
  refine Sim.bind (Sim.loopBrk (cancelVStep_keep cu cv up i) _ ⟨{ s with off := off }, v0, v1⟩)
    fun r _ => ?_
  exact Sim.ok rfl

theorem svdDelimitEnd_keep (cu cv up : Bool) (eps : α) (m : Nat) : ∀ s : SvdData α,
    Sim (svdDelimitEnd up eps m s) (svdDelimitEnd up eps m (s.keep cu cv))
      (fun p => (p.1.keep cu cv, p.2)) := by
  induction m with
  | zero => intro s; exact Sim.ok rfl
  | succ m ih =>
    intro s
    unfold svdDelimitEnd
    refine Sim.bind (Sim.refl _) fun o _ => ?_
    refine Sim.bind (Sim.refl _) fun dn _ => ?_
    refine Sim.bind (Sim.refl _) fun dm _ => ?_
    refine Sim.ite (fun _ => ?_) fun _ => Sim.ite (fun _ => ?_) fun _ =>
      Sim.ite (fun _ => ?_) fun _ => ?_
    · refine Sim.bind (Sim.refl _) fun off _ => ?_
      exact ih { s with off := off }
    · refine Sim.bind (Sim.refl _) fun dg _ => ?_
      refine Sim.bind (cancelH_keep cu cv up m (m + 1) { s with diag := dg }) fun s1 _ => ?_
      refine Sim.bind (F := SvdData.keep cu cv) (Sim.ite (fun _ => cancelV_keep cu cv up (m - 1) s1)
        fun _ => Sim.ok rfl) fun s2 _ => ?_
      exact ih s2
    · refine Sim.bind (Sim.refl _) fun dg _ => ?_
      refine Sim.bind (cancelV_keep cu cv up m { s with diag := dg }) fun s1 _ => ?_
      exact ih s1
    · exact Sim.ok rfl

theorem svdDelimitStart_keep (cu cv up : Bool) (eps : α) (n m : Nat) : ∀ s : SvdData α,
    Sim (svdDelimitStart up eps n m s) (svdDelimitStart up eps n m (s.keep cu cv))
      (fun p => (p.1.keep cu cv, p.2)) := by
  induction m with
  | zero => intro s; exact Sim.ok rfl
  | succ m ih =>
    intro s
    unfold svdDelimitStart
    refine Sim.bind (Sim.refl _) fun o _ => ?_
    refine Sim.bind (Sim.refl _) fun dn _ => ?_
    refine Sim.bind (Sim.refl _) fun dm _ => ?_
    refine Sim.ite (fun _ => ?_) fun _ => Sim.ite (fun _ => ?_) fun _ => ?_
    · refine Sim.bind (Sim.refl _) fun off _ => ?_
      exact Sim.ok rfl
    · refine Sim.bind (Sim.refl _) fun dg _ => ?_
      refine Sim.bind (cancelH_keep cu cv up m n { s with diag := dg }) fun s1 _ => ?_
      refine Sim.bind (F := SvdData.keep cu cv) (Sim.ite (fun _ => cancelV_keep cu cv up (m - 1) s1)
        fun _ => Sim.ok rfl) fun s2 _ => ?_
      exact Sim.ok rfl
    · exact ih s

theorem svdDelimit_keep (cu cv up : Bool) (e : Nat) (eps : α) (s : SvdData α) :
    Sim (svdDelimit up e eps s) (svdDelimit up e eps (s.keep cu cv))
      (fun p => (p.1.keep cu cv, p.2)) := by
  unfold svdDelimit
  refine Sim.bind (svdDelimitEnd_keep cu cv up eps e s) fun p _ => ?_
  obtain ⟨s1, n⟩ := p
  refine Sim.ite (fun _ => Sim.ok rfl) fun _ => ?_
  refine Sim.bind (svdDelimitStart_keep cu cv up eps n (n - 1) s1) fun p _ => ?_
  exact Sim.ok rfl

theorem svdSweepStep_keep (cu cv up : Bool) (start n k : Nat) (st : SvdSweep α) :
    Sim (svdSweepStep up start n k st) (svdSweepStep up start n k (st.keep cu cv))
      (Step.map (SvdSweep.keep cu cv)) := by
  unfold svdSweepStep
  simp only [SvdSweep.keep, SvdData.keep]
  refine Sim.bind (Sim.refl _) fun m12 _ => ?_
  refine Sim.bind (Sim.refl _) fun dk _ => ?_
  refine Sim.bind (Sim.refl _) fun ok _ => ?_
  refine Sim.bind (Sim.refl _) fun dk1 _ => ?_
  cases GivensRotation.cancelY st.x st.y with
  | none => exact Sim.ok rfl
  | some p =>
    obtain ⟨rot1, norm1⟩ := p
    simp only
    refine Sim.bind (Sim.refl _) fun v _ => ?_
    refine Sim.bind (Sim.refl _) fun v _ => ?_
    refine Sim.bind (Sim.refl _) fun off _ => ?_
    refine Sim.bind (Sim.refl _) fun v1 _ => ?_
    refine Sim.bind (Sim.refl _) fun v2 _ => ?_
    refine Sim.bind (Sim.refl _) fun p _ => ?_
    obtain ⟨subm, rot2, norm2⟩ := p
    refine Sim.bind (Sim.refl _) fun subm _ => ?_
    refine Sim.bind (F := keepO cv) (Sim.ite (fun _ => rotateVtRows_keep cv _ _ _ _ _)
      fun _ => ?_) fun u _ => ?_
    · cases rot2
      · exact Sim.ok rfl
      · exact rotateVtRows_keep cv _ _ _ _ _
    refine Sim.bind (F := keepO cu) (Sim.ite (fun _ => rotateUCols_keep cu _ _ _ _ _)
      fun _ => ?_) fun u _ => ?_
    · cases rot2
      · exact Sim.ok rfl
      · exact rotateUCols_keep cu _ _ _ _ _
    refine Sim.bind (Sim.refl _) fun s00 _ => ?_
    refine Sim.bind (Sim.refl _) fun dg _ => ?_
    refine Sim.bind (Sim.refl _) fun s11 _ => ?_
    refine Sim.bind (Sim.refl _) fun dg _ => ?_
    refine Sim.bind (Sim.refl _) fun s01 _ => ?_
    refine Sim.bind (Sim.refl _) fun off _ => ?_
    refine Sim.bind (Sim.refl _) fun s12 _ => ?_
    refine Sim.bind (Sim.refl _) fun off _ => ?_
    refine Sim.bind (Sim.refl _) fun s02 _ => ?_
    exact Sim.ok rfl

theorem svdSweep_keep (cu cv up : Bool) (st : SvdState α) :
    Sim (svdSweep up st) (svdSweep up (st.keep cu cv)) (SvdState.keep cu cv) := by
  unfold svdSweep
  simp only
  refine Sim.bind (Sim.refl _) fun dm _ => ?_
  refine Sim.bind (Sim.refl _) fun dn _ => ?_
  refine Sim.bind (Sim.refl _) fun fm _ => ?_
  refine Sim.bind (Sim.refl _) fun fm1 _ => ?_
  refine Sim.bind (Sim.refl _) fun ds _ => ?_
  refine Sim.bind (Sim.refl _) fun os _ => ?_
  refine Sim.bind (Sim.loopBrk (svdSweepStep_keep cu cv up st.start st.end) _ _) fun r _ => ?_
  exact Sim.ok rfl

theorem fixSigns_keep (cu : Bool) (d : Nat) (dg : Arr1 α) (u : Option (Arr2 α)) :
    Sim (fixSigns d dg u) (fixSigns d dg (keepO cu u)) (fun p => (p.1, keepO cu p.2)) := by
  unfold fixSigns forRange
  generalize List.range' 0 (d - 0) = l
  induction l generalizing dg u with
  | nil => exact Sim.ok rfl
  | cons i l ih =>
    simp only [loopM_cons]
    refine Sim.bind (F := fun p => (p.1, keepO cu p.2)) ?_ fun p _ => ?_
    · refine Sim.bind (Sim.refl _) fun v _ => ?_
      refine Sim.ite (fun _ => ?_) fun _ => Sim.ok rfl
      refine Sim.bind (Sim.refl _) fun dg1 _ => ?_
      refine Sim.bind (F := keepO cu) ?_ fun u1 _ => Sim.ok rfl
      cases cu
      · unfold Sim
        cases scaleCol i (-(0 : α)) u
        · trivial
        · rfl
      · exact Sim.refl _
    · exact ih p.1 p.2

/-- The `2 × 2` routine gives the same values, and the requested ones of the same rotations, as when
both factors are requested. -/
def Uptrig2x2Keeps (a f g : α) (cu cv : Bool) : Prop :=
  compute2x2UptrigSvd a f g cu cv =
    ((compute2x2UptrigSvd a f g true true).1, (compute2x2UptrigSvd a f g true true).2.1,
      if cu then (compute2x2UptrigSvd a f g true true).2.2.1 else none,
      if cv then (compute2x2UptrigSvd a f g true true).2.2.2 else none)

/-- In every arithmetic the values do not depend on which factor is requested, if at least one is. -/
theorem uptrig2x2Keeps_or (a f g : α) (cu cv : Bool) (h : (cu || cv) = true) :
    Uptrig2x2Keeps a f g cu cv := by
  unfold Uptrig2x2Keeps compute2x2UptrigSvd
  cases cu <;> cases cv <;> simp at h ⊢

theorem uptrig2x2Keeps_real {a f g : ℝ} (ha : 0 < a) (hf : f ≠ 0) (hg : 0 < g) (cu cv : Bool) :
    Uptrig2x2Keeps a f g cu cv := by
  obtain ⟨v1, v2, ru, rv, -, -, -, -, -, -, -, -, h⟩ := uptrig2x2_real ha hf hg
  unfold Uptrig2x2Keeps
  rw [h, h]
  rfl

theorem svdRotU_keep (cu : Bool) (rot : Option (GivensRotation α)) (start : Nat)
    (u : Option (Arr2 α)) :
    Sim (svdRotU rot start u) (svdRotU (if cu then rot else none) start (keepO cu u)) (keepO cu) := by
  cases cu
  · unfold Sim
    cases svdRotU rot start u
    · trivial
    · rfl
  · exact Sim.refl _

theorem svdRotVt_keep (cv : Bool) (rot : Option (GivensRotation α)) (start : Nat)
    (u : Option (Arr2 α)) :
    Sim (svdRotVt rot start u) (svdRotVt (if cv then rot else none) start (keepO cv u)) (keepO cv) := by
  cases cv
  · unfold Sim
    cases svdRotVt rot start u
    · trivial
    · rfl
  · exact Sim.refl _

theorem svd2x2_keep (cu cv up : Bool) (st : SvdState α)
    (h : Uptrig2x2Keeps (st.s.diag.get st.start) (st.s.off.get st.start)
      (st.s.diag.get (st.start + 1)) (cu && up || cv && !up) (cv && up || cu && !up)) :
    Sim (svd2x2 up true true st) (svd2x2 up cu cv (st.keep cu cv)) (SvdState.keep cu cv) := by
  have hat : ∀ (a : Arr1 α) (i : Nat) x, a.at i = .ok x → x = a.get i := by
    intro a i x hx
    unfold Arr1.at at hx
    split_ifs at hx
    exact (Except.ok.inj hx).symm
  unfold svd2x2
  refine Sim.bind (Sim.refl _) fun d0 h0 => ?_
  refine Sim.bind (Sim.refl _) fun o h1 => ?_
  refine Sim.bind (Sim.refl _) fun d1 h2 => ?_
  simp only [id_eq]
  rw [hat _ _ _ h0, hat _ _ _ h1, hat _ _ _ h2]
  unfold Uptrig2x2Keeps at h
  rw [h]
  have htt : (true && up || true && !up) = true := by cases up <;> rfl
  rw [htt]
  generalize compute2x2UptrigSvd (st.s.diag.get st.start) (st.s.off.get st.start)
    (st.s.diag.get (st.start + 1)) true true = res
  obtain ⟨s1, s2, u2, v2⟩ := res
  simp only
  refine Sim.bind (Sim.refl _) fun dg _ => ?_
  refine Sim.bind (Sim.refl _) fun dg1 _ => ?_
  refine Sim.bind (Sim.refl _) fun off _ => ?_
  simp only [id_eq]
  cases up
  · simp only [Bool.and_false, Bool.not_false, Bool.and_true, Bool.false_or, Bool.false_eq_true,
      if_false]
    refine Sim.bind (svdRotU_keep cu v2 _ _) fun u _ => ?_
    refine Sim.bind (svdRotVt_keep cv u2 _ _) fun vt _ => ?_
    exact Sim.ok rfl
  · simp only [Bool.and_false, Bool.not_true, Bool.and_true, Bool.or_false, if_true]
    refine Sim.bind (svdRotU_keep cu u2 _ _) fun u _ => ?_
    refine Sim.bind (svdRotVt_keep cv v2 _ _) fun vt _ => ?_
    exact Sim.ok rfl

theorem svdStep_keep (cu cv up : Bool) (eps : α) (st : SvdState α)
    (h : st.start + 1 = st.end → Uptrig2x2Keeps (st.s.diag.get st.start) (st.s.off.get st.start)
      (st.s.diag.get (st.start + 1)) (cu && up || cv && !up) (cv && up || cu && !up)) :
    Sim (svdStep up true true eps st) (svdStep up cu cv eps (st.keep cu cv))
      (SvdState.keep cu cv) := by
  unfold svdStep
  refine Sim.ite (fun _ => Sim.error _ _ _) fun hlt => ?_
  refine Sim.bind (F := SvdState.keep cu cv) (Sim.ite (fun _ => svdSweep_keep cu cv up st) fun _ =>
    Sim.ite (fun h2 => svd2x2_keep cu cv up st (h (by omega))) fun _ => Sim.ok rfl) fun st1 _ => ?_
  refine Sim.bind (svdDelimit_keep cu cv up st1.end eps st1.s) fun p _ => ?_
  exact Sim.ok rfl

/-- The main loop, given an invariant under which every iteration succeeds. -/
theorem svdLoop_keep {cu cv up : Bool} {eps : α} (Inv : SvdState α → Prop)
    (h1 : ∀ st, Inv st → st.end ≠ st.start → Succeeds (svdStep up true true eps st) Inv)
    (h2 : ∀ st, Inv st → st.start + 1 = st.end → Uptrig2x2Keeps (st.s.diag.get st.start)
      (st.s.off.get st.start) (st.s.diag.get (st.start + 1)) (cu && up || cv && !up)
      (cv && up || cu && !up)) (fuel : Nat) : ∀ st, Inv st →
    svdLoop up cu cv eps fuel (st.keep cu cv) =
      (svdLoop up true true eps fuel st).map (SvdState.keep cu cv) := by
  induction fuel with
  | zero =>
    intro st _
    unfold svdLoop
    by_cases he : st.end = st.start
    · rw [if_pos he, if_pos (by exact he)]; rfl
    · rw [if_neg he, if_neg (by exact he)]; rfl
  | succ fuel ih =>
    intro st hI
    unfold svdLoop
    by_cases he : st.end = st.start
    · rw [if_pos he, if_pos (by exact he)]; rfl
    · rw [if_neg he, if_neg (by exact he)]
      obtain ⟨st1, e1, hI1⟩ := succeeds_iff.1 (h1 st hI he)
      rw [(svdStep_keep cu cv up eps st (h2 st hI)).elim e1, e1, ok_bind, ok_bind]
      exact ih st1 hI1

/-- Forgetting factors of a result of `svd`. -/
def keepRes (cu cv : Bool) (p : Option (Arr2 α) × Arr1 α × Option (Arr2 α)) :
    Option (Arr2 α) × Arr1 α × Option (Arr2 α) := (keepO cu p.1, p.2.1, keepO cv p.2.2)

/-- `svd` with some factors requested, given an invariant of the main loop. -/
theorem svdGo_keep {cu cv : Bool} {eps : α} (a : Arr2 α) (Inv : SvdState α → Prop)
    (hinit : ∀ b U Vt, bidiagonal (a.scaleDown a.amax) = .ok b → b.generateU = .ok U →
      b.generateVt = .ok Vt →
      SvdShape a.nr a.nc (min a.nr a.nc) true true ⟨b.intoDiagonals.1, b.intoDiagonals.2, some U,
        some Vt⟩ →
      Succeeds (svdDelimit (decide (a.nc ≤ a.nr)) (min a.nr a.nc - 1) eps
        ⟨b.intoDiagonals.1, b.intoDiagonals.2, some U, some Vt⟩) fun p => Inv ⟨p.1, p.2.1, p.2.2⟩)
    (h0 : ∀ st, Inv st → SvdShape a.nr a.nc (min a.nr a.nc) true true st.s)
    (h1 : ∀ st, Inv st → st.end ≠ st.start →
      Succeeds (svdStep (decide (a.nc ≤ a.nr)) true true eps st) Inv)
    (h2 : ∀ st, Inv st → st.start + 1 = st.end → Uptrig2x2Keeps (st.s.diag.get st.start)
      (st.s.off.get st.start) (st.s.diag.get (st.start + 1))
      (cu && decide (a.nc ≤ a.nr) || cv && !decide (a.nc ≤ a.nr))
      (cv && decide (a.nc ≤ a.nr) || cu && !decide (a.nc ≤ a.nr))) (fuel : Nat) :
    svdGo fuel a cu cv eps = (svdGo fuel a true true eps).map (keepRes cu cv) := by
  by_cases hz : a.nr = 0 ∨ a.nc = 0
  · unfold svdGo
    rw [if_pos hz, if_pos hz]
    rfl
  · obtain ⟨b, U, Vt, e1, e2, e3, -, hs, he⟩ := svdGo_eq a (by omega) (by omega)
    rw [he, he]
    have hi := hinit b U Vt e1 e2 e3 (hs true true)
    obtain ⟨⟨s1, start, e⟩, ed, hI⟩ := succeeds_iff.1 hi
    simp only [if_true]
    have := (svdDelimit_keep cu cv _ _ eps _).elim ed
    rw [show (⟨b.intoDiagonals.1, b.intoDiagonals.2, if cu = true then some U else none,
      if cv = true then some Vt else none⟩ : SvdData α) =
      SvdData.keep cu cv ⟨b.intoDiagonals.1, b.intoDiagonals.2, some U, some Vt⟩ from rfl, this, ed]
    simp only [ok_bind]
    have hl := svdLoop_keep (cu := cu) (cv := cv) Inv h1 h2 fuel _ hI
    rw [show (⟨s1.keep cu cv, start, e⟩ : SvdState α) = SvdState.keep cu cv ⟨s1, start, e⟩ from rfl, hl]
    have hw := wp_svdLoop (up := decide (a.nc ≤ a.nr)) (cu := true) (cv := true) (eps := eps) fuel
      (E := fun f => f = .fuel) Inv hI rfl
      (fun st hst hne => wp_mono (h1 st hst hne) (fun _ h => h) (fun _ h => h.elim))
    cases hlo : svdLoop (decide (a.nc ≤ a.nr)) true true eps fuel ⟨s1, start, e⟩ with
    | error f => rfl
    | ok st =>
      rw [hlo] at hw
      have hsh := h0 st hw.1
      obtain ⟨⟨dg, u⟩, ef, -⟩ := succeeds_iff.1 (fixSigns_shape (st.s.diag.map fun x => x * a.amax)
        st.s.u (d := min a.nr a.nc) (by exact hsh.dlen) hsh.u hsh.hu)
      have hk := (fixSigns_keep cu _ _ _).elim ef
      simp only [Except.map, ok_bind, ef]
      rw [show (SvdState.keep cu cv st).s.u = keepO cu st.s.u from rfl,
        show (SvdState.keep cu cv st).s.diag = st.s.diag from rfl, hk]
      rfl

/-- In every arithmetic: if at least one factor is requested, the result is the one with both factors
requested, without the factor that is not requested. -/
theorem svdGo_keep_or (a : Arr2 α) (eps : α) (cu cv : Bool) (h : (cu || cv) = true) (fuel : Nat) :
    svdGo fuel a cu cv eps = (svdGo fuel a true true eps).map (keepRes cu cv) := by
  by_cases hz : a.nr = 0 ∨ a.nc = 0
  · unfold svdGo
    rw [if_pos hz, if_pos hz]
    rfl
  refine svdGo_keep a (SvdSt a.nr a.nc (min a.nr a.nc) true true) ?_ (fun st h => h.shape)
    (fun st h hne => svdStep_shape h hne) (fun st _ _ => uptrig2x2Keeps_or _ _ _ _ _ ?_) fuel
  · intro b U Vt _ _ _ hs
    refine wp_conseq (svdDelimit_shape (by omega) hs) ?_
    rintro ⟨s, start, e⟩ ⟨h1, h2, h3⟩
    exact ⟨h1, h2, by simp only at h3 ⊢; omega⟩
  · cases cu <;> cases cv <;> cases decide (a.nc ≤ a.nr) <;> simp at h ⊢

end LinfaLinalg
