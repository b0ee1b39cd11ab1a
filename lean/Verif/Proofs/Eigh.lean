import Verif.Proofs.Givens
import Verif.Proofs.Cholesky
import Verif.Proofs.Tridiagonal

/-! # `symmetric_eig` over an arbitrary scalar type: shapes, bounds, independence of the vectors -/

set_option linter.unusedSectionVars false

namespace LinfaLinalg

variable {α : Type} [Zero α] [One α] [Add α] [Sub α] [Mul α] [Div α] [Neg α] [NdFloat α]

/-- If present, the matrix is `n × m`. -/
def OptShape (q : Option (Arr2 α)) (n m : Nat) : Prop := ∀ x, q = some x → x.nr = n ∧ x.nc = m

theorem OptShape.map_rot {q : Option (Arr2 α)} {n m : Nat} (h : OptShape q n m)
    (g : GivensRotation α) (i j : Nat) : OptShape (q.map (rotCols g i j)) n m := by
  intro x hx
  cases q with
  | none => simp at hx
  | some q => simp only [Option.map_some, Option.some.injEq] at hx; subst hx; exact h q rfl

theorem rotateColsPair_ok {q : Option (Arr2 α)} {n m : Nat} (h : OptShape q n m)
    (g : GivensRotation α) (c0 : Nat) (hc : c0 + 2 ≤ m) :
    rotateColsPair g c0 q = .ok (q.map (rotCols g c0 (c0 + 1))) := by
  cases q with
  | none => rfl
  | some q => exact rotateColsPair_some g c0 q (by rw [(h q rfl).2]; exact hc)

/-! ## Delimiting the subproblem -/

/-- The test of the first loop. -/
def bigOff (diag off : Arr1 α) (eps : α) (m : Nat) : Bool :=
  NdFloat.lt (eps * (NdFloat.abs (diag.get (m + 1)) + NdFloat.abs (diag.get m)))
    (NdFloat.abs (off.get m))

/-- The test of the second loop. -/
def smallOff (diag off : Arr1 α) (eps : α) (m : Nat) : Bool :=
  NdFloat.isZero (off.get m) || NdFloat.le (NdFloat.abs (off.get m))
    (eps * (NdFloat.abs (diag.get (m + 1)) + NdFloat.abs (diag.get m)))

theorem delimitEnd_ok (diag off : Arr1 α) (eps : α) (k : Nat) (h1 : k < diag.len)
    (h2 : k ≤ off.len) : ∃ n, delimitEnd diag off eps k = .ok n ∧ n ≤ k ∧
      (n ≠ 0 → bigOff diag off eps (n - 1) = true) ∧
      ∀ m, n ≤ m → m < k → bigOff diag off eps m = false := by
  induction k with
  | zero => exact ⟨0, rfl, le_rfl, by simp, by intro m _ h; omega⟩
  | succ k ih =>
    unfold delimitEnd
    rw [Arr1.at_ok (by omega)]
    simp only [ok_bind]
    rw [Arr1.at_ok (by omega)]
    simp only [ok_bind]
    rw [Arr1.at_ok (by omega)]
    simp only [ok_bind]
    by_cases h : bigOff diag off eps k = true
    · have h' := h
      unfold bigOff at h'
      rw [if_pos h']
      exact ⟨k + 1, rfl, le_rfl, fun _ => h, by intro m _ h; omega⟩
    · have h' := h
      unfold bigOff at h'
      rw [if_neg h']
      obtain ⟨n, e, hn, hb, hs⟩ := ih (by omega) (by omega)
      refine ⟨n, e, by omega, hb, ?_⟩
      intro m h1 h2
      by_cases hm : m = k
      · subst hm; simpa using h
      · exact hs m h1 (by omega)

theorem delimitStart_ok (diag off : Arr1 α) (eps : α) (k : Nat) (h1 : k < diag.len)
    (h2 : k ≤ off.len) : ∃ s, delimitStart diag eps off k =
      .ok (if s = 0 then off else off.upd (s - 1) 0, s) ∧ s ≤ k ∧
      (s ≠ 0 → smallOff diag off eps (s - 1) = true) ∧
      ∀ m, s ≤ m → m < k → smallOff diag off eps m = false := by
  induction k with
  | zero => exact ⟨0, rfl, le_rfl, by simp, by intro m _ h; omega⟩
  | succ k ih =>
    unfold delimitStart
    rw [Arr1.at_ok (by omega)]
    simp only [ok_bind]
    rw [Arr1.at_ok (by omega)]
    simp only [ok_bind]
    rw [Arr1.at_ok (by omega)]
    simp only [ok_bind]
    by_cases h : smallOff diag off eps k = true
    · have h' := h
      unfold smallOff at h'
      rw [if_pos h', Arr1.atm_ok (by omega)]
      exact ⟨k + 1, rfl, le_rfl, fun _ => h, by intro m _ h; omega⟩
    · have h' := h
      unfold smallOff at h'
      rw [if_neg h']
      obtain ⟨n, e, hn, hb, hs⟩ := ih (by omega) (by omega)
      refine ⟨n, e, by omega, hb, ?_⟩
      intro m h1 h2
      by_cases hm : m = k
      · subst hm; simpa using h
      · exact hs m h1 (by omega)

/-- What `delimit_subproblem` returns. -/
structure DelimSpec (diag off : Arr1 α) (eps : α) (k : Nat) (off' : Arr1 α) (s n : Nat) : Prop where
  le : n ≤ k
  lt : n ≠ 0 → s < n
  zero : n = 0 → s = 0
  off_eq : off' = if s = 0 then off else off.upd (s - 1) 0
  big : n ≠ 0 → bigOff diag off eps (n - 1) = true
  dropped : ∀ m, n ≤ m → m < k → bigOff diag off eps m = false
  small : s ≠ 0 → smallOff diag off eps (s - 1) = true
  block : ∀ m, s ≤ m → m < n - 1 → smallOff diag off eps m = false

theorem delimitSubproblem_ok (diag off : Arr1 α) (eps : α) (k : Nat) (h1 : k < diag.len)
    (h2 : k ≤ off.len) : ∃ off' s n, delimitSubproblem diag off k eps = .ok (off', s, n) ∧
      DelimSpec diag off eps k off' s n := by
  obtain ⟨n, e, hn, hb, hs⟩ := delimitEnd_ok diag off eps k h1 h2
  unfold delimitSubproblem
  rw [e]
  simp only [ok_bind]
  by_cases h0 : n = 0
  · rw [if_pos h0]
    exact ⟨off, 0, 0, rfl, by omega, by simp, by simp, by simp, by simp,
      fun m _ h => hs m (by omega) h, by simp, by intro m _ h; omega⟩
  · rw [if_neg h0]
    obtain ⟨s, e', hs1, hs2, hs3⟩ := delimitStart_ok diag off eps (n - 1) (by omega) (by omega)
    rw [e']
    exact ⟨_, s, n, rfl, hn, by omega, by omega, rfl, fun _ => hb h0, hs, hs2, hs3⟩

theorem DelimSpec.len {diag off : Arr1 α} {eps : α} {k : Nat} {off' : Arr1 α} {s n : Nat}
    (h : DelimSpec diag off eps k off' s n) : off'.len = off.len := by
  rw [h.off_eq]; split <;> rfl

theorem DelimSpec.get {diag off : Arr1 α} {eps : α} {k : Nat} {off' : Arr1 α} {s n : Nat}
    (h : DelimSpec diag off eps k off' s n) (m : Nat) :
    off'.get m = if m + 1 = s then 0 else off.get m := by
  rw [h.off_eq]
  by_cases hs : s = 0
  · rw [if_pos hs, if_neg (by omega)]
  · rw [if_neg hs, Arr1.upd_get]
    by_cases hm : m = s - 1
    · rw [if_pos hm, if_pos (by omega)]
    · rw [if_neg hm, if_neg (by omega)]

/-! ## The sweep -/

/-- The state after one step of the sweep that rotates. -/
def sweepNext (start n i : Nat) (st : SweepState α) (rot : GivensRotation α) (norm : α) :
    SweepState α :=
  let off1 := if start < i then st.off.upd (i - 1) norm else st.off
  let cc := rot.c * rot.c
  let ss := rot.s * rot.s
  let cs := rot.c * rot.s
  let mii := st.diag.get i
  let mjj := st.diag.get (i + 1)
  let mij := off1.get i
  let b := cs * mij * NdFloat.ofRat 2
  let off2 := off1.upd i (cs * (mii - mjj) + mij * (cc - ss))
  ⟨(st.diag.upd i (cc * mii + ss * mjj - b)).upd (i + 1) (ss * mii + cc * mjj + b),
   if i ≠ n - 1 then off2.upd (i + 1) (off2.get (i + 1) * rot.c) else off2,
   st.q.map (rotCols rot.inverse i (i + 1)),
   if i ≠ n - 1 then off2.get i else st.x,
   if i ≠ n - 1 then -rot.s * off2.get (i + 1) else st.y⟩

theorem sweepStep_eq {start n i N : Nat} {st : SweepState α} (hq : OptShape st.q N N)
    (hd : st.diag.len = N) (ho : st.off.len = N - 1) (hi : i < n) (hn : n < N) :
    sweepStep start n i st = .ok (match GivensRotation.cancelY st.x st.y with
      | none => .brk st
      | some (rot, norm) => .next (sweepNext start n i st rot norm)) := by
  unfold sweepStep
  simp only
  cases GivensRotation.cancelY st.x st.y with
  | none => rfl
  | some p =>
    obtain ⟨rot, norm⟩ := p
    simp only
    have e1 : (if start < i then st.off.atm (i - 1) norm else .ok st.off) =
        (.ok (if start < i then st.off.upd (i - 1) norm else st.off) : M (Arr1 α)) := by
      split
      · rw [Arr1.atm_ok (by omega)]
      · rfl
    have hl : (if start < i then st.off.upd (i - 1) norm else st.off).len = N - 1 := by
      split <;> simp [ho]
    rw [e1]
    simp only [ok_bind]
    rw [Arr1.at_ok (by omega)]
    simp only [ok_bind]
    rw [Arr1.at_ok (by omega)]
    simp only [ok_bind]
    rw [Arr1.at_ok (by omega)]
    simp only [ok_bind]
    rw [Arr1.atm_ok (by omega)]
    simp only [ok_bind]
    rw [Arr1.atm_ok (by simp only [Arr1.upd_len]; omega)]
    simp only [ok_bind]
    rw [Arr1.atm_ok (by omega)]
    simp only [ok_bind]
    have e2 := rotateColsPair_ok hq rot.inverse i (by omega)
    by_cases hin : i ≠ n - 1
    · rw [if_pos hin, Arr1.at_ok (by simp only [Arr1.upd_len]; omega)]
      simp only [ok_bind]
      rw [Arr1.at_ok (by simp only [Arr1.upd_len]; omega)]
      simp only [ok_bind]
      rw [Arr1.atm_ok (by simp only [Arr1.upd_len]; omega)]
      simp only [ok_bind]
      rw [e2]
      simp only [ok_bind, sweepNext, if_pos hin]
    · rw [if_neg hin]
      simp only [ok_bind]
      rw [e2]
      simp only [ok_bind, sweepNext, if_neg hin]

/-- Shapes in the sweep. -/
structure SweepShape (N : Nat) (st : SweepState α) : Prop where
  diag : st.diag.len = N
  off : st.off.len = N - 1
  q : OptShape st.q N N

theorem SweepShape.next {N start n i : Nat} {st : SweepState α} (h : SweepShape N st)
    (rot : GivensRotation α) (norm : α) : SweepShape N (sweepNext start n i st rot norm) := by
  refine ⟨h.diag, ?_, h.q.map_rot _ _ _⟩
  simp only [sweepNext]
  split <;> split <;> simp [h.off]

/-- The loop rule for the sweep. -/
theorem wp_sweep {N start n : Nat} {s : SweepState α} (hn : n < N) (hs : start ≤ n)
    (hshape : SweepShape N s) (Inv : Nat → SweepState α → Prop) (Post : SweepState α → Prop)
    (h0 : Inv start s)
    (hnext : ∀ i st rot norm, start ≤ i → i < n → SweepShape N st → Inv i st →
      GivensRotation.cancelY st.x st.y = some (rot, norm) →
      Inv (i + 1) (sweepNext start n i st rot norm))
    (hbrk : ∀ i st, start ≤ i → i < n → SweepShape N st → Inv i st →
      GivensRotation.cancelY st.x st.y = none → Post st)
    (hend : ∀ st, SweepShape N st → Inv n st → Post st) :
    Succeeds (loopBrk (List.range' start (n - start)) s (sweepStep start n))
      (fun st => SweepShape N st ∧ Post st) := by
  refine wp_loopBrk (fun i st => SweepShape N st ∧ Inv i st) _ ⟨hshape, h0⟩ ?_ ?_
  · rintro i st h1 h2 ⟨h3, h4⟩
    rw [sweepStep_eq h3.q h3.diag h3.off (by omega) hn]
    cases hc : GivensRotation.cancelY st.x st.y with
    | none => exact ⟨h3, hbrk i st h1 (by omega) h3 h4 hc⟩
    | some p =>
      obtain ⟨rot, norm⟩ := p
      exact ⟨h3.next _ _, hnext i st rot norm h1 (by omega) h3 h4 hc⟩
  · rintro st ⟨h3, h4⟩
    rw [show start + (n - start) = n by omega] at h4
    exact ⟨h3, hend st h3 h4⟩

/-! ## The main loop -/

/-- Invariant of the main loop about shapes and bounds. -/
structure EigShape (N : Nat) (eps : α) (st : EigState α) : Prop where
  diag : st.diag.len = N
  off : st.off.len = N - 1
  q : OptShape st.q N N
  lt : st.end < N
  le : st.start ≤ st.end
  big : st.start ≠ st.end → bigOff st.diag st.off eps (st.end - 1) = true

/-- The branch of a sweep. -/
theorem eigSweep_shape {N : Nat} {eps : α} {st : EigState α} (h : EigShape N eps st)
    (hs : st.start + 1 < st.end) :
    ∃ r e, eigSweep eps st = .ok ⟨r.diag, r.off, r.q, st.start, e⟩ ∧ SweepShape N r ∧
      (e = st.end - 1 ∧ NdFloat.le (NdFloat.abs (r.off.get (st.end - 1)))
          (eps * (NdFloat.abs (r.diag.get (st.end - 1)) + NdFloat.abs (r.diag.get st.end))) = true ∨
        e = st.end) ∧
      loopBrk (List.range' st.start (st.end - st.start))
        (⟨st.diag, st.off, st.q, st.diag.get st.start - wilkinsonShift (st.diag.get (st.end - 1))
          (st.diag.get st.end) (st.off.get (st.end - 1)), st.off.get st.start⟩ : SweepState α)
        (sweepStep st.start st.end) = .ok r := by
  have hd := h.diag
  have ho := h.off
  have hl := h.lt
  obtain ⟨r, e, hr, -⟩ := succeeds_iff.1 (wp_sweep (α := α) (N := N) (start := st.start)
    (n := st.end)
    (s := ⟨st.diag, st.off, st.q, st.diag.get st.start - wilkinsonShift (st.diag.get (st.end - 1))
          (st.diag.get st.end) (st.off.get (st.end - 1)), st.off.get st.start⟩)
    h.lt h.le ⟨h.diag, h.off, h.q⟩ (fun _ _ => True) (fun _ => True) trivial
    (fun _ _ _ _ _ _ _ _ _ => trivial) (fun _ _ _ _ _ _ _ => trivial) (fun _ _ _ => trivial))
  have hrd := hr.diag
  have hro := hr.off
  refine ⟨r, if NdFloat.le (NdFloat.abs (r.off.get (st.end - 1)))
          (eps * (NdFloat.abs (r.diag.get (st.end - 1)) + NdFloat.abs (r.diag.get st.end))) = true
          then st.end - 1 else st.end, ?_, hr, ?_, e⟩
  · unfold eigSweep
    simp only
    rw [Arr1.idx_ok (by omega)]
    simp only [ok_bind]
    rw [Arr1.idx_ok (by omega)]
    simp only [ok_bind]
    rw [Arr1.idx_ok (by omega)]
    simp only [ok_bind]
    rw [Arr1.idx_ok (by omega)]
    simp only [ok_bind]
    rw [Arr1.idx_ok (by omega)]
    simp only [ok_bind]
    rw [e]
    simp only [ok_bind]
    rw [Arr1.idx_ok (by omega)]
    simp only [ok_bind]
    rw [Arr1.idx_ok (by omega)]
    simp only [ok_bind]
    rw [Arr1.idx_ok (by omega)]
    simp only [ok_bind]
  · split
    · rename_i hc; exact Or.inl ⟨rfl, hc⟩
    · exact Or.inr rfl

/-- The branch of a `2 × 2` block. -/
theorem eig2x2_eq {N : Nat} {eps : α} {st : EigState α} (h : EigShape N eps st)
    (hs : st.start + 1 = st.end) : eig2x2 eps st =
      match compute2x2Eigvals (st.diag.get st.start) (st.off.get st.start) (st.off.get st.start)
        (st.diag.get (st.start + 1)) with
      | none => .error .panic
      | some (l0, l1) => .ok ⟨(st.diag.upd st.start l0).upd (st.start + 1) l1, st.off,
          match GivensRotation.tryNew (l0 - st.diag.get (st.start + 1)) (st.off.get st.start) eps with
          | some (rot, _) => st.q.map (rotCols rot st.start (st.start + 1))
          | none => st.q, st.start, st.end - 1⟩ := by
  have hd := h.diag
  have ho := h.off
  have hl := h.lt
  unfold eig2x2
  rw [Arr1.idx_ok (by omega)]
  simp only [ok_bind]
  rw [Arr1.idx_ok (by omega)]
  simp only [ok_bind]
  rw [Arr1.idx_ok (by omega)]
  simp only [ok_bind]
  cases compute2x2Eigvals (st.diag.get st.start) (st.off.get st.start) (st.off.get st.start)
      (st.diag.get (st.start + 1)) with
  | none => rfl
  | some p =>
    obtain ⟨l0, l1⟩ := p
    simp only
    rw [Arr1.idxSet_ok (by omega)]
    simp only [ok_bind]
    rw [Arr1.idxSet_ok (by simp only [Arr1.upd_len]; omega)]
    simp only [ok_bind]
    cases GivensRotation.tryNew (l0 - st.diag.get (st.start + 1)) (st.off.get st.start) eps with
    | none => rfl
    | some p =>
      obtain ⟨rot, norm⟩ := p
      simp only
      rw [rotateColsPair_ok h.q _ _ (by omega)]
      rfl

/-- Rule for one iteration of the main loop. `Mid` describes the state before the final
`delimit_subproblem`. -/
theorem wp_eigStep {N : Nat} {eps : α} {st : EigState α} {E : Fail → Prop} (h : EigShape N eps st)
    (hne : st.end ≠ st.start) (Mid : EigState α → Prop)
    (h2 : st.start + 1 = st.end → wp (eig2x2 eps st) Mid E)
    (hsw : ∀ (r : SweepState α) e, st.start + 1 < st.end → SweepShape N r →
      (e = st.end - 1 ∧ NdFloat.le (NdFloat.abs (r.off.get (st.end - 1)))
          (eps * (NdFloat.abs (r.diag.get (st.end - 1)) + NdFloat.abs (r.diag.get st.end))) = true ∨
        e = st.end) →
      loopBrk (List.range' st.start (st.end - st.start))
        (⟨st.diag, st.off, st.q, st.diag.get st.start - wilkinsonShift (st.diag.get (st.end - 1))
          (st.diag.get st.end) (st.off.get (st.end - 1)), st.off.get st.start⟩ : SweepState α)
        (sweepStep st.start st.end) = .ok r → Mid ⟨r.diag, r.off, r.q, st.start, e⟩) :
    wp (eigStep eps st) (fun st' => EigShape N eps st' ∧ ∃ mid, Mid mid ∧
      mid.diag.len = N ∧ mid.off.len = N - 1 ∧
      st'.diag = mid.diag ∧ st'.q = mid.q ∧
      DelimSpec mid.diag mid.off eps mid.end st'.off st'.start st'.end) E := by
  have hle := h.le
  have hlt := h.lt
  unfold eigStep
  rw [if_neg (by omega)]
  simp only [wp_bind]
  have hdel : ∀ mid : EigState α, Mid mid → mid.diag.len = N → mid.off.len = N - 1 →
      OptShape mid.q N N → mid.end < N →
      wp (delimitSubproblem mid.diag mid.off mid.end eps) (fun b =>
        wp (match b with | (off, start, e) => (.ok ⟨mid.diag, off, mid.q, start, e⟩ : M (EigState α)))
          (fun st' => EigShape N eps st' ∧ ∃ mid, Mid mid ∧ mid.diag.len = N ∧
            mid.off.len = N - 1 ∧ st'.diag = mid.diag ∧ st'.q = mid.q ∧
            DelimSpec mid.diag mid.off eps mid.end st'.off st'.start st'.end) E) E := by
    intro mid hm hd ho hq hl
    obtain ⟨off', s, n, e, ds⟩ := delimitSubproblem_ok mid.diag mid.off eps mid.end (by omega)
      (by omega)
    rw [e]
    have h1 := ds.le
    have h2 := ds.lt
    have h3 := ds.zero
    refine ⟨⟨hd, ds.len.trans ho, hq, by simp only; omega, by simp only; omega, ?_⟩,
      mid, hm, hd, ho, rfl, rfl, ds⟩
    intro hsn
    simp only at hsn ⊢
    have hb := ds.big (by omega)
    unfold bigOff at hb ⊢
    rw [ds.get, if_neg (by omega)]
    exact hb
  by_cases hs : st.start + 1 < st.end
  · rw [if_pos (by omega)]
    obtain ⟨r, e, he, hr, hcase, hloop⟩ := eigSweep_shape h hs
    rw [he]
    simp only [wp_ok]
    exact hdel ⟨r.diag, r.off, r.q, st.start, e⟩ (hsw r e hs hr hcase hloop) hr.diag hr.off hr.q
      (by simp only; omega)
  · have hs2 : st.start + 1 = st.end := by omega
    rw [if_neg (by omega), if_pos (by omega)]
    have := h2 hs2
    rw [eig2x2_eq h hs2] at this ⊢
    cases hc : compute2x2Eigvals (st.diag.get st.start) (st.off.get st.start) (st.off.get st.start)
        (st.diag.get (st.start + 1)) with
    | none => rw [hc] at this; exact this
    | some p =>
      obtain ⟨l0, l1⟩ := p
      rw [hc] at this
      simp only [wp_ok] at this ⊢
      refine hdel _ this h.diag h.off ?_ (by simp only; omega)
      simp only
      split
      · exact h.q.map_rot _ _ _
      · exact h.q

/-- Loop rule for the main loop. -/
theorem wp_eigLoop {N : Nat} {eps : α} {E : Fail → Prop} (fuel : Nat) {st : EigState α}
    (h : EigShape N eps st) (hE : E .fuel) (Inv : EigState α → Prop) (h0 : Inv st)
    (hstep : ∀ st, EigShape N eps st → st.end ≠ st.start → Inv st →
      wp (eigStep eps st) (fun st' => EigShape N eps st' ∧ Inv st') E) :
    wp (eigLoop eps fuel st) (fun st' => EigShape N eps st' ∧ Inv st' ∧ st'.end = st'.start) E := by
  induction fuel generalizing st with
  | zero =>
    unfold eigLoop
    split
    · rename_i hh; exact ⟨h, h0, hh⟩
    · exact hE
  | succ k ih =>
    unfold eigLoop
    split
    · rename_i hh; exact ⟨h, h0, hh⟩
    · rename_i hh
      rw [wp_bind]
      refine wp_conseq (hstep st h hh h0) fun st' h' => ?_
      exact ih h'.1 h'.2

/-- The `2 × 2` eigenvalue computation succeeds whenever it is called on a block that passed the
deflation test. -/
def Safe2x2 (eps : α) : Prop := ∀ a o b : α,
  NdFloat.lt (eps * (NdFloat.abs b + NdFloat.abs a)) (NdFloat.abs o) = true →
  compute2x2Eigvals a o o b ≠ none

theorem eigStep_shape {N : Nat} {eps : α} {st : EigState α} (h : EigShape N eps st)
    (hne : st.end ≠ st.start) :
    wp (eigStep eps st) (EigShape N eps) (fun e => e = .panic ∧ ¬ Safe2x2 eps) := by
  refine wp_conseq (wp_eigStep h hne (fun _ => True) ?_ ?_) fun st' h => h.1
  · intro hs
    rw [eig2x2_eq h hs]
    cases hc : compute2x2Eigvals (st.diag.get st.start) (st.off.get st.start) (st.off.get st.start)
        (st.diag.get (st.start + 1)) with
    | none =>
      simp only [wp_error, true_and]
      intro hsafe
      have hb := h.big (fun he => hne he.symm)
      rw [← hs, Nat.add_sub_cancel] at hb
      exact hsafe _ _ _ hb hc
    | some p => trivial
  · intros; trivial

/-- Everything before the main loop of `symmetric_eig`. -/
theorem symmetricEig_cases (fuel : Nat) (a : Arr2 α) (ev : Bool) (eps : α) (hs : a.nr = a.nc)
    (hn : 1 ≤ a.nr) :
    ∃ t, symTridiagonal (a.scaleDown a.amax) = .ok t ∧ TriShape a.nr t ∧
    ∃ q, OptShape q a.nr a.nr ∧ q.isSome = ev ∧ (∀ x, q = some x → t.generateQ = .ok x) ∧
      (a.nr = 1 → symmetricEig fuel a ev eps =
        .ok (t.intoDiagonals.1.map fun x => x * a.amax, q)) ∧
      (a.nr ≠ 1 → ∃ off s e, delimitSubproblem t.intoDiagonals.1 t.intoDiagonals.2 (a.nr - 1) eps =
          .ok (off, s, e) ∧
        DelimSpec t.intoDiagonals.1 t.intoDiagonals.2 eps (a.nr - 1) off s e ∧
        EigShape a.nr eps ⟨t.intoDiagonals.1, off, q, s, e⟩ ∧
        symmetricEig fuel a ev eps = (eigLoop eps fuel ⟨t.intoDiagonals.1, off, q, s, e⟩ >>=
          fun st => .ok (st.diag.map fun x => x * a.amax, st.q))) := by
  have hsc : (a.scaleDown a.amax).nr = a.nr ∧ (a.scaleDown a.amax).nc = a.nc := by
    unfold Arr2.scaleDown; split <;> exact ⟨rfl, rfl⟩
  obtain ⟨t, ht, hsh⟩ := symTridiagonal_ok (a.scaleDown a.amax) (by rw [hsc.1, hsc.2, hs])
    (by rw [hsc.1]; exact hn)
  rw [hsc.1] at hsh
  obtain ⟨Q, hQ, q1, q2⟩ := hsh.generateQ_ok hn
  refine ⟨t, ht, hsh, if ev then some Q else none, ?_, by cases ev <;> rfl, ?_, ?_⟩
  · intro x hx
    cases ev with
    | false => simp at hx
    | true => simp only [if_true, Option.some.injEq] at hx; subst hx; exact ⟨q1, q2⟩
  · intro x hx
    cases ev with
    | false => simp at hx
    | true => simp only [if_true, Option.some.injEq] at hx; subst hx; exact hQ
  have hqe : (if ev = true then (do let q ← t.generateQ; .ok (some q)) else .ok none :
      M (Option (Arr2 α))) = .ok (if ev then some Q else none) := by
    cases ev with
    | false => rfl
    | true => simp only [if_true, hQ, ok_bind]
  have hdl : t.intoDiagonals.1.len = a.nr := by
    simp [TridiagonalDecomp.intoDiagonals, Arr2.diag, hsh.nr, hsh.nc]
  have hol : t.intoDiagonals.2.len = a.nr - 1 := hsh.len
  constructor
  · intro h1
    unfold symmetricEig
    rw [checkSquare_ok hs]
    simp only [ok_bind]
    rw [if_neg (by omega), ht]
    simp only [ok_bind]
    rw [hqe]
    simp only [ok_bind]
    rw [if_pos h1]
  · intro h1
    obtain ⟨off, s, e, he, ds⟩ := delimitSubproblem_ok t.intoDiagonals.1 t.intoDiagonals.2 eps
      (a.nr - 1) (by omega) (by omega)
    have d1 := ds.le
    have d2 := ds.lt
    have d3 := ds.zero
    refine ⟨off, s, e, he, ds, ⟨hdl, ds.len.trans hol, ?_, by simp only; omega, by simp only; omega, ?_⟩,
      ?_⟩
    · intro x hx
      cases ev with
      | false => simp at hx
      | true => simp only [if_true, Option.some.injEq] at hx; subst hx; exact ⟨q1, q2⟩
    · intro hne
      simp only at hne ⊢
      have hb := ds.big (by omega)
      unfold bigOff at hb ⊢
      rw [ds.get, if_neg (by omega)]
      exact hb
    · unfold symmetricEig
      rw [checkSquare_ok hs]
      simp only [ok_bind]
      rw [if_neg (by omega), ht]
      simp only [ok_bind]
      rw [hqe]
      simp only [ok_bind]
      rw [if_neg h1]
      have : t.intoDiagonals = (t.intoDiagonals.1, t.intoDiagonals.2) := rfl
      rw [he]
      rfl

theorem symmetricEig_empty (fuel : Nat) (a : Arr2 α) (ev : Bool) (eps : α) (hs : a.nr = a.nc)
    (h0 : a.nr = 0) : symmetricEig fuel a ev eps =
      .ok (Arr1.zeros 0, if ev then some (Arr2.zeros 0 0) else none) := by
  unfold symmetricEig
  rw [checkSquare_ok hs]
  simp only [ok_bind]
  rw [if_pos (by omega)]

theorem symmetricEig_notSquare (fuel : Nat) (a : Arr2 α) (ev : Bool) (eps : α) (hs : a.nr ≠ a.nc) :
    symmetricEig fuel a ev eps = .error (.err (.notSquare a.nr a.nc)) := by
  unfold symmetricEig
  rw [checkSquare_err hs]
  rfl

theorem EigShape.isSome_step {N : Nat} {eps : α} {st : EigState α} (h : EigShape N eps st)
    (hne : st.end ≠ st.start) :
    wp (eigStep eps st) (fun st' => st'.q.isSome = st.q.isSome) (fun _ => True) := by
  refine wp_conseq (wp_eigStep h hne (fun mid => mid.q.isSome = st.q.isSome) ?_ ?_) fun st' h => ?_
  · intro hs
    rw [eig2x2_eq h hs]
    split
    · trivial
    · simp only [wp_ok]
      split <;> simp
  · intro r e hs _ _ hl
    have := wp_sweep (α := α) (N := N) (start := st.start) (n := st.end)
      (s := ⟨st.diag, st.off, st.q, st.diag.get st.start - wilkinsonShift (st.diag.get (st.end - 1))
          (st.diag.get st.end) (st.off.get (st.end - 1)), st.off.get st.start⟩)
      h.lt h.le ⟨h.diag, h.off, h.q⟩ (fun _ s => s.q.isSome = st.q.isSome)
      (fun s => s.q.isSome = st.q.isSome) rfl
      (fun i s rot norm _ _ _ hs _ => by simpa [sweepNext] using hs)
      (fun _ _ _ _ _ h _ => h) (fun _ _ h => h)
    rw [hl] at this
    exact this.2
  · obtain ⟨-, mid, hm, -, -, -, hq, -⟩ := h
    rw [hq]; exact hm

theorem symmetricEig_shape (fuel : Nat) (a : Arr2 α) (ev : Bool) (eps : α) (hs : a.nr = a.nc) :
    wp (symmetricEig fuel a ev eps)
      (fun r => r.1.len = a.nr ∧ OptShape r.2 a.nr a.nr ∧ r.2.isSome = ev)
      (fun e => e = .fuel ∨ e = .panic ∧ ¬ Safe2x2 eps) := by
  by_cases h0 : a.nr = 0
  · rw [symmetricEig_empty fuel a ev eps hs h0]
    refine ⟨h0.symm, ?_, by cases ev <;> rfl⟩
    intro x hx
    cases ev with
    | false => simp at hx
    | true => simp only [if_true, Option.some.injEq] at hx; subst hx; exact ⟨h0.symm, h0.symm⟩
  · obtain ⟨t, -, hsh, q, hq, hev, -, h1, h2⟩ := symmetricEig_cases fuel a ev eps hs (by omega)
    have hdl : t.intoDiagonals.1.len = a.nr := by
      simp [TridiagonalDecomp.intoDiagonals, Arr2.diag, hsh.nr, hsh.nc]
    by_cases hn : a.nr = 1
    · rw [h1 hn]
      exact ⟨hdl, hq, hev⟩
    · obtain ⟨off, s, e, -, -, hei, heq⟩ := h2 hn
      rw [heq, wp_bind]
      refine wp_conseq (wp_eigLoop fuel hei (by simp) (fun st => st.q.isSome = ev) hev ?_) ?_
      · intro st hst hne hsome
        have e1 := eigStep_shape hst hne
        have e2 := hst.isSome_step hne
        cases hr : eigStep eps st with
        | ok b => rw [hr] at e1 e2; exact ⟨e1, e2.trans hsome⟩
        | error b => rw [hr] at e1; exact Or.inr e1
      · rintro st ⟨hst, hsome, -⟩
        exact ⟨hst.diag, hst.q, hsome⟩

/-! ## The eigenvalues do not depend on whether the vectors are requested -/

/-- Equal except for the vectors. -/
structure EigSim (N : Nat) (eps : α) (s t : EigState α) : Prop where
  diag : s.diag = t.diag
  off : s.off = t.off
  start : s.start = t.start
  «end» : s.end = t.end
  left : EigShape N eps s
  right : EigShape N eps t

/-- Equal except for the vectors. -/
structure SweepSim (N : Nat) (s t : SweepState α) : Prop where
  diag : s.diag = t.diag
  off : s.off = t.off
  x : s.x = t.x
  y : s.y = t.y
  left : SweepShape N s
  right : SweepShape N t

theorem sweepStep_sim {N start n i : Nat} {s t : SweepState α} (h : SweepSim N s t) (hi : i < n)
    (hn : n < N) : RelM (RelStep (SweepSim N)) (sweepStep start n i s) (sweepStep start n i t) := by
  rw [sweepStep_eq h.left.q h.left.diag h.left.off hi hn,
    sweepStep_eq h.right.q h.right.diag h.right.off hi hn, h.x, h.y]
  cases GivensRotation.cancelY t.x t.y with
  | none => exact h
  | some p =>
    obtain ⟨rot, norm⟩ := p
    refine ⟨?_, ?_, ?_, ?_, h.left.next _ _, h.right.next _ _⟩ <;>
      simp only [sweepNext, h.diag, h.off, h.x, h.y]

theorem eigStep_sim {N : Nat} {eps : α} {s t : EigState α} (h : EigSim N eps s t)
    (hne : s.end ≠ s.start) : RelM (EigSim N eps) (eigStep eps s) (eigStep eps t) := by
  have hs := eigStep_shape h.left hne
  have hne' : t.end ≠ t.start := by rw [← h.start, ← h.end]; exact hne
  have ht := eigStep_shape h.right hne'
  have key : RelM (fun s t : EigState α => s.diag = t.diag ∧ s.off = t.off ∧ s.start = t.start ∧
      s.end = t.end) (eigStep eps s) (eigStep eps t) := by
    unfold eigStep
    rw [← h.start, ← h.end]
    split
    · rfl
    have hmid : RelM (fun s t : EigState α => s.diag = t.diag ∧ s.off = t.off ∧ s.start = t.start ∧
        s.end = t.end)
      (if 2 < s.end - s.start + 1 then eigSweep eps s
        else if s.end - s.start + 1 = 2 then eig2x2 eps s else .ok s)
      (if 2 < s.end - s.start + 1 then eigSweep eps t
        else if s.end - s.start + 1 = 2 then eig2x2 eps t else .ok t) := by
      split_ifs with h2 h3
      · unfold eigSweep
        simp only [← h.start, ← h.end, ← h.diag, ← h.off]
        refine relM_bind (relM_refl (fun _ => rfl) _) fun ds _ e => ?_; subst e
        refine relM_bind (relM_refl (fun _ => rfl) _) fun dm _ e => ?_; subst e
        refine relM_bind (relM_refl (fun _ => rfl) _) fun dn _ e => ?_; subst e
        refine relM_bind (relM_refl (fun _ => rfl) _) fun om _ e => ?_; subst e
        refine relM_bind (relM_refl (fun _ => rfl) _) fun y _ e => ?_; subst e
        have hlt := h.left.lt
        refine relM_bind (R := SweepSim N) (relM_loopBrk
          ⟨rfl, rfl, rfl, rfl, ⟨h.left.diag, h.left.off, h.left.q⟩,
            ⟨h.left.diag, h.left.off, h.right.q⟩⟩ fun i hi s' t' h' => ?_) fun r r' hr => ?_
        · rw [List.mem_range'_1] at hi
          exact sweepStep_sim h' (by omega) hlt
        · rw [hr.diag, hr.off]
          refine relM_bind (relM_refl (fun _ => rfl) _) fun dm _ e => ?_; subst e
          refine relM_bind (relM_refl (fun _ => rfl) _) fun dn _ e => ?_; subst e
          refine relM_bind (relM_refl (fun _ => rfl) _) fun om _ e => ?_; subst e
          exact ⟨rfl, rfl, rfl, rfl⟩
      · rw [eig2x2_eq h.left (by omega), eig2x2_eq h.right (by rw [← h.start, ← h.end]; omega)]
        simp only [← h.start, ← h.end, ← h.diag, ← h.off]
        split
        · rfl
        · exact ⟨rfl, rfl, rfl, rfl⟩
      · exact ⟨h.diag, h.off, h.start, h.end⟩
    refine relM_bind hmid ?_
    rintro b c ⟨e1, e2, e3, e4⟩
    rw [e1, e2, e4]
    refine relM_bind (relM_refl (fun _ => rfl) _) ?_
    rintro ⟨off, st, e⟩ _ rfl
    exact ⟨rfl, rfl, rfl, rfl⟩
  cases h1 : eigStep eps s <;> cases h2 : eigStep eps t <;> rw [h1] at key hs <;>
    rw [h2] at key ht <;> simp only [RelM] at key ⊢
  · exact key
  · exact ⟨key.1, key.2.1, key.2.2.1, key.2.2.2, hs, ht⟩

theorem eigLoop_sim {N : Nat} {eps : α} (fuel : Nat) {s t : EigState α} (h : EigSim N eps s t) :
    RelM (EigSim N eps) (eigLoop eps fuel s) (eigLoop eps fuel t) := by
  induction fuel generalizing s t with
  | zero =>
    unfold eigLoop
    rw [← h.start, ← h.end]
    split
    · exact h
    · rfl
  | succ k ih =>
    unfold eigLoop
    rw [← h.start, ← h.end]
    split
    · exact h
    · rename_i hne
      exact relM_bind (eigStep_sim h hne) fun b c hbc => ih hbc

/-- Same outcome up to the vectors. -/
theorem symmetricEig_sim (fuel : Nat) (a : Arr2 α) (eps : α) :
    RelM (fun r r' => r.1 = r'.1) (symmetricEig fuel a true eps) (symmetricEig fuel a false eps) := by
  by_cases hs : a.nr = a.nc
  · by_cases h0 : a.nr = 0
    · rw [symmetricEig_empty _ _ _ _ hs h0, symmetricEig_empty _ _ _ _ hs h0]
      rfl
    · obtain ⟨t, ht, -, q, -, -, -, h1, h2⟩ := symmetricEig_cases fuel a true eps hs (by omega)
      obtain ⟨t', ht', -, q', -, -, -, h1', h2'⟩ := symmetricEig_cases fuel a false eps hs (by omega)
      rw [ht, Except.ok.injEq] at ht'
      subst ht'
      by_cases hn : a.nr = 1
      · rw [h1 hn, h1' hn]; rfl
      · obtain ⟨off, s, e, d1, -, hei, heq⟩ := h2 hn
        obtain ⟨off', s', e', d1', -, hei', heq'⟩ := h2' hn
        rw [heq, heq']
        rw [d1] at d1'
        simp only [Except.ok.injEq, Prod.mk.injEq] at d1'
        obtain ⟨rfl, rfl, rfl⟩ := d1'
        refine relM_bind (eigLoop_sim fuel ⟨rfl, rfl, rfl, rfl, hei, hei'⟩) fun b c hbc => ?_
        simp only [relM_ok, hbc.diag]
  · rw [symmetricEig_notSquare _ _ _ _ hs, symmetricEig_notSquare _ _ _ _ hs]
    rfl

end LinfaLinalg
