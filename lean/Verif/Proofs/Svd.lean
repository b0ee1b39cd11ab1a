import Verif.Model.Svd
import Verif.Proofs.Eigh
import Verif.Props.Bidiagonal

/-! # `svd`: closed forms of the in-place updates and rules for its loops (any scalars) -/

set_option linter.unusedSectionVars false
set_option linter.unusedSimpArgs false

namespace LinfaLinalg

variable {α : Type} [Zero α] [One α] [Add α] [Sub α] [Mul α] [Div α] [Neg α] [NdFloat α]

section loops
variable {σ τ : Type}

/-- Loop rule for a descending `for` loop with `break`. -/
theorem wp_loopBrk_rev {k : Nat} {s : σ} {f : Nat → σ → M (Step σ)} {E : Fail → Prop}
    (Inv : Nat → σ → Prop) (Post : σ → Prop) (h0 : Inv k s)
    (hstep : ∀ i s, i < k → Inv (i + 1) s →
      wp (f i s) (fun r => match r with | .next s' => Inv i s' | .brk s' => Post s') E)
    (hend : ∀ s, Inv 0 s → Post s) :
    wp (loopBrk (List.range' 0 k).reverse s f) Post E := by
  induction k generalizing s with
  | zero => exact hend _ h0
  | succ k ih =>
    rw [List.range'_concat, List.reverse_append]
    simp only [List.reverse_cons, List.reverse_nil, List.nil_append, List.singleton_append, loopBrk,
      wp_bind, Nat.zero_add, Nat.one_mul]
    refine wp_conseq (hstep k s (by omega) h0) fun r hr => ?_
    cases r with
    | brk s' => exact hr
    | next s' => exact ih hr (fun i s h1 h2 => hstep i s (by omega) h2)

end loops

/-! ## Rotating two columns of an optional factor -/

theorem colsStep_pair (a : Arr2 α) (i j : Nat) (hij : i < j) (hj : j < a.nc) :
    a.colsStep i (j + 1) (j - i) = .ok ⟨a.nr, 2, fun r c => a.get r (i + c * (j - i))⟩ := by
  unfold Arr2.colsStep
  rw [if_pos ⟨by omega, by omega, by omega⟩]
  have : (j + 1 - i + (j - i - 1)) / (j - i) = 2 := by
    rw [show j + 1 - i + (j - i - 1) = (j - i) * 2 by omega]
    exact Nat.mul_div_cancel_left 2 (by omega)
  rw [this]

theorem putColsStep_pair (a v : Arr2 α) (i j : Nat) (hij : i < j) (hv : v.nr = a.nr)
    (hc : v.nc = 2) : a.putColsStep i (j - i) v = ⟨a.nr, a.nc, fun r c =>
      if r < a.nr then (if c = i then v.get r 0 else if c = j then v.get r 1 else a.get r c)
      else a.get r c⟩ := by
  refine Arr2.ext' (by rfl) (by rfl) ?_
  intro r c
  simp only [Arr2.putColsStep, hv, hc]
  by_cases hr : r < a.nr
  · simp only [hr, true_and, if_true]
    by_cases h1 : c = i
    · subst h1; simp
    · by_cases h2 : c = j
      · subst h2
        have h3 : (c - i) / (c - i) = 1 := Nat.div_self (by omega)
        rw [if_pos ⟨by omega, Nat.mod_self _, by rw [h3]; omega⟩, if_neg h1, if_pos rfl, h3]
      · rw [if_neg, if_neg h1, if_neg h2]
        rintro ⟨h3, h4, h5⟩
        obtain ⟨q, hq⟩ := Nat.dvd_of_mod_eq_zero h4
        rw [hq, Nat.mul_div_cancel_left _ (by omega)] at h5
        have : q = 0 ∨ q = 1 := by omega
        rcases this with rfl | rfl <;> omega
  · simp [hr]

/-- `rotCols` on the rows of a matrix. -/
def rotRows (g : GivensRotation α) (i j : Nat) (v : Arr2 α) : Arr2 α := (rotCols g i j v.t).t

theorem rotateUCols_ok (g : GivensRotation α) (i j : Nat) (u : Option (Arr2 α)) (hij : i < j)
    (h : ∀ a ∈ u, j < a.nc) :
    rotateUCols g i (j + 1) (j - i) u = .ok (u.map (rotCols g i j)) := by
  cases u with
  | none => rfl
  | some a =>
    have hj := h a rfl
    simp only [rotateUCols, colsStep_pair a i j hij hj, ok_bind]
    rw [rotateRows_ok _ _ rfl]
    simp only [unwrapM, ok_bind, Option.map_some]
    rw [putColsStep_pair _ _ i j hij (by rfl) (by rfl)]
    congr 2
    refine Arr2.ext' (by rfl) (by rfl) ?_
    intro r c
    have e : i + 1 * (j - i) = j := by omega
    simp only [rotCols, Nat.zero_mul, Nat.add_zero, e, if_true, if_false, Nat.one_ne_zero]
    split_ifs <;> first | rfl | omega

theorem rotateVtRows_ok (g : GivensRotation α) (i j : Nat) (vt : Option (Arr2 α)) (hij : i < j)
    (h : ∀ a ∈ vt, j < a.nr) :
    rotateVtRows g i (j + 1) (j - i) vt = .ok (vt.map (rotRows g.inverse i j)) := by
  cases vt with
  | none => rfl
  | some a =>
    have hj := h a rfl
    simp only [rotateVtRows, colsStep_pair a.t i j hij hj, ok_bind]
    rw [rotateCols_ok _ _ rfl]
    simp only [unwrapM, ok_bind, Option.map_some]
    rw [putColsStep_pair _ _ i j hij (by rfl) (by rfl)]
    congr 2
    refine Arr2.ext' (by rfl) (by rfl) ?_
    intro r c
    have e : i + 1 * (j - i) = j := by omega
    simp only [rotRows, rotCols, Arr2.t_get, Arr2.t_nr, Arr2.t_nc, Nat.zero_mul, Nat.add_zero, e,
      GivensRotation.inverse, if_true, if_false, Nat.one_ne_zero]
    split_ifs <;> first | rfl | omega | simp [*]

theorem rotateUCols_adj (g : GivensRotation α) (i : Nat) (u : Option (Arr2 α))
    (h : ∀ a ∈ u, i + 1 < a.nc) :
    rotateUCols g i (i + 2) 1 u = .ok (u.map (rotCols g i (i + 1))) := by
  have := rotateUCols_ok g i (i + 1) u (by omega) h
  rwa [show i + 1 - i = 1 by omega] at this

theorem rotateVtRows_adj (g : GivensRotation α) (i : Nat) (vt : Option (Arr2 α))
    (h : ∀ a ∈ vt, i + 1 < a.nr) :
    rotateVtRows g i (i + 2) 1 vt = .ok (vt.map (rotRows g.inverse i (i + 1))) := by
  have := rotateVtRows_ok g i (i + 1) vt (by omega) h
  rwa [show i + 1 - i = 1 by omega] at this

/-- The factor that multiplies the upper bidiagonal matrix from the left (`U`, or `Vtᵀ` when the
bidiagonal matrix is lower) is rotated. -/
def SvdData.rotL (up : Bool) (g : GivensRotation α) (i j : Nat) (s : SvdData α) : SvdData α :=
  if up then { s with u := s.u.map (rotCols g i j) } else { s with vt := s.vt.map (rotRows g i j) }

/-- The factor on the other side is rotated. -/
def SvdData.rotR (up : Bool) (g : GivensRotation α) (i j : Nat) (s : SvdData α) : SvdData α :=
  if up then { s with vt := s.vt.map (rotRows g i j) } else { s with u := s.u.map (rotCols g i j) }

@[simp] theorem rotL_diag (up : Bool) (g : GivensRotation α) (i j : Nat) (s : SvdData α) :
    (s.rotL up g i j).diag = s.diag := by cases up <;> rfl
@[simp] theorem rotL_off (up : Bool) (g : GivensRotation α) (i j : Nat) (s : SvdData α) :
    (s.rotL up g i j).off = s.off := by cases up <;> rfl
@[simp] theorem rotR_diag (up : Bool) (g : GivensRotation α) (i j : Nat) (s : SvdData α) :
    (s.rotR up g i j).diag = s.diag := by cases up <;> rfl
@[simp] theorem rotR_off (up : Bool) (g : GivensRotation α) (i j : Nat) (s : SvdData α) :
    (s.rotR up g i j).off = s.off := by cases up <;> rfl

/-- Replacing the two diagonals. -/
def SvdData.setDiags (s : SvdData α) (diag off : Arr1 α) : SvdData α := ⟨diag, off, s.u, s.vt⟩

@[simp] theorem setDiags_diag (s : SvdData α) (d o : Arr1 α) : (s.setDiags d o).diag = d := rfl
@[simp] theorem setDiags_off (s : SvdData α) (d o : Arr1 α) : (s.setDiags d o).off = o := rfl
@[simp] theorem setDiags_u (s : SvdData α) (d o : Arr1 α) : (s.setDiags d o).u = s.u := rfl
@[simp] theorem setDiags_vt (s : SvdData α) (d o : Arr1 α) : (s.setDiags d o).vt = s.vt := rfl

/-- The shapes of the data: `u` is `r × d`, `vt` is `d × c` if present, as requested by the flags. -/
structure SvdShape (r c d : Nat) (cu cv : Bool) (s : SvdData α) : Prop where
  dlen : s.diag.len = d
  olen : s.off.len = d - 1
  u : ∀ a ∈ s.u, HasShape a r d
  vt : ∀ a ∈ s.vt, HasShape a d c
  hu : s.u.isSome = cu
  hv : s.vt.isSome = cv

theorem SvdShape.rotL {r c d : Nat} {cu cv : Bool} {s : SvdData α} (h : SvdShape r c d cu cv s)
    (up : Bool) (g : GivensRotation α) (i j : Nat) : SvdShape r c d cu cv (s.rotL up g i j) := by
  obtain ⟨h1, h2, h3, h4, h5, h6⟩ := h
  cases up
  · refine ⟨h1, h2, h3, ?_, h5, ?_⟩
    · intro a ha
      simp only [SvdData.rotL, Bool.false_eq_true, if_false, Option.mem_map] at ha
      obtain ⟨b, hb, rfl⟩ := ha
      exact h4 b hb
    · simpa [SvdData.rotL] using h6
  · refine ⟨h1, h2, ?_, h4, ?_, h6⟩
    · intro a ha
      simp only [SvdData.rotL, if_true, Option.mem_map] at ha
      obtain ⟨b, hb, rfl⟩ := ha
      exact h3 b hb
    · simpa [SvdData.rotL] using h5

theorem rotR_eq_rotL (up : Bool) (g : GivensRotation α) (i j : Nat) (s : SvdData α) :
    s.rotR up g i j = s.rotL (!up) g i j := by cases up <;> rfl

theorem SvdShape.rotR {r c d : Nat} {cu cv : Bool} {s : SvdData α} (h : SvdShape r c d cu cv s)
    (up : Bool) (g : GivensRotation α) (i j : Nat) : SvdShape r c d cu cv (s.rotR up g i j) := by
  rw [rotR_eq_rotL]; exact h.rotL _ _ _ _

theorem SvdShape.set {r c d : Nat} {cu cv : Bool} {s : SvdData α} (h : SvdShape r c d cu cv s)
    {dg o : Arr1 α} (hd : dg.len = s.diag.len) (ho : o.len = s.off.len) :
    SvdShape r c d cu cv (s.setDiags dg o) :=
  ⟨hd.trans h.dlen, ho.trans h.olen, h.u, h.vt, h.hu, h.hv⟩

/-! ## `cancel_horizontal_off_diagonal_elt` -/

/-- The state after one rotation of `cancel_horizontal_off_diagonal_elt`. -/
def cancelHNext (up : Bool) (i end_ k : Nat) (st : CancelState α) (rot : GivensRotation α)
    (norm : α) : CancelState α :=
  ⟨(st.s.setDiags (st.s.diag.upd (k + 1) norm)
      (if k + 1 ≠ end_ then st.s.off.upd (k + 1) (st.s.off.get (k + 1) * rot.c) else st.s.off)).rotL
      up rot.inverse i (k + 1),
    if k + 1 ≠ end_ then -rot.s * st.s.off.get (k + 1) else st.v0,
    if k + 1 ≠ end_ then st.s.diag.get (k + 2) else st.v1⟩

theorem cancelHNext_shape {r c d : Nat} {cu cv : Bool} {st : CancelState α} (up : Bool)
    (i end_ k : Nat) (rot : GivensRotation α) (norm : α) (h : SvdShape r c d cu cv st.s) :
    SvdShape r c d cu cv (cancelHNext up i end_ k st rot norm).s := by
  apply SvdShape.rotL
  apply h.set
  · rfl
  · split_ifs <;> rfl

theorem cancelHStep_eq {r c d : Nat} {cu cv : Bool} (up : Bool) (i end_ k : Nat)
    (st : CancelState α) (h : SvdShape r c d cu cv st.s) (hik : i ≤ k) (hk : k < end_)
    (he : end_ < d) : cancelHStep up i end_ k st =
      match GivensRotation.cancelX st.v0 st.v1 with
      | none => .ok (.brk st)
      | some (rot, norm) => .ok (.next (cancelHNext up i end_ k st rot norm)) := by
  unfold cancelHStep
  cases hx : GivensRotation.cancelX st.v0 st.v1 with
  | none => rfl
  | some p =>
    obtain ⟨rot, norm⟩ := p
    simp only
    rw [Arr1.atm_ok (by rw [h.dlen]; omega)]
    have hu := rotateUCols_ok rot.inverse i (k + 1) st.s.u (by omega)
      (fun a ha => by rw [(h.u a ha).2]; omega)
    have hv := rotateVtRows_ok rot i (k + 1) st.s.vt (by omega)
      (fun a ha => by rw [(h.vt a ha).1]; omega)
    rw [show k + 1 - i = k - i + 1 by omega] at hu hv
    simp only [ok_bind, hu, hv]
    by_cases hk1 : k + 1 ≠ end_
    · have hd : (k + 2 = k + 1) = False := by simp
      cases up <;>
        simp only [if_true, if_false, Bool.false_eq_true, ok_bind, if_pos hk1,
          Arr1.at_ok (show k + 1 < st.s.off.len by rw [h.olen]; omega),
          Arr1.at_ok (show k + 2 < (st.s.diag.upd (k + 1) norm).len by
            rw [Arr1.upd_len, h.dlen]; omega),
          Arr1.atm_ok (show k + 1 < st.s.off.len by rw [h.olen]; omega), cancelHNext,
          SvdData.rotL, SvdData.setDiags, Arr1.upd_get, hd]
    · cases up <;>
        simp only [if_true, if_false, Bool.false_eq_true, ok_bind, if_neg hk1, cancelHNext,
          SvdData.rotL, SvdData.setDiags]

/-- Rule for `cancel_horizontal_off_diagonal_elt`. -/
theorem wp_cancelH {r c d : Nat} {cu cv : Bool} {up : Bool} {i end_ : Nat} {s : SvdData α}
    (h : SvdShape r c d cu cv s) (hi : i < end_) (he : end_ < d)
    (Inv : Nat → CancelState α → Prop) (Post : SvdData α → Prop)
    (h0 : Inv i ⟨s.setDiags s.diag (s.off.upd i 0), s.off.get i, s.diag.get (i + 1)⟩)
    (hbrk : ∀ k st, i ≤ k → k < end_ → SvdShape r c d cu cv st.s → Inv k st →
      GivensRotation.cancelX st.v0 st.v1 = none → Post st.s)
    (hnext : ∀ k st rot norm, i ≤ k → k < end_ → SvdShape r c d cu cv st.s → Inv k st →
      GivensRotation.cancelX st.v0 st.v1 = some (rot, norm) →
      Inv (k + 1) (cancelHNext up i end_ k st rot norm))
    (hend : ∀ st, SvdShape r c d cu cv st.s → Inv end_ st → Post st.s) :
    Succeeds (cancelH up i end_ s) fun s' => SvdShape r c d cu cv s' ∧ Post s' := by
  unfold cancelH
  rw [Arr1.idx_ok (by rw [h.olen]; omega), Arr1.idx_ok (by rw [h.dlen]; omega),
    Arr1.idxSet_ok (by rw [h.olen]; omega)]
  simp only [ok_bind, wp_bind]
  refine wp_conseq (P := fun st => SvdShape r c d cu cv st.s ∧ Post st.s) ?_ (fun st hst => by exact hst)
  refine wp_loopBrk (fun k st => SvdShape r c d cu cv st.s ∧ Inv k st) _ ⟨?_, h0⟩ ?_ ?_
  · exact h.set rfl rfl
  · rintro k st hk1 hk2 ⟨hs, hI⟩
    rw [cancelHStep_eq up i end_ k st hs hk1 (by omega) he]
    cases hx : GivensRotation.cancelX st.v0 st.v1 with
    | none => exact ⟨hs, hbrk k st hk1 (by omega) hs hI hx⟩
    | some p =>
      obtain ⟨rot, norm⟩ := p
      exact ⟨cancelHNext_shape up i end_ k rot norm hs, hnext k st rot norm hk1 (by omega) hs hI hx⟩
  · rintro st ⟨hs, hI⟩
    rw [show i + (end_ - i) = end_ by omega] at hI
    exact ⟨hs, hend st hs hI⟩

/-! ## `cancel_vertical_off_diagonal_elt` -/

/-- The state after one rotation of `cancel_vertical_off_diagonal_elt`. -/
def cancelVNext (up : Bool) (i k : Nat) (st : CancelState α) (rot : GivensRotation α)
    (norm : α) : CancelState α :=
  ⟨(st.s.setDiags (st.s.diag.upd k norm)
      (if 0 < k then st.s.off.upd (k - 1) (st.s.off.get (k - 1) * rot.c) else st.s.off)).rotR
      up rot.inverse k (i + 1),
    if 0 < k then st.s.diag.get (k - 1) else st.v0,
    if 0 < k then rot.s * st.s.off.get (k - 1) else st.v1⟩

theorem cancelVNext_shape {r c d : Nat} {cu cv : Bool} {st : CancelState α} (up : Bool)
    (i k : Nat) (rot : GivensRotation α) (norm : α) (h : SvdShape r c d cu cv st.s) :
    SvdShape r c d cu cv (cancelVNext up i k st rot norm).s := by
  apply SvdShape.rotR
  apply h.set
  · rfl
  · split_ifs <;> rfl

theorem cancelVStep_eq {r c d : Nat} {cu cv : Bool} (up : Bool) (i k : Nat)
    (st : CancelState α) (h : SvdShape r c d cu cv st.s) (hk : k ≤ i) (hi : i + 1 < d) :
    cancelVStep up i k st =
      match GivensRotation.cancelY st.v0 st.v1 with
      | none => .ok (.brk st)
      | some (rot, norm) => .ok (.next (cancelVNext up i k st rot norm)) := by
  unfold cancelVStep
  cases hx : GivensRotation.cancelY st.v0 st.v1 with
  | none => rfl
  | some p =>
    obtain ⟨rot, norm⟩ := p
    simp only
    rw [Arr1.atm_ok (by rw [h.dlen]; omega)]
    have hu := rotateUCols_ok rot.inverse k (i + 1) st.s.u (by omega)
      (fun a ha => by rw [(h.u a ha).2]; omega)
    have hv := rotateVtRows_ok rot k (i + 1) st.s.vt (by omega)
      (fun a ha => by rw [(h.vt a ha).1]; omega)
    rw [show i + 1 - k = i - k + 1 by omega] at hu hv
    simp only [ok_bind, hu, hv]
    by_cases hk1 : 0 < k
    · have hd : (k - 1 = k) = False := by simp; omega
      cases up <;>
        simp only [if_true, if_false, Bool.false_eq_true, ok_bind, if_pos hk1,
          Arr1.at_ok (show k - 1 < st.s.off.len by rw [h.olen]; omega),
          Arr1.at_ok (show k - 1 < (st.s.diag.upd k norm).len by
            rw [Arr1.upd_len, h.dlen]; omega),
          Arr1.atm_ok (show k - 1 < st.s.off.len by rw [h.olen]; omega), cancelVNext,
          SvdData.rotR, SvdData.setDiags, Arr1.upd_get, hd]
    · cases up <;>
        simp only [if_true, if_false, Bool.false_eq_true, ok_bind, if_neg hk1, cancelVNext,
          SvdData.rotR, SvdData.setDiags]

/-- Rule for `cancel_vertical_off_diagonal_elt`. -/
theorem wp_cancelV {r c d : Nat} {cu cv : Bool} {up : Bool} {i : Nat} {s : SvdData α}
    (h : SvdShape r c d cu cv s) (hi : i + 1 < d)
    (Inv : Nat → CancelState α → Prop) (Post : SvdData α → Prop)
    (h0 : Inv (i + 1) ⟨s.setDiags s.diag (s.off.upd i 0), s.diag.get i, s.off.get i⟩)
    (hbrk : ∀ k st, k ≤ i → SvdShape r c d cu cv st.s → Inv (k + 1) st →
      GivensRotation.cancelY st.v0 st.v1 = none → Post st.s)
    (hnext : ∀ k st rot norm, k ≤ i → SvdShape r c d cu cv st.s → Inv (k + 1) st →
      GivensRotation.cancelY st.v0 st.v1 = some (rot, norm) →
      Inv k (cancelVNext up i k st rot norm))
    (hend : ∀ st, SvdShape r c d cu cv st.s → Inv 0 st → Post st.s) :
    Succeeds (cancelV up i s) fun s' => SvdShape r c d cu cv s' ∧ Post s' := by
  unfold cancelV
  rw [Arr1.idx_ok (by rw [h.dlen]; omega), Arr1.idx_ok (by rw [h.olen]; omega),
    Arr1.idxSet_ok (by rw [h.olen]; omega)]
  simp only [ok_bind, wp_bind]
  refine wp_conseq (P := fun st => SvdShape r c d cu cv st.s ∧ Post st.s) ?_ (fun st hst => by exact hst)
  refine wp_loopBrk_rev (fun k st => SvdShape r c d cu cv st.s ∧ Inv k st) _ ⟨?_, h0⟩ ?_ ?_
  · exact h.set rfl rfl
  · rintro k st hk1 ⟨hs, hI⟩
    rw [cancelVStep_eq up i k st hs (by omega) hi]
    cases hx : GivensRotation.cancelY st.v0 st.v1 with
    | none => exact ⟨hs, hbrk k st (by omega) hs hI hx⟩
    | some p =>
      obtain ⟨rot, norm⟩ := p
      exact ⟨cancelVNext_shape up i k rot norm hs, hnext k st rot norm (by omega) hs hI hx⟩
  · rintro st ⟨hs, hI⟩
    exact ⟨hs, hend st hs hI⟩

/-! ## `delimit_subproblem` -/

/-- Off-diagonal entry `m` is set to zero by the first test of `delimit_subproblem`. -/
def svdSmall (eps : α) (s : SvdData α) (m : Nat) : Prop :=
  NdFloat.le (NdFloat.abs (s.off.get m))
    (eps * (NdFloat.abs (s.diag.get (m + 1)) + NdFloat.abs (s.diag.get m))) = true

/-- Diagonal entry `m` is negligible. -/
def svdTiny (eps : α) (s : SvdData α) (m : Nat) : Prop :=
  NdFloat.le (NdFloat.abs (s.diag.get m)) eps = true

/-- `diag[m] = 0`, then cancelling what is left in row and column `m`. -/
def svdKill (up : Bool) (m n : Nat) (s : SvdData α) : M (SvdData α) := do
  let s ← cancelH up m n (s.setDiags (s.diag.upd m 0) s.off)
  if m ≠ 0 then cancelV up (m - 1) s else .ok s

/-- Rule for the first loop of `delimit_subproblem`. -/
theorem wp_svdDelimitEnd {r c d : Nat} {cu cv : Bool} {up : Bool} {eps : α} {e : Nat}
    {s : SvdData α} {E : Fail → Prop} (he : e < d) (h : SvdShape r c d cu cv s)
    (I : Nat → SvdData α → Prop) (Post : SvdData α → Nat → Prop) (h0 : I e s)
    (hdrop : ∀ m s, m < e → SvdShape r c d cu cv s → I (m + 1) s →
      (NdFloat.isZero (s.off.get m) = true ∨ svdSmall eps s m) →
      I m (s.setDiags s.diag (s.off.upd m 0)))
    (hkill : ∀ m s, m < e → SvdShape r c d cu cv s → I (m + 1) s →
      NdFloat.isZero (s.off.get m) = false → ¬ svdSmall eps s m → svdTiny eps s m →
      wp (svdKill up m (m + 1) s) (fun s' => SvdShape r c d cu cv s' ∧ I m s') E)
    (hkill' : ∀ m s, m < e → SvdShape r c d cu cv s → I (m + 1) s →
      NdFloat.isZero (s.off.get m) = false → ¬ svdSmall eps s m → ¬ svdTiny eps s m →
      svdTiny eps s (m + 1) →
      wp (cancelV up m (s.setDiags (s.diag.upd (m + 1) 0) s.off))
        (fun s' => SvdShape r c d cu cv s' ∧ I m s') E)
    (hstop : ∀ m s, m < e → SvdShape r c d cu cv s → I (m + 1) s →
      NdFloat.isZero (s.off.get m) = false → ¬ svdSmall eps s m → ¬ svdTiny eps s m →
      ¬ svdTiny eps s (m + 1) → Post s (m + 1))
    (hzero : ∀ s, SvdShape r c d cu cv s → I 0 s → Post s 0) :
    wp (svdDelimitEnd up eps e s)
      (fun p => SvdShape r c d cu cv p.1 ∧ p.2 ≤ e ∧ Post p.1 p.2) E := by
  suffices H : ∀ n s, n ≤ e → SvdShape r c d cu cv s → I n s → wp (svdDelimitEnd up eps n s)
      (fun p => SvdShape r c d cu cv p.1 ∧ p.2 ≤ n ∧ Post p.1 p.2) E from
    H e s le_rfl h h0
  intro n
  induction n with
  | zero => intro s _ hs hI; exact ⟨hs, le_rfl, hzero s hs hI⟩
  | succ m ih =>
    intro s hm hs hI
    have ih' : ∀ s, SvdShape r c d cu cv s → I m s → wp (svdDelimitEnd up eps m s)
        (fun p => SvdShape r c d cu cv p.1 ∧ p.2 ≤ m + 1 ∧ Post p.1 p.2) E := fun s hs hI =>
      wp_conseq (ih s (by omega) hs hI) fun p hp => ⟨hp.1, by omega, hp.2.2⟩
    unfold svdDelimitEnd
    rw [Arr1.at_ok (by rw [hs.olen]; omega), Arr1.at_ok (by rw [hs.dlen]; omega),
      Arr1.at_ok (by rw [hs.dlen]; omega), Arr1.atm_ok (by rw [hs.olen]; omega),
      Arr1.atm_ok (by rw [hs.dlen]; omega), Arr1.atm_ok (by rw [hs.dlen]; omega)]
    simp only [ok_bind]
    by_cases h1 : (NdFloat.isZero (s.off.get m) || NdFloat.le (NdFloat.abs (s.off.get m))
        (eps * (NdFloat.abs (s.diag.get (m + 1)) + NdFloat.abs (s.diag.get m)))) = true
    · rw [if_pos h1]
      exact ih' _ (hs.set rfl rfl) (hdrop m s (by omega) hs hI (by simpa [svdSmall] using h1))
    rw [if_neg h1]
    simp only [Bool.or_eq_true, not_or, Bool.not_eq_true] at h1
    by_cases h2 : NdFloat.le (NdFloat.abs (s.diag.get m)) eps = true
    · rw [if_pos h2]
      have := hkill m s (by omega) hs hI h1.1 (by simp [svdSmall, h1.2]) h2
      unfold svdKill at this
      rw [wp_bind] at this ⊢
      refine wp_conseq this fun s1 hs1 => ?_
      rw [wp_bind]
      exact wp_conseq hs1 fun s2 hs2 => ih' s2 hs2.1 hs2.2
    rw [if_neg h2]
    by_cases h3 : NdFloat.le (NdFloat.abs (s.diag.get (m + 1))) eps = true
    · rw [if_pos h3]
      have := hkill' m s (by omega) hs hI h1.1 (by simp [svdSmall, h1.2]) h2 h3
      rw [wp_bind]
      exact wp_conseq this fun s2 hs2 => ih' s2 hs2.1 hs2.2
    · rw [if_neg h3]
      exact ⟨hs, le_rfl, hstop m s (by omega) hs hI h1.1 (by simp [svdSmall, h1.2]) h2 h3⟩

/-- Rule for the second loop of `delimit_subproblem`. -/
theorem wp_svdDelimitStart {r c d : Nat} {cu cv : Bool} {up : Bool} {eps : α} {n e : Nat}
    {s : SvdData α} {E : Fail → Prop} (he : e < n) (hn : n < d) (h : SvdShape r c d cu cv s)
    (I : Nat → SvdData α → Prop) (Post : SvdData α → Nat → Prop) (h0 : I e s)
    (hdrop : ∀ m s, m < e → SvdShape r c d cu cv s → I (m + 1) s → svdSmall eps s m →
      Post (s.setDiags s.diag (s.off.upd m 0)) (m + 1))
    (hkill : ∀ m s, m < e → SvdShape r c d cu cv s → I (m + 1) s → ¬ svdSmall eps s m →
      svdTiny eps s m →
      wp (svdKill up m n s) (fun s' => SvdShape r c d cu cv s' ∧ Post s' (m + 1)) E)
    (hnext : ∀ m s, m < e → SvdShape r c d cu cv s → I (m + 1) s → ¬ svdSmall eps s m →
      ¬ svdTiny eps s m → I m s)
    (hzero : ∀ s, SvdShape r c d cu cv s → I 0 s → Post s 0) :
    wp (svdDelimitStart up eps n e s)
      (fun p => SvdShape r c d cu cv p.1 ∧ p.2 ≤ e ∧ Post p.1 p.2) E := by
  suffices H : ∀ k s, k ≤ e → SvdShape r c d cu cv s → I k s → wp (svdDelimitStart up eps n k s)
      (fun p => SvdShape r c d cu cv p.1 ∧ p.2 ≤ k ∧ Post p.1 p.2) E from
    H e s le_rfl h h0
  intro k
  induction k with
  | zero => intro s _ hs hI; exact ⟨hs, le_rfl, hzero s hs hI⟩
  | succ m ih =>
    intro s hm hs hI
    unfold svdDelimitStart
    rw [Arr1.at_ok (by rw [hs.olen]; omega), Arr1.at_ok (by rw [hs.dlen]; omega),
      Arr1.at_ok (by rw [hs.dlen]; omega), Arr1.atm_ok (by rw [hs.olen]; omega),
      Arr1.atm_ok (by rw [hs.dlen]; omega)]
    simp only [ok_bind]
    by_cases h1 : NdFloat.le (NdFloat.abs (s.off.get m))
        (eps * (NdFloat.abs (s.diag.get (m + 1)) + NdFloat.abs (s.diag.get m))) = true
    · rw [if_pos h1]
      exact ⟨hs.set rfl rfl, le_rfl, hdrop m s (by omega) hs hI h1⟩
    rw [if_neg h1]
    by_cases h2 : NdFloat.le (NdFloat.abs (s.diag.get m)) eps = true
    · rw [if_pos h2]
      have := hkill m s (by omega) hs hI h1 h2
      unfold svdKill at this
      rw [wp_bind] at this ⊢
      refine wp_conseq this fun s1 hs1 => ?_
      rw [wp_bind]
      exact wp_conseq hs1 fun s2 hs2 => ⟨hs2.1, le_rfl, hs2.2⟩
    · rw [if_neg h2]
      exact wp_conseq (ih s (by omega) hs (hnext m s (by omega) hs hI h1 h2)) fun p hp =>
        ⟨hp.1, by omega, hp.2.2⟩

/-- Shapes through `svdKill`. -/
theorem svdKill_shape {r c d : Nat} {cu cv : Bool} {up : Bool} {m n : Nat} {s : SvdData α}
    (h : SvdShape r c d cu cv s) (hm : m < n) (hn : n < d) :
    Succeeds (svdKill up m n s) (SvdShape r c d cu cv) := by
  unfold svdKill Succeeds
  rw [wp_bind]
  refine wp_conseq (wp_cancelH (h.set (dg := s.diag.upd m 0) rfl rfl) hm hn (fun _ _ => True) (fun _ => True) trivial
    (fun _ _ _ _ _ _ _ => trivial) (fun _ _ _ _ _ _ _ _ _ => trivial) (fun _ _ _ => trivial)) ?_
  rintro s1 ⟨hs1, -⟩
  split_ifs with h0
  · refine wp_conseq (wp_cancelV hs1 (by omega) (fun _ _ => True) (fun _ => True) trivial
      (fun _ _ _ _ _ _ => trivial) (fun _ _ _ _ _ _ _ _ => trivial) (fun _ _ _ => trivial)) ?_
    exact fun s2 hs2 => hs2.1
  · exact hs1

theorem cancelV_shape {r c d : Nat} {cu cv : Bool} {up : Bool} {i : Nat} {s : SvdData α}
    (h : SvdShape r c d cu cv s) (hi : i + 1 < d) :
    Succeeds (cancelV up i s) (SvdShape r c d cu cv) :=
  wp_conseq (wp_cancelV h hi (fun _ _ => True) (fun _ => True) trivial
    (fun _ _ _ _ _ _ => trivial) (fun _ _ _ _ _ _ _ _ => trivial) (fun _ _ _ => trivial))
    fun _ hs => hs.1

theorem svdDelimit_shape {r c d : Nat} {cu cv : Bool} {up : Bool} {eps : α} {e : Nat}
    {s : SvdData α} (he : e < d) (h : SvdShape r c d cu cv s) :
    Succeeds (svdDelimit up e eps s) fun p => SvdShape r c d cu cv p.1 ∧
      (p.2.1 < p.2.2 ∨ p.2.1 = 0 ∧ p.2.2 = 0) ∧ p.2.2 ≤ e := by
  unfold svdDelimit Succeeds
  rw [wp_bind]
  refine wp_conseq (wp_svdDelimitEnd he h (fun _ _ => True) (fun _ _ => True) trivial
    (fun _ _ _ _ _ _ => trivial) ?_ ?_ (fun _ _ _ _ _ _ _ _ _ => trivial)
    (fun _ _ _ => trivial)) ?_
  · intro m s hm hs _ _ _ _
    exact wp_conseq (svdKill_shape hs (by omega) (by omega)) fun _ h => ⟨h, trivial⟩
  · intro m s hm hs _ _ _ _ _
    exact wp_conseq (cancelV_shape (hs.set rfl rfl) (by omega)) fun _ h => ⟨h, trivial⟩
  · rintro ⟨s1, n⟩ ⟨hs1, hn, -⟩
    simp only at hs1 hn ⊢
    split_ifs with h0
    · exact ⟨hs1, Or.inr ⟨rfl, rfl⟩, by simp⟩
    · rw [wp_bind]
      refine wp_conseq (wp_svdDelimitStart (by omega) (by omega) hs1 (fun _ _ => True)
        (fun _ _ => True) trivial (fun _ _ _ _ _ _ => trivial) ?_
        (fun _ _ _ _ _ _ _ => trivial) (fun _ _ _ => trivial)) ?_
      · intro m s hm hs _ _ _
        exact wp_conseq (svdKill_shape hs (by omega) (by omega)) fun _ h => ⟨h, trivial⟩
      · rintro ⟨s2, st⟩ ⟨hs2, hst, -⟩
        exact ⟨hs2, Or.inl (by simp only at hst ⊢; omega), hn⟩

/-! ## The sweep -/

/-- The entry `m12` of the 2×3 array of the sweep. -/
def sweepM12 (n k : Nat) (s : SvdData α) : α := if k = n - 1 then 0 else s.off.get (k + 1)

/-- The second half of one step of the sweep, when the second rotation is present. -/
def svdSweepNext (up : Bool) (start n k : Nat) (st : SvdSweep α) (r1 : GivensRotation α) (n1 : α)
    (r2 : GivensRotation α) (n2 : α) : SvdSweep α :=
  let dk := st.s.diag.get k
  let ok := st.s.off.get k
  let dk1 := st.s.diag.get (k + 1)
  let m12 := sweepM12 n k st.s
  let x01 := - -r1.s * dk + ok * r1.c
  let x11 := - -r1.s * 0 + dk1 * r1.c
  let off := if start < k then st.s.off.upd (k - 1) n1 else st.s.off
  let off := off.upd k (x01 * r2.c + -r2.s * x11)
  let off := if k ≠ n - 1 then off.upd (k + 1) (- -r2.s * 0 + m12 * r2.c) else off
  ⟨((st.s.setDiags ((st.s.diag.upd k n2).upd (k + 1) (- -r2.s * x01 + x11 * r2.c)) off).rotR up
      r1.inverse k (k + 1)).rotL up r2.inverse k (k + 1),
    x01 * r2.c + -r2.s * x11, 0 * r2.c + -r2.s * m12⟩

/-- One step of the sweep, when there is no second rotation. -/
def svdSweepNext' (up : Bool) (start n k : Nat) (st : SvdSweep α) (r1 : GivensRotation α) (n1 : α) :
    SvdSweep α :=
  let dk := st.s.diag.get k
  let ok := st.s.off.get k
  let dk1 := st.s.diag.get (k + 1)
  let m12 := sweepM12 n k st.s
  let x01 := - -r1.s * dk + ok * r1.c
  let x11 := - -r1.s * 0 + dk1 * r1.c
  let off := if start < k then st.s.off.upd (k - 1) n1 else st.s.off
  let off := off.upd k x01
  let off := if k ≠ n - 1 then off.upd (k + 1) m12 else off
  ⟨(st.s.setDiags ((st.s.diag.upd k (dk * r1.c + -r1.s * ok)).upd (k + 1) x11) off).rotR up
      r1.inverse k (k + 1), x01, 0⟩

/-- The pair given to the second rotation. -/
def sweepV (k : Nat) (st : SvdSweep α) (r1 : GivensRotation α) : α × α :=
  (st.s.diag.get k * r1.c + -r1.s * st.s.off.get k, 0 * r1.c + -r1.s * st.s.diag.get (k + 1))

theorem svdSweepStep_eq {r c d : Nat} {cu cv : Bool} (up : Bool) (start n k : Nat)
    (st : SvdSweep α) (h : SvdShape r c d cu cv st.s) (hsk : start ≤ k) (hk : k < n) (hn : n < d) :
    svdSweepStep up start n k st =
      match GivensRotation.cancelY st.x st.y with
      | none => .ok (.brk st)
      | some (r1, n1) =>
        match GivensRotation.cancelY (sweepV k st r1).1 (sweepV k st r1).2 with
        | some (r2, n2) => .ok (.next (svdSweepNext up start n k st r1 n1 r2 n2))
        | none => .ok (.next (svdSweepNext' up start n k st r1 n1)) := by
  unfold svdSweepStep
  have hm : (if k = n - 1 then (.ok 0 : M α) else st.s.off.at (k + 1)) =
      .ok (sweepM12 n k st.s) := by
    unfold sweepM12
    split_ifs with hk1
    · rfl
    · rw [Arr1.at_ok (by rw [h.olen]; omega)]
  rw [hm, Arr1.at_ok (by rw [h.dlen]; omega), Arr1.at_ok (by rw [h.olen]; omega),
    Arr1.at_ok (by rw [h.dlen]; omega)]
  simp only [ok_bind]
  cases h1 : GivensRotation.cancelY st.x st.y with
  | none => rfl
  | some p =>
    obtain ⟨r1, n1⟩ := p
    simp only
    rw [Arr2.slice_ok (by omega) (by simp) (by omega) (by simp)]
    simp only [ok_bind]
    rw [rotateRows_ok _ _ (by simp)]
    simp only [unwrapM, ok_bind]
    have hoff : (if start < k then st.s.off.atm (k - 1) n1 else (.ok st.s.off : M (Arr1 α))) =
        .ok (if start < k then st.s.off.upd (k - 1) n1 else st.s.off) := by
      split_ifs
      · rw [Arr1.atm_ok (by rw [h.olen]; omega)]
      · rfl
    have hlen : (if start < k then st.s.off.upd (k - 1) n1 else st.s.off).len = d - 1 := by
      split_ifs <;> exact h.olen
    rw [hoff]
    simp only [ok_bind]
    have hv1 : ∀ g : GivensRotation α, rotateVtRows g k (k + 2) 1 st.s.vt =
        .ok (st.s.vt.map (rotRows g.inverse k (k + 1))) := fun g =>
      rotateVtRows_adj g k _ (fun a ha => by rw [(h.vt a ha).1]; omega)
    have hu1 : ∀ g : GivensRotation α, rotateUCols g k (k + 2) 1 st.s.u =
        .ok (st.s.u.map (rotCols g k (k + 1))) := fun g =>
      rotateUCols_adj g k _ (fun a ha => by rw [(h.u a ha).2]; omega)
    have hd1 : k < d := by omega
    have hd2 : k + 1 < d := by omega
    have ho1 : k < d - 1 := by omega
    have hdu : ∀ v w : α, (st.s.diag.upd k v).atm (k + 1) w =
        .ok ((st.s.diag.upd k v).upd (k + 1) w) := fun v w =>
      Arr1.atm_ok (by rw [Arr1.upd_len, h.dlen]; exact hd2)
    generalize hof1 : (if start < k then st.s.off.upd (k - 1) n1 else st.s.off) = off1 at hlen ⊢
    simp only [Arr2.at, Arr2.put, Nat.zero_add, Nat.sub_zero, Nat.reduceSub, Nat.reduceAdd,
      Nat.reduceLT, Nat.lt_irrefl, Nat.le_refl, Nat.zero_le, and_self, and_true, true_and, if_true,
      ok_bind, GivensRotation.inverse, Nat.one_ne_zero, if_false, Nat.lt_add_one, zero_lt_two,
      Nat.one_lt_ofNat, Nat.add_zero, zero_lt_one, Nat.ofNat_pos, zero_ne_one]
    cases h2 : GivensRotation.cancelY (sweepV k st r1).1 (sweepV k st r1).2 with
    | none =>
      simp only [sweepV] at h2
      rw [h2]
      have hif : ∀ v : α, (if k ≠ n - 1 then (off1.upd k v).atm (k + 1) (sweepM12 n k st.s) else (.ok (off1.upd k v) : M (Arr1 α))) =
          .ok (if k ≠ n - 1 then (off1.upd k v).upd (k + 1) (sweepM12 n k st.s) else off1.upd k v) := by
        intro v
        split_ifs with hk1
        · rw [Arr1.atm_ok (by rw [Arr1.upd_len, hlen]; omega)]
        · rfl
      cases up <;>
      simp only [Arr2.at, Arr2.atm, Arr2.upd, Arr2.slice, Arr2.put, Nat.zero_add, Nat.sub_zero, Nat.reduceSub,
        Nat.reduceAdd, Nat.reduceLT, Nat.lt_irrefl, Nat.le_refl, Nat.zero_le, and_self, and_true,
        true_and, if_true, ok_bind, GivensRotation.inverse, Nat.one_ne_zero, if_false,
        Nat.lt_add_one, zero_lt_two, Nat.one_lt_ofNat, Nat.add_zero, zero_lt_one, Nat.ofNat_pos,
        zero_ne_one, false_and, and_false, Nat.reduceEqDiff, rotateCols_ok, hv1, hu1, Bool.false_eq_true,
        Bool.not_true, Bool.not_false, unwrapM, Nat.reduceLeDiff, OfNat.ofNat_ne_zero,
        OfNat.ofNat_ne_one, OfNat.one_ne_ofNat, OfNat.zero_ne_ofNat, Nat.sub_self, Nat.not_lt_zero,
        Arr1.atm_ok (show k < st.s.diag.len by rw [h.dlen]; exact hd1),
        hdu,
        Arr1.atm_ok (show k < off1.len by rw [hlen]; exact ho1), hif, svdSweepNext',
        SvdData.rotL, SvdData.rotR, SvdData.setDiags, hof1]
    | some p =>
      obtain ⟨r2, n2⟩ := p
      simp only [sweepV] at h2
      rw [h2]
      have hif : ∀ v : α, (if k ≠ n - 1 then (off1.upd k v).atm (k + 1) (- -r2.s * 0 + sweepM12 n k st.s * r2.c) else (.ok (off1.upd k v) : M (Arr1 α))) =
          .ok (if k ≠ n - 1 then (off1.upd k v).upd (k + 1) (- -r2.s * 0 + sweepM12 n k st.s * r2.c) else off1.upd k v) := by
        intro v
        split_ifs with hk1
        · rw [Arr1.atm_ok (by rw [Arr1.upd_len, hlen]; omega)]
        · rfl
      cases up <;>
      simp only [Arr2.at, Arr2.atm, Arr2.upd, Arr2.slice, Arr2.put, Nat.zero_add, Nat.sub_zero, Nat.reduceSub,
        Nat.reduceAdd, Nat.reduceLT, Nat.lt_irrefl, Nat.le_refl, Nat.zero_le, and_self, and_true,
        true_and, if_true, ok_bind, GivensRotation.inverse, Nat.one_ne_zero, if_false,
        Nat.lt_add_one, zero_lt_two, Nat.one_lt_ofNat, Nat.add_zero, zero_lt_one, Nat.ofNat_pos,
        zero_ne_one, false_and, and_false, Nat.reduceEqDiff, rotateCols_ok, hv1, hu1, Bool.false_eq_true,
        Bool.not_true, Bool.not_false, unwrapM, Nat.reduceLeDiff, OfNat.ofNat_ne_zero,
        OfNat.ofNat_ne_one, OfNat.one_ne_ofNat, OfNat.zero_ne_ofNat, Nat.sub_self, Nat.not_lt_zero,
        Arr1.atm_ok (show k < st.s.diag.len by rw [h.dlen]; exact hd1),
        hdu,
        Arr1.atm_ok (show k < off1.len by rw [hlen]; exact ho1), hif, svdSweepNext,
        SvdData.rotL, SvdData.rotR, SvdData.setDiags, hof1]

theorem svdSweepNext_shape {r c d : Nat} {cu cv : Bool} {st : SvdSweep α} (up : Bool)
    (start n k : Nat) (r1 : GivensRotation α) (n1 : α) (r2 : GivensRotation α) (n2 : α)
    (h : SvdShape r c d cu cv st.s) :
    SvdShape r c d cu cv (svdSweepNext up start n k st r1 n1 r2 n2).s := by
  apply SvdShape.rotL
  apply SvdShape.rotR
  apply h.set
  · rfl
  · split_ifs <;> rfl

theorem svdSweepNext'_shape {r c d : Nat} {cu cv : Bool} {st : SvdSweep α} (up : Bool)
    (start n k : Nat) (r1 : GivensRotation α) (n1 : α) (h : SvdShape r c d cu cv st.s) :
    SvdShape r c d cu cv (svdSweepNext' up start n k st r1 n1).s := by
  apply SvdShape.rotR
  apply h.set
  · rfl
  · split_ifs <;> rfl

/-- The first pair given to a rotation in the sweep. -/
def svdSweepInit (st : SvdState α) : SvdSweep α :=
  let m := st.end - 1
  let n := st.end
  let dm := st.s.diag.get m
  let dn := st.s.diag.get n
  let fm := st.s.off.get m
  let fm1 := st.s.off.get (m - 1)
  let shift := wilkinsonShift (dm * dm + fm1 * fm1) (dn * dn + fm * fm) (dm * fm)
  let ds := st.s.diag.get st.start
  ⟨st.s, ds * ds - shift, ds * st.s.off.get st.start⟩

/-- Rule for the sweep. -/
theorem wp_svdSweep {r c d : Nat} {cu cv : Bool} {up : Bool} {st : SvdState α}
    (h : SvdShape r c d cu cv st.s) (hse : st.start + 1 < st.end) (he : st.end < d)
    (Inv : Nat → SvdSweep α → Prop) (Post : SvdData α → Prop)
    (h0 : Inv st.start (svdSweepInit st))
    (hbrk : ∀ k w, st.start ≤ k → k < st.end → SvdShape r c d cu cv w.s → Inv k w →
      GivensRotation.cancelY w.x w.y = none → Post w.s)
    (hnext : ∀ k w r1 n1 r2 n2, st.start ≤ k → k < st.end → SvdShape r c d cu cv w.s → Inv k w →
      GivensRotation.cancelY w.x w.y = some (r1, n1) →
      GivensRotation.cancelY (sweepV k w r1).1 (sweepV k w r1).2 = some (r2, n2) →
      Inv (k + 1) (svdSweepNext up st.start st.end k w r1 n1 r2 n2))
    (hnext' : ∀ k w r1 n1, st.start ≤ k → k < st.end → SvdShape r c d cu cv w.s → Inv k w →
      GivensRotation.cancelY w.x w.y = some (r1, n1) →
      GivensRotation.cancelY (sweepV k w r1).1 (sweepV k w r1).2 = none →
      Inv (k + 1) (svdSweepNext' up st.start st.end k w r1 n1))
    (hend : ∀ w, SvdShape r c d cu cv w.s → Inv st.end w → Post w.s) :
    Succeeds (svdSweep up st) fun st' => SvdShape r c d cu cv st'.s ∧ st'.start = st.start ∧
      st'.end = st.end ∧ Post st'.s := by
  unfold svdSweep
  have hd := h.dlen
  have ho := h.olen
  simp only [Arr1.at_ok (show st.end - 1 < st.s.diag.len by omega),
    Arr1.at_ok (show st.end < st.s.diag.len by omega),
    Arr1.at_ok (show st.end - 1 < st.s.off.len by omega),
    if_neg (show ¬ st.end - 1 = 0 by omega),
    Arr1.at_ok (show st.end - 1 - 1 < st.s.off.len by omega),
    Arr1.at_ok (show st.start < st.s.diag.len by omega),
    Arr1.at_ok (show st.start < st.s.off.len by omega), ok_bind]
  unfold Succeeds
  rw [wp_bind]
  refine wp_conseq (P := fun w => SvdShape r c d cu cv w.s ∧ Post w.s) ?_
    (fun w hw => ⟨hw.1, rfl, rfl, hw.2⟩)
  refine wp_loopBrk (fun k w => SvdShape r c d cu cv w.s ∧ Inv k w) _ ⟨h, h0⟩ ?_ ?_
  · rintro k w hk1 hk2 ⟨hs, hI⟩
    have hk2' : k < st.end := by omega
    rw [svdSweepStep_eq up st.start st.end k w hs hk1 hk2' he]
    cases hx : GivensRotation.cancelY w.x w.y with
    | none => exact ⟨hs, hbrk k w hk1 hk2' hs hI hx⟩
    | some p =>
      obtain ⟨r1, n1⟩ := p
      simp only
      cases hx2 : GivensRotation.cancelY (sweepV k w r1).1 (sweepV k w r1).2 with
      | none =>
        exact ⟨svdSweepNext'_shape up _ _ k r1 n1 hs, hnext' k w r1 n1 hk1 hk2' hs hI hx hx2⟩
      | some p2 =>
        obtain ⟨r2, n2⟩ := p2
        exact ⟨svdSweepNext_shape up _ _ k r1 n1 r2 n2 hs,
          hnext k w r1 n1 r2 n2 hk1 hk2' hs hI hx hx2⟩
  · rintro w ⟨hs, hI⟩
    rw [show st.start + (st.end - st.start) = st.end by omega] at hI
    exact ⟨hs, hend w hs hI⟩

/-! ## The 2×2 block -/

/-- Which rotations `compute_2x2_uptrig_svd` returns. -/
theorem compute2x2UptrigSvd_some (m11 m12 m22 : α) (cu cv : Bool) :
    (compute2x2UptrigSvd m11 m12 m22 cu cv).2.2.1.isSome = cu ∧
    (compute2x2UptrigSvd m11 m12 m22 cu cv).2.2.2.isSome = cv := by
  unfold compute2x2UptrigSvd
  cases cu <;> cases cv <;> simp

/-- The optional rotation is applied to the optional left factor. -/
def SvdData.rotLo (up : Bool) (g : Option (GivensRotation α)) (i j : Nat) (s : SvdData α) :
    SvdData α :=
  match g with
  | some g => s.rotL up g i j
  | none => s

/-- The optional rotation is applied to the optional right factor. -/
def SvdData.rotRo (up : Bool) (g : Option (GivensRotation α)) (i j : Nat) (s : SvdData α) :
    SvdData α :=
  match g with
  | some g => s.rotR up g i j
  | none => s

/-- `inverse` twice. -/
def GivensRotation.inv2 (g : GivensRotation α) : GivensRotation α := g.inverse.inverse

theorem svd2x2_eq {r c d : Nat} {cu cv : Bool} {up : Bool} {st : SvdState α}
    (h : SvdShape r c d cu cv st.s) (hs : st.start + 1 < d) :
    ∃ u' vt', svd2x2 up cu cv st =
      .ok ⟨⟨(st.s.diag.upd st.start (compute2x2UptrigSvd (st.s.diag.get st.start)
          (st.s.off.get st.start) (st.s.diag.get (st.start + 1)) (cu && up || cv && !up)
          (cv && up || cu && !up)).1).upd (st.start + 1) (compute2x2UptrigSvd
          (st.s.diag.get st.start) (st.s.off.get st.start) (st.s.diag.get (st.start + 1))
          (cu && up || cv && !up) (cv && up || cu && !up)).2.1,
        st.s.off.upd st.start 0, u', vt'⟩, st.start, st.end - 1⟩ ∧
      (∀ g, (if up then (compute2x2UptrigSvd (st.s.diag.get st.start) (st.s.off.get st.start)
          (st.s.diag.get (st.start + 1)) (cu && up || cv && !up) (cv && up || cu && !up)).2.2.1
        else (compute2x2UptrigSvd (st.s.diag.get st.start) (st.s.off.get st.start)
          (st.s.diag.get (st.start + 1)) (cu && up || cv && !up)
          (cv && up || cu && !up)).2.2.2) = some g →
        u' = st.s.u.map (rotCols g st.start (st.start + 1))) ∧
      (∀ g, (if up then (compute2x2UptrigSvd (st.s.diag.get st.start) (st.s.off.get st.start)
          (st.s.diag.get (st.start + 1)) (cu && up || cv && !up) (cv && up || cu && !up)).2.2.2
        else (compute2x2UptrigSvd (st.s.diag.get st.start) (st.s.off.get st.start)
          (st.s.diag.get (st.start + 1)) (cu && up || cv && !up)
          (cv && up || cu && !up)).2.2.1) = some g →
        vt' = st.s.vt.map (rotRows g.inv2 st.start (st.start + 1))) ∧
      (cu = false → u' = none) ∧ (cv = false → vt' = none) := by
  unfold svd2x2
  rw [Arr1.at_ok (by rw [h.dlen]; omega), Arr1.at_ok (by rw [h.olen]; omega),
    Arr1.at_ok (by rw [h.dlen]; omega)]
  simp only [ok_bind]
  have hsome := compute2x2UptrigSvd_some (st.s.diag.get st.start) (st.s.off.get st.start)
    (st.s.diag.get (st.start + 1)) (cu && up || cv && !up) (cv && up || cu && !up)
  generalize compute2x2UptrigSvd (st.s.diag.get st.start) (st.s.off.get st.start)
    (st.s.diag.get (st.start + 1)) (cu && up || cv && !up) (cv && up || cu && !up) = res at hsome ⊢
  obtain ⟨s1, s2, u2, v2⟩ := res
  simp only at hsome ⊢
  rw [Arr1.atm_ok (by rw [h.dlen]; omega)]
  simp only [ok_bind]
  rw [Arr1.atm_ok (by rw [Arr1.upd_len, h.dlen]; omega)]
  simp only [ok_bind]
  rw [Arr1.atm_ok (by rw [h.olen]; omega)]
  simp only [ok_bind]
  have hU : ∀ rot : Option (GivensRotation α), rot.isSome = cu →
      ∃ u', svdRotU rot st.start st.s.u = .ok u' ∧
        (∀ g, rot = some g → u' = st.s.u.map (rotCols g st.start (st.start + 1))) ∧
        (cu = false → u' = none) := by
    intro rot hr
    have hu := h.hu
    cases hsu : st.s.u with
    | none =>
      refine ⟨none, rfl, fun g _ => rfl, fun _ => rfl⟩
    | some a =>
      rw [hsu] at hu
      cases rot with
      | none => rw [← hu] at hr; simp at hr
      | some g =>
        refine ⟨_, rotateUCols_adj g st.start (some a) (fun b hb => ?_), ?_, ?_⟩
        · rw [(h.u b (by rw [hsu]; exact hb)).2]; exact hs
        · rintro g' hg'; cases hg'; rfl
        · intro hc; rw [hc] at hu; simp at hu
  have hV : ∀ rot : Option (GivensRotation α), rot.isSome = cv →
      ∃ vt', svdRotVt rot st.start st.s.vt = .ok vt' ∧
        (∀ g, rot = some g → vt' = st.s.vt.map (rotRows g.inv2 st.start (st.start + 1))) ∧
        (cv = false → vt' = none) := by
    intro rot hr
    have hv := h.hv
    cases hsv : st.s.vt with
    | none =>
      refine ⟨none, rfl, fun g _ => rfl, fun _ => rfl⟩
    | some a =>
      rw [hsv] at hv
      cases rot with
      | none => rw [← hv] at hr; simp at hr
      | some g =>
        refine ⟨_, rotateVtRows_adj g.inverse st.start (some a) (fun b hb => ?_), ?_, ?_⟩
        · rw [(h.vt b (by rw [hsv]; exact hb)).1]; exact hs
        · rintro g' hg'; cases hg'; rfl
        · intro hc; rw [hc] at hv; simp at hv
  cases up
  · simp only [Bool.and_false, Bool.false_or, Bool.not_false, Bool.and_true] at hsome
    obtain ⟨u', hu', hu1, hu2⟩ := hU v2 hsome.2
    obtain ⟨vt', hv', hv1, hv2⟩ := hV u2 hsome.1
    refine ⟨u', vt', ?_, ?_, ?_, hu2, hv2⟩
    · simp only [Bool.false_eq_true, if_false, hu', hv', ok_bind]
    · simpa using hu1
    · simpa using hv1
  · simp only [Bool.and_false, Bool.or_false, Bool.not_true, Bool.and_true] at hsome
    obtain ⟨u', hu', hu1, hu2⟩ := hU u2 hsome.1
    obtain ⟨vt', hv', hv1, hv2⟩ := hV v2 hsome.2
    refine ⟨u', vt', ?_, ?_, ?_, hu2, hv2⟩
    · simp only [if_true, hu', hv', ok_bind]
    · simpa using hu1
    · simpa using hv1

theorem svd2x2_shape {r c d : Nat} {cu cv : Bool} {up : Bool} {st : SvdState α}
    (h : SvdShape r c d cu cv st.s) (hs : st.start + 1 < d) :
    Succeeds (svd2x2 up cu cv st) fun st' => SvdShape r c d cu cv st'.s ∧ st'.start = st.start ∧
      st'.end = st.end - 1 := by
  obtain ⟨u', vt', e, h1, h2, h3, h4⟩ := svd2x2_eq (up := up) h hs
  rw [e]
  have hsome := compute2x2UptrigSvd_some (st.s.diag.get st.start) (st.s.off.get st.start)
    (st.s.diag.get (st.start + 1)) (cu && up || cv && !up) (cv && up || cu && !up)
  have hU : (∀ a ∈ u', HasShape a r d) ∧ u'.isSome = cu := by
    cases cu with
    | false => rw [h3 rfl]; exact ⟨fun a ha => by simp at ha, rfl⟩
    | true =>
      obtain ⟨g, hg⟩ : ∃ g, (if up then (compute2x2UptrigSvd (st.s.diag.get st.start)
          (st.s.off.get st.start) (st.s.diag.get (st.start + 1)) (true && up || cv && !up)
          (cv && up || true && !up)).2.2.1 else (compute2x2UptrigSvd (st.s.diag.get st.start)
          (st.s.off.get st.start) (st.s.diag.get (st.start + 1)) (true && up || cv && !up)
          (cv && up || true && !up)).2.2.2) = some g := by
        apply Option.isSome_iff_exists.1
        cases up
        · simpa using hsome.2
        · simpa using hsome.1
      rw [h1 g hg]
      refine ⟨fun a ha => ?_, by simpa using h.hu⟩
      obtain ⟨b, hb, rfl⟩ := Option.mem_map.1 ha
      exact h.u b hb
  have hV : (∀ a ∈ vt', HasShape a d c) ∧ vt'.isSome = cv := by
    cases cv with
    | false => rw [h4 rfl]; exact ⟨fun a ha => by simp at ha, rfl⟩
    | true =>
      obtain ⟨g, hg⟩ : ∃ g, (if up then (compute2x2UptrigSvd (st.s.diag.get st.start)
          (st.s.off.get st.start) (st.s.diag.get (st.start + 1)) (cu && up || true && !up)
          (true && up || cu && !up)).2.2.2 else (compute2x2UptrigSvd (st.s.diag.get st.start)
          (st.s.off.get st.start) (st.s.diag.get (st.start + 1)) (cu && up || true && !up)
          (true && up || cu && !up)).2.2.1) = some g := by
        apply Option.isSome_iff_exists.1
        cases up
        · simpa using hsome.1
        · simpa using hsome.2
      rw [h2 g hg]
      refine ⟨fun a ha => ?_, by simpa using h.hv⟩
      obtain ⟨b, hb, rfl⟩ := Option.mem_map.1 ha
      exact h.vt b hb
  exact ⟨⟨h.dlen, h.olen, hU.1, hV.1, hU.2, hV.2⟩, rfl, rfl⟩

/-! ## The main loop -/

/-- The loop state between iterations. -/
structure SvdSt (r c d : Nat) (cu cv : Bool) (st : SvdState α) : Prop where
  shape : SvdShape r c d cu cv st.s
  lt : st.start < st.end ∨ st.start = 0 ∧ st.end = 0
  ltd : st.end < d

/-- Rule for one iteration of the main loop. -/
theorem wp_svdStep {r c d : Nat} {cu cv up : Bool} {eps : α} {st : SvdState α} {E : Fail → Prop}
    (h : SvdSt r c d cu cv st) (hne : st.end ≠ st.start) (Post : SvdState α → Prop)
    (hsweep : st.start + 1 < st.end → wp (svdSweep up st) (fun st1 => SvdShape r c d cu cv st1.s ∧
      st1.end = st.end ∧
      wp (svdDelimit up st.end eps st1.s) (fun p => Post ⟨p.1, p.2.1, p.2.2⟩) E) E)
    (h2 : st.start + 1 = st.end → wp (svd2x2 up cu cv st) (fun st1 => SvdShape r c d cu cv st1.s ∧
      st1.end = st.end - 1 ∧
      wp (svdDelimit up (st.end - 1) eps st1.s) (fun p => Post ⟨p.1, p.2.1, p.2.2⟩) E) E) :
    wp (svdStep up cu cv eps st) (fun st' => SvdSt r c d cu cv st' ∧ Post st') E := by
  have hlt := h.lt
  have hd := h.ltd
  unfold svdStep
  rw [if_neg (by omega)]
  simp only
  rw [wp_bind]
  by_cases hs : st.start + 1 < st.end
  · rw [if_pos (by omega)]
    refine wp_conseq (hsweep hs) ?_
    rintro st1 ⟨s1, e1, hd1⟩
    rw [wp_bind, e1]
    refine wp_conseq (wp_and hd1 (wp_mono (svdDelimit_shape (up := up) (eps := eps) hd s1) (fun _ h => h)
      (fun _ h => h.elim))) ?_
    rintro ⟨s2, a, b⟩ ⟨hp, s3, hab, hb⟩
    exact ⟨⟨s3, hab, by simp only at hb ⊢; omega⟩, hp⟩
  · have hse : st.start + 1 = st.end := by omega
    rw [if_neg (by omega), if_pos (by omega)]
    refine wp_conseq (h2 hse) ?_
    rintro st1 ⟨s1, e1, hd1⟩
    rw [wp_bind, e1]
    refine wp_conseq (wp_and hd1 (wp_mono (svdDelimit_shape (up := up) (eps := eps)
      (show st.end - 1 < d by omega) s1) (fun _ h => h) (fun _ h => h.elim))) ?_
    rintro ⟨s2, a, b⟩ ⟨hp, s3, hab, hb⟩
    exact ⟨⟨s3, hab, by simp only at hb ⊢; omega⟩, hp⟩

/-- Rule for the main loop. -/
theorem wp_svdLoop {cu cv up : Bool} {eps : α} {E : Fail → Prop} (fuel : Nat) {st : SvdState α}
    (Inv : SvdState α → Prop) (h : Inv st) (hf : E .fuel)
    (hstep : ∀ st, Inv st → st.end ≠ st.start → wp (svdStep up cu cv eps st) Inv E) :
    wp (svdLoop up cu cv eps fuel st) (fun st' => Inv st' ∧ st'.end = st'.start) E := by
  induction fuel generalizing st with
  | zero =>
    unfold svdLoop
    split_ifs with h0
    · exact ⟨h, h0⟩
    · exact hf
  | succ fuel ih =>
    unfold svdLoop
    split_ifs with h0
    · exact ⟨h, h0⟩
    · rw [wp_bind]
      exact wp_conseq (hstep st h h0) fun st' h' => ih h'

theorem svdStep_shape {r c d : Nat} {cu cv up : Bool} {eps : α} {st : SvdState α}
    {E : Fail → Prop} (h : SvdSt r c d cu cv st) (hne : st.end ≠ st.start) :
    wp (svdStep up cu cv eps st) (SvdSt r c d cu cv) E := by
  have hlt := h.lt
  have hd := h.ltd
  refine wp_conseq (wp_svdStep h hne (fun _ => True) ?_ ?_) fun _ h => h.1
  · intro hs
    refine wp_mono (wp_svdSweep h.shape hs hd (fun _ _ => True) (fun _ => True) trivial
      (fun _ _ _ _ _ _ _ => trivial) (fun _ _ _ _ _ _ _ _ _ _ _ _ => trivial)
      (fun _ _ _ _ _ _ _ _ _ _ => trivial) (fun _ _ _ => trivial)) ?_ (fun _ h => h.elim)
    rintro st1 ⟨s1, -, e1, -⟩
    exact ⟨s1, e1, wp_mono (svdDelimit_shape (by omega) s1) (fun _ _ => trivial) (fun _ h => h.elim)⟩
  · intro hs
    refine wp_mono (svd2x2_shape h.shape (by omega)) ?_ (fun _ h => h.elim)
    rintro st1 ⟨s1, -, e1⟩
    exact ⟨s1, e1, wp_mono (svdDelimit_shape (by omega) s1) (fun _ _ => trivial) (fun _ h => h.elim)⟩

/-- `fix_signs` never fails and keeps the shapes. -/
theorem fixSigns_shape {r d : Nat} {cu : Bool} (diag : Arr1 α) (u : Option (Arr2 α))
    (hd : diag.len = d) (hu : ∀ a ∈ u, HasShape a r d) (hc : u.isSome = cu) :
    Succeeds (fixSigns d diag u) fun p => p.1.len = d ∧ (∀ a ∈ p.2, HasShape a r d) ∧
      p.2.isSome = cu := by
  unfold fixSigns
  refine wp_forRange (fun _ (p : Arr1 α × Option (Arr2 α)) => p.1.len = d ∧
      (∀ a ∈ p.2, HasShape a r d) ∧ p.2.isSome = cu) (by omega) ?_ ?_
  · exact ⟨hd, hu, hc⟩
  · rintro i ⟨dg, v⟩ h1 h2 ⟨h3, h4, h5⟩
    simp only at h3 h4 h5 ⊢
    rw [Arr1.idx_ok (by omega)]
    simp only [ok_bind]
    split_ifs
    · rw [Arr1.idxSet_ok (by omega)]
      simp only [ok_bind]
      cases v with
      | none => exact ⟨h3, fun a ha => by simp at ha, h5⟩
      | some v =>
        have hv := h4 v rfl
        unfold scaleCol
        simp only
        rw [if_pos (by rw [hv.2]; omega)]
        refine ⟨h3, fun a ha => ?_, h5⟩
        simp only [Option.mem_def, Option.some.injEq] at ha
        subst ha
        exact hv
    · exact ⟨h3, h4, h5⟩

/-- The state in which `svd` enters its first `delimit_subproblem`. -/
theorem svdGo_eq (a : Arr2 α) (h1 : a.nr ≠ 0) (h2 : a.nc ≠ 0) : ∃ b U Vt,
    bidiagonal (a.scaleDown a.amax) = .ok b ∧ b.generateU = .ok U ∧ b.generateVt = .ok Vt ∧
    b.upperDiag = decide (a.nc ≤ a.nr) ∧
    (∀ cu cv, SvdShape a.nr a.nc (min a.nr a.nc) cu cv
      ⟨b.intoDiagonals.1, b.intoDiagonals.2, if cu then some U else none,
        if cv then some Vt else none⟩) ∧
    ∀ fuel cu cv eps, svdGo fuel a cu cv eps = (do
      let (s, start, e) ← svdDelimit (decide (a.nc ≤ a.nr)) (min a.nr a.nc - 1) eps
        ⟨b.intoDiagonals.1, b.intoDiagonals.2, if cu then some U else none,
          if cv then some Vt else none⟩
      let st ← svdLoop (decide (a.nc ≤ a.nr)) cu cv eps fuel ⟨s, start, e⟩
      let (diag, u) ← fixSigns (min a.nr a.nc) (st.s.diag.map fun x => x * a.amax) st.s.u
      .ok (u, diag, st.s.vt)) := by
  have hsd : (a.scaleDown a.amax).nr = a.nr ∧ (a.scaleDown a.amax).nc = a.nc := by
    unfold Arr2.scaleDown
    split_ifs <;> exact ⟨rfl, rfl⟩
  obtain ⟨b, U, B, Vt, e1, e2, -, e3, e4, u1, u2, -, -, v1, v2, l1, l2⟩ :=
    (C26_bidiagonal_errors (a.scaleDown a.amax)).2 (by rw [hsd.1]; exact h1)
      (by rw [hsd.2]; exact h2)
  rw [hsd.1, hsd.2] at *
  refine ⟨b, U, Vt, e1, e2, e3, e4, ?_, ?_⟩
  · intro cu cv
    refine ⟨l1, l2, ?_, ?_, ?_, ?_⟩
    · intro x hx
      cases cu
      · simp at hx
      · simp only [if_true, Option.mem_def, Option.some.injEq] at hx; subst hx; exact ⟨u1, u2⟩
    · intro x hx
      cases cv
      · simp at hx
      · simp only [if_true, Option.mem_def, Option.some.injEq] at hx; subst hx; exact ⟨v1, v2⟩
    · cases cu <;> rfl
    · cases cv <;> rfl
  · intro fuel cu cv eps
    unfold svdGo
    rw [if_neg (by omega)]
    simp only [e1, ok_bind, e2, e3, e4]
    cases cu <;> cases cv <;> rfl

/-- Shapes of the result of `svd`; it never fails except by running out of iterations. -/
theorem svdGo_shape (fuel : Nat) (a : Arr2 α) (cu cv : Bool) (eps : α) (h1 : a.nr ≠ 0)
    (h2 : a.nc ≠ 0) : wp (svdGo fuel a cu cv eps) (fun p =>
      p.2.1.len = min a.nr a.nc ∧ (∀ u ∈ p.1, HasShape u a.nr (min a.nr a.nc)) ∧
      (∀ v ∈ p.2.2, HasShape v (min a.nr a.nc) a.nc) ∧ p.1.isSome = cu ∧ p.2.2.isSome = cv)
      (fun f => f = .fuel) := by
  obtain ⟨b, U, Vt, -, -, -, -, hs, he⟩ := svdGo_eq a h1 h2
  rw [he, wp_bind]
  refine wp_mono (svdDelimit_shape (by omega) (hs cu cv)) ?_ (fun _ h => h.elim)
  rintro ⟨s, start, e⟩ ⟨hs1, hlt, hle⟩
  simp only at hs1 hlt hle ⊢
  rw [wp_bind]
  refine wp_conseq (wp_svdLoop fuel (SvdSt a.nr a.nc (min a.nr a.nc) cu cv) ⟨hs1, hlt, by
      simp only; omega⟩ rfl (fun st h hne => svdStep_shape h hne)) ?_
  rintro st ⟨hst, -⟩
  rw [wp_bind]
  refine wp_mono (fixSigns_shape _ _ (by exact hst.shape.dlen) hst.shape.u hst.shape.hu) ?_
    (fun _ h => h.elim)
  rintro ⟨dg, u⟩ ⟨l1, l2, l3⟩
  exact ⟨l1, l2, hst.shape.vt, l3, hst.shape.hv⟩

end LinfaLinalg
