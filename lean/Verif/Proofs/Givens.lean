import Verif.Model.Eigh
import Verif.Proofs.Basic

/-! # Givens rotations: closed forms of the in-place updates; loops with `break` -/

set_option linter.unusedSectionVars false

namespace LinfaLinalg

section loops
variable {σ τ : Type}

/-- Loop rule for a `for` loop with `break`. -/
theorem wp_loopBrk {lo k : Nat} {s : σ} {f : Nat → σ → M (Step σ)} {E : Fail → Prop}
    (Inv : Nat → σ → Prop) (Post : σ → Prop) (h0 : Inv lo s)
    (hstep : ∀ i s, lo ≤ i → i < lo + k → Inv i s →
      wp (f i s) (fun r => match r with | .next s' => Inv (i + 1) s' | .brk s' => Post s') E)
    (hend : ∀ s, Inv (lo + k) s → Post s) :
    wp (loopBrk (List.range' lo k) s f) Post E := by
  induction k generalizing lo s with
  | zero => exact hend _ h0
  | succ k ih =>
    simp only [List.range'_succ, loopBrk, wp_bind]
    refine wp_conseq (hstep lo s le_rfl (by omega) h0) fun r hr => ?_
    cases r with
    | brk s' => exact hr
    | next s' =>
      exact ih hr (fun i s h1 h2 h3 => hstep i s (by omega) (by omega) h3)
        (fun s hs => hend s (by rwa [show lo + (k + 1) = lo + 1 + k by omega]))

/-- Two loop steps are related. -/
def RelStep (R : σ → τ → Prop) : Step σ → Step τ → Prop
  | .next s, .next t => R s t
  | .brk s, .brk t => R s t
  | _, _ => False

theorem relM_loopBrk {R : σ → τ → Prop} {is : List Nat} {s : σ} {t : τ} {f : Nat → σ → M (Step σ)}
    {g : Nat → τ → M (Step τ)} (h0 : R s t)
    (h : ∀ i ∈ is, ∀ s t, R s t → RelM (RelStep R) (f i s) (g i t)) :
    RelM R (loopBrk is s f) (loopBrk is t g) := by
  induction is generalizing s t with
  | nil => exact h0
  | cons i is ih =>
    simp only [loopBrk]
    refine relM_bind (h i (by simp) s t h0) fun b c hbc => ?_
    cases b <;> cases c
    · exact ih hbc fun j hj => h j (by simp [hj])
    · exact hbc.elim
    · exact hbc.elim
    · exact hbc

end loops

section generic
variable {α : Type} [Zero α] [One α] [Add α] [Sub α] [Mul α] [Div α] [Neg α] [NdFloat α]

/-- Closed form of `rotate_rows`. -/
theorem rotateRows_ok (g : GivensRotation α) (a : Arr2 α) (h : a.nc = 2) :
    g.rotateRows a = .ok ⟨a.nr, a.nc, fun r c =>
      if r < a.nr then
        if c = 0 then a.get r 0 * g.c + g.s * a.get r 1
        else if c = 1 then -g.s * a.get r 0 + a.get r 1 * g.c else a.get r c
      else a.get r c⟩ := by
  unfold GivensRotation.rotateRows
  rw [if_neg (by simp [h])]
  have := wp_forRange (lo := 0) (hi := a.nr) (s := a)
    (f := fun j (lhs : Arr2 α) => do
      let a ← lhs.at j 0
      let b ← lhs.at j 1
      let lhs ← lhs.atm j 0 (a * g.c + g.s * b)
      lhs.atm j 1 (-g.s * a + b * g.c)) (E := fun _ => False)
    (fun k (b : Arr2 α) => b = ⟨a.nr, a.nc, fun r c =>
      if r < k then
        if c = 0 then a.get r 0 * g.c + g.s * a.get r 1
        else if c = 1 then -g.s * a.get r 0 + a.get r 1 * g.c else a.get r c
      else a.get r c⟩) (Nat.zero_le _) (by simp) ?_
  · obtain ⟨b, e, rfl⟩ := succeeds_iff.1 this
    exact e
  · rintro i b - hi rfl
    rw [Arr2.at_ok (by exact hi) (by simp [h])]
    simp only [ok_bind]
    rw [Arr2.at_ok (by exact hi) (by simp [h])]
    simp only [ok_bind]
    rw [Arr2.atm_ok (by exact hi) (by simp [h])]
    simp only [ok_bind]
    rw [Arr2.atm_ok (by exact hi) (by simp [h])]
    simp only [wp_ok]
    refine Arr2.ext' (by rfl) (by rfl) ?_
    intro r c
    simp only [Arr2.upd_get, lt_irrefl, if_false]
    by_cases hr : r = i
    · subst hr
      simp only [true_and, Nat.lt_succ_self, if_true, lt_irrefl, if_false]
      by_cases hc : c = 1
      · subst hc; simp
      · simp only [hc, if_false]
    · have : (r < i + 1) ↔ r < i := by omega
      simp only [hr, false_and, if_false, this]

theorem rotateRows_wrong (g : GivensRotation α) (a : Arr2 α) (h : a.nc ≠ 2) :
    g.rotateRows a = .error (.err (.wrongColumns 2 a.nc)) := by
  unfold GivensRotation.rotateRows
  rw [if_pos h]; rfl

theorem rotateCols_ok (g : GivensRotation α) (a : Arr2 α) (h : a.nr = 2) :
    g.rotateCols a = .ok ⟨a.nr, a.nc, fun r c =>
      if c < a.nc then
        if r = 0 then a.get 0 c * g.c + -g.s * a.get 1 c
        else if r = 1 then - -g.s * a.get 0 c + a.get 1 c * g.c else a.get r c
      else a.get r c⟩ := by
  unfold GivensRotation.rotateCols
  rw [rotateRows_ok _ _ (by exact h)]
  rfl

theorem rotateCols_wrong (g : GivensRotation α) (a : Arr2 α) (h : a.nr ≠ 2) :
    g.rotateCols a = .error (.err (.wrongRows 2 a.nr)) := by
  unfold GivensRotation.rotateCols
  rw [rotateRows_wrong _ _ (by exact h)]
  rfl

/-- `q` with columns `i`, `j` replaced by their rotations. -/
def rotCols (g : GivensRotation α) (i j : Nat) (q : Arr2 α) : Arr2 α :=
  ⟨q.nr, q.nc, fun r c =>
    if r < q.nr then
      if c = i then q.get r i * g.c + g.s * q.get r j
      else if c = j then -g.s * q.get r i + q.get r j * g.c else q.get r c
    else q.get r c⟩

theorem rotateColsPair_none (g : GivensRotation α) (c0 : Nat) :
    rotateColsPair g c0 (none : Option (Arr2 α)) = .ok none := rfl

theorem rotateColsPair_some (g : GivensRotation α) (c0 : Nat) (q : Arr2 α) (h : c0 + 2 ≤ q.nc) :
    rotateColsPair g c0 (some q) = .ok (some (rotCols g c0 (c0 + 1) q)) := by
  unfold rotateColsPair
  simp only
  rw [Arr2.slice_ok (Nat.zero_le _) le_rfl (by omega) h]
  simp only [ok_bind]
  rw [rotateRows_ok _ _ (by simp)]
  simp only [unwrapM, ok_bind]
  congr 2
  refine Arr2.ext' (by rfl) (by rfl) ?_
  intro r c
  simp only [Arr2.put, rotCols, Nat.zero_add, Nat.sub_zero, Nat.zero_le, true_and, Nat.add_zero]
  by_cases hr : r < q.nr
  · simp only [hr, true_and, if_true]
    by_cases h1 : c = c0
    · subst h1; simp
    · by_cases h2 : c = c0 + 1
      · subst h2; simp
      · rw [if_neg (by omega), if_neg h1, if_neg h2]
  · simp [hr]

end generic

end LinfaLinalg
